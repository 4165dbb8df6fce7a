import Verif.Devirt.Model

namespace Smack.Devirt

/-- LLVM's typing rule for calls: the called operand points to the call's function type. -/
def WellTyped (env : Nat → FnTy) (s : Site) : Prop :=
  (env s.callee).ret = s.ret ∧
  if (env s.callee).vararg then (env s.callee).params <+: s.args else s.args = (env s.callee).params

/-- The called operand is not a cast. -/
def Plain (s : Site) : Prop := s.stripped = .ptr s.callee

/-- `w` is `v` converted to type `t`: the width of `t` and the same unsigned value. -/
def Converted (v : Val) (t : Ty) (w : Val) : Prop := w.w = t.width ∧ w.bits.toNat = v.bits.toNat

/-- Pointwise conversion of an argument list to a list of parameter types. -/
def ConvertedAll (vs : List Val) (ts : List Ty) (ws : List Val) : Prop :=
  vs.length = ts.length ∧ ws.length = ts.length ∧
  ∀ (i : Nat) v t w, vs[i]? = some v → ts[i]? = some t → ws[i]? = some w → Converted v t w

/-- The values have the argument types of the call. -/
def Typed (vs : List Val) (ts : List Ty) : Prop :=
  vs.length = ts.length ∧ ∀ (i : Nat) (v : Val) (t : Ty), vs[i]? = some v → ts[i]? = some t → v.w = t.width

end Smack.Devirt
