import Verif.Aggr.Model

/-
Specification: typing of values, well-formed layouts, what an aggregate load and store mean, when a Boogie
aggregate represents an LLVM aggregate, and the values of the expressions SimplifyEV inspects.
-/

namespace Smack.Aggr

variable {B : Type}

/-- `v` is a value of type `t`. -/
inductive HasTy : V (List B) → Ty → Prop where
  | scalar (bs : List B) (n : String) (k : Nat) (h : bs.length = k) : HasTy (.leaf bs) (.scalar n k)
  | agg (vs : List (V (List B))) (t : Ty) (ha : t.isAgg = true) (hl : vs.length = t.num)
      (he : ∀ i o t' x, t.elem? i = some (o, t') → vs[i]? = some x → HasTy x t') : HasTy (.node vs) t

/-- The elements of `t` lie inside `t`, in order and without overlap. -/
def ElemsOk (t : Ty) : Prop :=
  (∀ i o t', t.elem? i = some (o, t') → o + t'.size ≤ t.size) ∧
  (∀ i j o o' t' t'', i < j → t.elem? i = some (o, t') → t.elem? j = some (o', t'') → o + t'.size ≤ o')

/-- A layout as `DataLayout` produces it, at every level. -/
def WF (t : Ty) : Prop := ∀ p o t', t.at? p = some (o, t') → ElemsOk t'

/-- Byte `off` (relative to the start) of a value of type `t` belongs to a scalar leaf and equals `b`. Bytes for
which no such `b` exists are padding. -/
def ByteAt (t : Ty) (v : V (List B)) (off : Nat) (b : B) : Prop :=
  ∃ p o n k bs i, t.at? p = some (o, .scalar n k) ∧ v.get p = some (.leaf bs) ∧ off = o + i ∧ bs[i]? = some b

/-- Memory `m'` results from `m` by storing `v` of type `t` at `a`: every leaf byte is written, nothing else
changes. -/
def Stored (m : Mem B) (a : Nat) (t : Ty) (v : V (List B)) (m' : Mem B) : Prop :=
  (∀ off b, ByteAt t v off b → m' (a + off) = b) ∧
  (∀ x, (∀ off b, ByteAt t v off b → x ≠ a + off) → m' x = m x)

/-- `v` is the value of type `t` found in memory at `a`. -/
def Loaded (m : Mem B) (a : Nat) (t : Ty) (v : V (List B)) : Prop :=
  HasTy v t ∧ ∀ p o n k, t.at? p = some (o, .scalar n k) → v.get p = some (.leaf (m.read (a + o) k))

/-- A sequence of stores. -/
inductive ExecStores : Mem B → List (Nat × Ty × V (List B)) → Mem B → Prop where
  | nil (m : Mem B) : ExecStores m [] m
  | cons (m m' m'' : Mem B) (a : Nat) (t : Ty) (v : V (List B)) (rest : List (Nat × Ty × V (List B)))
      (h : Stored m a t v m') (hr : ExecStores m' rest m'') : ExecStores m ((a, t, v) :: rest) m''

/-- Value of a chain of `insertvalue` instructions (outermost first) on base `u`. -/
def chainVal {α : Type} (u : V α) : Chain α → Option (V α)
  | [] => some u
  | (p, w) :: rest =>
    match chainVal u rest with
    | some v => v.set p w
    | none => none

/-- Neither path is a prefix of the other. -/
def Incomparable (p q : Path) : Prop := ¬ p <+: q ∧ ¬ q <+: p

/-- The Boogie value `d` represents the LLVM value `v` of type `t` under the interpretation `ext` of the
`$extractvalue` functions: scalars are themselves, aggregates are known by their elements. -/
inductive Rep {D : Type} (ext : String → D → Nat → D) : Ty → D → V D → Prop where
  | scalar (n : String) (k : Nat) (d : D) : Rep ext (.scalar n k) d (.leaf d)
  | agg (t : Ty) (d : D) (vs : List (V D)) (ha : t.isAgg = true) (hl : vs.length = t.num)
      (he : ∀ i o t' x, t.elem? i = some (o, t') → vs[i]? = some x → Rep ext t' (ext t'.boogie d i) x) :
      Rep ext t d (.node vs)

/-- Every finite tuple of elements is the tuple of some aggregate value. -/
def Rich {D : Type} (ext : String → D → Nat → D) : Prop :=
  ∀ (names : Nat → String) (ds : List D), ∃ r, ∀ i d, ds[i]? = some d → ext (names i) r i = d

/-- The environment of SimplifyEV: values of other operands, pointers and memory at the load, the zero byte. -/
structure EvEnv (B : Type) where
  val : Nat → V (List B)
  ty : Nat → Ty
  ptr : Nat → Nat
  mem : Mem B
  zero : B
  ok : ∀ n, HasTy (val n) (ty n)

/-- Values an expression may take (`undef` may be any value of its type). -/
inductive Eval (ρ : EvEnv B) : Ex (List B) → V (List B) → Prop where
  | other (n : Nat) : Eval ρ (.other n) (ρ.val n)
  | undef (t : Ty) (v : V (List B)) (h : HasTy v t) : Eval ρ (.undef t) v
  | zero (t : Ty) (v : V (List B)) (h : HasTy v t)
      (hz : ∀ p o n k, t.at? p = some (o, .scalar n k) → v.get p = some (.leaf (List.replicate k ρ.zero))) :
      Eval ρ (.zero t) v
  | const (ops : List (Ex (List B))) (vs : List (V (List B))) (hl : ops.length = vs.length)
      (he : ∀ (i : Nat) e v, ops[i]? = some e → vs[i]? = some v → Eval ρ e v) : Eval ρ (.const ops) (.node vs)
  | insert (agg val : Ex (List B)) (p : Path) (a v w : V (List B)) (ha : Eval ρ agg a) (hv : Eval ρ val v)
      (hs : a.set p v = some w) : Eval ρ (.insert agg val p) w
  | extract (agg : Ex (List B)) (p : Path) (a w : V (List B)) (ha : Eval ρ agg a) (hg : a.get p = some w) :
      Eval ρ (.extract agg p) w
  | loaded (t : Ty) (ptr : Nat) (v : V (List B)) (h : Loaded ρ.mem (ρ.ptr ptr) t v) : Eval ρ (.loaded t ptr) v
  | loadedAt (t : Ty) (ptr : Nat) (p : Path) (o : Nat) (t' : Ty) (v : V (List B))
      (hp : gepOff t (0 :: p) = some (o, t')) (h : Loaded ρ.mem (ρ.ptr ptr + o) t' v) :
      Eval ρ (.loadedAt t ptr p) v

/-- LLVM typing of the expressions. -/
inductive ExTy (ρ : EvEnv B) : Ex (List B) → Ty → Prop where
  | other (n : Nat) : ExTy ρ (.other n) (ρ.ty n)
  | undef (t : Ty) : ExTy ρ (.undef t) t
  | zero (t : Ty) : ExTy ρ (.zero t) t
  | const (ops : List (Ex (List B))) (t : Ty) (ha : t.isAgg = true) (hl : ops.length = t.num)
      (he : ∀ i o t' e, t.elem? i = some (o, t') → ops[i]? = some e → ExTy ρ e t') : ExTy ρ (.const ops) t
  | insert (agg val : Ex (List B)) (p : Path) (t t' : Ty) (o : Nat) (ha : ExTy ρ agg t)
      (hp : t.at? p = some (o, t')) (hv : ExTy ρ val t') : ExTy ρ (.insert agg val p) t
  | extract (agg : Ex (List B)) (p : Path) (t t' : Ty) (o : Nat) (ha : ExTy ρ agg t)
      (hp : t.at? p = some (o, t')) : ExTy ρ (.extract agg p) t'
  | loaded (t : Ty) (ptr : Nat) : ExTy ρ (.loaded t ptr) t
  | loadedAt (t : Ty) (ptr : Nat) (p : Path) (o : Nat) (t' : Ty) (hp : t.at? p = some (o, t')) :
      ExTy ρ (.loadedAt t ptr p) t'

/-- Any number of SimplifyEV rewrites, anywhere in an expression. -/
inductive Rw : Ex (List B) → Ex (List B) → Prop where
  | refl (e : Ex (List B)) : Rw e e
  | trans (e f g : Ex (List B)) (h : Rw e f) (h' : Rw f g) : Rw e g
  | rule (agg : Ex (List B)) (p : Path) (e : Ex (List B)) (h : simplifyEV agg p = some e) :
      Rw (.extract agg p) e
  | insert (a a' v v' : Ex (List B)) (p : Path) (h : Rw a a') (h' : Rw v v') : Rw (.insert a v p) (.insert a' v' p)
  | extract (a a' : Ex (List B)) (p : Path) (h : Rw a a') : Rw (.extract a p) (.extract a' p)
  | const (ops ops' : List (Ex (List B))) (hl : ops.length = ops'.length)
      (h : ∀ (i : Nat) e e', ops[i]? = some e → ops'[i]? = some e' → Rw e e') : Rw (.const ops) (.const ops')

end Smack.Aggr
