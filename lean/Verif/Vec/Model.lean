/-
Model of lib/smack/VectorOperations.cpp: the Boogie declarations generated for LLVM vector operations, as terms, with a type
checker and an evaluator for these terms.

Names are structured (`Fn`): `mk n s` is `constructor` ("mk.vec.nxs", 15-17), `sel n s i` is `selector` (25-27). That the
printed names keep them apart is proved separately (`typeName`, `shuffleName`). Not modelled: the LLVM instructions around the
declarations (the operands are evaluated by `SmackRep::expr`), vector constants other than by their lanes, vectors inside
aggregates.
-/

namespace Smack.Vec

/-- The element types after `SmackRep::type` (SmackRep.cpp:216-244): without `--float` all floating-point types are `ufloat`. -/
inductive Sc where
  | int (w : Nat)
  | ref | ufloat | half | float | double | longdouble
deriving DecidableEq, Repr

/-- The options that matter for types. -/
structure Mode where
  bitPrecise : Bool
  bitPrecisePointers : Bool
  ptrBits : Nat
deriving DecidableEq, Repr

/-- Boogie types. `iN` and `ref` are synonyms of `int` unless bit-precise (Prelude.cpp, `type iN = int`). -/
inductive BTy where
  | int | bool | rmode
  | bv (w : Nat)
  | fl (s : Sc)
  | vec (n : Nat) (s : Sc)
  | map (b : BTy)
deriving DecidableEq, Repr

def bty (m : Mode) : Sc → BTy
  | .int w => if m.bitPrecise then .bv w else .int
  | .ref => if m.bitPrecisePointers then .bv m.ptrBits else .int
  | s => .fl s

/-- LLVM types of operands: a scalar or a vector. -/
inductive Ty where
  | sc (s : Sc)
  | vec (n : Nat) (s : Sc)
deriving DecidableEq, Repr

def Ty.bty (m : Mode) : Ty → BTy
  | .sc s => Vec.bty m s
  | .vec n s => .vec n s

/-- The scalar operations on which vector operations are based: INSTRUCTION_TABLE and CMPINST_TABLE (Naming.cpp:88-147).
`fpArith` are fadd, fsub, fmul and fdiv; `plain` are the integer operations and frem. -/
inductive Op where
  | plain (name : String)
  | fpArith (name : String)
  | icmp (name : String)
  | fcmp (name : String)
deriving DecidableEq, Repr

/-- The functions without a body. -/
inductive UFn where
  | insert (n : Nat) (s i : Sc)
  | extract (n : Nat) (s i : Sc)
  | cast (opcode : String) (src dst : Ty)
  | load (et mt : Ty)
  | store (et mt : Ty)
deriving DecidableEq, Repr

inductive Fn where
  | mk (n : Nat) (s : Sc)
  | sel (n : Nat) (s : Sc) (i : Nat)
  | op (o : Op) (s : Sc)
  | un (u : UFn)
deriving DecidableEq, Repr

inductive Term where
  | var (x : String)
  | lit (i : Nat)
  | app (f : Fn) (args : List Term)
  | mapSel (m p : Term)
  | mapUpd (m p v : Term)

structure FuncDecl where
  params : List (String × BTy)
  ret : BTy
  body : Option Term

structure Axm where
  vars : List (String × Ty)
  lhs : Term
  rhs : Term

/-- VectorOperations.cpp:93-106 (`binary`). -/
def binary (o : Op) (n : Nat) (s : Sc) : FuncDecl :=
  { params := [("v1", .vec n s), ("v2", .vec n s)], ret := .vec n s,
    body := some (.app (.mk n s) ((List.range n).map fun i =>
      .app (.op o s) [.app (.sel n s i) [.var "v1"], .app (.sel n s i) [.var "v2"]])) }

/-- VectorOperations.cpp:108-123 (`cmp`). The constructor is that of the operand type `T`. -/
def cmp (o : Op) (n : Nat) (s : Sc) : FuncDecl :=
  { params := [("v1", .vec n s), ("v2", .vec n s)], ret := .vec n (.int 1),
    body := some (.app (.mk n s) ((List.range n).map fun i =>
      .app (.op o s) [.app (.sel n s i) [.var "v1"], .app (.sel n s i) [.var "v2"]])) }

/-- VectorOperations.cpp:63-81 (`cast`). -/
def cast (m : Mode) (_opcode : String) (src dst : Ty) : FuncDecl :=
  { params := [("v", src.bty m)], ret := dst.bty m,
    body := match src, dst with
      | .sc _, .vec 1 s => some (.app (.mk 1 s) [.var "v"])
      | .vec 1 s, .sc _ => some (.app (.sel 1 s 0) [.var "v"])
      | _, _ => none }

/-- The application of the cast function: by its body if it has one. -/
def castApp (m : Mode) (opcode : String) (src dst : Ty) (t : Term) : Term :=
  match (cast m opcode src dst).body with
  | none => .app (.un (.cast opcode src dst)) [t]
  | some _ => match src, dst with
    | .sc _, .vec _ s => .app (.mk 1 s) [t]
    | .vec _ s, .sc _ => .app (.sel 1 s 0) [t]
    | _, _ => t

/-- VectorOperations.cpp:83-91 (`inverseAxiom`). -/
def inverseAxiom (m : Mode) (opcode : String) (src dst : Ty) : Axm :=
  { vars := [("v", src)], lhs := castApp m opcode dst src (castApp m opcode src dst (.var "v")), rhs := .var "v" }

/-- VectorOperations.cpp:125-140: the axioms that come with a cast instruction. -/
def castAxioms (m : Mode) (opcode : String) (src dst : Ty) : List Axm :=
  [inverseAxiom m opcode src dst, inverseAxiom m opcode dst src]

/-- VectorOperations.cpp:166-199 (`shuffle`); `none` is the llvm_unreachable of 182. `U` has as many lanes as the mask. -/
def shuffle (n : Nat) (s : Sc) (mask : List Int) : Option FuncDecl := do
  let args ← mask.mapM fun m =>
    if m < 0 then none
    else
      let idx := m.toNat
      some (if idx < n then Term.app (.sel n s idx) [.var "v1"] else .app (.sel n s (idx - n)) [.var "v2"])
  some { params := [("v1", .vec n s), ("v2", .vec n s)], ret := .vec mask.length s,
         body := some (.app (.mk mask.length s) args) }

/-- VectorOperations.cpp:201-237 (`insert`): the axiom for each index. -/
def insertAxioms (n : Nat) (s it : Sc) : List Axm :=
  (List.range n).map fun i =>
    { vars := [("v", .vec n s), ("x", .sc s)],
      lhs := .app (.un (.insert n s it)) [.var "v", .var "x", .lit i],
      rhs := .app (.mk n s) ((List.range n).map fun j => if i = j then .var "x" else .app (.sel n s j) [.var "v"]) }

/-- VectorOperations.cpp:244-268 (`extract`). -/
def extractAxioms (n : Nat) (s it : Sc) : List Axm :=
  (List.range n).map fun i =>
    { vars := [("v", .vec n s)], lhs := .app (.un (.extract n s it)) [.var "v", .lit i], rhs := .app (.sel n s i) [.var "v"] }

/-- SmackRep.cpp:264-272 (`memType`): a singleton region is not a map. -/
def memType (m : Mode) (noByteAccessInference singleton : Bool) (mt : Ty) : BTy :=
  if !singleton || (m.bitPrecise && noByteAccessInference) then .map (mt.bty m) else mt.bty m

/-- VectorOperations.cpp:270-287 (`load`). -/
def load (m : Mode) (nb singleton : Bool) (et mt : Ty) : FuncDecl :=
  { params := [("M", memType m nb singleton mt), ("p", bty m .ref)], ret := et.bty m,
    body := if mt = et then some (.mapSel (.var "M") (.var "p")) else none }

/-- VectorOperations.cpp:289-305 (`store`). -/
def store (m : Mode) (nb singleton : Bool) (et mt : Ty) : FuncDecl :=
  { params := [("M", memType m nb singleton mt), ("p", bty m .ref), ("v", et.bty m)], ret := memType m nb singleton mt,
    body := if mt = et then some (.mapUpd (.var "M") (.var "p") (.var "v")) else none }

/-! Typing. -/

/-- The declared signatures. Floating-point arithmetic has a rounding mode as first argument when the type is a modelled
floating-point type (Prelude.cpp:1352-1401); floating-point comparisons exist only with the suffix `.bool`
(Prelude.cpp:1403-1443), so `$foeq.float` is not declared. -/
def sig (m : Mode) : Fn → Option (List BTy × BTy)
  | .mk n s => some (List.replicate n (bty m s), .vec n s)
  | .sel n s i => if i < n then some ([.vec n s], bty m s) else none
  | .op (.plain _) s => some ([bty m s, bty m s], bty m s)
  | .op (.icmp _) s => some ([bty m s, bty m s], bty m (.int 1))
  | .op (.fpArith _) .ufloat => some ([bty m .ufloat, bty m .ufloat], bty m .ufloat)
  | .op (.fpArith _) s => some ([.rmode, bty m s, bty m s], bty m s)
  | .op (.fcmp _) _ => none
  | .un (.insert n s i) => some ([.vec n s, bty m s, bty m i], .vec n s)
  | .un (.extract n s i) => some ([.vec n s, bty m i], bty m s)
  | .un (.cast _ a b) => some ([a.bty m], b.bty m)
  | .un (.load et mt) => some ([.map (mt.bty m), bty m .ref], et.bty m)
  | .un (.store et mt) => some ([.map (mt.bty m), bty m .ref, et.bty m], .map (mt.bty m))

mutual
/-- The type of a term. An integer literal without width (`Expr::lit(unsigned)`, BoogieAst.h:37) has type int. -/
def typeOf (m : Mode) (env : List (String × BTy)) : Term → Option BTy
  | .var x => env.lookup x
  | .lit _ => some .int
  | .app f ts =>
    match sig m f, typesOf m env ts with
    | some (as, r), some bs => if as = bs then some r else none
    | _, _ => none
  | .mapSel M p =>
    match typeOf m env M, typeOf m env p with
    | some (.map b), some q => if q = bty m .ref then some b else none
    | _, _ => none
  | .mapUpd M p v =>
    match typeOf m env M, typeOf m env p, typeOf m env v with
    | some (.map b), some q, some c => if q = bty m .ref ∧ c = b then some (.map b) else none
    | _, _, _ => none
def typesOf (m : Mode) (env : List (String × BTy)) : List Term → Option (List BTy)
  | [] => some []
  | t :: ts =>
    match typeOf m env t, typesOf m env ts with
    | some b, some bs => some (b :: bs)
    | _, _ => none
end

/-- Boogie accepts the declaration. -/
def Accepted (m : Mode) (d : FuncDecl) : Prop := ∀ t, d.body = some t → typeOf m d.params t = some d.ret

def AcceptedAx (m : Mode) (a : Axm) : Prop :=
  ∃ b, typeOf m (a.vars.map fun v => (v.1, v.2.bty m)) a.lhs = some b ∧
    typeOf m (a.vars.map fun v => (v.1, v.2.bty m)) a.rhs = some b

/-! Evaluation. -/

/-- Values over scalars `V`; memories are maps from scalars to values. -/
inductive Val (V : Type) where
  | sc (x : V)
  | vec (n : Nat) (s : Sc) (xs : List V)
deriving DecidableEq

structure Interp (V : Type) where
  /-- the scalars of a type -/
  dom : Sc → V → Prop
  op : Op → Sc → V → V → V
  lit : Nat → V
  un : UFn → List (Val V) → Val V

/-- The lanes of a list of scalar values. -/
def scalars {V : Type} : List (Val V) → Option (List V)
  | [] => some []
  | .sc x :: vs => (scalars vs).map (x :: ·)
  | .vec .. :: _ => none

/-- The meaning of a function: constructor and selectors of a datatype, the scalar operation, or an uninterpreted function. -/
def apply {V : Type} (I : Interp V) : Fn → List (Val V) → Option (Val V)
  | .mk n s, vs =>
    match scalars vs with
    | some xs => if xs.length = n then some (.vec n s xs) else none
    | none => none
  | .sel n s i, [.vec n' s' xs] => if n' = n ∧ s' = s then xs[i]?.map Val.sc else none
  | .op o s, [.sc a, .sc b] => some (.sc (I.op o s a b))
  | .un u, vs => some (I.un u vs)
  | _, _ => none

mutual
def eval {V : Type} (I : Interp V) (env : List (String × Val V)) : Term → Option (Val V)
  | .var x => env.lookup x
  | .lit i => some (.sc (I.lit i))
  | .app f ts =>
    match evals I env ts with
    | some vs => apply I f vs
    | none => none
  | _ => none
def evals {V : Type} (I : Interp V) (env : List (String × Val V)) : List Term → Option (List (Val V))
  | [] => some []
  | t :: ts =>
    match eval I env t, evals I env ts with
    | some v, some vs => some (v :: vs)
    | _, _ => none
end

/-- The value of a call of a function with a body. -/
def call {V : Type} (I : Interp V) (d : FuncDecl) (args : List (Val V)) : Option (Val V) :=
  d.body.bind (eval I ((d.params.map (·.1)).zip args))

/-- The values of a type. -/
def HasTy {V : Type} (I : Interp V) : Ty → Val V → Prop
  | .sc s, .sc x => I.dom s x
  | .vec n s, .vec n' s' xs => n' = n ∧ s' = s ∧ xs.length = n ∧ ∀ x ∈ xs, I.dom s x
  | _, _ => False

/-- An axiom holds: for all values of the quantified variables both sides are equal. -/
def Holds {V : Type} (I : Interp V) (a : Axm) : Prop :=
  ∀ vals : List (Val V), List.length vals = a.vars.length → (∀ p ∈ a.vars.zip vals, HasTy I p.1.2 p.2) →
    ∃ v, eval I ((a.vars.map (·.1)).zip vals) a.lhs = some v ∧ eval I ((a.vars.map (·.1)).zip vals) a.rhs = some v

/-- Uninterpreted casts map into their result type (Boogie functions are typed). -/
def CastTyped {V : Type} (I : Interp V) : Prop :=
  ∀ opc a b v, HasTy I a v → HasTy I b (I.un (.cast opc a b) [v])

/-! Memory accesses: maps from addresses to values. -/

/-- The meaning of load: the body, or an uninterpreted function. -/
def loadSem {V : Type} (U : (V → Val V) → V → Val V) (et mt : Ty) (M : V → Val V) (p : V) : Val V :=
  if mt = et then M p else U M p

def storeSem {V : Type} [DecidableEq V] (U : (V → Val V) → V → Val V → V → Val V) (et mt : Ty) (M : V → Val V) (p : V)
    (v : Val V) : V → Val V :=
  if mt = et then fun q => if q = p then v else M q else U M p v

/-! Printed names. -/

/-- Decimal digits. -/
def dec (n : Nat) : List Char := Nat.toDigits 10 n

/-- SmackRep.cpp:161-166 and 216-244. -/
def scName (bitPrecise : Bool) : Sc → List Char
  | .int w => (if bitPrecise then ['b', 'v'] else ['i']) ++ dec w
  | .ref => ['r', 'e', 'f']
  | .ufloat => ['f', 'l', 'o', 'a', 't']
  | .half => ['b', 'v', 'h', 'a', 'l', 'f']
  | .float => ['b', 'v', 'f', 'l', 'o', 'a', 't']
  | .double => ['b', 'v', 'd', 'o', 'u', 'b', 'l', 'e']
  | .longdouble => ['b', 'v', 'l', 'o', 'n', 'g', 'd', 'o', 'u', 'b', 'l', 'e']

/-- SmackRep.cpp:168-172: "vec.<n>x<type>". -/
def typeName (bp : Bool) (n : Nat) (s : Sc) : List Char := ['v', 'e', 'c', '.'] ++ dec n ++ 'x' :: scName bp s

/-- VectorOperations.cpp:173-177. -/
def shuffleName (bp : Bool) (n : Nat) (s : Sc) (mask : List Nat) : List Char :=
  ['$', 's', 'h', 'u', 'f', 'f', 'l', 'e', 'v', 'e', 'c', 't', 'o', 'r', '.'] ++ typeName bp n s ++ (mask.map fun m => '.' :: dec m).flatten

end Smack.Vec
