/-
Aggregate values: `insertvalue` / `extractvalue` (lib/smack/SmackInstGenerator.cpp:417-467), their simplification
(lib/utils/SimplifyExtractValue.cpp, lib/utils/SimplifyInsertValue.cpp), the splitting of aggregate loads and
stores (lib/smack/SplitAggregateValue.cpp) and static initialisers (lib/smack/CodifyStaticInits.cpp).

LLVM side: first-class values are trees; types carry the layout that `DataLayout` gives them (offsets of struct
fields, strides of arrays), so the results hold for every target layout.
-/

set_option linter.constructorNameAsVariable false

namespace Smack.Aggr

/-- An index path of `insertvalue`, `extractvalue` or (after the first index) `getelementptr`. -/
abbrev Path := List Nat

mutual
/-- First-class LLVM types. `scalar name size`: integers, floats, pointers (and vectors, which both passes treat
like scalars or reject), with the Boogie type name and the size in bytes; `array n stride elem`; `struct size fields`
with the byte offset of every field. -/
inductive Ty where
  | scalar (name : String) (size : Nat)
  | array (n stride : Nat) (elem : Ty)
  | struct (size : Nat) (fields : Fields)
inductive Fields where
  | nil
  | cons (off : Nat) (t : Ty) (rest : Fields)
end

deriving instance DecidableEq for Ty, Fields

def Fields.length : Fields → Nat
  | .nil => 0
  | .cons _ _ r => r.length + 1

def Fields.get? : Fields → Nat → Option (Nat × Ty)
  | .nil, _ => none
  | .cons o t _, 0 => some (o, t)
  | .cons _ _ r, i + 1 => r.get? i

/-- `getNumElements`; zero for scalars. -/
def Ty.num : Ty → Nat
  | .scalar _ _ => 0
  | .array n _ _ => n
  | .struct _ fs => fs.length

/-- Offset and type of element `i`. -/
def Ty.elem? : Ty → Nat → Option (Nat × Ty)
  | .scalar _ _, _ => none
  | .array n s e, i => if i < n then some (i * s, e) else none
  | .struct _ fs, i => fs.get? i

/-- Size in bytes. -/
def Ty.size : Ty → Nat
  | .scalar _ k => k
  | .array n s _ => n * s
  | .struct k _ => k

/-- `Type::isAggregateType`. -/
def Ty.isAgg : Ty → Bool
  | .scalar _ _ => false
  | _ => true

/-- Offset and type of the element at an index path. -/
def Ty.at? : Ty → Path → Option (Nat × Ty)
  | t, [] => some (0, t)
  | t, i :: p =>
    match t.elem? i with
    | some (o, t') => (t'.at? p).map fun (o', t'') => (o + o', t'')
    | none => none

/-- First-class values: trees over scalar values. -/
inductive V (α : Type) where
  | leaf (a : α)
  | node (vs : List (V α))

/-- LLVM `extractvalue`. -/
def V.get {α : Type} : V α → Path → Option (V α)
  | v, [] => some v
  | .leaf _, _ :: _ => none
  | .node vs, i :: p =>
    match vs[i]? with
    | some x => x.get p
    | none => none

/-- LLVM `insertvalue`. -/
def V.set {α : Type} : V α → Path → V α → Option (V α)
  | _, [], w => some w
  | .leaf _, _ :: _, _ => none
  | .node vs, i :: p, w =>
    match vs[i]? with
    | some x => (x.set p w).map fun x' => .node (vs.set i x')
    | none => none

/-! ### insertvalue and extractvalue as Boogie code -/

/-- SmackRep.cpp:216-244 `type`: aggregates have the Boogie type `ref`. -/
def Ty.boogie : Ty → String
  | .scalar n _ => n
  | _ => "ref"

/-- Boogie terms built by the two visitors: the variables `res`, `old`, `ins` and applications
`$extractvalue.T(e, idx)` of uninterpreted functions (Prelude.cpp:249-263). -/
inductive Tm where
  | res | old | ins
  | ext (ty : String) (e : Tm) (idx : Nat)
deriving DecidableEq, Repr

/-- SmackInstGenerator.cpp:49-56 `getElemType`, as the Boogie type name used by `opName`; out of range indices do
not occur in valid LLVM. -/
def elemName (t : Ty) (i : Nat) : String :=
  match t.elem? i with
  | some (_, t') => t'.boogie
  | none => ""

def elemTy (t : Ty) (i : Nat) : Ty :=
  match t.elem? i with
  | some (_, t') => t'
  | none => .scalar "" 0

/-- SmackInstGenerator.cpp:417-429 `visitExtractValueInst`: the assigned expression. -/
def genExtract : Ty → Path → Tm → Tm
  | _, [], e => e
  | t, i :: p, e => genExtract (elemTy t i) p (.ext (elemName t i) e i)

/-- SmackInstGenerator.cpp:450-459: the inner loop over `j != idx`. -/
def genOthers (t : Ty) (idx : Nat) (res old : Tm) : List (Tm × Tm) :=
  ((List.range t.num).filter (· != idx)).map fun j =>
    (.ext (elemName t j) res j, .ext (elemName t j) old j)

/-- SmackInstGenerator.cpp:431-467 `visitInsertValueInst`: the equations that are assumed. -/
def genInsert : Ty → Path → Tm → Tm → List (Tm × Tm)
  | _, [], res, _ => [(res, .ins)]
  | t, i :: p, res, old =>
    genOthers t i res old ++
      genInsert (elemTy t i) p (.ext (elemName t i) res i) (.ext (elemName t i) old i)

/-- Meaning of a term under an interpretation `ext` of the `$extractvalue` functions. -/
def Tm.eval {D : Type} (ext : String → D → Nat → D) (res old ins : D) : Tm → D
  | .res => res
  | .old => old
  | .ins => ins
  | .ext ty e i => ext ty (e.eval ext res old ins) i

/-! ### SimplifyEV -/

/-- Operands of the rewrite: `other n` is any value that is not one of the inspected instructions;
`loaded` is the result of a `load` of type `t` through pointer `p` (memory at that point is part of the
environment). -/
inductive Ex (α : Type) where
  | other (n : Nat)
  | undef (t : Ty)
  | zero (t : Ty)
  /-- ConstantArray / ConstantStruct with its operands. -/
  | const (ops : List (Ex α))
  | insert (agg val : Ex α) (p : Path)
  | extract (agg : Ex α) (p : Path)
  | loaded (t : Ty) (ptr : Nat)
  /-- `load (gep ptr, 0, p...)`, placed where the original load is. -/
  | loadedAt (t : Ty) (ptr : Nat) (p : Path)

/-- SimplifyExtractValue.cpp:142-216: comparison of the two index lists. -/
inductive Cmp where
  | differ | same
  /-- extract indices exhausted; the rest of the insert indices -/
  | extShort (rest : Path)
  /-- insert indices exhausted; the rest of the extract indices -/
  | insShort (rest : Path)
deriving DecidableEq, Repr

def cmpPaths : (ext ins : Path) → Cmp
  | [], [] => .same
  | [], q => .extShort q
  | p, [] => .insShort p
  | a :: p, b :: q => if b ≠ a then .differ else cmpPaths p q

/-- SimplifyExtractValue.cpp:52-222: what `extractvalue agg, p` is replaced by, if anything. The
`replaceAllUsesWith(UndefValue::get(EV->getType()))` needs the type of the extracted element. -/
def simplifyEV {α : Type} (agg : Ex α) (p : Path) : Option (Ex α) :=
  match p with
  | [] => some agg
  | i :: rest =>
    match agg with
    | .undef t => (t.at? p).map fun (_, t') => .undef t'
    | .zero t => (t.at? p).map fun (_, t') => .zero t'
    | .const ops =>
      match ops[i]? with
      | some v => if rest.length + 1 > 1 then some (.extract v rest) else some v
      | none => none
    | .loaded t ptr => some (.loadedAt t ptr p)
    | .insert a v q =>
      match cmpPaths p q with
      | .differ => some (.extract a p)
      | .same => some v
      | .extShort qs => some (.insert (.extract a p) v qs)
      | .insShort ps => some (.extract v ps)
    | _ => none

/-! ### Memory -/

/-- Byte memory. Addresses are mathematical naturals (no wrap-around). -/
abbrev Mem (B : Type) := Nat → B

/-- Store of a scalar given by its bytes. -/
def Mem.write {B : Type} (m : Mem B) (a : Nat) (bs : List B) : Mem B := fun x =>
  if a ≤ x then
    match bs[x - a]? with
    | some b => b
    | none => m x
  else m x

/-- Load of a scalar of `k` bytes. -/
def Mem.read {B : Type} (m : Mem B) (a k : Nat) : List B := (List.range k).map fun i => m (a + i)

/-- LLVM `getelementptr` on a pointer to `t`: no index is the pointer itself; the first index scales by the size. -/
def gepOff (t : Ty) : Path → Option (Nat × Ty)
  | [] => some (0, t)
  | k :: p => (t.at? p).map fun (o, t') => (k * t.size + o, t')

/-! ### SimplifyIV -/

/-- SimplifyInsertValue.cpp:65-84: a chain of `insertvalue` instructions, listed from the one whose result is stored
down to the innermost. The pass emits, in this order and before the original store, one store per link; whatever the
chain starts from (`undef` or any other value) is not stored. -/
abbrev Chain (α : Type) := List (Path × V α)

/-- SimplifyInsertValue.cpp:68-77: the index list `0, idx...` of one link. -/
def ivIndices (p : Path) : Path := 0 :: p

/-- SimplifyInsertValue.cpp:65-84: the emitted stores in program order: address, type and value of each.
`none` if some path is not valid for the type. -/
def ivStores {α : Type} (t : Ty) (a : Nat) : Chain α → Option (List (Nat × Ty × V α))
  | [] => some []
  | (p, w) :: rest =>
    match gepOff t (ivIndices p), ivStores t a rest with
    | some (o, t'), some l => some ((a + o, t', w) :: l)
    | _, _ => none

/-! ### SplitAggregateValue -/

/-- `Constant::getAggregateElement(i)` on an optional constant; null when out of range. -/
def aggElem {α : Type} (base : Option (V α)) (i : Nat) : Option (V α) :=
  match base with
  | some (.node vs) => vs[i]?
  | _ => none

/-- SplitAggregateValue.cpp:144-147, 155-158: copy of the index list, extended with a leading zero when empty. -/
def extend (idxs : Path) (i : Nat) : Path := (if idxs.isEmpty then idxs ++ [0] else idxs) ++ [i]

mutual
/-- SplitAggregateValue.cpp:132-166 `visitAggregateValue`: the collected index lists with their constants. The
index lists hold both components of `IndexT`, which are always equal. -/
def visit {α : Type} (base : Option (V α)) (idxs : Path) : Ty → List (Path × Option (V α))
  | .scalar _ _ => [(idxs, base)]
  | .array n _ e => (List.range n).flatMap fun i => visit (aggElem base i) (extend idxs i) e
  | .struct _ fs => visitFields base idxs 0 fs
def visitFields {α : Type} (base : Option (V α)) (idxs : Path) (i : Nat) : Fields → List (Path × Option (V α))
  | .nil => []
  | .cons _ t r => visit (aggElem base i) (extend idxs i) t ++ visitFields base idxs (i + 1) r
end

/-- SplitAggregateValue.cpp:11-16 `getFirsts` (all) and 18-23 `getSeconds` (all but the first). -/
def getFirsts (idxs : Path) : Path := idxs
def getSeconds (idxs : Path) : Path := idxs.drop 1

/-- Bytes of a scalar leaf. -/
def leafBytes {B : Type} : V (List B) → Option (List B)
  | .leaf bs => some bs
  | .node _ => none

/-- One step of SplitAggregateValue.cpp:85-95: load the leaf and insert it. -/
def splitLoadStep {B : Type} (m : Mem B) (t : Ty) (a : Nat) (v : V (List B)) (idxs : Path) : Option (V (List B)) :=
  match gepOff t (getFirsts idxs) with
  | some (o, t') => v.set (getSeconds idxs) (.leaf (m.read (a + o) t'.size))
  | none => none

def splitLoadFold {B : Type} (m : Mem B) (t : Ty) (a : Nat) : V (List B) → List Path → Option (V (List B))
  | v, [] => some v
  | v, idxs :: rest =>
    match splitLoadStep m t a v idxs with
    | some v' => splitLoadFold m t a v' rest
    | none => none

/-- SplitAggregateValue.cpp:34-40, 85-95: replacement of an aggregate load; `undef` is whatever value
`UndefValue` happens to take. -/
def splitLoad {B : Type} (m : Mem B) (t : Ty) (a : Nat) (undef : V (List B)) : Option (V (List B)) :=
  splitLoadFold m t a undef ((visit (α := List B) none [] t).map (·.1))

/-- One step of SplitAggregateValue.cpp:97-112: store the constant leaf, or the extracted one. -/
def splitStoreStep {B : Type} (t : Ty) (a : Nat) (v : V (List B)) (m : Mem B) (e : Path × Option (V (List B))) :
    Option (Mem B) :=
  let bytes := match e.2 with
    | some c => leafBytes c
    | none => (v.get (getSeconds e.1)).bind leafBytes
  match bytes, gepOff t (getFirsts e.1) with
  | some bs, some (o, _) => some (m.write (a + o) bs)
  | _, _ => none

def splitStoreFold {B : Type} (t : Ty) (a : Nat) (v : V (List B)) :
    Mem B → List (Path × Option (V (List B))) → Option (Mem B)
  | m, [] => some m
  | m, e :: rest =>
    match splitStoreStep t a v m e with
    | some m' => splitStoreFold t a v m' rest
    | none => none

/-- SplitAggregateValue.cpp:41-50, 97-112: replacement of an aggregate store of `v`; `isConst` tells whether the
stored operand is a constant. -/
def splitStore {B : Type} (m : Mem B) (t : Ty) (a : Nat) (v : V (List B)) (isConst : Bool) : Option (Mem B) :=
  splitStoreFold t a v m (visit (if isConst then some v else none) [] t)

/-- SplitAggregateValue.cpp:114-120 `createInsertedValue`, used for constant arguments and return values: store the
constant into a fresh `alloca` at `box` and load it back. -/
def createInsertedValue {B : Type} (m : Mem B) (t : Ty) (box : Nat) (v undef : V (List B)) :
    Option (V (List B)) :=
  (splitStore m t box v true).bind fun m' => splitLoad m' t box undef

/-! ### CodifyStaticInits -/

/-- A work list entry of CodifyStaticInits.cpp:38: constant (with its type), global, indices. -/
structure Item (B : Type) where
  ty : Ty
  val : V (List B)
  glob : Nat
  idxs : Path

/-- A global variable: address, type, initialiser if any, and whether `DSAWrapper::isRead` holds. -/
structure Global (B : Type) where
  addr : Nat
  ty : Ty
  init : Option (V (List B))
  isRead : Bool

/-- A store emitted into `__SMACK_static_init`: value, global, indices. -/
structure InitStore (B : Type) where
  val : V (List B)
  glob : Nat
  idxs : Path

/-- CodifyStaticInits.cpp:54-74: the entries pushed to the front for an aggregate. Pushing from the last element
down leaves them in order. `getAggregateElement` of a well-typed constant is never null. -/
def children {B : Type} (it : Item B) : List (Item B) :=
  (List.range it.ty.num).filterMap fun i =>
    match aggElem (some it.val) i with
    | some v => some { ty := elemTy it.ty i, val := v, glob := it.glob, idxs := extend it.idxs i }
    | none => none

/-- CodifyStaticInits.cpp:44-77: the loop, for at most `fuel` iterations. `none` when the fuel runs out. -/
def initLoop {B : Type} : Nat → List (Item B) → Option (List (InitStore B))
  | _, [] => some []
  | 0, _ :: _ => none
  | fuel + 1, it :: rest =>
    if it.ty.isAgg then initLoop fuel (children it ++ rest)
    else (initLoop fuel rest).map (⟨it.val, it.glob, it.idxs⟩ :: ·)

/-- CodifyStaticInits.cpp:39-43: initial work list; globals are referred to by their position. -/
def initWork {B : Type} (gs : List (Global B)) : List (Item B) :=
  (List.range gs.length).filterMap fun i =>
    match gs[i]? with
    | some g =>
      match g.init with
      | some v => if g.isRead then some { ty := g.ty, val := v, glob := i, idxs := [] } else none
      | none => none
    | none => none

/-- Execution of `__SMACK_static_init`. -/
def runStores {B : Type} (gs : List (Global B)) : Mem B → List (InitStore B) → Option (Mem B)
  | m, [] => some m
  | m, s :: rest =>
    match gs[s.glob]?, leafBytes s.val with
    | some g, some bs =>
      match gepOff g.ty s.idxs with
      | some (o, _) => runStores gs (m.write (g.addr + o) bs) rest
      | none => none
    | _, _ => none

def staticInit {B : Type} (fuel : Nat) (gs : List (Global B)) (m : Mem B) : Option (Mem B) :=
  (initLoop fuel (initWork gs)).bind (runStores gs m)

end Smack.Aggr
