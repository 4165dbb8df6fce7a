/-
Type safety of the fields of a memory object (lib/smack/DSAWrapper.cpp:121-197).
-/

namespace Smack.TypeSafe

/-- `unsigned`. -/
def u32 (n : Nat) : Nat := n % 2^32

/-- An LLVM type: identity and `getTypeStoreSize`. -/
structure Ty where
  id : Nat
  store : Nat
deriving DecidableEq, Repr

/-- One entry of sea-dsa's `node->types()`: an offset and the set of types accessed there. -/
structure Field where
  off : Nat
  types : List Ty
deriving DecidableEq, Repr

/-- A sea-dsa node: the flags tested at DSAWrapper.cpp:128-130 and the types, here listed in the order of the
`std::set` of offsets (lines 139-142). -/
structure Node where
  offsetCollapsed : Bool
  external : Bool
  incomplete : Bool
  unknown : Bool
  intToPtr : Bool
  ptrToInt : Bool
  memOpd : Bool
  fields : List Field
deriving DecidableEq, Repr

/-- `std::unordered_map<unsigned, bool>`. -/
abbrev FieldMap := Nat → Option Bool

def FieldMap.set (m : FieldMap) (k : Nat) (b : Bool) : FieldMap := fun x => if x = k then some b else m x

/-- DSAWrapper.cpp:160-168. -/
def fieldLength (ts : List Ty) : Nat := ts.foldl (fun l t => if u32 t.store > l then u32 t.store else l) 0

/-- DSAWrapper.cpp:170-181: the loop over the following offsets. -/
def markOverlaps (offset len : Nat) : List Field → FieldMap → FieldMap
  | [], m => m
  | g :: gs, m =>
    if u32 (offset + len) > g.off then markOverlaps offset len gs ((m.set offset false).set g.off false)
    else m

/-- DSAWrapper.cpp:146-185: the loop over all offsets. A type set is never empty in sea-dsa; `++ti` on an empty one
would be undefined. -/
def classify : List Field → FieldMap → FieldMap
  | [], m => m
  | f :: rest, m =>
    let m1 := if f.types.length > 1 then m.set f.off false else m
    let m2 := markOverlaps f.off (fieldLength f.types) rest m1
    let m3 := if (m2 f.off).isNone then m2.set f.off true else m2
    classify rest m3

/-- DSAWrapper.cpp:121-197 `isTypeSafe` for a value with cell `(n, offset)`. The static cache only stores the result of
`classify`. A value without a node (undefined behaviour in the code) is not modelled. -/
def isTypeSafe (n : Node) (offset : Nat) : Bool :=
  if n.offsetCollapsed || n.external || n.incomplete || n.unknown || n.intToPtr || n.ptrToInt || n.memOpd then false
  else
    match classify n.fields (fun _ => none) offset with
    | some b => b
    | none => false

end Smack.TypeSafe
