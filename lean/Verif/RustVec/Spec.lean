/-
What `std::vec::Vec` does, on sequences. A vector also remembers the capacity it was created with, for the hypotheses of the theorems.
-/
import Verif.RustVec.Model

namespace Smack.RustVec

structure Codec.Ok {V : Type} (c : Codec V) : Prop where
  len : ∀ x, (c.enc x).length = c.size
  dec : ∀ x, c.dec (c.enc x) = some x

inductive SObj (V : Type) where
  | gone | vec (room : Nat) (xs : List V) | iter (xs : List V)

/-- Outcome of an operation on sequences; `illegal`: not accepted by the compiler. -/
inductive SRes (α : Type) where
  | ok (a : α) | panic | illegal

variable {V : Type}

def stdStep (op : Op V) (w : List (SObj V)) : SRes (Out V × List (SObj V)) :=
  match op with
  | .new => .ok (.unit, w ++ [.vec 32 []])
  | .withCapacity cap => .ok (.unit, w ++ [.vec cap []])
  | .ofList l => .ok (.unit, w ++ [.vec 32 l])
  | .push i x =>
    match w[i]? with
    | some (.vec r xs) => .ok (.unit, w.set i (.vec r (xs ++ [x])))
    | _ => .illegal
  | .pop i =>
    match w[i]? with
    | some (.vec r xs) => .ok (.opt xs.getLast?, w.set i (.vec r xs.dropLast))
    | _ => .illegal
  | .append i j =>
    match w[i]?, w[j]? with
    | some (.vec r xs), some (.vec q ys) =>
      if i = j then .illegal else .ok (.unit, (w.set i (.vec r (xs ++ ys))).set j (.vec q []))
    | _, _ => .illegal
  | .insert i k x =>
    match w[i]? with
    | some (.vec r xs) => if k ≤ xs.length then .ok (.unit, w.set i (.vec r (xs.take k ++ x :: xs.drop k))) else .panic
    | _ => .illegal
  | .remove i k =>
    match w[i]? with
    | some (.vec r xs) =>
      match xs[k]? with
      | some x => .ok (.val x, w.set i (.vec r (xs.take k ++ xs.drop (k + 1))))
      | none => .panic
    | _ => .illegal
  | .len i =>
    match w[i]? with
    | some (.vec _ xs) => .ok (.num xs.length, w)
    | _ => .illegal
  | .slice i =>
    match w[i]? with
    | some (.vec _ xs) => .ok (.seq xs, w)
    | _ => .illegal
  | .set i k x =>
    match w[i]? with
    | some (.vec r xs) => if k < xs.length then .ok (.unit, w.set i (.vec r (xs.set k x))) else .panic
    | _ => .illegal
  | .drop i =>
    match w[i]? with
    | some (.vec _ xs) => .ok (.seq xs, w.set i .gone)
    | _ => .illegal
  | .intoIter i =>
    match w[i]? with
    | some (.vec _ xs) => .ok (.unit, w.set i (.iter xs))
    | _ => .illegal
  | .next i =>
    match w[i]? with
    | some (.iter xs) => .ok (.opt xs.head?, w.set i (.iter xs.tail))
    | _ => .illegal
  | .nextBack i =>
    match w[i]? with
    | some (.iter xs) => .ok (.opt xs.getLast?, w.set i (.iter xs.dropLast))
    | _ => .illegal
  | .sizeHint i =>
    match w[i]? with
    | some (.iter xs) => .ok (.num xs.length, w)
    | _ => .illegal
  | .dropIter i =>
    match w[i]? with
    | some (.iter xs) => .ok (.seq xs, w.set i .gone)
    | _ => .illegal

/-- A run on sequences, as far as it goes without a panic. -/
inductive StdRun : List (Op V) → List (SObj V) → List (Out V) → List (SObj V) → Prop
  | nil {w} : StdRun [] w [] w
  | cons {op ops w o w1 os w2} : stdStep op w = .ok (o, w1) → StdRun ops w1 os w2 → StdRun (op :: ops) w (o :: os) w2

/-- Lengths stay at most `n`, capacities asked for are positive and at most `n`. Unless `__VERIFIER_memcpy` copies (`grow`), vectors do not
outgrow the capacity with which they were created (32 unless given), nor the 32 elements of the vector used by `append`. -/
def Within (grow : Bool) (n : Nat) (op : Op V) (w : List (SObj V)) : Prop :=
  match op with
  | .new => True
  | .withCapacity cap => 0 < cap ∧ cap ≤ n
  | .ofList l => l.length ≤ n ∧ (grow = true ∨ l.length ≤ 32)
  | .push i _ | .insert i _ _ => ∀ r xs, w[i]? = some (.vec r xs) → xs.length < n ∧ (grow = true ∨ xs.length < r)
  | .append i j => ∀ r q xs ys, w[i]? = some (.vec r xs) → w[j]? = some (.vec q ys) →
      xs.length + ys.length ≤ n ∧ (grow = true ∨ (xs.length + ys.length ≤ r ∧ ys.length ≤ 32))
  | _ => True

/-- `Within` at every operation of a program. -/
inductive AllWithin (grow : Bool) (n : Nat) : List (Op V) → List (SObj V) → Prop
  | nil {w} : AllWithin grow n [] w
  | cons {op ops w} : Within grow n op w → (∀ o w1, stdStep op w = .ok (o, w1) → AllWithin grow n ops w1) → AllWithin grow n (op :: ops) w

/-- The outputs of the model and of std for an operation: the same, but the elements of a dropped vector are dropped in the opposite
order. -/
def SameOut (op : Op V) (o std : Out V) : Prop :=
  match op with
  | .drop _ => ∃ xs, std = .seq xs ∧ o = .seq xs.reverse
  | _ => o = std

/-- Outputs of a program. -/
inductive SameOuts : List (Op V) → List (Out V) → List (Out V) → Prop
  | nil : SameOuts [] [] []
  | cons {op ops o os t ts} : SameOut op o t → SameOuts ops os ts → SameOuts (op :: ops) (o :: os) (t :: ts)

/-- A block that has been allocated and not freed. -/
def Live (h : Heap) (b : Nat) : Prop := ∃ B : Block, h[b]? = some B ∧ B.live = true

/-- Bounds under which sizes do not overflow: `n` bounds the lengths and the capacities asked for. -/
structure Sizes (c : Codec V) (n : Nat) : Prop where
  lo : 32 ≤ n
  cnt : 4 * n < 2 ^ 64
  bytes : 4 * n * c.size < 2 ^ 64

end Smack.RustVec
