/-
Two passes over graphs: VerifierCodeMetadata.cpp and RemoveDeadDefs.cpp in lib/smack.
-/

namespace Smack.Graphs

/-! ### VerifierCodeMetadata -/

/-- An instruction, as far as the pass looks at it. `callee` is the name of `getCalledFunction()`, if any. -/
inductive Kind where
  | call (callee : Option (List Char))
  | invoke (callee : Option (List Char))
  | other (sideEffect : Bool)
deriving DecidableEq, Repr

/-- The instructions of a module are numbered from 0; `operands` and `users` list the instructions among the operands and
the users. Users of an instruction are always instructions in LLVM, so the branch for other users
(VerifierCodeMetadata.cpp:57-64) is never taken. -/
structure Graph where
  size : Nat
  kind : Nat → Kind
  operands : Nat → List Nat
  users : Nat → List Nat

/-- VerifierCodeMetadata.cpp:27-41 `isVerifierFunctionCall`: `N.find(s) == 0` is a prefix test. -/
def isVerifierFunctionCall : Kind → Bool
  | .call (some n) =>
    "__VERIFIER_".toList.isPrefixOf n || "__SMACK_".toList.isPrefixOf n || "__CONTRACT_".toList.isPrefixOf n
  | _ => false

/-- `dyn_cast<CallInst>`: an invoke is not a `CallInst`. -/
def isCallInst : Kind → Bool
  | .call _ => true
  | _ => false

/-- The metadata and the work list. -/
structure State where
  marked : Nat → Bool
  work : List Nat

def setMark (m : Nat → Bool) (i : Nat) : Nat → Bool := fun x => if x = i then true else m x

/-- VerifierCodeMetadata.cpp:87, 108-119: the visit marks verifier calls and puts them on the list. -/
def initState (g : Graph) : State :=
  { marked := fun i => decide (i < g.size) && isVerifierFunctionCall (g.kind i),
    work := (List.range g.size).filter fun i => isVerifierFunctionCall (g.kind i) }

/-- VerifierCodeMetadata.cpp:43-67 `onlyVerifierUsers`. -/
def onlyVerifierUsers (g : Graph) (m : Nat → Bool) (j : Nat) : Bool := (g.users j).all m

/-- VerifierCodeMetadata.cpp:92-101: the loop over the operands. -/
def processOps (g : Graph) : List Nat → State → State
  | [], s => s
  | j :: js, s =>
    if !s.marked j && !isCallInst (g.kind j) && onlyVerifierUsers g s.marked j then
      processOps g js { marked := setMark s.marked j, work := s.work ++ [j] }
    else processOps g js s

/-- VerifierCodeMetadata.cpp:90-104: one round; the front element is removed after its operands are processed. -/
def round (g : Graph) (s : State) : State :=
  match s.work with
  | [] => s
  | i :: _ =>
    let s' := processOps g (g.operands i) s
    { s' with work := s'.work.tail }

def rounds (g : Graph) : Nat → State → State
  | 0, s => s
  | n + 1, s => rounds g n (round g s)

/-- The pass; that `size` rounds empty the work list is a theorem. -/
def runMarking (g : Graph) : State := rounds g g.size (initState g)

/-! ### RemoveDeadDefs -/

/-- A use of a function: in the body of a function, by a `blockaddress`, or by anything else (global initialisers,
aliases, constant expressions). -/
inductive Use where
  | body (f : Nat)
  | blockAddress
  | global
deriving DecidableEq, Repr

/-- A function: identity, name, whether its linkage is linkonce, local or available-externally, and its uses. -/
structure Fn where
  id : Nat
  name : List Char
  discardable : Bool
  uses : List Use
deriving DecidableEq, Repr

/-- `StringRef::find(..) != npos`. -/
def hasInfix (p : List Char) : List Char → Bool
  | [] => p.isEmpty
  | c :: cs => p.isPrefixOf (c :: cs) || hasInfix p cs

/-- The uses that are left when only the functions `alive` remain: uses disappear with the body they are in. -/
def liveUses (alive : List Fn) (f : Fn) : List Use :=
  f.uses.filter fun
    | .body g => alive.any (·.id == g)
    | _ => true

/-- `Function::isDefTriviallyDead` (LLVM). -/
def isDefTriviallyDead (alive : List Fn) (f : Fn) : Bool :=
  f.discardable && (liveUses alive f).all (· == .blockAddress)

/-- SmackOptions.cpp:104-109. -/
def isEntryPoint (entryPoints : List (List Char)) (n : List Char) : Bool := entryPoints.any (· == n)

/-- RemoveDeadDefs.cpp:27-38: the tests in the loop. -/
def isDead (eps : List (List Char)) (alive : List Fn) (f : Fn) : Bool :=
  if !(isDefTriviallyDead alive f || (liveUses alive f).length == 0) then false
  else if hasInfix "__SMACK_".toList f.name then false
  else if hasInfix "__VERIFIER_assume".toList f.name then false
  else if isEntryPoint eps f.name then false
  else true

/-- RemoveDeadDefs.cpp:22-46: one pass of the loop collects the dead functions and erases them; it ends when there are
none. `fuel` bounds the passes; `removeDead` provides as many as there are functions. -/
def removeLoop (eps : List (List Char)) : Nat → List Fn → List Fn
  | 0, fs => fs
  | n + 1, fs =>
    if (fs.filter (isDead eps fs)).isEmpty then fs
    else removeLoop eps n (fs.filter fun f => !isDead eps fs f)

def removeDead (eps : List (List Char)) (fs : List Fn) : List Fn := removeLoop eps (fs.length + 1) fs

end Smack.Graphs
