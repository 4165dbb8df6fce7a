/-!
# The tool that makes static entry points visible (tools/externalizer/ExternalizePass.cpp)

Functions have identities, by which code refers to them, besides their names, which are changed. What code does apart from
referring to functions is left open, and so are the attributes of functions, which CloneFunctionInto copies.
-/
namespace Smack.Extern

abbrev Str := List Char

inductive Linkage where
  | external | internal | private_ | weak | linkOnce | availableExternally | externWeak
deriving DecidableEq

/-- A piece of code: a reference to a function, or anything else. -/
inductive Item where
  | code (n : Nat)
  | ref (id : Nat)
deriving DecidableEq

/-- A function; a declaration has no body. -/
structure Fun where
  id : Nat
  name : Str
  linkage : Linkage
  args : List Str
  attrs : Nat
  body : Option (List Item)
deriving DecidableEq

/-- A module: its functions, and the initializers of its global variables and aliases. -/
structure Module where
  funs : List Fun
  globals : List Item
deriving DecidableEq

/-- The identity of a new function. -/
def fresh (m : Module) : Nat := (m.funs.map Fun.id).foldr max 0 + 1

/-- Value::replaceAllUsesWith. -/
def replaceItem (old new : Nat) : Item → Item
  | .code n => .code n
  | .ref i => .ref (if i = old then new else i)

def replaceAllUses (m : Module) (old new : Nat) : Module :=
  { funs := m.funs.map fun g => { g with body := g.body.map (List.map (replaceItem old new)) }
    globals := m.globals.map (replaceItem old new) }

/-- Insertion before a function. -/
def insertBefore (c : Fun) (f : Nat) : List Fun → List Fun
  | [] => []
  | g :: gs => if g.id = f then c :: g :: insertBefore c f gs else g :: insertBefore c f gs

/-- externalizeFunction, ExternalizePass.cpp:18-53: a copy with the names of the arguments, the body and the attributes of the
function and with external linkage takes its place in all uses. A clash of its name with that of another function would give it a
suffix; it is renamed at once. The result is the module and the identity of the copy. -/
def externalizeFunction (m : Module) (f : Fun) : Module × Nat :=
  let c : Fun := { id := fresh m, name := f.name ++ ['.', 'e', 'x', 't', 'e', 'r', 'n', 'a', 'l', 'i', 'z', 'e', 'd'], linkage := .external, args := f.args, attrs := f.attrs, body := f.body }
  let m' : Module := { m with funs := insertBefore c f.id m.funs }
  (replaceAllUses m' f.id c.id, c.id)

/-- Function::removeFromParent. -/
def removeFun (m : Module) (id : Nat) : Module := { m with funs := m.funs.filter fun g => g.id ≠ id }

/-- Value::setName, when no other function has the name. -/
def setName (m : Module) (id : Nat) (n : Str) : Module :=
  { m with funs := m.funs.map fun g => if g.id = id then { g with name := n } else g }

/-- The loop of ExternalizePass::runOnModule for one entry point, ExternalizePass.cpp:56-65. -/
def step (m : Module) (e : Str) : Module × Bool :=
  match m.funs.find? fun g => g.name = e with
  | none => (m, false)
  | some f =>
    if f.linkage ≠ .external then
      let (m', c) := externalizeFunction m f
      (setName (removeFun m' f.id) c e, true)
    else (m, false)

/-- ExternalizePass::runOnModule, ExternalizePass.cpp:54-67. -/
def run : List Str → Module → Module × Bool
  | [], m => (m, false)
  | e :: es, m =>
    let (m1, c1) := step m e
    let (m2, c2) := run es m1
    (m2, c1 || c2)

end Smack.Extern
