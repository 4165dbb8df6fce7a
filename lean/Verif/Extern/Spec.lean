import Verif.Extern.Model
/-!
# Specification: modules up to the identities of functions
-/
namespace Smack.Extern.Spec

open Smack.Extern

/-- The name of the function that a reference means. -/
def nameOf (m : Module) (id : Nat) : Option Str := (m.funs.find? fun g => g.id = id).map Fun.name

/-- A piece of code with the names of functions. -/
inductive Named where
  | code (n : Nat)
  | to (f : Option Str)
deriving DecidableEq

def name (m : Module) : Item → Named
  | .code n => .code n
  | .ref i => .to (nameOf m i)

/-- A function with its code in terms of names. -/
structure View where
  name : Str
  linkage : Linkage
  args : List Str
  attrs : Nat
  body : Option (List Named)
deriving DecidableEq

def viewFun (m : Module) (f : Fun) : View := ⟨f.name, f.linkage, f.args, f.attrs, f.body.map (List.map (name m))⟩

def view (m : Module) : List View × List Named := (m.funs.map (viewFun m), m.globals.map (name m))

/-- References mean functions of the module. -/
def Refs (m : Module) (is : List Item) : Prop := ∀ i, Item.ref i ∈ is → ∃ g ∈ m.funs, g.id = i

structure WF (m : Module) : Prop where
  ids : (m.funs.map Fun.id).Nodup
  names : (m.funs.map Fun.name).Nodup
  bodies : ∀ f ∈ m.funs, ∀ b, f.body = some b → Refs m b
  globals : Refs m m.globals

/-- A definition that another module sees, and that no other definition with its name may stand beside. -/
def Strong (v : View) : Prop := v.linkage = .external ∧ v.body ≠ none

/-- Two modules can be linked as far as their definitions are concerned. -/
def CanLink (m n : Module) : Prop := ∀ v ∈ (view m).1, ∀ w ∈ (view n).1, Strong v → Strong w → v.name ≠ w.name

end Smack.Extern.Spec
