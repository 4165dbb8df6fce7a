/-
Specification for C76 and C77: which calls have a special meaning (smack.h, smack-contracts.h), and what the pass for Rust does to each
instruction.
-/
import Verif.Dispatch.Model

namespace Smack.Dispatch.Spec

open Smack.Dispatch
open Naming (Str Rx ident)

/-- Checks are wanted in the function (C59). -/
def Wanted (o : Opts) (fn : Str) : Prop := o.checked = [] ∨ ∃ L ∈ o.checked, L [] fn [] = true

/-- The functions of smack.h:31-41 that stand for something other than a call. -/
def annotations : List (String × Act) :=
  [("__SMACK_code", .code), ("__SMACK_mod", .modifies), ("__SMACK_decl", .localDecl), ("__SMACK_top_decl", .topDecl),
   ("__SMACK_value", .value), ("__SMACK_values", .value), ("__SMACK_return_value", .returnValue)]

/-- The functions of smack-contracts.h. -/
def contracts : List (String × Act) :=
  [("__CONTRACT_requires", .requires), ("__CONTRACT_ensures", .ensures), ("__CONTRACT_invariant", .invariant)]

/-- The texts searched in names. -/
def annotationTexts : List String :=
  ["__SMACK_value", "__SMACK_return_value", "__SMACK_mod", "__SMACK_code", "__SMACK_decl", "__SMACK_top_decl"]

/-- An ordinary name: nothing of SMACK or its contracts in it. -/
structure Ordinary (name : Str) : Prop where
  smack : ¬ "__SMACK_".toList <:+: name
  contract : ¬ "__CONTRACT_".toList <+: name
  expr : ¬ "$expr".toList <+: ident name
  assertion : name ≠ "__VERIFIER_assert".toList

/-- The call is translated to a call. -/
structure Called (o : Opts) (s : Site) : Prop where
  asm : s.asm = false
  panic : ¬ (o.rustPanics = true ∧ s.callee = "__SMACK_RUST_PANIC_MARKER".toList ∧ Wanted o s.caller)
  assertion : ¬ (s.callee = "__VERIFIER_assert".toList ∧ ¬ Wanted o s.caller)
  texts : ∀ t ∈ annotationTexts, ¬ t.toList <:+: s.callee
  expr : ¬ "$expr".toList <+: ident s.callee
  contract : ∀ c ∈ ["__CONTRACT_int_variable", "__CONTRACT_forall", "__CONTRACT_requires", "__CONTRACT_ensures", "__CONTRACT_invariant"],
    s.callee ≠ c.toList

/-- The result is assumed to be an external address. -/
def External (s : Site) : Prop :=
  s.isDecl = true ∧ s.ret = .ptr ∧ s.allocated = false ∧ ident s.callee ≠ "malloc".toList ∧ ident s.callee ≠ "__VERIFIER_nondet".toList

/-- The result is recorded in the trace. -/
def Recorded (s : Site) : Prop :=
  s.ret ≠ .void ∧ ("__SMACK".toList <+: ident s.callee ∨ "__VERIFIER".toList <+: ident s.callee)

open Classical in
/-- What follows the statement for the call. -/
noncomputable def after (s : Site) : List Act :=
  (if External s then [.assumeExternal] else []) ++ (if Recorded s then [.record (ident s.callee)] else [])

/-! ## Rust -/

def panicPrefixes : List String :=
  ["_ZN3std9panicking15begin_panic_fmt17h", "_ZN4core9panicking5panic17h", "_ZN3std9panicking11begin_panic17h",
   "_ZN4core9panicking9panic_fmt17h", "_ZN4core9panicking18panic_bounds_check17h"]

/-- A panic function: one of the names followed by the hash. -/
def Panics (f : Str) : Prop := ∃ p ∈ panicPrefixes, ∃ h : Str, h.length = 17 ∧ f = p.toList ++ h

/-- The function of smack-rust.c (or smack.rs) that stands for an allocation function. -/
inductive AllocFor : Str → Str → Prop
  | std (k r : String) (h : Str) (hk : (k, r) ∈ [("_ZN5alloc5alloc5alloc17h", "__smack_rust_std_alloc"),
      ("_ZN5alloc5alloc12alloc_zeroed17h", "__smack_rust_std_alloc_zeroed"), ("_ZN5alloc5alloc7dealloc17h", "__smack_rust_std_dealloc"),
      ("_ZN5alloc5alloc7realloc17h", "__smack_rust_std_realloc")]) (hh : h.length = 17 ∨ h = []) : AllocFor (k.toList ++ h) r.toList
  | prim (k r : String) (hk : (k, r) ∈ [("__rust_alloc", "__smack_rust_prim_alloc"), ("__rust_alloc_zeroed", "__smack_rust_prim_alloc_zeroed"),
      ("__rust_dealloc", "__smack_rust_prim_dealloc"), ("__rust_realloc", "__smack_rust_prim_realloc")]) : AllocFor k.toList r.toList

/-- A call of the start-up function. -/
def LangStart (f : Str) : Prop := "_ZN3std2rt10lang_start".toList <:+: f

/-- What becomes of an instruction. -/
inductive Fixed : Bool → Inst → List Inst → Prop
  | panic (m n f g r) : Panics f → (m = true → ¬ LangStart f) → Fixed m (.call n f g r) [.call n "__SMACK_RUST_PANIC_MARKER".toList none .void]
  | alloc (m n f g r k) : AllocFor f k → (m = true → ¬ LangStart f) → Fixed m (.call n f g r) [.call n k g r]
  | entry (n f rm rr r l) : LangStart f → Fixed false (.call n rm none rr) l → Fixed true (.call n f (some (rm, rr)) r) (.zero n :: l)
  | noMain (n f r l) : LangStart f → Fixed false (.call n f none r) l → Fixed true (.call n f none r) l
  | call (m n f g r) : ¬ Panics f → (∀ k, ¬ AllocFor f k) → (m = true → ¬ LangStart f) → Fixed m (.call n f g r) [.call n f g r]
  | zero (m n) : Fixed m (.zero n) [.zero n]
  | invoke (m n f) : Fixed m (.invoke n f) [.invoke n f]
  | other (m n) : Fixed m (.other n) [.other n]

/-- Lists related element by element. -/
inductive Each (R : Inst → List Inst → Prop) : List Inst → List (List Inst) → Prop
  | nil : Each R [] []
  | cons {i l is ls} : R i l → Each R is ls → Each R (i :: is) (l :: ls)

/-- Functions whose bodies are dropped. -/
def Dropped (name : Str) : Prop :=
  ¬ "__SMACK_".toList <:+: name ∧
    ("_ZN3std2rt19lang_start_internal".toList <:+: name ∨ "_ZN3std2rt10lang_start".toList <:+: name ∨ Panics name)

end Smack.Dispatch.Spec
