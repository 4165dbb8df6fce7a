/-
Model of the pass IntegerOverflowChecker on a whole function (lib/smack/IntegerOverflowChecker.cpp:119-210 `runOnModule`).

Functions are those of `Cfg`: blocks with abstract operations. A table says what each operation number is: a call of an overflow
intrinsic, an `extractvalue`, a call of one of the two UBSan handlers, or anything else. Every instruction the pass looks at has
a number as destination, also the void calls (in LLVM each instruction is a value). The pass makes new instructions; operation
`16 * k + j` of the result is the new instruction in role `j` made for the operation `k`, and `16 * k` is the operation `k` itself.
-/
import Verif.Cfg.Model
import Verif.Overflow.Model

namespace Smack.OvfPass

open Smack.Cfg

/-- Values: integers, the pairs that overflow intrinsics return, and all other values. -/
inductive Val where
  | word (w : Nat) (b : BitVec w)
  | pair (w : Nat) (b : BitVec w) (ov : Bool)
  | other (n : Nat)
deriving DecidableEq

/-- What an operation number stands for. -/
inductive Op where
  /-- a call of `llvm.(u|s)(add|sub|mul).with.overflow.iN` (IntegerOverflowChecker.cpp:27-29 `OVERFLOW_INTRINSICS`, 155-176) -/
  | ovf (op : Overflow.Op) (isSigned : Bool) (bits : Nat)
  /-- `extractvalue` with its indices -/
  | extract (idx : List Nat)
  /-- a call of a function whose name contains `__ubsan_handle_shift_out_of_bounds` or `__ubsan_handle_divrem_overflow`
  (IntegerOverflowChecker.cpp:136-138) -/
  | ubsan
  | other
deriving DecidableEq

abbrev Table := Nat → Op

/-- What the pass depends on: `SmackOptions::IntegerOverflow`, `SmackOptions::shouldCheckFunction(F.getName())`, and
`Naming::isSmackName(F.getName())` (IntegerOverflowChecker.cpp:126, 142, 145, 180-181). -/
structure Opts where
  overflow : Bool
  checked : Bool
  smackName : Bool

variable (tab : Table)

/-- The j-th new variable made for the instruction with destination `d`. -/
def newVar (base d j : Nat) : Var := base + 16 * d + j

/-- `d` is the result of an overflow intrinsic. -/
def isOvf (fn : Fn Val) (d : Var) : Bool :=
  (fn.flatMap (·.body)).any fun i => i.dst == some d && match tab i.op with | .ovf .. => true | _ => false

/-- IntegerOverflowChecker.cpp:183-199: the instruction is an `extractvalue` with exactly one index of the result of an intrinsic;
the variable that replaces it: `r` for index 0, `flag` for index 1. -/
def replacement (base : Nat) (fn : Fn Val) (i : Instr Val) : Option Var :=
  match tab i.op, i.args with
  | .extract [0], [.var d] => if isOvf tab fn d then some (newVar base d 3) else none
  | .extract [1], [.var d] => if isOvf tab fn d then some (newVar base d 6) else none
  | _, _ => none

/-- The effect of the calls of `replaceAllUsesWith` on a variable (IntegerOverflowChecker.cpp:188, 192). -/
def substVar (base : Nat) (fn : Fn Val) (x : Var) : Var :=
  match (fn.flatMap (·.body)).find? (fun i => i.dst == some x) with
  | some i => match replacement tab base fn i with
    | some y => y
    | none => x
  | none => x

def substOpd (base : Nat) (fn : Fn Val) : Opd Val → Opd Val
  | .var x => .var (substVar tab base fn x)
  | .const v => .const v

/-- IntegerOverflowChecker.cpp:98-103 `addCheck`: the cast of the flag, and the call of `__SMACK_check_overflow`. The cast has
role 7 for a computed flag, the call role 8. -/
def addCheck (k : Nat) (t : Var) (cast : Nat) (flag : List (Opd Val)) : List (Instr Val) :=
  [⟨some t, 16 * k + cast, flag⟩, ⟨none, 16 * k + 8, [.var t]⟩]

/-- The instructions inserted before a call of an intrinsic (IntegerOverflowChecker.cpp:165-182): the extended operands, the
operation, the result, the flag (53-83), the check. -/
def expandOvf (o : Opts) (base : Nat) (k : Nat) (d : Var) (x y : Opd Val) : List (Instr Val) :=
  let v := newVar base d
  [⟨some (v 0), 16 * k + 1, [x]⟩, ⟨some (v 1), 16 * k + 1, [y]⟩, ⟨some (v 2), 16 * k + 2, [.var (v 0), .var (v 1)]⟩,
   ⟨some (v 3), 16 * k + 3, [.var (v 2)]⟩, ⟨some (v 4), 16 * k + 4, [.var (v 2)]⟩, ⟨some (v 5), 16 * k + 5, [.var (v 2)]⟩,
   ⟨some (v 6), 16 * k + 6, [.var (v 4), .var (v 5)]⟩] ++
  (if o.overflow && o.checked then addCheck k (v 7) 7 [.var (v 6)] else [])

/-- The instructions inserted before a call of a UBSan handler (IntegerOverflowChecker.cpp:139-147): the check with the flag
`true`, then `addBlockingAssume` (109-115): the negation of `true`, its cast, the call of `__VERIFIER_assume`. -/
def expandUbsan (o : Opts) (base : Nat) (k : Nat) (d : Var) : List (Instr Val) :=
  let v := newVar base d
  (if o.checked then addCheck k (v 0) 9 [] else []) ++
  [⟨some (v 1), 16 * k + 10, []⟩, ⟨some (v 2), 16 * k + 11, [.var (v 1)]⟩, ⟨none, 16 * k + 12, [.var (v 2)]⟩]

/-- An instruction after the pass (before the substitution of operands). The calls and the replaced `extractvalue`s are erased
(IntegerOverflowChecker.cpp:206-208). -/
def expand (o : Opts) (base : Nat) (fn : Fn Val) (i : Instr Val) : List (Instr Val) :=
  match tab i.op, i.dst, i.args with
  | .ovf .., some d, [x, y] => expandOvf o base i.op d x y
  | .ubsan, some d, _ => if o.overflow then expandUbsan o base i.op d else [⟨i.dst, 16 * i.op, i.args⟩]
  | _, _, _ => match replacement tab base fn i with
    | some _ => []
    | none => [⟨i.dst, 16 * i.op, i.args⟩]

def substInstr (base : Nat) (fn : Fn Val) (i : Instr Val) : Instr Val := { i with args := i.args.map (substOpd tab base fn) }

def substPhi (base : Nat) (fn : Fn Val) (p : Phi Val) : Phi Val :=
  { p with inc := p.inc.map fun q => (q.1, substOpd tab base fn q.2) }

def substTerm (base : Nat) (fn : Fn Val) : Term Val → Term Val
  | .ret v => .ret (v.map (substOpd tab base fn))
  | .br t => .br t
  | .cbr c t f => .cbr (substOpd tab base fn c) t f
  | .switch c cs d => .switch (substOpd tab base fn c) cs d
  | .invoke n u => .invoke n u
  | .resume v => .resume (substOpd tab base fn v)
  | .unreachable => .unreachable

def passBlock (o : Opts) (base : Nat) (fn : Fn Val) (b : Block Val) : Block Val :=
  ⟨b.phis.map (substPhi tab base fn), (b.body.flatMap fun i => (expand tab o base fn i).map (substInstr tab base fn)),
   substTerm tab base fn b.term⟩

/-- The operands of a function: those of instructions that are not replaced, of phi nodes and of terminators. -/
def remainingUses (base : Nat) (fn : Fn Val) : List (Opd Val) :=
  fn.flatMap fun b => b.phis.flatMap (fun p => p.inc.map Prod.snd) ++
    b.body.flatMap (fun i => if (replacement tab base fn i).isSome then [] else i.args) ++
    (match b.term with
     | .ret (some v) => [v]
     | .cbr c _ _ => [c]
     | .switch c _ _ => [c]
     | .resume v => [v]
     | _ => [])

/-- The operand is the result of an intrinsic. -/
def isPair (fn : Fn Val) : Opd Val → Bool
  | .var d => isOvf tab fn d
  | .const _ => false

/-- The pass on one function (IntegerOverflowChecker.cpp:125-209). A function with a SMACK name is left alone (126-127). `none`:
the result of an intrinsic has a use that is not replaced, and `eraseFromParent` (207) destroys an instruction with uses (an
assertion of LLVM), or the index of an `extractvalue` is neither 0 nor 1 (`llvm_unreachable`, 194). -/
def pass (o : Opts) (base : Nat) (fn : Fn Val) : Option (Fn Val) :=
  if o.smackName then
    some (fn.map fun b => { b with body := b.body.map fun i => ⟨i.dst, 16 * i.op, i.args⟩ })
  else if (remainingUses tab base fn).any (isPair tab fn) then none
  else some (fn.map (passBlock tab o base fn))

/-- What the new instructions do: for the operation the instruction was made for, the role and the operand values. `none`: no
execution continues; `some none`: an assertion fails. -/
def newStep (t : Op) (role : Nat) (args : List Val) : Option (Option Val) :=
  match t, role, args with
  -- extendBitWidth (53-62)
  | .ovf _ s bits, 1, [.word w x] =>
    if w = bits then some (some (.word (bits * 2) (if s then x.signExtend (bits * 2) else x.setWidth (bits * 2)))) else none
  -- INSTRUCTION_TABLE (30-33), 173-174
  | .ovf op _ bits, 2, [.word w x, .word w' y] =>
    if w = bits * 2 ∧ w' = bits * 2 then
      some (some (.word w (match op with | .add => x + y.setWidth w | .sub => x - y.setWidth w | .mul => x * y.setWidth w)))
    else none
  -- createResult (88-92)
  | .ovf _ _ bits, 3, [.word w x] => if w = bits * 2 then some (some (.word bits (x.setWidth bits))) else none
  -- createFlag (68-83): `gt`, `lt`, `or`
  | .ovf _ s bits, 4, [.word w x] =>
    if w = bits * 2 then
      let max := BitVec.ofInt w (Overflow.getMax bits s)
      some (some (.word 1 (BitVec.ofBool (if s then max.slt x else max.ult x))))
    else none
  | .ovf _ s bits, 5, [.word w x] =>
    if w = bits * 2 then
      let min := BitVec.ofInt w (Overflow.getMin bits s)
      some (some (.word 1 (BitVec.ofBool (if s then x.slt min else x.ult min))))
    else none
  | .ovf _ _ _, 6, [.word w x, .word w' y] =>
    if w = 1 ∧ w' = 1 then some (some (.word w (x ||| y.setWidth w))) else none
  -- addCheck (98-103): zero extension to int, `__SMACK_check_overflow` (share/smack/lib/smack.c:1407-1410)
  | .ovf _ _ _, 7, [.word w x] => if w = 1 then some (some (.word 32 (x.setWidth 32))) else none
  | _, 8, [.word w x] => if w = 32 then (if x.toNat = 0 then some (some (.other 0)) else some none) else none
  | .ubsan, 9, [] => some (some (.word 32 ((1#1).setWidth 32)))
  -- addBlockingAssume (109-115), `__VERIFIER_assume` (share/smack/lib/smack.c:43-46)
  | .ubsan, 10, [] => some (some (.word 1 (~~~ 1#1)))
  | .ubsan, 11, [.word w x] => if w = 1 then some (some (.word 32 (x.setWidth 32))) else none
  | .ubsan, 12, [.word w x] => if w = 32 then (if x.toNat = 0 then none else some (some (.other 0))) else none
  | _, _, _ => none

end Smack.OvfPass
