/-
The Boogie expressions and statements generated for LLVM values and instructions: SmackRep.cpp:216-300, 491-1004, 1188-1222,
SmackInstGenerator.cpp:240-632, 890-1220. The prelude against which they are checked is `PreludeTy`.

An LLVM value that has a name in the Boogie program (instruction, argument, global, undef) is a register with that name. Not modelled
here: vectors, calls (`Calls`), `memcpy`/`memset` (`MemIntr`), annotations, the recording of values, inline assembly.
-/
import Verif.PreludeTy.Model

namespace Smack.Emit

open Smack.PreludeTy

/-- LLVM types, as far as distinguished by the code. Aggregates are represented by references. -/
inductive LTy where
  | int (n : Nat) | ptr | fp (k : FK) | agg
deriving DecidableEq, Repr

/-- SmackRep.cpp:216-244 `type`. -/
def tyName (m : Mode) : LTy → TName
  | .fp k =>
    if !m.flt then .ufloat
    else match k with
      | .half => .half
      | .single => .single
      | .double => .double
      | .longdouble => .longdouble
  | .int n => intT m n
  | .ptr => .ref
  | .agg => .ref

/-- The cast instructions of INSTRUCTION_TABLE (Naming.cpp:97-133); `addrspacecast` is not in the table. -/
inductive CastOp where
  | trunc | zext | sext | fptrunc | fpext | bitcast | fptoui | fptosi | uitofp | sitofp | ptrtoint | inttoptr
deriving DecidableEq, Repr

/-- INSTRUCTION_TABLE. -/
def CastOp.name : CastOp → String
  | .trunc => "$trunc"
  | .zext => "$zext"
  | .sext => "$sext"
  | .fptrunc => "$fptrunc"
  | .fpext => "$fpext"
  | .bitcast => "$bitcast"
  | .fptoui => "$fp2ui"
  | .fptosi => "$fp2si"
  | .uitofp => "$ui2fp"
  | .sitofp => "$si2fp"
  | .ptrtoint => "$p2i"
  | .inttoptr => "$i2p"

/-- Binary operations. -/
inductive BinOp where
  | add | sub | mul | sdiv | udiv | srem | urem | and | or | xor | lshr | ashr | shl
  | fadd | fsub | fmul | fdiv | frem
deriving DecidableEq, Repr

/-- INSTRUCTION_TABLE. -/
def BinOp.name : BinOp → String
  | .add => "$add"
  | .sub => "$sub"
  | .mul => "$mul"
  | .sdiv => "$sdiv"
  | .udiv => "$udiv"
  | .srem => "$srem"
  | .urem => "$urem"
  | .and => "$and"
  | .or => "$or"
  | .xor => "$xor"
  | .lshr => "$lshr"
  | .ashr => "$ashr"
  | .shl => "$shl"
  | .fadd => "$fadd"
  | .fsub => "$fsub"
  | .fmul => "$fmul"
  | .fdiv => "$fdiv"
  | .frem => "$frem"

/-- Predicates of `icmp` and `fcmp`. -/
inductive CmpOp where
  | eq | ne | sge | uge | sle | ule | slt | ult | sgt | ugt
  | ffalse | oeq | oge | ogt | ole | olt | one | ord | ftrue | ueq | fuge | fugt | fule | fult | une | uno
deriving DecidableEq, Repr

/-- CMPINST_TABLE (Naming.cpp:135-147). -/
def CmpOp.name : CmpOp → String
  | .eq => "$eq"
  | .ne => "$ne"
  | .sge => "$sge"
  | .uge => "$uge"
  | .sle => "$sle"
  | .ule => "$ule"
  | .slt => "$slt"
  | .ult => "$ult"
  | .sgt => "$sgt"
  | .ugt => "$ugt"
  | .ffalse => "$ffalse"
  | .oeq => "$foeq"
  | .oge => "$foge"
  | .ogt => "$fogt"
  | .ole => "$fole"
  | .olt => "$folt"
  | .one => "$fone"
  | .ord => "$ford"
  | .ftrue => "$ftrue"
  | .ueq => "$fueq"
  | .fuge => "$fuge"
  | .fugt => "$fugt"
  | .fule => "$fule"
  | .fult => "$fult"
  | .une => "$fune"
  | .uno => "$funo"

/-- CmpInst::isUnsigned. -/
def CmpOp.isUnsigned : CmpOp → Bool
  | .ugt | .uge | .ult | .ule => true
  | _ => false

mutual

/-- LLVM values: a register (anything with a name), a literal, or a constant expression. `cint w v` is the `w`-bit constant with
unsigned value `v`; the three numbers of `cfp` are those read from the printed form (SmackRep.cpp:709-727). -/
inductive Val where
  | reg (x : String) (t : LTy)
  | cint (w v : Nat)
  | cfp (k : FK) (i f e : Int)
  | null
  | gep (p : Val) (ixs : Ixs)
  | cast (op : CastOp) (v : Val) (t : LTy)
  | bop (op : BinOp) (l r : Val)
  | cmp (p : CmpOp) (l r : Val)
  | sel (c a b : Val)

/-- The indices of a `getelementptr`: a structure field (its number and its offset), or an index with the size of the elements. -/
inductive Ixs where
  | nil
  | field (no off : Nat) (rest : Ixs)
  | idx (i : Val) (size : Nat) (rest : Ixs)

end

/-- The LLVM type of a value. -/
def Val.ty : Val → LTy
  | .reg _ t => t
  | .cint w _ => .int w
  | .cfp k _ _ _ => .fp k
  | .null => .ptr
  | .gep _ _ => .ptr
  | .cast _ _ t => t
  | .bop _ l _ => l.ty
  | .cmp _ _ _ => .int 1
  | .sel _ a _ => a.ty

/-- Type::getIntegerBitWidth. -/
def LTy.width : LTy → Nat
  | .int n => n
  | _ => 0

/-- APInt::getSExtValue of a constant. -/
def sext (w v : Nat) : Int := if 2 ^ (w - 1) ≤ v then (v : Int) - 2 ^ w else v

/-- SmackRep.cpp:627-653 `lit` for integers. -/
def litInt (m : Mode) (w v : Nat) (isUnsigned isUnsignedInst : Bool) : Ex :=
  let neg := decide (1 < w) &&
    (if isUnsigned then (if isUnsignedInst then false else sext w v == -1) else decide (sext w v < 0))
  let e := iLit m (if neg then 2 ^ w - v else v) w
  if neg then .fn ⟨"$sub", [.ty (if m.bp then .bv w else .i w)]⟩ [iLit m 0 w, e] else e

/-- Output of a `long long` (Expr::lit(long long)). -/
def litLL (v : Int) : Ex := if 0 ≤ v then .int v.toNat else .negInt v.natAbs

/-- SmackRep.cpp:655-728 `lit` for floating-point constants; the sizes are those of 659-672. -/
def litFp (m : Mode) (k : FK) (i f e : Int) : Ex :=
  if m.flt then
    match k with
    | .half => .fp 11 5
    | .single => .fp 24 8
    | .double => .fp 53 11
    | .longdouble => .fp 65 15
  else .fn ⟨"$fp", []⟩ [litLL i, litLL f, litLL e]

/-- SmackRep.cpp:544-569 `pa(base, idx, size)`. -/
def pa (m : Mode) (base idx : Ex) (size : Nat) : Ex :=
  .fn ⟨"$add", [.ty .ref]⟩ [base, .fn ⟨"$mul", [.ty .ref]⟩ [idx, pLit m size]]

/-- SmackRep.cpp:544-553 `pa` with a constant index. -/
def paConst (m : Mode) (base : Ex) (idx : Int) (size : Nat) : Ex :=
  if 0 ≤ idx then pa m base (pLit m idx.toNat) size
  else pa m base (.fn ⟨"$sub", [.ty .ref]⟩ [pLit m 0, pLit m idx.natAbs]) size

/-- SmackRep.cpp:878-898 `cast`, for the translated operand. -/
def castEx (m : Mode) (op : CastOp) (src dst : LTy) (e : Ex) : Ex :=
  let f : Sym := ⟨op.name, [.ty (tyName m src), .ty (tyName m dst)]⟩
  match op with
  | .fptrunc | .fpext | .sitofp | .uitofp => if m.flt then .fn f [.var "$rmode", e] else .fn f [e]
  | .fptosi | .fptoui => if m.flt then .fn f [.rm, e] else .fn f [e]
  | _ => .fn f [e]

/-- SmackRep.cpp:904-911 `isFpArithOp`. -/
def BinOp.isFpArith : BinOp → Bool
  | .fadd | .fsub | .fmul | .fdiv => true
  | _ => false

/-- SmackRep.cpp:936-944: the flags for the operands. -/
def BinOp.flags (op : BinOp) (isUnsigned : Bool) : Bool × Bool :=
  match op with
  | .sdiv | .srem => (false, false)
  | .udiv | .urem | .sub => (true, true)
  | _ => (isUnsigned, false)

/-- SmackRep.cpp:923-948 `bop`, for the translated operands. -/
def bopEx (m : Mode) (op : BinOp) (t : LTy) (l r : Ex) : Ex :=
  let f : Sym := ⟨op.name, [.ty (tyName m t)]⟩
  if op.isFpArith then (if m.flt then .fn f [.var "$rmode", l, r] else .fn f [l, r])
  else .fn f [l, r]

/-- SmackRep.cpp:973-984 `cmp`, for the translated operands. -/
def cmpEx (m : Mode) (p : CmpOp) (t : LTy) (l r : Ex) : Ex :=
  match t with
  | .fp _ => .ite (.fn ⟨p.name, [.ty (tyName m t), .ty .bool]⟩ [l, r]) (iLit m 1 1) (iLit m 0 1)
  | _ => .fn ⟨p.name, [.ty (tyName m t)]⟩ [l, r]

/-- SmackRep.cpp:994-1004 `select`, for the translated operands. -/
def selEx (m : Mode) (c a b : Ex) : Ex := .ite (.bin .eq c (iLit m 1 1)) a b

/-- GEPOperator::hasAllZeroIndices. -/
def Ixs.allZero : Ixs → Bool
  | .nil => true
  | .field no _ rest => no == 0 && rest.allZero
  | .idx (.cint _ v) _ rest => v == 0 && rest.allZero
  | .idx _ _ _ => false

mutual

/-- SmackRep.cpp:796-868 `expr`. A constant is first stripped of pointer casts and of `getelementptr`s with zero indices (799-801,
Value::stripPointerCastsAndAliases): for these the result is that of the operand. -/
def expr (m : Mode) : Val → Bool → Bool → Ex
  | .reg x _, _, _ => .var x
  | .cint w v, u, ui => litInt m w v u ui
  | .cfp k i f e, _, _ => litFp m k i f e
  | .null, _, _ => .var "$0.ref"
  | .gep p ixs, u, ui => if ixs.allZero then expr m p u ui else arith m (expr m p false false) ixs
  | .cast op v t, u, ui =>
    if op = .bitcast ∧ v.ty = .ptr ∧ t = .ptr then expr m v u ui else castEx m op v.ty t (expr m v false false)
  | .bop op l r, _, _ =>
    let fl := if op.isFpArith then (false, false) else op.flags false
    bopEx m op l.ty (expr m l fl.1 fl.2) (expr m r fl.1 fl.2)
  | .cmp p l r, _, _ => cmpEx m p l.ty (expr m l p.isUnsigned true) (expr m r p.isUnsigned true)
  | .sel c a b, _, _ => selEx m (expr m c false false) (expr m a true true) (expr m b true true)

/-- SmackRep.cpp:761-793: the loop of `ptrArith` over the indices. -/
def arith (m : Mode) (e : Ex) : Ixs → Ex
  | .nil => e
  | .field _ off rest => arith m (paConst m e off 1) rest
  | .idx (.cint w v) size rest => arith m (paConst m e (sext w v) size) rest
  | .idx i size rest => arith m (pa m e (integerToPointer m (expr m i false false) i.ty.width) size) rest

end

/-! ## Memory -/

/-- What the code generator asks of a region (Regions.h): the type of its accesses (`none` if they differ), and whether it is a
single scalar or accessed byte by byte. -/
structure Reg where
  ty : Option LTy
  singleton : Bool
  bytewise : Bool
deriving DecidableEq, Repr

/-- SmackRep.cpp:264-272 `memType`. -/
def memType (m : Mode) (r : Reg) : TName :=
  let t := match r.ty with | some t => tyName m t | none => intT m 8
  if !r.singleton || (m.bp && m.noInfer) then .map t else t

/-- SmackRep.cpp:491-500 `isUnsafeFloatAccess`; the assertion of line 497 is not modelled (it is an additional exit). -/
def unsafeFp (m : Mode) (elem : LTy) (res : Option LTy) : Bool :=
  match elem with
  | .fp _ => (res == none || res == some (.int 8)) && !m.bp
  | _ => false

/-- SmackRep.cpp:502-519 `load`: `mem` is the name of the memory variable, `p` the translated address. -/
def loadEx (m : Mode) (mem : String) (r : Reg) (t : LTy) (p : Ex) : Ex :=
  if r.singleton then .var mem
  else .fn ⟨"$load", (if r.bytewise then [.bytes] else if unsafeFp m t r.ty then [.unsf] else []) ++ [.ty (tyName m t)]⟩ [.var mem, p]

/-- SmackRep.cpp:530-542: the right-hand side of the assignment of `store`. -/
def storeEx (m : Mode) (mem : String) (r : Reg) (t : LTy) (p val : Ex) : Ex :=
  if r.singleton then val
  else .fn ⟨"$store", (if r.bytewise then [.bytes] else if unsafeFp m t r.ty then [.unsf] else []) ++ [.ty (tyName m t)]⟩
    [.var mem, p, val]

/-- SmackRep.cpp:1188-1206 `inverseFPCastAssume(src, destType)`. -/
def inverseAssume (m : Mode) (src dst : LTy) (e : Ex) : Option Ex :=
  if !(m.bp && m.flt) then none
  else match src, dst with
    | .fp _, .int _ =>
      some (.bin .eq (.fn ⟨"$bitcast", [.ty (tyName m dst), .ty (tyName m src)]⟩
        [.fn ⟨"$bitcast", [.ty (tyName m src), .ty (tyName m dst)]⟩ [e]]) e)
    | _, _ => none

/-- SmackRep.cpp:1208-1222 `inverseFPCastAssume(StoreInst)`. The integer type has the size of the floating-point type
(Type::getPrimitiveSizeInBits). -/
def storeAssume (m : Mode) (r : Reg) (t : LTy) (val : Ex) : Option Ex :=
  match t with
  | .fp k => if !r.bytewise || r.singleton then none else inverseAssume m (.fp k) (.int k.width) val
  | _ => none

/-! ## Statements -/

/-- The statements generated. `alloc x e` is `call x := $alloc(e)`. -/
inductive St where
  | assign (x : String) (e : Ex)
  | assume (e : Ex)
  | havoc (x : String)
  | alloc (x : String) (e : Ex)
deriving Repr

/-- Operations of `atomicrmw` in ATOMICRMWINST_TABLE (Naming.cpp:149-154); `none` is Xchg. `fadd` and `fsub` are not in the table. -/
inductive RmwOp where
  | add | sub | and | nand | or | xor | max | min | umax | umin
deriving DecidableEq, Repr

def RmwOp.name : RmwOp → String
  | .add => "$add"
  | .sub => "$sub"
  | .and => "$and"
  | .nand => "$nand"
  | .or => "$or"
  | .xor => "$xor"
  | .max => "$smax"
  | .min => "$smin"
  | .umax => "$umax"
  | .umin => "$umin"

/-- The intrinsics that are translated to expressions (SmackInstGenerator.cpp:1160-1207). -/
inductive UnFp where
  | fabs | sqrt
deriving DecidableEq, Repr

inductive RoundOp where
  | ceil | floor | nearbyint | rint | round | trunc
deriving DecidableEq, Repr

/-- An access: the memory variable and region of the pointer operand, the element type of the pointer, and the pointer. -/
structure Acc where
  mem : String
  reg : Reg
  ty : LTy
  ptr : Val

/-- Instructions. `x` is the register of the result. In `extract` and `insert`, the path is given with the element type reached
by each index, and for `insert` with the types of all elements on each level. -/
inductive Instr where
  | ret (v : Option Val)
  | br (c : Val)
  | bin (x : String) (op : BinOp) (nsw : Bool) (l r : Val)
  | fneg (x : String) (v : Val)
  | extract (x : String) (v : Val) (path : List (Nat × LTy))
  | insert (x : String) (v w : Val) (path : List (Nat × List LTy))
  | alloca (x : String) (size : Nat) (n : Val)
  | load (x : String) (a : Acc)
  | store (a : Acc) (v : Val)
  | cmpxchg (x : String) (a : Acc) (c s : Val)
  | rmw (x : String) (op : Option RmwOp) (a : Acc) (v : Val)
  | gep (x : String) (p : Val) (ixs : Ixs)
  | cast (x : String) (op : CastOp) (v : Val) (t : LTy)
  | cmp (x : String) (p : CmpOp) (l r : Val)
  | sel (x : String) (c a b : Val)
  | llvmAssume (v : Val)
  | expect (x : String) (v : Val)
  | fp16up (x : String) (v : Val) (t : LTy)
  | fp16down (x : String) (v : Val)
  | fma (x : String) (a b c : Val)
  | unFp (x : String) (op : UnFp) (v : Val)
  | minmax (x : String) (isMax : Bool) (a b : Val)
  | round (x : String) (op : RoundOp) (v : Val)
  | bitreverse (x : String) (v : Val)
  | bswap (x : String) (v : Val)
  | ctlz (x : String) (v z : Val)
  | cttz (x : String) (v z : Val)
  | ctpop (x : String) (v : Val)

/-- SmackInstGenerator.cpp:417-430: the loop of visitExtractValueInst. -/
def extractEx (m : Mode) (e : Ex) : List (Nat × LTy) → Ex
  | [] => e
  | (i, t) :: rest => extractEx m (.fn ⟨"$extractvalue", [.ty (tyName m t)]⟩ [e, .int i]) rest

/-- SmackInstGenerator.cpp:448-456: the assumptions for the other elements of one level. -/
def insertOthers (m : Mode) (res old : Ex) (idx : Nat) : Nat → List LTy → List St
  | _, [] => []
  | j, t :: ts =>
    (if j ≠ idx then
      [St.assume (.bin .eq (.fn ⟨"$extractvalue", [.ty (tyName m t)]⟩ [res, .int j])
        (.fn ⟨"$extractvalue", [.ty (tyName m t)]⟩ [old, .int j]))]
    else []) ++ insertOthers m res old idx (j + 1) ts

/-- SmackInstGenerator.cpp:446-466: the loop of visitInsertValueInst. -/
def insertSts (m : Mode) (val : Ex) (res old : Ex) : List (Nat × List LTy) → List St
  | [] => [.assume (.bin .eq res val)]
  | (i, ts) :: rest =>
    let t := (ts[i]?).getD .ptr
    insertOthers m res old i 0 ts ++
      insertSts m val (.fn ⟨"$extractvalue", [.ty (tyName m t)]⟩ [res, .int i])
        (.fn ⟨"$extractvalue", [.ty (tyName m t)]⟩ [old, .int i]) rest

/-- SmackInstGenerator.cpp:985-997: the loop of `bitreverse`; `n` iterations remain, the last index is `w / 2 - 1`. -/
def revLoop (e : Ex) (w off : Nat) (i : Nat) : Nat → Ex → Ex
  | 0, body => body
  | n + 1, body =>
    revLoop e w off (i + 1) n
      (.concat (.concat (.extract e (w / 2 - i) (w / 2 - i - 1)) body) (.extract e (w / 2 + i + 1 + off) (w / 2 + i + off)))

/-- SmackInstGenerator.cpp:974-999. -/
def reverseEx (e : Ex) (w : Nat) : Ex :=
  if w % 2 = 0 then
    revLoop e w 0 1 (w / 2 - 1) (.concat (.extract e (w / 2) (w / 2 - 1)) (.extract e (w / 2 + 1) (w / 2)))
  else revLoop e w 1 0 (w / 2) (.extract e (w / 2 + 1) (w / 2))

/-- SmackInstGenerator.cpp:1010-1016: the loop of `bswap`; `n` iterations remain, the index is `8 i`. -/
def swapLoop (e : Ex) (w : Nat) (i : Nat) : Nat → Ex → Ex
  | 0, body => body
  | n + 1, body =>
    swapLoop e w (i + 1) n
      (.concat (.concat (.extract e (w / 2 - 8 * i) (w / 2 - 8 * i - 8)) body) (.extract e (w / 2 + 8 * i + 8) (w / 2 + 8 * i)))

/-- SmackInstGenerator.cpp:1001-1018. The loop runs for the multiples of 8 from 8 up to less than `w / 2`. -/
def swapEx (e : Ex) (w : Nat) : Ex :=
  swapLoop e w 1 ((w / 2 + 7) / 8 - 1) (.concat (.extract e (w / 2) (w / 2 - 8)) (.extract e (w / 2 + 8) (w / 2)))

/-- SmackInstGenerator.cpp:1027-1034. -/
def ctlzLoop (e : Ex) (w : Nat) : Nat → Ex
  | 0 => .bv w w
  | i + 1 => .ite (.bin .eq (.extract e (i + 1) i) (.bv 1 1)) (.bv (w - i - 1) w) (ctlzLoop e w i)

/-- SmackInstGenerator.cpp:1058-1065; `i` counts the iterations from `w` down. -/
def cttzLoop (e : Ex) (w : Nat) : Nat → Ex
  | 0 => .bv w w
  | k + 1 => .ite (.bin .eq (.extract e (w - k) (w - k - 1)) (.bv 1 1)) (.bv (w - k - 1) w) (cttzLoop e w k)

/-- SmackInstGenerator.cpp:1036-1046, 1067-1077. -/
def zeroUndef (x : String) (e z : Ex) (w : Nat) (body : Ex) : Ex :=
  .ite (.bin .and (.bin .eq z (.bv 1 1)) (.bin .eq e (.bv 0 w))) (.var x) body

/-- SmackInstGenerator.cpp:1092-1099. -/
def popBv (m : Mode) (e : Ex) (w : Nat) : Nat → Ex
  | 0 => .bv 0 w
  | i + 1 => .fn ⟨"$add", [.ty (intT m w)]⟩
      [.fn ⟨"$zext", [.ty (.bv 1), .ty (intT m w)]⟩ [.extract e (i + 1) i], popBv m e w i]

/-- SmackInstGenerator.cpp:1100-1110. The shift `1ull << i` is by less than 64 bits for the supported uses. -/
def popInt (m : Mode) (e : Ex) (w : Nat) : Nat → Ex
  | 0 => .int 0
  | i + 1 => .fn ⟨"$add", [.ty (intT m w)]⟩
      [.fn ⟨"$urem", [.ty (intT m w)]⟩ [.fn ⟨"$udiv", [.ty (intT m w)]⟩ [e, .int (2 ^ i)], .int 2], popInt m e w i]

def roundArg : RoundOp → Ex
  | .nearbyint | .rint => .var "$rmode"
  | _ => .rm

def UnFp.name : UnFp → String
  | .fabs => "$abs"
  | .sqrt => "$sqrt"

/-- Value::stripPointerCastsAndAliases for the stored value (SmackInstGenerator.cpp:505). For a constant, `expr` does the same; a
register that is itself the result of a pointer cast is given as the register it is stripped to. -/
def stored (m : Mode) (v : Val) : Ex := expr m v false false

/-- The statements of one instruction: SmackInstGenerator.cpp:240-275 (return, conditional branch), 339-374, 417-632, 919-1207. For
a branch, the two assumptions of its targets. The intrinsics are only translated this way when the required options are set
(`Instr.handled` in the specification). -/
def emit (m : Mode) : Instr → List St
  | .ret none => [.assign "$exn" (.bool false)]
  | .ret (some v) => [.assign "$r" (expr m v false false), .assign "$exn" (.bool false)]
  | .br c =>
    let e := Ex.bin .eq (expr m c false false) (iLit m 1 1)
    [.assume e, .assume (.not e)]
  | .bin x op nsw l r =>
    let fl := if op.isFpArith then (false, false) else op.flags (!nsw)
    [.assign x (bopEx m op l.ty (expr m l fl.1 fl.2) (expr m r fl.1 fl.2))]
  | .fneg x v => [.assign x (.fn ⟨"$fneg", [.ty (tyName m v.ty)]⟩ [expr m v false false])]
  | .extract x v path => [.assign x (extractEx m (expr m v false false) path)]
  | .insert x v w path => insertSts m (expr m w false false) (.var x) (expr m v false false) path
  | .alloca x size n =>
    [.alloc x (.fn ⟨"$mul", [.ty .ref]⟩ [pLit m size, integerToPointer m (expr m n false false) n.ty.width])]
  | .load x a => [.assign x (loadEx m a.mem a.reg a.ty (expr m a.ptr false false))]
  | .store a v =>
    .assign a.mem (storeEx m a.mem a.reg a.ty (expr m a.ptr false false) (stored m v)) ::
      (match storeAssume m a.reg a.ty (expr m v false false) with | some e => [.assume e] | none => [])
  | .cmpxchg x a c s =>
    let mem := loadEx m a.mem a.reg a.ty (expr m a.ptr false false)
    [ .assign x mem,
      .assign a.mem (storeEx m a.mem a.reg a.ty (expr m a.ptr false false)
        (.ite (.bin .eq mem (expr m c false false)) (expr m s false false) mem)) ]
  | .rmw x op a v =>
    let mem := loadEx m a.mem a.reg a.ty (expr m a.ptr false false)
    let val := expr m v false false
    [ .assign x mem,
      .assign a.mem (storeEx m a.mem a.reg a.ty (expr m a.ptr false false)
        (match op with | none => val | some o => .fn ⟨o.name, [.ty (tyName m v.ty)]⟩ [mem, val])) ]
  | .gep x p ixs => [.assign x (arith m (expr m p false false) ixs)]
  | .cast x op v t =>
    .assign x (castEx m op v.ty t (expr m v false false)) ::
      (if op = .bitcast then
        match inverseAssume m v.ty t (expr m v false false) with | some e => [.assume e] | none => []
      else [])
  | .cmp x p l r => [.assign x (cmpEx m p l.ty (expr m l p.isUnsigned true) (expr m r p.isUnsigned true))]
  | .sel x c a b => [.assign x (selEx m (expr m c false false) (expr m a true true) (expr m b true true))]
  | .llvmAssume v => [.assume (.bin .eq (expr m v false false) (if m.bp then .bv 1 1 else .int 1))]
  | .expect x v => [.assign x (expr m v false false)]
  | .fp16up x v t =>
    [.assign x (.fn ⟨"$fpext", [.ty .half, .ty (tyName m t)]⟩
      [.var "$rmode", .fn ⟨"$bitcast", [.ty (tyName m v.ty), .ty .half]⟩ [expr m v false false]])]
  | .fp16down x v =>
    [.assume (.bin .eq (.fn ⟨"$fptrunc", [.ty (tyName m v.ty), .ty .half]⟩ [.var "$rmode", expr m v false false])
      (.fn ⟨"$bitcast", [.ty (tyName m (.int 16)), .ty .half]⟩ [.var x]))]
  | .fma x a b c =>
    [.assign x (.fn ⟨"$fma", [.ty (tyName m a.ty)]⟩ [expr m a false false, expr m b false false, expr m c false false])]
  | .unFp x op v => [.assign x (.fn ⟨op.name, [.ty (tyName m v.ty)]⟩ [expr m v false false])]
  | .minmax x isMax a b =>
    [.assign x (.fn ⟨if isMax then "$max" else "$min", [.ty (tyName m a.ty)]⟩ [expr m a false false, expr m b false false])]
  | .round x op v => [.assign x (.fn ⟨"$round", [.ty (tyName m v.ty)]⟩ [roundArg op, expr m v false false])]
  | .bitreverse x v => [.assign x (reverseEx (expr m v false false) v.ty.width)]
  | .bswap x v => [.assign x (swapEx (expr m v false false) v.ty.width)]
  | .ctlz x v z =>
    let e := expr m v false false
    [.havoc x, .assign x (zeroUndef x e (expr m z false false) v.ty.width (ctlzLoop e v.ty.width v.ty.width))]
  | .cttz x v z =>
    let e := expr m v false false
    [.havoc x, .assign x (zeroUndef x e (expr m z false false) v.ty.width (cttzLoop e v.ty.width v.ty.width))]
  | .ctpop x v =>
    let e := expr m v false false
    [.assign x (if m.bp then popBv m e v.ty.width v.ty.width else popInt m e v.ty.width v.ty.width)]

end Smack.Emit
