/-
The Boogie prelude: lib/smack/Prelude.cpp. Types, constants and functions declared for every combination of options, with the
bodies of the inlined functions.

Names are structured: `Sym.text` gives the printed name. Bodies are complete terms. Not modelled: comments and the parts that
depend on the module: the memory variables (see `Emit`) and `$global_allocations`.
-/

namespace Smack.PreludeTy

/-- The options read by the prelude (SmackOptions) and the pointer size of the target (`ptrSizeInBits`). `noInfer` is
NoByteAccessInference, used by `memType`. -/
structure Mode where
  /-- BitPrecise -/
  bp : Bool
  /-- BitPrecisePointers -/
  bpp : Bool
  /-- WrappedIntegerEncoding -/
  wrap : Bool
  /-- FloatEnabled -/
  flt : Bool
  /-- NoByteAccessInference -/
  noInfer : Bool
  /-- ptrSizeInBits -/
  ptr : Nat
deriving DecidableEq, Repr

/-- Type names occurring in the output: `getIntTypeName`, `getBvTypeName`, `getFpTypeName` (Prelude.cpp:15-41, the names in Naming.cpp),
`getMapTypeName` (44). `fpB s e` is Boogie's built-in type float{s}e{e}. -/
inductive TName where
  | i (n : Nat) | bv (n : Nat)
  | ref | half | single | double | longdouble | ufloat | bool | int | rmode
  | fpB (s e : Nat)
  | map (t : TName)
deriving DecidableEq, Repr

/-- A component of an indexed name. -/
inductive Comp where
  | ty (t : TName) | bytes | unsf | num (n : Nat)
deriving DecidableEq, Repr

/-- `indexedName` (SmackRep.cpp:57-73) and `opName` (174-192): a base name and components separated by dots. -/
structure Sym where
  base : String
  idx : List Comp
deriving DecidableEq, Repr

/-- BinExpr::Binary, as far as used in the prelude and in the code modelled here. -/
inductive Bin where
  | eq | neq | lt | gt | lte | gte | plus | minus | times | and | or
deriving DecidableEq, Repr

/-- Boogie expressions (BoogieAst.h:58-265), as far as generated by the code modelled here. `fp` stands for a floating-point literal
of the given sizes (its value is C07's subject), `rm` for a rounding mode literal. -/
inductive Ex where
  | var (x : String)
  | int (v : Nat)
  | negInt (v : Nat)
  | bv (v w : Nat)
  | bool (b : Bool)
  | rm
  | fp (s e : Nat)
  | fn (f : Sym) (args : List Ex)
  | bin (op : Bin) (l r : Ex)
  | not (e : Ex)
  | ite (c a b : Ex)
  | sel (m i : Ex)
  | upd (m i v : Ex)
  | extract (e : Ex) (hi lo : Nat)
  | concat (l r : Ex)
deriving Repr

/-- An SMT operator name in a `:builtin` or `:bvbuiltin` attribute; `⟨"zero_extend", [8]⟩` is printed "(_ zero_extend 8)". -/
structure Smt where
  op : String
  idx : List Nat
deriving DecidableEq, Repr

/-- FuncDecl (BoogieAst.h): `attr` is the SMT operator of a built-in function; a function with a body is inlined, one with neither
is uninterpreted. -/
structure Fun where
  sym : Sym
  params : List (String × TName)
  ret : TName
  body : Option Ex := none
  attr : Option Smt := none
deriving Repr

/-- Prelude.cpp:175-176 INTEGER_SIZES. -/
def sizes : List Nat := [1, 5, 6, 8, 16, 24, 32, 33, 40, 48, 56, 64, 80, 88, 96, 128, 160, 256]

/-- FP_BIT_WIDTHS (183) with the type names of `getFpTypeName` (29-41) and FP_LAYOUT (180-181). -/
inductive FK where
  | half | single | double | longdouble
deriving DecidableEq, Repr

def fks : List FK := [.half, .single, .double, .longdouble]

def FK.width : FK → Nat
  | .half => 16
  | .single => 32
  | .double => 64
  | .longdouble => 80

def FK.name : FK → TName
  | .half => .half
  | .single => .single
  | .double => .double
  | .longdouble => .longdouble

/-- Exponent and significand widths, 180-181. -/
def FK.layout : FK → Nat × Nat
  | .half => (5, 11)
  | .single => (8, 24)
  | .double => (11, 53)
  | .longdouble => (15, 65)

/-- SmackRep.cpp:161-166 `intType`. -/
def intT (m : Mode) (n : Nat) : TName := if m.bp then .bv n else .i n

/-- SmackRep.cpp:154-159 `pointerType`. -/
def ptrT (m : Mode) : TName := if m.bpp then .bv m.ptr else .i m.ptr

/-- `makeListOfElems` (76-86) with variable names of `makeVarName` (49-51): one variable is called `x`, several are `x1`, `x2`, …. -/
def vars (pre : String) (n : Nat) (t : TName) : List (String × TName) :=
  if n = 1 then [(pre, t)] else (List.range n).map fun k => (pre ++ toString (k + 1), t)

/-- The `make…VarExpr` functions (68-74). -/
def v (x : String) : Ex := .var x

/-- TypeDeclGen::generate (1056-1071): a declared type and its synonym (`none` for an uninterpreted type). -/
def typeDecls (m : Mode) : List (TName × Option TName) :=
  sizes.map (fun n => (TName.i n, some TName.int)) ++ [(.ref, some (ptrT m))] ++
  (if m.flt then
    [(.half, some (.fpB 11 5)), (.single, some (.fpB 24 8)), (.double, some (.fpB 53 11)), (.longdouble, some (.fpB 65 15))]
  else [(.ufloat, none)])

/-! ## Pointer literals and conversions (SmackRep.cpp) -/

/-- SmackRep.cpp:599-602 `pointerLit(unsigned long long)`. -/
def pLit (m : Mode) (k : Nat) : Ex := if m.bpp then .bv k m.ptr else .int k

/-- SmackRep.cpp:612-614 `integerLit(unsigned long long, width)`. -/
def iLit (m : Mode) (k w : Nat) : Ex := if m.bp then .bv k w else .int k

/-- SmackRep.cpp:591-597 `bitConversion`. -/
def bitConversion (m : Mode) (e : Ex) (src dst : Bool) : Ex :=
  if src = dst then e
  else .fn ⟨if src then "$bv2int" else "$int2bv", [.num m.ptr]⟩ [e]

/-- SmackRep.cpp:571-579 `pointerToInteger`. -/
def pointerToInteger (m : Mode) (e : Ex) (w : Nat) : Ex :=
  let e := bitConversion m e m.bpp m.bp
  if m.ptr < w then .fn ⟨"$zext", [.ty (intT m m.ptr), .ty (intT m w)]⟩ [e]
  else if w < m.ptr then .fn ⟨"$trunc", [.ty (intT m m.ptr), .ty (intT m w)]⟩ [e]
  else e

/-- SmackRep.cpp:581-589 `integerToPointer`. -/
def integerToPointer (m : Mode) (e : Ex) (w : Nat) : Ex :=
  let e :=
    if w < m.ptr then .fn ⟨"$zext", [.ty (intT m w), .ty (intT m m.ptr)]⟩ [e]
    else if m.ptr < w then .fn ⟨"$trunc", [.ty (intT m w), .ty (intT m m.ptr)]⟩ [e]
    else e
  bitConversion m e m.bp m.bpp

/-! ## Integer operations -/

/-- The kinds of Op (Prelude.h:16-26, 70-94) of an integer operation; `absent` is the null pointer. -/
inductive OpKind where
  | absent
  | builtin (s : Smt)
  | inlined (body : Nat → Ex)
  | uninterpreted

structure ArithOp where
  name : String
  arity : Nat
  intOp : OpKind
  bvOp : OpKind
  usedByPtr : Bool

/-- 457-464 `wrappedExpr`. `Naming::getIntWrapFunc(isUnsigned)` is "$tou" or "$tos". -/
def wrapped (m : Mode) (size : Nat) (e : Ex) (isUnsigned : Bool) : Ex :=
  if m.wrap then .fn ⟨if isUnsigned then "$tou" else "$tos", [.ty (.i size)]⟩ [e] else e

/-- 351-353 `intArithExpr`. -/
def intArith (op : Bin) (_size : Nat) : Ex := .bin op (v "i1") (v "i2")

/-- 357-366 `bvMinMaxExpr<SIGN, MIN>`. -/
def bvMinMax (sign min : Bool) (size : Nat) : Ex :=
  .ite (.fn ⟨"$" ++ (if sign then "s" else "u") ++ (if min then "lt" else "gt"), [.ty (.bv size), .ty .bool]⟩ [v "i1", v "i2"])
    (v "i1") (v "i2")

/-- 370-380 `intMinMaxExpr<MIN, SIGN>`. -/
def intMinMax (min sign : Bool) (size : Nat) : Ex :=
  .ite (.fn ⟨"$" ++ (if sign then "s" else "u") ++ (if min then "lt" else "gt"), [.ty (.i size), .ty .bool]⟩ [v "i1", v "i2"])
    (v "i1") (v "i2")

/-- 395-413 `sremExpr`. -/
def sremBody (m : Mode) (size : Nat) : Ex :=
  let t := Comp.ty (.i size)
  let dividend := wrapped m size (v "i1") false
  let divisor := wrapped m size (v "i2") false
  let mod := Ex.fn ⟨"$smod", [t]⟩ [dividend, divisor]
  let modNeZero := Ex.fn ⟨"$ne", [t, .ty .bool]⟩ [mod, .int 0]
  let ltZero := Ex.fn ⟨"$slt", [t, .ty .bool]⟩ [dividend, .int 0]
  let negRem := Ex.fn ⟨"$sub", [t]⟩ [mod, .fn ⟨"$smax", [t]⟩ [divisor, .fn ⟨"$sub", [t]⟩ [.int 0, divisor]]]
  .ite (.bin .and modNeZero ltZero) negRem mod

/-- 417-424 `uremExpr`. -/
def uremBody (m : Mode) (size : Nat) : Ex :=
  .fn ⟨"$smod", [.ty (.i size)]⟩ [wrapped m size (v "i1") true, wrapped m size (v "i2") true]

/-- 428-443 `tosExpr`. -/
def tosBody (size : Nat) : Ex :=
  let t := Comp.ty (.i size)
  .ite (.bin .and (.bin .gte (v "i") (.negInt (2 ^ (size - 1)))) (.bin .lt (v "i") (.int (2 ^ (size - 1))))) (v "i")
    (.fn ⟨"$sub", [t]⟩ [.fn ⟨"$smod", [t]⟩ [.fn ⟨"$add", [t]⟩ [v "i", .int (2 ^ (size - 1))], .int (2 ^ size)],
      .int (2 ^ (size - 1))])

/-- 447-455 `touExpr`. -/
def touBody (size : Nat) : Ex :=
  .ite (.bin .and (.bin .gte (v "i") (.int 0)) (.bin .lt (v "i") (.int (2 ^ size)))) (v "i")
    (.fn ⟨"$smod", [.ty (.i size)]⟩ [v "i", .int (2 ^ size)])

/-- 465-469 `divExpr<SIGN>`. -/
def divBody (m : Mode) (sign : Bool) (size : Nat) : Ex :=
  .fn ⟨"$idiv", [.ty (.i size)]⟩ [wrapped m size (v "i1") (!sign), wrapped m size (v "i2") (!sign)]

/-- `bvAttrFunc` (276-278). -/
def bvAttr (opName : String) : OpKind := .builtin ⟨"bv" ++ opName, []⟩

/-- `intAttrFunc` (281-283): the operation name without its first letter. -/
def intAttr (rest : String) : OpKind := .builtin ⟨rest, []⟩

/-- 478-544 `intArithOpTable`. -/
def arithTable (m : Mode) : List ArithOp :=
  [ ⟨"add", 2, .inlined (intArith .plus), bvAttr "add", true⟩,
    ⟨"sub", 2, .inlined (intArith .minus), bvAttr "sub", true⟩,
    ⟨"mul", 2, .inlined (intArith .times), bvAttr "mul", true⟩,
    ⟨"idiv", 2, intAttr "div", bvAttr "idiv", false⟩,
    ⟨"sdiv", 2, .inlined (divBody m true), bvAttr "sdiv", false⟩,
    ⟨"udiv", 2, .inlined (divBody m false), bvAttr "udiv", false⟩,
    ⟨"smod", 2, intAttr "mod", bvAttr "smod", false⟩,
    ⟨"srem", 2, .inlined (sremBody m), bvAttr "srem", false⟩,
    ⟨"urem", 2, .inlined (uremBody m), bvAttr "urem", false⟩,
    ⟨"shl", 2, .uninterpreted, bvAttr "shl", false⟩,
    ⟨"lshr", 2, .uninterpreted, bvAttr "lshr", false⟩,
    ⟨"ashr", 2, .uninterpreted, bvAttr "ashr", false⟩,
    ⟨"and", 2, .uninterpreted, bvAttr "and", false⟩,
    ⟨"or", 2, .uninterpreted, bvAttr "or", false⟩,
    ⟨"xor", 2, .uninterpreted, bvAttr "xor", false⟩,
    ⟨"nand", 2, .uninterpreted, bvAttr "nand", false⟩,
    ⟨"not", 1, .uninterpreted, bvAttr "not", false⟩,
    ⟨"tos", 1, if m.wrap then .inlined tosBody else .absent, .absent, true⟩,
    ⟨"tou", 1, if m.wrap then .inlined touBody else .absent, .absent, true⟩,
    ⟨"smin", 2, .inlined (intMinMax true true), .inlined (bvMinMax true true), false⟩,
    ⟨"smax", 2, .inlined (intMinMax false true), .inlined (bvMinMax true false), false⟩,
    ⟨"umin", 2, .inlined (intMinMax true false), .inlined (bvMinMax false true), false⟩,
    ⟨"umax", 2, .inlined (intMinMax false false), .inlined (bvMinMax false false), false⟩ ]

/-- The declaration for one kind of Op: `builtinOp`, `inlinedOp`, `uninterpretedOp` (145-167). -/
def declare (k : OpKind) (size : Nat) (sym : Sym) (params : List (String × TName)) (ret : TName) : List Fun :=
  match k with
  | .absent => []
  | .builtin s => [{ sym := sym, params := params, ret := ret, attr := some s }]
  | .inlined b => [{ sym := sym, params := params, ret := ret, body := some (b size) }]
  | .uninterpreted => [{ sym := sym, params := params, ret := ret }]

/-- 290-337 `getIntFunc`, `getBvFunc`. -/
def ArithOp.intFun (o : ArithOp) (size : Nat) : List Fun :=
  declare o.intOp size ⟨"$" ++ o.name, [.ty (.i size)]⟩ (vars "i" o.arity (.i size)) (.i size)

def ArithOp.bvFun (o : ArithOp) (size : Nat) : List Fun :=
  declare o.bvOp size ⟨"$" ++ o.name, [.ty (.bv size)]⟩ (vars "i" o.arity (.bv size)) (.bv size)

/-- 339-348 `getFuncs`. -/
def ArithOp.funs (m : Mode) (o : ArithOp) (size : Nat) : List Fun :=
  (if !m.bp || (!m.bpp && o.usedByPtr) then o.intFun size else []) ++
  (if m.bp || (m.bpp && o.usedByPtr) then o.bvFun size else [])

/-- 546-548. -/
def arithDecls (m : Mode) : List Fun := (arithTable m).flatMap fun o => sizes.flatMap fun n => o.funs m n

/-- 650-684 `intPredExpr<OP, SIGN>`. -/
def intPred (m : Mode) (op : Bin) (sign : Bool) (size : Nat) : Ex :=
  .bin op (wrapped m size (v "i1") (!sign)) (wrapped m size (v "i2") (!sign))

/-- A row of `intPredTable` (712-717). -/
structure PredOp where
  name : String
  intOp : Nat → Ex
  bvOp : OpKind

/-- 690-717. -/
def predTable (m : Mode) : List PredOp :=
  [ ⟨"ule", intPred m .lte false, bvAttr "ule"⟩, ⟨"ult", intPred m .lt false, bvAttr "ult"⟩,
    ⟨"uge", intPred m .gte false, bvAttr "uge"⟩, ⟨"ugt", intPred m .gt false, bvAttr "ugt"⟩,
    ⟨"sle", intPred m .lte true, bvAttr "sle"⟩, ⟨"slt", intPred m .lt true, bvAttr "slt"⟩,
    ⟨"sge", intPred m .gte true, bvAttr "sge"⟩, ⟨"sgt", intPred m .gt true, bvAttr "sgt"⟩,
    ⟨"eq", intPred m .eq false, .inlined (intPred m .eq false)⟩,
    ⟨"ne", intPred m .neq false, .inlined (intPred m .neq false)⟩ ]

/-- 586-604 `getIntFuncs`. -/
def PredOp.intFuns (o : PredOp) (size : Nat) : List Fun :=
  [ { sym := ⟨"$" ++ o.name, [.ty (.i size), .ty .bool]⟩, params := vars "i" 2 (.i size), ret := .bool,
      body := some (o.intOp size) },
    { sym := ⟨"$" ++ o.name, [.ty (.i size)]⟩, params := vars "i" 2 (.i size), ret := .i 1,
      body := some (.ite (.fn ⟨"$" ++ o.name, [.ty (.i size), .ty .bool]⟩ [v "i1", v "i2"]) (.int 1) (.int 0)) } ]

/-- 606-632 `getBvFuncs`. -/
def PredOp.bvFuns (o : PredOp) (size : Nat) : List Fun :=
  declare o.bvOp size ⟨"$" ++ o.name, [.ty (.bv size), .ty .bool]⟩ (vars "i" 2 (.bv size)) .bool ++
  [ { sym := ⟨"$" ++ o.name, [.ty (.bv size)]⟩, params := vars "i" 2 (.bv size), ret := .bv 1,
      body := some (.ite (.fn ⟨"$" ++ o.name, [.ty (.bv size), .ty .bool]⟩ [v "i1", v "i2"]) (.bv 1 1) (.bv 0 1)) } ]

/-- 634-648 `getFuncs`. -/
def PredOp.funs (m : Mode) (o : PredOp) (size : Nat) : List Fun :=
  (if !m.bp || !m.bpp then o.intFuns size else []) ++ (if m.bp || m.bpp then o.bvFuns size else [])

/-- 719-721. -/
def predDecls (m : Mode) : List Fun := (predTable m).flatMap fun o => sizes.flatMap fun n => o.funs m n

/-- The pairs of the loops of `generateConvOps` (917-927): each size with every later one. -/
def pairs : List Nat → List (Nat × Nat)
  | [] => []
  | a :: l => l.map (fun b => (a, b)) ++ pairs l

/-- IntConv (724-896): the functions for one pair; the first size is the smaller one. -/
def convTrunc (m : Mode) (p : Nat × Nat) : Fun :=
  if m.bp then
    { sym := ⟨"$trunc", [.ty (.bv p.2), .ty (.bv p.1)]⟩, params := vars "i" 1 (.bv p.2), ret := .bv p.1,
      body := some (.extract (v "i") p.1 0) }
  else
    { sym := ⟨"$trunc", [.ty (.i p.2), .ty (.i p.1)]⟩, params := vars "i" 1 (.i p.2), ret := .i p.1,
      body := some (wrapped m p.1 (v "i") true) }

/-- `intExtExpr`, `extAttr` (811-895). -/
def convExt (m : Mode) (sign : Bool) (p : Nat × Nat) : Fun :=
  let name := if sign then "$sext" else "$zext"
  if m.bp then
    { sym := ⟨name, [.ty (.bv p.1), .ty (.bv p.2)]⟩, params := vars "i" 1 (.bv p.1), ret := .bv p.2,
      attr := some ⟨if sign then "sign_extend" else "zero_extend", [p.2 - p.1]⟩ }
  else
    { sym := ⟨name, [.ty (.i p.1), .ty (.i p.2)]⟩, params := vars "i" 1 (.i p.1), ret := .i p.2,
      body := some (wrapped m p.1 (v "i") (!sign)) }

/-- 898-928 `generateConvOps`. -/
def convDecls (m : Mode) : List Fun :=
  (pairs sizes).map (convTrunc m) ++ (pairs sizes).map (convExt m true) ++ (pairs sizes).map (convExt m false)

/-! ## Memory operations -/

/-- 187-193 `mapSelExpr`. -/
def mapSel (m : Mode) (k : Nat) : Ex :=
  .sel (v "M") (if k = 0 then v "p" else .fn ⟨"$add", [.ty .ref]⟩ [v "p", pLit m k])

/-- 197-205 `mapUpdExpr`. -/
def mapUpd (m : Mode) (k : Nat) (val map : Ex) : Ex :=
  .upd map (if k = 0 then v "p" else .fn ⟨"$add", [.ty .ref]⟩ [v "p", pLit m k]) val

/-- 208-212 `safeLoad`. -/
def safeLoad (m : Mode) (t : TName) : Fun :=
  { sym := ⟨"$load", [.ty t]⟩, params := [("M", .map t), ("p", .ref)], ret := t, body := some (mapSel m 0) }

/-- 227-234 `safeStore`; the binding is called `i` or `f`. -/
def safeStore (m : Mode) (x : String) (t : TName) : Fun :=
  { sym := ⟨"$store", [.ty t]⟩, params := [("M", .map t), ("p", .ref), (x, t)], ret := .map t,
    body := some (mapUpd m 0 (v x) (v "M")) }

/-- 217-224 `unsafeLoad`. -/
def rawLoad (bytes : Bool) (t : TName) (body : Ex) : Fun :=
  { sym := ⟨"$load", [if bytes then .bytes else .unsf, .ty t]⟩,
    params := [("M", .map (if bytes then .bv 8 else .i 8)), ("p", .ref)], ret := t, body := some body }

/-- 239-247 `unsafeStore`. -/
def rawStore (bytes : Bool) (x : String) (t : TName) (body : Ex) : Fun :=
  { sym := ⟨"$store", [if bytes then .bytes else .unsf, .ty t]⟩,
    params := [("M", .map (if bytes then .bv 8 else .i 8)), ("p", .ref), (x, t)],
    ret := .map (if bytes then .bv 8 else .i 8), body := some body }

/-- The loop of 981-989 for the load: `k` iterations after the first byte. -/
def loadBytes (m : Mode) : Nat → Ex
  | 0 => mapSel m 0
  | k + 1 => .concat (mapSel m (k + 1)) (loadBytes m k)

/-- The loop of 981-989 for the store. -/
def storeBytes (m : Mode) : Nat → Ex
  | 0 => mapUpd m 0 (.extract (v "i") 8 0) (v "M")
  | k + 1 => mapUpd m (k + 1) (.extract (v "i") (8 * (k + 1) + 8) (8 * (k + 1))) (storeBytes m k)

/-- 930-1000 `generateMemOps`, one size. -/
def memFuns (m : Mode) (n : Nat) : List Fun :=
  if m.bp then
    [safeLoad m (.bv n), safeStore m "i" (.bv n)] ++
    (if n < 8 then
      [ rawLoad true (.bv n) (.fn ⟨"$trunc", [.ty (.bv 8), .ty (.bv n)]⟩ [mapSel m 0]),
        rawStore true "i" (.bv n) (mapUpd m 0 (.fn ⟨"$zext", [.ty (.bv n), .ty (.bv 8)]⟩ [v "i"]) (v "M")) ]
    else if n = 8 then
      [ rawLoad true (.bv n) (mapSel m 0), rawStore true "i" (.bv n) (mapUpd m 0 (v "i") (v "M")) ]
    else
      [ rawLoad true (.bv n) (loadBytes m (n / 8 - 1)), rawStore true "i" (.bv n) (storeBytes m (n / 8 - 1)) ])
  else [safeLoad m (.i n), safeStore m "i" (.i n)]

def memDecls (m : Mode) : List Fun := sizes.flatMap (memFuns m)

/-- 251-263 `extractValue`. -/
def extractFun (t : TName) : Fun :=
  { sym := ⟨"$extractvalue", [.ty t]⟩, params := [("p", .ref), ("i", .int)], ret := t }

/-- 1002-1005. -/
def extractDecls (m : Mode) : List Fun := sizes.map fun n => extractFun (intT m n)

/-- 1007-1045 `generateBvIntConvs`. -/
def bvIntDecls (m : Mode) : List Fun :=
  [ { sym := ⟨"$int2bv", [.num m.ptr]⟩, params := [("i", .i m.ptr)], ret := .bv m.ptr, attr := some ⟨"int2bv", [m.ptr]⟩ } ] ++
  (if m.bp && !m.bpp then
    [ { sym := ⟨"$bv2uint", [.num m.ptr]⟩, params := [("i", .bv m.ptr)], ret := .i m.ptr, attr := some ⟨"bv2nat", []⟩ },
      { sym := ⟨"$bv2int", [.num m.ptr]⟩, params := [("i", .bv m.ptr)], ret := .i m.ptr,
        body := some (.ite (.fn ⟨"$slt", [.ty (.bv m.ptr), .ty .bool]⟩ [v "i", .bv 0 m.ptr])
          (.fn ⟨"$sub", [.ty (.i m.ptr)]⟩ [.fn ⟨"$bv2uint", [.num m.ptr]⟩ [v "i"], .int (2 ^ m.ptr)])
          (.fn ⟨"$bv2uint", [.num m.ptr]⟩ [v "i"])) } ]
  else
    [ { sym := ⟨"$bv2int", [.num m.ptr]⟩, params := [("i", .bv m.ptr)], ret := .i m.ptr, attr := some ⟨"bv2nat", []⟩ } ])

/-! ## Pointers -/

/-- 1247-1264 `PtrOpGen::generateArithOps`. -/
def ptrArithDecls (m : Mode) : List Fun :=
  ["$add", "$sub", "$mul"].map fun op =>
    { sym := ⟨op, [.ty .ref]⟩, params := [("p1", .ref), ("p2", .ref)], ret := .ref,
      body := some (.fn ⟨op, [.ty (ptrT m)]⟩ [v "p1", v "p2"]) }

/-- 1207-1211. -/
def ptrPredTable : List (String × Bin) :=
  [("$eq", .eq), ("$ne", .neq), ("$ugt", .gt), ("$uge", .gte), ("$ult", .lt), ("$ule", .lte), ("$sgt", .gt), ("$sge", .gte),
    ("$slt", .lt), ("$sle", .lte)]

/-- 1203-1245 `PtrOpGen::generatePreds`. -/
def ptrPredDecls (m : Mode) : List Fun :=
  ptrPredTable.flatMap fun o =>
    [ { sym := ⟨o.1, [.ty .ref, .ty .bool]⟩, params := [("p1", .ref), ("p2", .ref)], ret := .bool,
        body := some (if m.bpp then .fn ⟨o.1, [.ty (ptrT m), .ty .bool]⟩ [v "p1", v "p2"] else .bin o.2 (v "p1") (v "p2")) },
      { sym := ⟨o.1, [.ty .ref]⟩, params := [("p1", .ref), ("p2", .ref)], ret := intT m 1,
        body := some (.ite (.fn ⟨o.1, [.ty .ref, .ty .bool]⟩ [v "p1", v "p2"]) (iLit m 1 1) (iLit m 0 1)) } ]

/-- 1266-1297 `PtrOpGen::generateMemOps`. -/
def ptrMemDecls (m : Mode) : List Fun :=
  (if m.bp then
    [ rawLoad true .ref (.fn ⟨"$i2p", [.ty (.bv m.ptr), .ty .ref]⟩ [.fn ⟨"$load", [.bytes, .ty (.bv m.ptr)]⟩ [v "M", v "p"]]),
      rawStore true "p1" .ref (.fn ⟨"$store", [.bytes, .ty (.bv m.ptr)]⟩
        [v "M", v "p", .fn ⟨"$p2i", [.ty .ref, .ty (.bv m.ptr)]⟩ [v "p1"]]) ]
  else []) ++
  [safeLoad m .ref, safeStore m "i" .ref]

/-- 1299-1311 `generateConvOps`, `generateExtractValueFuncs`. -/
def ptrConvDecls : List Fun :=
  [ { sym := ⟨"$bitcast", [.ty .ref, .ty .ref]⟩, params := [("p", .ref)], ret := .ref, body := some (v "p") }, extractFun .ref ]

/-- 1183-1201 `generatePtrNumConvs`: 8, 16, 32 and 64 bits. -/
def ptrNumDecls (m : Mode) : List Fun :=
  [8, 16, 32, 64].flatMap fun n =>
    [ { sym := ⟨"$p2i", [.ty .ref, .ty (intT m n)]⟩, params := [("p", .ref)], ret := intT m n,
        body := some (pointerToInteger m (v "p") n) },
      { sym := ⟨"$i2p", [.ty (intT m n), .ty .ref]⟩, params := [("i", intT m n)], ret := .ref,
        body := some (integerToPointer m (v "i") n) } ]

/-- `$isExternal`, 1149-1157. -/
def externalDecls : List Fun :=
  [ { sym := ⟨"$isExternal", []⟩, params := [("p", .ref)], ret := .bool,
      body := some (.fn ⟨"$slt", [.ty .ref, .ty .bool]⟩ [v "p", v "$EXTERNS_BOTTOM"]) } ]

/-! ## Floating point -/

/-- 1388-1392 `fpArithOps` with `fpAttrTable` (1323-1350): name, arity, rounding mode argument, SMT operator. -/
def fpArithTable : List (String × Nat × Bool × String) :=
  [ ("$abs", 1, false, "fp.abs"), ("$round", 1, true, "fp.roundToIntegral"), ("$sqrt", 1, true, "fp.sqrt"),
    ("$fadd", 2, true, "fp.add"), ("$fsub", 2, true, "fp.sub"), ("$fmul", 2, true, "fp.mul"), ("$fdiv", 2, true, "fp.div"),
    ("$frem", 2, false, "fp.rem"), ("$min", 2, false, "fp.min"), ("$max", 2, false, "fp.max"), ("$fma", 3, true, "fp.fma"),
    ("$fneg", 1, false, "fp.neg") ]

/-- 1352-1401 FpArithOp. -/
def fpArithDecls (m : Mode) : List Fun :=
  fpArithTable.flatMap fun o =>
    if m.flt then fks.map fun k =>
      { sym := ⟨o.1, [.ty k.name]⟩, params := (if o.2.2.1 then [("rm", .rmode)] else []) ++ vars "f" o.2.1 k.name,
        ret := k.name, attr := some ⟨o.2.2.2, []⟩ }
    else [ { sym := ⟨o.1, [.ty .ufloat]⟩, params := vars "f" o.2.1 .ufloat, ret := .ufloat } ]

/-- `applyCompFn` (1445-1450). -/
def comp (name : String) (k : FK) (args : List Ex) : Ex := .fn ⟨name, [.ty k.name, .ty .bool]⟩ args

/-- `funoBody` (1462-1466). -/
def funoBody (k : FK) : Ex := .bin .or (comp "$isnan" k [v "f1"]) (comp "$isnan" k [v "f2"])

/-- `fpPredNegBody` (1454-1459). -/
def negBody (name : String) (k : FK) : Ex := .not (comp name k [v "f1", v "f2"])

/-- `fpPredDisjuncBody` (1471-1477). -/
def disjBody (name : String) (k : FK) : Ex := .bin .or (funoBody k) (comp name k [v "f1", v "f2"])

/-- The predicates: name, arity, `llvmBuiltin`, and the SMT operator or the body (`fpPredExprTable`, 1489-1502;
`fpPredTable`, 1514-1536). -/
def fpPredTable : List (String × Nat × Bool × (String ⊕ (FK → Ex))) :=
  [ ("$isnormal", 1, false, .inl "fp.isNormal"), ("$issubnormal", 1, false, .inl "fp.isSubnormal"),
    ("$iszero", 1, false, .inl "fp.isZero"), ("$isinfinite", 1, false, .inl "fp.isInfinite"),
    ("$isnan", 1, false, .inl "fp.isNaN"), ("$isnegative", 1, false, .inl "fp.isNegative"),
    ("$ispositive", 1, false, .inl "fp.isPositive"),
    ("$foeq", 2, true, .inl "fp.eq"), ("$fole", 2, true, .inl "fp.leq"), ("$folt", 2, true, .inl "fp.lt"),
    ("$foge", 2, true, .inl "fp.geq"), ("$fogt", 2, true, .inl "fp.gt"),
    ("$fone", 2, true, .inr (negBody "$fueq")), ("$ford", 2, true, .inr (negBody "$funo")),
    ("$fueq", 2, true, .inr (disjBody "$foeq")), ("$fugt", 2, true, .inr (disjBody "$fogt")),
    ("$fuge", 2, true, .inr (disjBody "$foge")), ("$fult", 2, true, .inr (disjBody "$folt")),
    ("$fule", 2, true, .inr (disjBody "$fole")), ("$fune", 2, true, .inr (disjBody "$fone")),
    ("$funo", 2, true, .inr funoBody), ("$ffalse", 2, true, .inr fun _ => .bool false),
    ("$ftrue", 2, true, .inr fun _ => .bool true) ]

/-- 1403-1548 FpPred. -/
def fpPredDecls (m : Mode) : List Fun :=
  fpPredTable.flatMap fun o =>
    if m.flt then fks.map fun k =>
      { sym := ⟨o.1, [.ty k.name, .ty .bool]⟩, params := vars "f" o.2.1 k.name, ret := .bool,
        body := match o.2.2.2 with | .inl _ => none | .inr b => some (b k),
        attr := match o.2.2.2 with | .inl s => some ⟨s, []⟩ | .inr _ => none }
    else if o.2.2.1 then
      [ { sym := ⟨o.1, [.ty .ufloat, .ty .bool]⟩, params := vars "f" o.2.1 .ufloat, ret := .bool } ]
    else []

/-- 1550-1587 `FpOpGen::generateConvOps`. -/
def fpConvDecls (m : Mode) : List Fun :=
  if m.flt then
    fks.flatMap fun s => fks.flatMap fun d =>
      if s.width ≠ d.width then
        [ { sym := ⟨if s.width < d.width then "$fpext" else "$fptrunc", [.ty s.name, .ty d.name]⟩,
            params := ("rm", .rmode) :: vars "f" 1 s.name, ret := d.name, attr := some ⟨"to_fp", [d.layout.1, d.layout.2]⟩ } ]
      else []
  else
    [ { sym := ⟨"$fpext", [.ty .ufloat, .ty .ufloat]⟩, params := vars "f" 1 .ufloat, ret := .ufloat },
      { sym := ⟨"$fptrunc", [.ty .ufloat, .ty .ufloat]⟩, params := vars "f" 1 .ufloat, ret := .ufloat } ]

/-- A row of `fpIntConvTable` (1679-1691): name, `f2i`, `bitCast`, SMT operator of the modelled version. -/
structure FpIntConv where
  name : String
  f2i : Bool
  bitCast : Bool
  op : FK → Nat → Option Smt

/-- 1653-1691. -/
def fpIntTable : List FpIntConv :=
  [ ⟨"$bitcast", true, true, fun _ _ => none⟩,
    ⟨"$bitcast", false, true, fun k _ => some ⟨"to_fp", [k.layout.1, k.layout.2]⟩⟩,
    ⟨"$fp2si", true, false, fun _ n => some ⟨"fp.to_sbv", [n]⟩⟩,
    ⟨"$fp2ui", true, false, fun _ n => some ⟨"fp.to_ubv", [n]⟩⟩,
    ⟨"$si2fp", false, false, fun k _ => some ⟨"to_fp", [k.layout.1, k.layout.2]⟩⟩,
    ⟨"$ui2fp", false, false, fun k _ => some ⟨"to_fp_unsigned", [k.layout.1, k.layout.2]⟩⟩ ]

/-- 1599-1651: `getUninterpretedFpIntCast`, `getModeledFpFunc`, `getUninterpretedFpFunc`. `ft` is the floating-point type name,
`rm` whether there is a rounding mode argument. -/
def FpIntConv.decl (m : Mode) (c : FpIntConv) (ft : TName) (n : Nat) (rm : Bool) (attr : Option Smt) : Fun :=
  { sym := ⟨c.name, if c.f2i then [.ty ft, .ty (intT m n)] else [.ty (intT m n), .ty ft]⟩,
    params := (if rm then [("rm", .rmode)] else []) ++ (if c.f2i then vars "f" 1 ft else vars "i" 1 (intT m n)),
    ret := if c.f2i then intT m n else ft,
    attr := attr }

/-- 1693-1708 `generateFpIntConv`. -/
def fpIntDecls (m : Mode) : List Fun :=
  fpIntTable.flatMap fun c =>
    if m.flt then
      fks.flatMap fun k => sizes.flatMap fun n =>
        if !c.bitCast || k.width = n then
          [c.decl m k.name n (!c.bitCast) (if m.bp then c.op k n else none)]
        else []
    else
      sizes.flatMap fun n =>
        if !c.bitCast || n = 8 || (fks.map FK.width).contains n then [c.decl m .ufloat n false none] else []

/-- 1711-1816 `FpOpGen::generateMemOps`. -/
def fpMemDecls (m : Mode) : List Fun :=
  if m.flt then
    fks.flatMap fun k =>
      let t := k.name
      [safeLoad m t, safeStore m "f" t] ++
      (if m.bp then
        [ rawLoad true t (.fn ⟨"$bitcast", [.ty (.bv k.width), .ty t]⟩ [.fn ⟨"$load", [.bytes, .ty (.bv k.width)]⟩ [v "M", v "p"]]),
          rawStore true "f" t (.fn ⟨"$store", [.bytes, .ty (.bv k.width)]⟩
            [v "M", v "p", .fn ⟨"$bitcast", [.ty t, .ty (.bv k.width)]⟩ [v "f"]]) ]
      else
        [ rawLoad false t (.fn ⟨"$bitcast", [.ty (.i k.width), .ty t]⟩ [.fn ⟨"$load", [.ty (.i k.width)]⟩ [v "M", v "p"]]),
          rawStore false "f" t (.fn ⟨"$store", [.ty (.i k.width)]⟩
            [v "M", v "p", .fn ⟨"$bitcast", [.ty t, .ty (.i k.width)]⟩ [v "f"]]) ])
  else
    [safeLoad m .ufloat, safeStore m "f" .ufloat] ++
    (if m.bp then
      [ rawLoad true .ufloat (.fn ⟨"$bitcast", [.ty (.bv 8), .ty .ufloat]⟩ [mapSel m 0]),
        rawStore true "f" .ufloat (mapUpd m 0 (.fn ⟨"$bitcast", [.ty .ufloat, .ty (.bv 8)]⟩ [v "f"]) (v "M")) ]
    else
      [ rawLoad false .ufloat (.fn ⟨"$bitcast", [.ty (.i 8), .ty .ufloat]⟩ [mapSel m 0]),
        rawStore false "f" .ufloat (mapUpd m 0 (.fn ⟨"$bitcast", [.ty .ufloat, .ty (.i 8)]⟩ [v "f"]) (v "M")) ])

/-- 1818-1824 `FpOpGen::generateExtractValueFuncs`. -/
def fpExtractDecls (m : Mode) : List Fun :=
  if m.flt then fks.map fun k => extractFun k.name else [extractFun .ufloat]

/-- The constructor `$fp` of 1832-1839. -/
def fpCtorDecls (m : Mode) : List Fun :=
  if m.flt then []
  else [ { sym := ⟨"$fp", []⟩, params := [("ipart", .int), ("fpart", .int), ("epart", .int)], ret := .ufloat } ]

/-- `getPrelude` (1849-1860): all function declarations. -/
def groups (m : Mode) : List (List Fun) :=
  [ externalDecls, bvIntDecls m, arithDecls m, predDecls m, memDecls m, convDecls m, extractDecls m,
    ptrArithDecls m, ptrPredDecls m, ptrMemDecls m, ptrConvDecls, ptrNumDecls m,
    fpCtorDecls m, fpArithDecls m, fpPredDecls m, fpIntDecls m, fpConvDecls m, fpMemDecls m, fpExtractDecls m ]

def decls (m : Mode) : List Fun := (groups m).flatten

/-- The constants and variables of the prelude used by generated code: 1073-1111 (`$0`, `$1`, `$0.ref`, `$1.ref`, `$1024.ref`,
`$GLOBALS_BOTTOM`, `$EXTERNS_BOTTOM`, `$MALLOC_TOP`) and `$rmode` (1831). -/
def globals (m : Mode) (x : String) : Option TName :=
  if x = "$0" ∨ x = "$1" then some (intT m 32)
  else if x = "$0.ref" ∨ x = "$1.ref" ∨ x = "$1024.ref" ∨ x = "$GLOBALS_BOTTOM" ∨ x = "$EXTERNS_BOTTOM" ∨ x = "$MALLOC_TOP" then
    some .ref
  else if x = "$rmode" then (if m.flt then some .rmode else none)
  else none

/-- SmackRep.cpp:604-610 `pointerLit(long long)`. -/
def pLitInt (m : Mode) (k : Int) : Ex :=
  if 0 ≤ k then pLit m k.toNat else .fn ⟨"$sub", [.ty .ref]⟩ [pLit m 0, pLit m k.natAbs]

/-- The axioms: 550-578 for the bitwise operations on `i1`, 1078, 1087 for the constants, 1130-1147 for the address bounds.
`globals` and `externs` are `globalsOffset` and `externsOffset`. -/
def axioms (m : Mode) (globals externs : Int) : List Ex :=
  (if m.bp then [] else
    ([0, 1].flatMap fun i => [0, 1].flatMap fun j =>
      [ Ex.bin .eq (.fn ⟨"$and", [.ty (.i 1)]⟩ [.int i, .int j]) (.int (i &&& j)),
        .bin .eq (.fn ⟨"$or", [.ty (.i 1)]⟩ [.int i, .int j]) (.int (i ||| j)),
        .bin .eq (.fn ⟨"$xor", [.ty (.i 1)]⟩ [.int i, .int j]) (.int (i ^^^ j)) ]) ++
    [ .bin .eq (.fn ⟨"$and", [.ty (.i 32)]⟩ [.int 32, .int 16]) (.int 0) ]) ++
  [ .bin .eq (v "$0") (iLit m 0 32), .bin .eq (v "$1") (iLit m 1 32), .bin .eq (v "$0.ref") (pLit m 0),
    .bin .eq (v "$1.ref") (pLit m 1), .bin .eq (v "$1024.ref") (pLit m 1024),
    .bin .eq (v "$GLOBALS_BOTTOM") (pLitInt m globals),
    .bin .eq (v "$EXTERNS_BOTTOM") (.fn ⟨"$add", [.ty .ref]⟩ [v "$GLOBALS_BOTTOM", pLitInt m externs]),
    .bin .eq (v "$MALLOC_TOP") (pLit m (2 ^ (m.ptr - 1) - 1)) ]

/-! ## Printed names -/

/-- Output of an unsigned number. -/
def dec (n : Nat) : List Char := Nat.toDigits 10 n

/-- The text of a type name. -/
def TName.text : TName → List Char
  | .i n => 'i' :: dec n
  | .bv n => 'b' :: 'v' :: dec n
  | .ref => "ref".toList
  | .half => "bvhalf".toList
  | .single => "bvfloat".toList
  | .double => "bvdouble".toList
  | .longdouble => "bvlongdouble".toList
  | .ufloat => "float".toList
  | .bool => "bool".toList
  | .int => "int".toList
  | .rmode => "rmode".toList
  | .fpB s e => "float".toList ++ dec s ++ 'e' :: dec e
  | .map t => "[ref] ".toList ++ t.text

def Comp.text : Comp → List Char
  | .ty t => t.text
  | .bytes => "bytes".toList
  | .unsf => "unsafe".toList
  | .num n => dec n

/-- SmackRep.cpp:57-73. -/
def Sym.text (s : Sym) : List Char := s.base.toList ++ s.idx.flatMap fun c => '.' :: c.text

end Smack.PreludeTy
