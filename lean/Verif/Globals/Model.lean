/-
Placement of global values: lib/smack/SmackRep.cpp `globalDecl` and lib/smack/Prelude.cpp `generateAddrBoundsAndPred`.
-/
namespace Smack.Globals

/-- What `globalDecl` inspects of an `llvm::GlobalValue`. -/
structure Global where
  /-- is a `GlobalVariable` (otherwise a function or an alias) -/
  isVariable : Bool
  /-- is a `Function` -/
  isFunction : Bool
  hasInitializer : Bool
  /-- the value type is sized -/
  sized : Bool
  /-- `DataLayout::getTypeStoreSize` of the value type (64-bit) -/
  storeSize : Nat
  /-- `DataLayout::getPrefTypeAlignment` of the pointer type -/
  prefAlign : Nat
deriving DecidableEq, Repr

/-- C++ `unsigned` (32 bits) arithmetic. -/
def u32 (n : Nat) : Nat := n % 2 ^ 32

/-- SmackRep.cpp:1272-1306: the flag `external`. -/
def external (g : Global) : Bool := g.isVariable && !g.hasInitializer

/-- SmackRep.cpp:1271-1311: the variable `size` (`unsigned`); storageSize (SmackRep.cpp:248-250) truncates to 32 bits. -/
def size (g : Global) : Nat :=
  let s := if g.isVariable && g.hasInitializer then (if g.sized then u32 g.storeSize else 1024) else 0
  if s = 0 then u32 g.prefAlign else s

/-- The two running offsets of `SmackRep` (SmackRep.h:52-53). -/
structure State where
  globalsOffset : Int
  externsOffset : Int
deriving DecidableEq, Repr

/-- SmackRep.cpp:102-109: the constructor. -/
def init : State := ⟨0, -32768⟩

/-- SmackRep.cpp:1313-1322, one global: the new offsets. `size + globalsPadding` is `unsigned` arithmetic. The `long long`
offsets are modelled as unbounded integers: every step moves them by less than 2^32, so 2^31 globals fit. -/
def step (st : State) (g : Global) : State :=
  if external g then { st with externsOffset := st.externsOffset - size g }
  else { st with globalsOffset := st.globalsOffset - u32 (size g + 1024) }

/-- The integer in the axiom of the global: the offset just computed. -/
def offsetOf (st : State) (g : Global) : Int :=
  if external g then (step st g).externsOffset else (step st g).globalsOffset

/-- All globals in the order in which they are declared, with their offsets. -/
def offsets : State → List Global → List Int
  | _, [] => []
  | st, g :: gs => offsetOf st g :: offsets (step st g) gs

/-- The offsets after all globals. -/
def final (gs : List Global) : State := gs.foldl step init

/-- Prelude.cpp:1130-1133: `$GLOBALS_BOTTOM`. -/
def globalsBottom (gs : List Global) : Int := (final gs).globalsOffset

/-- Prelude.cpp:1134-1138: `$EXTERNS_BOTTOM`. -/
def externsBottom (gs : List Global) : Int := globalsBottom gs + (final gs).externsOffset

/-- SmackRep.cpp:1315-1322: the address of each global, as given by its axiom. -/
def addresses (gs : List Global) : List Int :=
  (gs.zip (offsets init gs)).map fun (g, off) => if external g then globalsBottom gs + off else off

/-- Prelude.cpp:1152-1158: `$isExternal`. -/
def isExternal (gs : List Global) (p : Int) : Bool := decide (p < externsBottom gs)

/-- SmackRep.cpp:1324-1325 and Prelude.cpp:1161-1175: blocks registered by `$global_allocations` (address, size). -/
def globalAllocations (gs : List Global) : List (Int × Nat) :=
  ((gs.zip (addresses gs)).filter fun (g, _) => !g.isFunction).map fun (g, a) => (a, size g)

end Smack.Globals
