/-
The memory models declared by `__SMACK_decls` (share/smack/lib/smack.c:1610-1892): allocation, deallocation and the
memory-safety checks, as relations between Boogie states. Pointers are integers (the default `--pointer-encoding`), a bodyless
procedure means "havoc the modified globals, assume the `ensures` clauses", `assume` restricts, uninterpreted
functions are fields of an arbitrary interpretation. The `atomic` brackets make each operation one step.
-/
namespace Smack.Alloc

/-- `--mem-mod` (share/smack/top.py:411-418). -/
inductive Model where
  | impls | reuse | noReuse
deriving DecidableEq, Repr

/-- `-DMEMORY_MODEL_...` and `-DMEMORY_SAFETY` (share/smack/frontend.py:117-125). -/
structure Cfg where
  model : Model
  safety : Bool
deriving DecidableEq, Repr

/-- The uninterpreted functions `$base`, `$Size` and the constant `$MALLOC_TOP`, fixed during an execution. -/
structure Interp where
  base : Int → Int
  size : Int → Int
  top : Int

/-- The Boogie globals (a configuration uses only some of them). -/
structure St where
  alloc : Int → Bool
  size : Int → Int
  curr : Int
  counter : Int

/-- `q` lies in `[p, p+n)`. -/
def inRange (p n q : Int) : Prop := p ≤ q ∧ q < p + n

/-- `$$alloc`, smack.c:1678-1693 (NO_REUSE_IMPLS, memory safety). The result variable is not assigned when `n = 0`. -/
def allocImplsSafe (I : Interp) (n p : Int) (s s' : St) : Prop :=
  0 ≤ n ∧
  (if 0 < n then
    p = s.curr ∧ s'.curr - n ≥ p ∧ (s'.curr > 0 ∧ s'.curr < I.top) ∧ I.size p = n ∧
    (∀ q, inRange p n q → I.base q = p) ∧
    s'.alloc = (fun q => if q = p then true else s.alloc q) ∧ s'.size = s.size ∧ s'.counter = s.counter
  else s' = s)

/-- `$$alloc`, smack.c:1727-1743 (REUSE, memory safety). -/
def allocReuseSafe (I : Interp) (n p : Int) (s s' : St) : Prop :=
  0 ≤ n ∧ (0 < n → 0 < p ∧ p < I.top - n) ∧ (n = 0 → p = 0) ∧ s.alloc p = false ∧
  (∀ q, s.alloc q = true → p + n < q ∨ q + s'.size q < p) ∧ s'.alloc p = true ∧ s'.size p = n ∧
  (∀ q, q ≠ p → s'.size q = s.size q) ∧ (∀ q, q ≠ p → s'.alloc q = s.alloc q) ∧
  (∀ q, inRange p n q → I.base q = p) ∧ s'.curr = s.curr ∧ s'.counter = s.counter

/-- `$$alloc`, smack.c:1774-1790 (NO_REUSE, memory safety). -/
def allocNoReuseSafe (I : Interp) (n p : Int) (s s' : St) : Prop :=
  0 ≤ n ∧ (0 < n → s'.curr - n ≥ s.curr ∧ p = s.curr) ∧ (s'.curr > 0 ∧ s'.curr < I.top) ∧ (0 < n → I.size p = n) ∧
  (0 < n → ∀ q, inRange p n q → I.base q = p) ∧ (0 < n → s'.alloc p = true) ∧
  (n = 0 → s.curr = s'.curr ∧ p = 0) ∧ (n = 0 → s'.alloc p = s.alloc p) ∧
  (∀ q, q ≠ p → s'.alloc q = s.alloc q) ∧ s'.size = s.size ∧ s'.counter = s.counter

/-- `$$alloc`, smack.c:1816-1827 (NO_REUSE_IMPLS). -/
def allocImpls (I : Interp) (n p : Int) (s s' : St) : Prop :=
  n ≥ 0 ∧
  (if n > 0 then
    p = s.curr ∧ s'.curr - n ≥ p ∧ (s'.curr > 0 ∧ s'.curr < I.top) ∧
    s'.alloc = s.alloc ∧ s'.size = s.size ∧ s'.counter = s.counter
  else s' = s)

/-- `$$alloc`, smack.c:1835-1849 (REUSE). -/
def allocReuse (I : Interp) (n p : Int) (s s' : St) : Prop :=
  0 ≤ n ∧ (0 < n → 0 < p ∧ p < I.top - n) ∧ (n = 0 → p = 0) ∧ s.alloc p = false ∧
  (∀ q, s.alloc q = true → p + n < q ∨ q + s'.size q < p) ∧ s'.alloc p = true ∧ s'.size p = n ∧
  (∀ q, q ≠ p → s'.size q = s.size q) ∧ (∀ q, q ≠ p → s'.alloc q = s.alloc q) ∧
  s'.curr = s.curr ∧ s'.counter = s.counter

/-- `$$alloc`, smack.c:1860-1868 (NO_REUSE). -/
def allocNoReuse (I : Interp) (n p : Int) (s s' : St) : Prop :=
  0 ≤ n ∧ (0 < n → s'.curr - n ≥ s.curr ∧ p = s.curr) ∧ (s'.curr > 0 ∧ s'.curr < I.top) ∧
  (n = 0 → s.curr = s'.curr ∧ p = 0) ∧ s'.alloc = s.alloc ∧ s'.size = s.size ∧ s'.counter = s.counter

/-- `$$alloc` of the chosen configuration. -/
def allocRel (c : Cfg) (I : Interp) (n p : Int) (s s' : St) : Prop :=
  match c.model, c.safety with
  | .impls, true => allocImplsSafe I n p s s'
  | .reuse, true => allocReuseSafe I n p s s'
  | .noReuse, true => allocNoReuseSafe I n p s s'
  | .impls, false => allocImpls I n p s s'
  | .reuse, false => allocReuse I n p s s'
  | .noReuse, false => allocNoReuse I n p s s'

/-- `$malloc`, smack.c:1651-1660 (memory safety: the counter) and 1806-1811. -/
def mallocRel (c : Cfg) (I : Interp) (n p : Int) (s s' : St) : Prop :=
  if c.safety && decide (n ≠ 0) then allocRel c I n p { s with counter := s.counter + 1 } s' else allocRel c I n p s s'

/-- `$galloc`, smack.c:1669-1676, 1715-1725, 1764-1772 (only with memory safety). -/
def gallocRel (c : Cfg) (I : Interp) (a n : Int) (s s' : St) : Prop :=
  c.safety = true ∧
  (match c.model with
   | .reuse => s'.size a = n ∧ ∀ q, q ≠ a → s'.size q = s.size q
   | _ => I.size a = n ∧ s'.size = s.size) ∧
  (∀ q, inRange a n q → I.base q = a) ∧ s'.alloc a = true ∧ (∀ q, q ≠ a → s'.alloc q = s.alloc q) ∧
  s'.curr = s.curr ∧ s'.counter = s.counter

/-- The assertions of `$free` (smack.c:1699-1702) or its precondition (1747-1748, 1794-1795). There is none without memory
safety. -/
def freeOk (c : Cfg) (I : Interp) (s : St) (p : Int) : Prop :=
  match c.model, c.safety with
  | _, false => True
  | .impls, true => p ≠ 0 → I.base p = p ∧ s.alloc p = true ∧ 0 < p
  | _, true => p = 0 ∨ (0 < p ∧ I.base p = p ∧ s.alloc p = true)

/-- The effect of `$free`: smack.c:1695-1707 (IMPLS), 1745-1756 and 1792-1803 (contracts: nothing is said about `$Alloc` when
`p` is null, although it is in the `modifies` clause), 1829, 1851-1855, 1870 (no memory safety). -/
def freeRel (c : Cfg) (p : Int) (s s' : St) : Prop :=
  match c.model, c.safety with
  | .impls, true =>
    if p ≠ 0 then s' = { s with alloc := fun q => if q = p then false else s.alloc q, counter := s.counter - 1 } else s' = s
  | _, true =>
    (p ≠ 0 → s'.alloc p = false) ∧ (p ≠ 0 → ∀ q, q ≠ p → s'.alloc q = s.alloc q) ∧
    (p ≠ 0 → s'.counter = s.counter - 1) ∧ (p = 0 → s'.counter = s.counter) ∧ s'.size = s.size ∧ s'.curr = s.curr
  | .reuse, false =>
    s'.alloc p = false ∧ (∀ q, q ≠ p → s'.alloc q = s.alloc q) ∧
    s'.size = s.size ∧ s'.curr = s.curr ∧ s'.counter = s.counter
  | _, false => s' = s

/-- `$Size` as used by the dereference check (smack.c:1636-1646). -/
def sizeOf (c : Cfg) (I : Interp) (s : St) (q : Int) : Int :=
  match c.model with
  | .reuse => s.size q
  | _ => I.size q

/-- `__SMACK_check_memory_safety`, smack.c:1632-1648. -/
def check (c : Cfg) (I : Interp) (s : St) (p n : Int) : Prop :=
  s.alloc (I.base p) = true ∧ I.base p ≤ p ∧ p + n ≤ I.base p + sizeOf c I s (I.base p)

/-- `__SMACK_check_memory_leak`, smack.c:1878-1880. -/
def leakCheck (s : St) : Prop := s.counter = 0

/-- `__SMACK_init_func_memory_model`, smack.c:1883-1890. Nothing initialises `$Alloc` and `$Size`. -/
def Init (c : Cfg) (s : St) : Prop :=
  (c.model ≠ .reuse → s.curr = 1024) ∧ (c.safety = true → s.counter = 0)

/-- Events of an execution that concern the memory model. -/
inductive Ev where
  /-- `$galloc(a, n)` -/
  | galloc (a n : Int)
  /-- `alloca` (SmackRep.cpp:292-299): `p := $alloc(n)`, smack.c:1623-1628 -/
  | stack (n p : Int)
  /-- `p := malloc(n)` (SmackRep.cpp:1028-1036) -/
  | malloc (n p : Int)
  /-- `free(p)` (SmackRep.cpp:1038-1041) -/
  | free (p : Int)
  /-- return of the function whose `alloca` gave `p`: no code is generated for it (SmackInstGenerator.cpp:240-248) -/
  | leave (p : Int)
deriving DecidableEq, Repr

/-- One event. A `free` happens only when its check passed. -/
def Step (c : Cfg) (I : Interp) (e : Ev) (s s' : St) : Prop :=
  match e with
  | .galloc a n => gallocRel c I a n s s'
  | .stack n p => allocRel c I n p s s'
  | .malloc n p => mallocRel c I n p s s'
  | .free p => freeOk c I s p ∧ freeRel c p s s'
  | .leave _ => s' = s

/-- An execution (events in order). -/
inductive Run (c : Cfg) (I : Interp) (s0 : St) : List Ev → St → Prop where
  | nil : Run c I s0 [] s0
  | snoc {evs s e s'} : Run c I s0 evs s → Step c I e s s' → Run c I s0 (evs ++ [e]) s'

end Smack.Alloc
