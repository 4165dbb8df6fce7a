/-
Model of share/smack/lib/pthread.c: mutexes (126-196), thread creation, exit and join (53-93, 254-287).

Threads are the elements of an arbitrary type `T` (any number of threads), `tid t` is what
`corral_getThreadID` returns in thread `t`. Every access to shared memory and every atomic block is one step;
a schedule is any list of threads together with what the thread's program does when it is not inside a library
function. Simplifications: one mutex (mutexes are independent memory cells); sequentially consistent memory; user
code does not write the library's cells directly and does not initialise the mutex again while threads run.
-/

namespace Smack.Pthread

/-! ### Mutex -/

/-- `attr.type` (bits/pthreadtypes.h:9-18): NORMAL = 0, ERRORCHECK = 2. -/
inductive MType where | normal | errorcheck | other
  deriving DecidableEq, Repr

/-- Compile-time and run-time parameters: is `DISABLE_PTHREAD_ASSERTS` undefined, and the mutex type. -/
structure Cfg where
  asserts : Bool
  type : MType

/-- Where a thread is inside the mutex functions. -/
inductive PC where
  | user
  /-- pthread.c:131: `assert(init == INITIALIZED)` -/
  | lkAssertInit
  /-- pthread.c:132: `assert(lock != tid)` -/
  | lkAssertOwn
  /-- pthread.c:135-136 -/
  | lkCheckInit
  /-- pthread.c:137-138 -/
  | lkCheckOwn
  /-- pthread.c:145-149: the atomic block -/
  | lkAcquire
  /-- pthread.c:150: about to return 0 -/
  | lkRet
  /-- pthread.c:158 -/
  | unAssertInit
  /-- pthread.c:159 -/
  | unAssertOwn
  /-- pthread.c:162-163 -/
  | unCheckInit
  /-- pthread.c:164-165 -/
  | unCheckOwn
  /-- pthread.c:172-174: the atomic block -/
  | unRelease
  /-- pthread.c:181 -/
  | dsAssertInit
  /-- pthread.c:182 -/
  | dsAssertFree
  /-- pthread.c:184-186 -/
  | dsWrite
  deriving DecidableEq, Repr

/-- What the program can observe: calls and returns. -/
inductive Ev (T : Type) where
  | callLock (t : T)
  | retLock (t : T) (code : Nat)
  | callUnlock (t : T)
  | retUnlock (t : T) (code : Nat)
  | callDestroy (t : T)
  | retDestroy (t : T)
  deriving DecidableEq

/-- State: the mutex cells, the program counters, a failed assertion, and the events so far, newest first. -/
structure St (T : Type) where
  lock : Int
  init : Int
  pc : T → PC
  failed : Bool
  evs : List (Ev T)

/-- What the program of a thread does next when it is not in a library function. -/
inductive Act where | compute | lock | unlock | destroy
  deriving DecidableEq, Repr

def UNLOCKED : Int := 0
def UNINITIALIZED : Int := 0
def INITIALIZED : Int := 1

variable {T : Type} [DecidableEq T]

def setPc (s : St T) (t : T) (p : PC) : St T := { s with pc := fun u => if u = t then p else s.pc u }

def emit (s : St T) (e : Ev T) : St T := { s with evs := e :: s.evs }

/-- State after `pthread_mutex_init` (pthread.c:107-124) or PTHREAD_MUTEX_INITIALIZER (pthread.h:21-22). -/
def initSt : St T := { lock := UNLOCKED, init := INITIALIZED, pc := fun _ => .user, failed := false, evs := [] }

/-- One step of thread `t`; `none` if it is blocked, or after a failed assertion. -/
def step (cfg : Cfg) (tid : T → Int) (s : St T) (t : T) (a : Act) : Option (St T) :=
  if s.failed then none else
  match s.pc t with
  | .user =>
    match a with
    | .compute => some s
    | .lock => -- pthread.c:126-144: branch on the type
      let s := emit s (.callLock t)
      match cfg.type with
      | .normal => some (setPc s t (if cfg.asserts then .lkAssertInit else .lkAcquire))
      | .errorcheck => some (setPc s t .lkCheckInit)
      | .other => if cfg.asserts then some { s with failed := true } else some (setPc s t .lkAcquire)
    | .unlock => -- pthread.c:153-171
      let s := emit s (.callUnlock t)
      match cfg.type with
      | .normal => some (setPc s t (if cfg.asserts then .unAssertInit else .unRelease))
      | .errorcheck => some (setPc s t .unCheckInit)
      | .other => if cfg.asserts then some { s with failed := true } else some (setPc s t .unRelease)
    | .destroy => -- pthread.c:178-183
      some (setPc (emit s (.callDestroy t)) t (if cfg.asserts then .dsAssertInit else .dsWrite))
  | .lkAssertInit => if s.init = INITIALIZED then some (setPc s t .lkAssertOwn) else some { s with failed := true }
  | .lkAssertOwn => if s.lock ≠ tid t then some (setPc s t .lkAcquire) else some { s with failed := true }
  | .lkCheckInit =>
    if s.init ≠ INITIALIZED then some (emit (setPc s t .user) (.retLock t 22)) else some (setPc s t .lkCheckOwn)
  | .lkCheckOwn =>
    if s.lock = tid t then some (emit (setPc s t .user) (.retLock t 35)) else some (setPc s t .lkAcquire)
  | .lkAcquire => if s.lock = UNLOCKED then some (setPc { s with lock := tid t } t .lkRet) else none
  | .lkRet => some (emit (setPc s t .user) (.retLock t 0))
  | .unAssertInit => if s.init = INITIALIZED then some (setPc s t .unAssertOwn) else some { s with failed := true }
  | .unAssertOwn => if s.lock = tid t then some (setPc s t .unRelease) else some { s with failed := true }
  | .unCheckInit =>
    if s.init ≠ INITIALIZED then some (emit (setPc s t .user) (.retUnlock t 22)) else some (setPc s t .unCheckOwn)
  | .unCheckOwn =>
    if s.lock ≠ tid t then some (emit (setPc s t .user) (.retUnlock t 1)) else some (setPc s t .unRelease)
  | .unRelease => some (emit (setPc { s with lock := UNLOCKED } t .user) (.retUnlock t 0))
  | .dsAssertInit => if s.init = INITIALIZED then some (setPc s t .dsAssertFree) else some { s with failed := true }
  | .dsAssertFree => if s.lock = UNLOCKED then some (setPc s t .dsWrite) else some { s with failed := true }
  | .dsWrite => some (emit (setPc { s with init := UNINITIALIZED } t .user) (.retDestroy t))

/-- A schedule: which thread moves, and what its program does. -/
def run (cfg : Cfg) (tid : T → Int) (s : St T) : List (T × Act) → Option (St T)
  | [] => some s
  | (t, a) :: l =>
    match step cfg tid s t a with
    | none => none
    | some s' => run cfg tid s' l

/-! ### Threads -/

/-- `$pthreadStatus` (pthread.c:25-35). -/
inductive Status where | uninitialized | waiting | running | stopped
  deriving DecidableEq, Repr

/-- Where a thread is. -/
inductive JPC (T : Type) where
  /-- not created yet -/
  | absent
  /-- pthread.c:259: waits for the parent to store the id -/
  | wrapStart
  /-- pthread.c:263 -/
  | wrapWaiting
  /-- pthread.c:264 -/
  | wrapRunning
  /-- pthread.c:265, user code -/
  | body
  /-- pthread.c:285: after the asynchronous call, before the id of `child` is stored -/
  | creating (child : T)
  /-- pthread.c:87 -/
  | exitAssert (v : Int)
  /-- pthread.c:89 -/
  | exitWrite (v : Int)
  /-- pthread.c:64 -/
  | joinWait (th : Int)
  /-- pthread.c:67 -/
  | joinRead (th : Int)
  /-- pthread.c:266 -/
  | wrapStop
  | finished

inductive JEv (T : Type) where
  /-- the thread stored `v` in `pthread_exit` -/
  | exited (t : T) (v : Int)
  /-- the start routine returned `v` -/
  | routineEnd (t : T) (v : Int)
  /-- `pthread_join(th, &r)` returned 0 with `r = v` in thread `t` -/
  | joined (t : T) (th : Int) (v : Int)
  /-- `pthread_join(th, _)` returned 35 in thread `t` -/
  | deadlk (t : T) (th : Int)
  /-- user code of thread `t` runs -/
  | computed (t : T)

/-- State; `slot t` is the `pthread_t` cell of thread `t` once the parent has stored the id. -/
structure JSt (T : Type) where
  status : Int → Status
  ret : Int → Int
  slot : T → Option Int
  pc : T → JPC T
  failed : Bool
  evs : List (JEv T)

inductive JAct (T : Type) where
  | compute
  | create (child : T)
  | exit (v : Int)
  | return_ (v : Int)
  | join (th : Int)

def jset (s : JSt T) (t : T) (p : JPC T) : JSt T := { s with pc := fun u => if u = t then p else s.pc u }

def jemit (s : JSt T) (e : JEv T) : JSt T := { s with evs := e :: s.evs }

def setStatus (s : JSt T) (i : Int) (x : Status) : JSt T :=
  { s with status := fun j => if j = i then x else s.status j }

/-- Initially the main thread runs its body and no thread has a status (pthread.c:33-34); `ret0` is the initial
content of `__SMACK_PthreadReturn`. -/
def jinit (main : T) (ret0 : Int → Int) : JSt T :=
  { status := fun _ => .uninitialized, ret := ret0, slot := fun _ => none,
    pc := fun u => if u = main then .body else .absent, failed := false, evs := [] }

/-- One step of thread `t`; `main` is the thread that is not started through `__call_wrapper`. -/
def jstep (asserts : Bool) (main : T) (tid : T → Int) (s : JSt T) (t : T) (a : JAct T) : Option (JSt T) :=
  if s.failed then none else
  match s.pc t with
  | .absent => none
  | .wrapStart => if s.slot t = some (tid t) then some (jset s t .wrapWaiting) else none
  | .wrapWaiting => some (jset (setStatus s (tid t) .waiting) t .wrapRunning)
  | .wrapRunning => some (jset (setStatus s (tid t) .running) t .body)
  | .body =>
    match a with
    | .compute => some (jemit s (.computed t))
    | .create c =>
      -- pthread.c:281: `async call`; a thread that exists already cannot be created
      match s.pc c with
      | .absent => some (jset (jset s c .wrapStart) t (.creating c))
      | _ => none
    | .exit v => some (jset s t (if asserts then .exitAssert v else .exitWrite v))
    | .return_ v => some (jset (jemit s (.routineEnd t v)) t (if t = main then .finished else .wrapStop))
    | .join th => -- pthread.c:53-61
      if tid t = th then some (jemit s (.deadlk t th)) else some (jset s t (.joinWait th))
  | .creating c => some (jset { s with slot := fun u => if u = c then some (tid c) else s.slot u } t .body)
  | .exitAssert v =>
    if s.status (tid t) = .running then some (jset s t (.exitWrite v)) else some { s with failed := true }
  | .exitWrite v =>
    -- pthread.c:89; control returns to the caller
    some (jset (jemit { s with ret := fun i => if i = tid t then v else s.ret i } (.exited t v)) t .body)
  | .joinWait th => if s.status th = .stopped then some (jset s t (.joinRead th)) else none
  | .joinRead th => some (jset (jemit s (.joined t th (s.ret th))) t .body)
  | .wrapStop => some (jset (setStatus s (tid t) .stopped) t .finished)
  | .finished => none

def jrun (asserts : Bool) (main : T) (tid : T → Int) (s : JSt T) : List (T × JAct T) → Option (JSt T)
  | [] => some s
  | (t, a) :: l =>
    match jstep asserts main tid s t a with
    | none => none
    | some s' => jrun asserts main tid s' l

end Smack.Pthread
