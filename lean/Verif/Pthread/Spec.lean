import Verif.Pthread.Model

/-
Specifications for C52 and C53 over the observable events (newest first).
-/

namespace Smack.Pthread

variable {T : Type} [DecidableEq T]

/-- Thread `t` is between a successful `pthread_mutex_lock` and its next call of `pthread_mutex_unlock`. -/
def inside (t : T) : List (Ev T) → Bool
  | [] => false
  | .retLock u c :: es => if u = t ∧ c = 0 then true else inside t es
  | .callUnlock u :: es => if u = t then false else inside t es
  | _ :: es => inside t es

/-- The program calls `pthread_mutex_unlock` only between a successful lock and the matching unlock. -/
def Disciplined : List (Ev T) → Prop
  | [] => True
  | .callUnlock u :: es => inside u es = true ∧ Disciplined es
  | _ :: es => Disciplined es

/-- The value of the last `pthread_exit` of `t`, if any. -/
def lastExit (t : T) : List (JEv T) → Option Int
  | [] => none
  | .exited u v :: es => if u = t then some v else lastExit t es
  | _ :: es => lastExit t es

/-- The start routine of `t` has returned. -/
def Ended (t : T) (es : List (JEv T)) : Prop := ∃ w, JEv.routineEnd t w ∈ es

end Smack.Pthread
