/-
Model of a jom whose job token cannot be acquired: `JobClientAcquireHelper::acquire` (src/jomlib/jobclientacquirehelper.cpp)
when `QSystemSemaphore::acquire` reports an error.

The scheduler is that of `Model/Scheduler.lean`; the helper thread has one more possibility.  Not modelled: errors of
`QSystemSemaphore::release` (jobclient.cpp 100-107, see `Model/ReleaseFail.lean`); the text of the warning.
-/
import Verif.Model.Scheduler

namespace Jom.AcquireFail

open Jom.Sched

/-- The scheduler; `lost` = `acquire` has returned without emitting `acquired` (jobclientacquirehelper.cpp 37-41). -/
structure FSt where
  s : St
  lost : Bool

inductive FEvent where
  | ev (e : Event)
  | acquireFails

/-- The helper thread gets a token. -/
def isGrant : Event → Bool
  | .grant => true
  | _ => false

/-- One step. `acquire` is called once for every `startAcquisition` (jobclient.cpp 73, 79-87): it gets a token or fails, and after a
failure nothing calls it again, because `m_isAcquiring` is still set (jobclient.cpp 85, 91; targetexecutor.cpp 121). -/
def fstep (cfg : Cfg) (x : FSt) : FEvent → Option FSt
  | .ev e => if x.lost && isGrant e then none else (step cfg x.s e).map fun s => { x with s := s }
  | .acquireFails =>
    if x.s.dead = false ∧ x.s.acquiring = true ∧ x.s.granted = false ∧ x.lost = false then some { x with lost := true }
    else none

/-- A sequence of steps. -/
def frun (cfg : Cfg) : FSt → List FEvent → Option FSt
  | x, [] => some x
  | x, e :: es => (fstep cfg x e).bind fun x => frun cfg x es

def finit (cfg : Cfg) : FSt := { s := init cfg, lost := false }

/-- States that can occur. -/
def FReachable (cfg : Cfg) (x : FSt) : Prop := ∃ es, frun cfg (finit cfg) es = some x

end Jom.AcquireFail
