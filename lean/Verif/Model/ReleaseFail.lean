/-
Model of joms that cannot give back a job token: `JobClient::release` (src/jomlib/jobclient.cpp 100-107) prints a warning when
`QSystemSemaphore::release` fails, and jom carries on.

The tree of joms is that of `Model/JobTree.lean`.  Not modelled: the text of the warning; a semaphore that has been removed altogether
(then acquiring fails as well: `Model/AcquireFail.lean`).
-/
import Verif.Model.JobTree

namespace Jom.ReleaseFail

open Jom.Sched Jom.Tree

/-- The tree; `lost` = number of releases that have failed. -/
structure LSys where
  y : Sys
  lost : Nat

inductive LEvent where
  /-- every token that is given back arrives -/
  | ok (e : SysEvent)
  /-- process `k` handles an event; `n` of its calls of `QSystemSemaphore::release` fail -/
  | fails (k : Nat) (ev : Event) (n : Nat)

/-- The number of calls of `JobClient::release` by process `k` so far (targetexecutor.cpp 188, 239). -/
def calls (y : Sys) (k : Nat) : Nat :=
  match y.procs[k]? with
  | none => 0
  | some p => p.st.relChild + p.st.relWait

/-- One step. The return value of `QSystemSemaphore::release` decides only about a warning (jobclient.cpp 104-106): the state of the jom is the same,
the semaphore is not raised. -/
def lstep (x : LSys) : LEvent → Option LSys
  | .ok e => (Tree.step x.y e).map fun y => { x with y := y }
  | .fails k ev n => (Tree.step x.y (.proc k ev)).bind fun y =>
    if n ≤ calls y k - calls x.y k then some { y := { y with sem := y.sem - n }, lost := x.lost + n } else none

/-- A sequence of steps. -/
def lrun : LSys → List LEvent → Option LSys
  | x, [] => some x
  | x, e :: es => (lstep x e).bind fun x => lrun x es

/-- States that can occur. -/
def LReachable (cfg : Cfg) (x : LSys) : Prop := ∃ es, lrun { y := start cfg, lost := 0 } es = some x

end Jom.ReleaseFail
