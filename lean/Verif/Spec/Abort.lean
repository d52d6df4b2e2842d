/-
C109 in terms of what can be seen from outside: the log of processes that are started and end, of failures and of the end of jom.
-/
import Verif.Model.Abort

namespace Jom.Spec.Abort

open Jom.Abort (Ev Cmd)

/-- After a failure nothing is started. -/
def StartsNothing (log : List Ev) : Prop := ∀ l1 l2 p, log = l1 ++ Ev.failed :: l2 → Ev.started p ∉ l2

/-- When jom ends, every process that it has started has ended. -/
def NothingLeft (log : List Ev) : Prop := ∀ l1 l2 p, log = l1 ++ Ev.exit :: l2 → Ev.started p ∈ log → Ev.ended p ∈ l1

/-- When jom ends, every process that it had started before the first failure has ended. -/
def FirstWaited (log : List Ev) : Prop :=
  ∀ l1 l2 l3 p, log = l1 ++ Ev.failed :: l2 ++ Ev.exit :: l3 → Ev.failed ∉ l1 → Ev.started p ∈ l1 → Ev.ended p ∈ l1 ++ l2

/-- After a failure a process is started only in place of one that has just ended. -/
def TakesOver (log : List Ev) : Prop := ∀ l1 l2 p, log = l1 ++ Ev.started p :: l2 → Ev.failed ∈ l1 → ∃ l0 q, l1 = l0 ++ [Ev.ended q]

def isStart : Ev → Bool
  | .started _ => true
  | _ => false

def isEnd : Ev → Bool
  | .ended _ => true
  | _ => false

/-- At most one command is a process. -/
def OneProcess (cmds : List Cmd) : Prop := cmds.count Cmd.process ≤ 1

end Jom.Spec.Abort
