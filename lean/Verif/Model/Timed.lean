/-
Builds in time: the transition system of `Model/Scheduler.lean` with a clock.

Simplification: jom's own work (looking at file times, choosing a target, starting processes, getting a free token) takes no
time; time passes only while processes run and there is nothing for jom to do before one of them ends.
-/
import Verif.Model.Scheduler

namespace Jom.Sched

/-- An event that can happen to a jom that owns its job server: tokens are granted only while the semaphore of `-j`
minus one tokens (jobserver.cpp 45-62) has some. -/
def Possible (cfg : Cfg) (s : St) (ev : Event) : Prop :=
  (Sched.step cfg s ev).isSome = true ∧
    (ev = .grant → (s.taken : Int) - s.relChild - s.relWait < (cfg.jobs : Int) - 1)

/-- The event loop (`QCoreApplication::exec`, main.cpp 219) sleeps until a process ends. -/
def Waits (cfg : Cfg) (s : St) : Prop := ∀ ev, Possible cfg s ev → ∃ e f, ev = .childFinished e f

/-- One unit of time passes for the targets that are being made. -/
def clock (s : St) (spent : Nat → Nat → Nat) : Nat → Nat → Nat :=
  fun b t => if b = s.build ∧ t ∈ s.busy.map (·.2) then spent b t + 1 else spent b t

/-- State, time spent on each target in each build, and time since the start.  `dur b t` bounds the time the
commands of target `t` need while the `b`-th requested target is made. -/
inductive Timed (cfg : Cfg) (dur : Nat → Nat → Nat) : St → (Nat → Nat → Nat) → Nat → Prop
  | init : Timed cfg dur (init cfg) (fun _ _ => 0) 0
  | act {s s' : St} {spent : Nat → Nat → Nat} {time : Nat} {ev : Event} : Timed cfg dur s spent time →
      step cfg s ev = some s' → Timed cfg dur s' spent time
  | tick {s : St} {spent : Nat → Nat → Nat} {time : Nat} : Timed cfg dur s spent time → s.busy ≠ [] → Waits cfg s →
      (∀ p ∈ s.busy, spent s.build p.2 < dur s.build p.2) → Timed cfg dur s (clock s spent) (time + 1)

end Jom.Sched
