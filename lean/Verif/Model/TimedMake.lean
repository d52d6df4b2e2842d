/-
Builds of a makefile in time: the runs of `Model/Make.lean` with the clock of `Model/Timed.lean` (same simplification: only processes
take time).
-/
import Verif.Model.Make
import Verif.Model.Timed

namespace Jom.Make

open Jom.Sched Jom.UpToDate

/-- Runs of jom, cf. `Run`, with the time spent on each target in each build and the time since the start. -/
inductive TimedRun (env : Env) (cfg : Cfg) (info : Nat → TInfo) (disk : Str → Option Nat) (ok : J → Event → Prop)
    (dur : Nat → Nat → Nat) : J → (Nat → Nat → Nat) → Nat → Prop
  | start (asked : List Str) : DepsNow env cfg { info := info, files := { disk := disk, cache := [] } } 0 →
      AskedNow { s := Sched.init cfg, m := { info := info, files := { disk := disk, cache := [] } } } asked →
      TimedRun env cfg info disk ok dur
        { s := Sched.init cfg, m := buildAsked env asked { info := info, files := { disk := disk, cache := [] } } } (fun _ _ => 0) 0
  | step {j j' : J} {spent : Nat → Nat → Nat} {time : Nat} {e : Event} (asked : List Str) :
      TimedRun env cfg info disk ok dur j spent time → ok j e → step env cfg j e = some j' →
      (j'.s.build ≠ j.s.build → DepsNow env cfg j'.m j'.s.build) → AskedNow j' asked →
      TimedRun env cfg info disk ok dur
        (if j'.s.build ≠ j.s.build then { j' with m := buildAsked env asked j'.m } else j') spent time
  | tick {j : J} {spent : Nat → Nat → Nat} {time : Nat} : TimedRun env cfg info disk ok dur j spent time → j.s.busy ≠ [] →
      Waits cfg j.s → (∀ p ∈ j.s.busy, spent j.s.build p.2 < dur j.s.build p.2) →
      TimedRun env cfg info disk ok dur j (clock j.s spent) (time + 1)

end Jom.Make
