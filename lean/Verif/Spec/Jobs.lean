/- Commands whose success depends on what they read: vocabulary for the independence of a build from the number of jobs. -/
import Verif.Spec.Content

namespace Jom.Spec.Build

open Jom.Make

variable {C : Type}

/-- The commands of `t` end with the event `e`, after which the files are `disk`: a process ends, or jom has done everything itself. `failed` says
how. -/
def Ends (env : Env) (cfg : Sched.Cfg) (j : J) (t : Nat) (failed : Bool) (disk : Str → Option Nat) : Make.Event → Prop
  | .childFinished ex f => f = failed ∧ (ex, t) ∈ j.s.busy ∧ disk = j.m.files.disk
  | .startProcesses a => a.res = .sync failed ∧ Starts env cfg j (.startProcesses a) t ∧ disk = changed j.m.files.disk a.writes
  | .acquired asked res writes w => res = .sync failed ∧ Starts env cfg j (.acquired asked res writes w) t ∧ disk = changed j.m.files.disk writes
  | _ => False

/-- Whether commands succeed depends only on the names and contents of the files from which their target is made: `works t` says for which they
do. (When jom stops the build, processes may end in any way.) -/
def Decides (env : Env) (cfg : Sched.Cfg) (db : Db) (works : Nat → (Str → C → Prop) → Prop) (j : J) (c : Str → C) (e : Make.Event) : Prop :=
  j.s.aborted = false → ∀ t failed disk, Ends env cfg j t failed disk e →
    (failed = false ↔ works t fun n v => MadeFrom (fun n => disk (env.abs n)) db t n ∧ c (env.abs n) = v)

end Jom.Spec.Build
