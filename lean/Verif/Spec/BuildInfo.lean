/- Vocabulary for C103: runs together with what `/D` prints. -/
import Verif.Model.BuildInfo
import Verif.Spec.MakeRun

namespace Jom.Spec.BuildInfo

open Jom.Make

/-- Runs of jom with `/D`, cf. `Run`, together with the lines printed so far. -/
inductive Prints (env : Env) (cfg : Sched.Cfg) (info : Nat → UpToDate.TInfo) (disk : Str → Option Nat) (ok : J → Make.Event → Prop) :
    J → List Line → Prop
  | start (asked : List Str) : DepsNow env cfg { info := info, files := { disk := disk, cache := [] } } 0 →
      AskedNow { s := Sched.init cfg, m := { info := info, files := { disk := disk, cache := [] } } } asked →
      Prints env cfg info disk ok
        { s := Sched.init cfg, m := buildAsked env asked { info := info, files := { disk := disk, cache := [] } } } []
  | step {j j' : J} {e : Make.Event} {lines : List Line} (asked : List Str) : Prints env cfg info disk ok j lines → ok j e →
      step env cfg j e = some j' → (j'.s.build ≠ j.s.build → DepsNow env cfg j'.m j'.s.build) → AskedNow j' asked →
      Prints env cfg info disk ok
        (if j'.s.build ≠ j.s.build then { j' with m := buildAsked env asked j'.m } else j') (lines ++ printed env cfg j e)

/-- What happened to a target, as far as `/D` tells: `true` = it was found up to date; `false` = it was not: it was started, there was nothing to
do for it, or (with `/K`) it was given up. -/
def verdict : Sched.Ev → Option (Bool × Nat)
  | .upToDate _ t => some (true, t)
  | .started _ t => some (false, t)
  | .noCommands _ t => some (false, t)
  | .unbuildable _ t => some (false, t)
  | _ => none

/-- The verdicts so far; `next` is the target that has been chosen but is not started yet (jom waits for the permission to run a further job, or
its commands could not be prepared). -/
def verdicts (log : List Sched.Ev) (next : Option Nat) : List (Bool × Nat) := log.filterMap verdict ++ next.toList.map (false, ·)

end Jom.Spec.BuildInfo
