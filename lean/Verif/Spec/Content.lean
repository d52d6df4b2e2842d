/- What the files of a build contain: vocabulary for the result of a build. -/
import Verif.Spec.MakeRun

namespace Jom.Spec.Build

open Jom.Make

variable {C : Type}

/-- The file `n` stands behind the name `d`: it is the file `d` itself, or `d` is a target without file and `n` stands behind one of
its dependents. -/
inductive Stands (f : Files) (db : Db) : Str → Str → Prop
  | file {d} : f d ≠ none → Stands f db d d
  | behind {d k e n} : f d = none → db.lookup d = some k → e ∈ (db.target k).deps → Stands f db e n → Stands f db d n

/-- `n` is one of the files from which `t` is made. -/
def MadeFrom (f : Files) (db : Db) (t : Nat) (n : Str) : Prop := ∃ d, Counts f db t d ∧ Stands f db d n

/-- The content of `t` is the one that its commands produce. `content` is what the files contain; `recipe t` maps names and contents of the
files from which `t` is made to the content that the commands of `t` write. -/
def Correct (recipe : Nat → (Str → C → Prop) → C) (f : Files) (content : Str → C) (db : Db) (t : Nat) : Prop :=
  content (db.target t).name = recipe t fun n v => MadeFrom f db t n ∧ content n = v

/-- `k` can be made, if not at once then after others: it has commands, or it can be inferred from a file that exists or can be made. -/
inductive Derived (f : Files) (db : Db) : Nat → Prop
  | commands {k} : (db.target k).hasCmds = true → Derived f db k
  | source {k r} : r ∈ (db.target k).rules → f r ≠ none → Derived f db k
  | made {k r l} : r ∈ (db.target k).rules → Resolves db r l → Derived f db l → Derived f db k

/-- What `x` contains may change with the event `e`. -/
def Touches (env : Env) (cfg : Sched.Cfg) (j : J) (e : Make.Event) (x : Str) : Prop :=
  (∃ value, e = .write x value) ∨ ∃ value t, Writes x value e ∧ Starts env cfg j e t

/-- Runs of jom, cf. `Run`, together with what the files contain. Contents change only if a file is written. `ok` is told what the files contain
after the event. -/
inductive Traced (env : Env) (cfg : Sched.Cfg) (info : Nat → UpToDate.TInfo) (disk : Str → Option Nat) (content : Str → C)
    (ok : J → (Str → C) → Make.Event → Prop) : J → (Str → C) → Prop
  | start (asked : List Str) : DepsNow env cfg { info := info, files := { disk := disk, cache := [] } } 0 →
      AskedNow { s := Sched.init cfg, m := { info := info, files := { disk := disk, cache := [] } } } asked →
      Traced env cfg info disk content ok
        { s := Sched.init cfg, m := buildAsked env asked { info := info, files := { disk := disk, cache := [] } } } content
  | step {j j' : J} {c c' : Str → C} {e : Make.Event} (asked : List Str) : Traced env cfg info disk content ok j c → ok j c' e →
      step env cfg j e = some j' → (∀ x, ¬ Touches env cfg j e x → c' x = c x) →
      (j'.s.build ≠ j.s.build → DepsNow env cfg j'.m j'.s.build) → AskedNow j' asked →
      Traced env cfg info disk content ok (if j'.s.build ≠ j.s.build then { j' with m := buildAsked env asked j'.m } else j') c'

/-- The commands of `t` end successfully with the event `e`, after which the files are `disk`: a process ends, or jom has done everything itself. -/
def Succeeds (env : Env) (cfg : Sched.Cfg) (j : J) (t : Nat) (disk : Str → Option Nat) : Make.Event → Prop
  | .childFinished ex failed => failed = false ∧ (ex, t) ∈ j.s.busy ∧ disk = j.m.files.disk
  | .startProcesses a => a.res = .sync false ∧ Starts env cfg j (.startProcesses a) t ∧ disk = changed j.m.files.disk a.writes
  | .acquired asked res writes w => res = .sync false ∧ Starts env cfg j (.acquired asked res writes w) t ∧ disk = changed j.m.files.disk writes
  | _ => False

/-- The world behaves, cf. `Behaves`, and the commands follow the recipes: commands that end successfully have left the content that their recipe
says. -/
def FollowsRecipes (env : Env) (cfg : Sched.Cfg) (db : Db) (recipe : Nat → (Str → C → Prop) → C) (j : J) (c : Str → C) (e : Make.Event) : Prop :=
  Behaves env cfg db j e ∧
  ∀ t disk, Succeeds env cfg j t disk e → Correct recipe (fun n => disk (env.abs n)) (fun n => c (env.abs n)) db t

/-- The files that look up to date have the content that their recipes say. -/
def StartsCorrect (recipe : Nat → (Str → C → Prop) → C) (f : Files) (content : Str → C) (db : Db) (requested : List Nat) : Prop :=
  ∀ x, Wanted db requested x → Buildable f db x → UpToDate f db x → Correct recipe f content db x

/-- `t` is being made in the state `s`, or its commands have failed. -/
def Unfinished (s : Sched.St) (t : Nat) : Prop := t ∈ s.busy.map (·.2) ∨ ∃ b, Sched.Ev.failed b t ∈ s.log

/-- No target that was requested later, and with which jom has begun, needs a target whose commands have failed. -/
def NotRetried (db : Db) (requested : List Nat) (s : Sched.St) : Prop :=
  ∀ b t, Sched.Ev.failed b t ∈ s.log → ∀ b' r, b < b' → b' ≤ s.build → requested[b']? = some r → ¬ Relation.ReflTransGen (Needs db) r t

/-- Two builds start from the same sources: mentioned files that are not those of wanted targets that can be made exist in both cases or in none, and
have the same contents. Files of targets that can be made may differ. -/
def SameSources (abs : Str → Str) (db : Db) (requested : List Nat) (disk disk' : Str → Option Nat) (content content' : Str → C) : Prop :=
  ∀ n, Mentioned db requested n →
    (∀ k, Wanted db requested k → abs n = abs (db.target k).name → ¬ Derived (fun n => disk (abs n)) db k) →
    (disk (abs n) = none ↔ disk' (abs n) = none) ∧ content (abs n) = content' (abs n)

end Jom.Spec.Build
