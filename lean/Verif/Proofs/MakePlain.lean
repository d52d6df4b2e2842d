/- What the world may do during runs in which jom itself does not do anything for targets. Runs in general are reduced to these in
`Verif.Proofs.MakeSplit`. -/
import Verif.Spec.Content

namespace Jom.Spec.Build

open Jom.Make

variable {C : Type}

/-- The world behaves: no file has a time in the future when jom looks; a command only writes the file of its target (or
files that nobody mentions); a command that ends successfully has done its work; no target is made by things that jom
does itself only (`cd`, `set`), which write no file. -/
def PlainBehaves (env : Env) (cfg : Sched.Cfg) (db : Db) (j : J) : Make.Event → Prop
  | .startProcesses a => (∀ x s, j.m.files.disk x = some s → s ≤ a.now) ∧ a.res ≠ .sync false
  | .acquired _ res _ _ => res ≠ .sync false
  | .childFinished e failed =>
    failed = false → ∀ t, (e, t) ∈ j.s.busy → DidWork (fun n => j.m.files.disk (env.abs n)) db t
  | .write file value => MayWrite env.abs db cfg.targets (j.s.busy.map (·.2)) file value
  | _ => True

/-- If only things that jom does itself make a target, they write its file (an inline file, for example) or files that nobody mentions, and they do
their work unless the target is idle. -/
def PlainSync (env : Env) (cfg : Sched.Cfg) (db : Db) (idle : Nat → Prop) (j : J) (e : Make.Event) (res : Sched.StartRes)
    (writes : List (Str × Option Nat)) : Prop :=
  res = .sync false → ∀ t, Starts env cfg j e t →
    (∀ w ∈ writes, MayWrite env.abs db cfg.targets [t] w.1 w.2) ∧
    (¬ idle t → DidWork (fun n => changed j.m.files.disk writes (env.abs n)) db t)

/-- The world behaves, cf. `PlainBehaves`, where the commands of idle targets (`all`, `install`, ...) need not do any work, and targets may
be made by things that jom does itself. -/
def PlainBut (env : Env) (cfg : Sched.Cfg) (db : Db) (idle : Nat → Prop) (j : J) : Make.Event → Prop
  | .startProcesses a => (∀ x s, j.m.files.disk x = some s → s ≤ a.now) ∧ PlainSync env cfg db idle j (.startProcesses a) a.res a.writes
  | .acquired asked res writes w => PlainSync env cfg db idle j (.acquired asked res writes w) res writes
  | .childFinished e failed =>
    failed = false → ∀ t, (e, t) ∈ j.s.busy → ¬ idle t → DidWork (fun n => j.m.files.disk (env.abs n)) db t
  | .write file value => MayWrite env.abs db cfg.targets (j.s.busy.map (·.2)) file value
  | _ => True

/-- A recipe that fails before jom has started a process (for example because of `cd` to a directory that does not exist)
changes no file that the makefile mentions. -/
def FailsClean (env : Env) (cfg : Sched.Cfg) (db : Db) : Make.Event → Prop
  | .startProcesses a => a.res = .sync true → ∀ w ∈ a.writes, MayWrite env.abs db cfg.targets [] w.1 w.2
  | .acquired _ res writes _ => res = .sync true → ∀ w ∈ writes, MayWrite env.abs db cfg.targets [] w.1 w.2
  | _ => True

/-- Runs of jom, cf. `Run`, together with what the files contain. Contents change only if a file is written. -/
inductive PlainTraced (env : Env) (cfg : Sched.Cfg) (info : Nat → UpToDate.TInfo) (disk : Str → Option Nat) (content : Str → C)
    (ok : J → (Str → C) → Make.Event → Prop) : J → (Str → C) → Prop
  | start (asked : List Str) : DepsNow env cfg { info := info, files := { disk := disk, cache := [] } } 0 →
      AskedNow { s := Sched.init cfg, m := { info := info, files := { disk := disk, cache := [] } } } asked →
      PlainTraced env cfg info disk content ok
        { s := Sched.init cfg, m := buildAsked env asked { info := info, files := { disk := disk, cache := [] } } } content
  | step {j j' : J} {c c' : Str → C} {e : Make.Event} (asked : List Str) : PlainTraced env cfg info disk content ok j c → ok j c e →
      step env cfg j e = some j' → (∀ x, (∀ value, e ≠ .write x value) → c' x = c x) →
      (j'.s.build ≠ j.s.build → DepsNow env cfg j'.m j'.s.build) → AskedNow j' asked →
      PlainTraced env cfg info disk content ok (if j'.s.build ≠ j.s.build then { j' with m := buildAsked env asked j'.m } else j') c'

/-- The world behaves, cf. `PlainBehaves`, and the commands follow the recipes: a command that ends successfully has left the content that its recipe
says. -/
def PlainFollows (env : Env) (cfg : Sched.Cfg) (db : Db) (recipe : Nat → (Str → C → Prop) → C) (j : J) (c : Str → C) (e : Make.Event) : Prop :=
  PlainBehaves env cfg db j e ∧
  ∀ ex, e = .childFinished ex false → ∀ t, (ex, t) ∈ j.s.busy →
    Correct recipe (fun n => j.m.files.disk (env.abs n)) (fun n => c (env.abs n)) db t

/-- What is written is newer than everything that was there before the run (`disk`). -/
def PlainLater (disk : Str → Option Nat) (e : Make.Event) : Prop :=
  ∀ file τ, e = .write file (some τ) → ∀ x s, disk x = some s → s < τ

end Jom.Spec.Build
