/- What the world may do while jom runs: vocabulary for the properties of whole runs. -/
import Verif.Model.Make
import Verif.Spec.Make

namespace Jom.Spec.Build

open Jom.Make

/-- Nobody changes files during the run. -/
def NobodyWrites (_ : J) (e : Make.Event) : Prop := ∀ file value, e ≠ .write file value

/-- `t` is started when the event `e` happens in the state `j`. -/
def Starts (env : Env) (cfg : Sched.Cfg) (j : J) (e : Make.Event) (t : Nat) : Prop :=
  ∃ j' b, Make.step env cfg j e = some j' ∧ Sched.Ev.started b t ∈ j'.s.log ∧ Sched.Ev.started b t ∉ j.s.log

/-- The files after changes. -/
def changed (disk : Str → Option Nat) : List (Str × Option Nat) → Str → Option Nat
  | [] => disk
  | w :: ws => changed (fun x => if x = w.1 then w.2 else disk x) ws

/-- If everything that the commands of a target do is done by jom itself before it goes on (an inline file is written, `cd` or `set`, a directory
that does not exist), they write the file of the target or files that nobody mentions, and they do their work if they end successfully,
unless the target is idle. -/
def SyncWorks (env : Env) (cfg : Sched.Cfg) (db : Db) (idle : Nat → Prop) (j : J) (e : Make.Event) (res : Sched.StartRes)
    (writes : List (Str × Option Nat)) : Prop :=
  ∀ failed, res = .sync failed → ∀ t, Starts env cfg j e t →
    (∀ w ∈ writes, MayWrite env.abs db cfg.targets [t] w.1 w.2) ∧
    (failed = false → ¬ idle t → DidWork (fun n => changed j.m.files.disk writes (env.abs n)) db t)

/-- The world behaves: no file has a time in the future when jom looks; commands only write the file of their target (or
files that nobody mentions); commands that end successfully have done their work. -/
def Behaves (env : Env) (cfg : Sched.Cfg) (db : Db) (j : J) : Make.Event → Prop
  | .startProcesses a => (∀ x s, j.m.files.disk x = some s → s ≤ a.now) ∧
    SyncWorks env cfg db (fun _ => False) j (.startProcesses a) a.res a.writes
  | .acquired asked res writes w => SyncWorks env cfg db (fun _ => False) j (.acquired asked res writes w) res writes
  | .childFinished e failed =>
    failed = false → ∀ t, (e, t) ∈ j.s.busy → DidWork (fun n => j.m.files.disk (env.abs n)) db t
  | .write file value => MayWrite env.abs db cfg.targets (j.s.busy.map (·.2)) file value
  | _ => True

/-- The world behaves, cf. `Behaves`, where the commands of idle targets (`all`, `install`, ...) need not do any work. -/
def BehavesBut (env : Env) (cfg : Sched.Cfg) (db : Db) (idle : Nat → Prop) (j : J) : Make.Event → Prop
  | .startProcesses a => (∀ x s, j.m.files.disk x = some s → s ≤ a.now) ∧ SyncWorks env cfg db idle j (.startProcesses a) a.res a.writes
  | .acquired asked res writes w => SyncWorks env cfg db idle j (.acquired asked res writes w) res writes
  | .childFinished e failed =>
    failed = false → ∀ t, (e, t) ∈ j.s.busy → ¬ idle t → DidWork (fun n => j.m.files.disk (env.abs n)) db t
  | .write file value => MayWrite env.abs db cfg.targets (j.s.busy.map (·.2)) file value
  | _ => True

/-- The event writes (or deletes) `file`: a process does, or jom itself. -/
def Writes (file : Str) (value : Option Nat) : Make.Event → Prop
  | .startProcesses a => (∃ failed, a.res = .sync failed) ∧ (file, value) ∈ a.writes
  | .acquired _ res writes _ => (∃ failed, res = .sync failed) ∧ (file, value) ∈ writes
  | .write f v => f = file ∧ v = value
  | _ => False

/-- What is written is newer than everything that was there before the run (`disk`). -/
def WritesLater (disk : Str → Option Nat) (e : Make.Event) : Prop :=
  ∀ file τ, Writes file (some τ) e → ∀ x s, disk x = some s → s < τ

/-- The event does not make the file `F`. -/
def LeavesAway (F : Str) : Make.Event → Prop
  | .startProcesses a => ∀ w ∈ a.writes, w.1 = F → w.2 = none
  | .acquired _ _ writes _ => ∀ w ∈ writes, w.1 = F → w.2 = none
  | .write file value => file = F → value = none
  | _ => True

/-- The times that jom sees when it compares times are later than `T`. -/
def Since (T : Nat) : Make.Event → Prop
  | .startProcesses a => T < a.now
  | _ => True

/-- The event changes the file `F`. -/
def Changes (F : Str) : Make.Event → Prop
  | .startProcesses a => ∃ w ∈ a.writes, w.1 = F
  | .acquired _ _ writes _ => ∃ w ∈ writes, w.1 = F
  | .write file _ => file = F
  | _ => False

/-- The file `F` is not changed before the commands of the target `p` have been started. -/
def OnlyAfterStart (env : Make.Env) (cfg : Sched.Cfg) (p : Nat) (F : Str) (j : Make.J) (e : Make.Event) : Prop :=
  Changes F e → ∀ j', Make.step env cfg j e = some j' → ∃ b, Sched.Ev.started b p ∈ j'.s.log

/-- A dry run (`/N`): commands are shown and not executed, so that a target that is started ends at once, successfully, and no file
changes; files have times in the past. -/
def OnlyShows (disk : Str → Option Nat) (_ : J) : Make.Event → Prop
  | .startProcesses a => a.res = .sync false ∧ a.writes = [] ∧ ∀ x s, disk x = some s → s < a.now
  | .write _ _ => False
  | _ => True

/-- `rule t r` is the rule in batch mode by which `t` could be inferred from `r`: fewer than one and a half times as many
targets as jobs could be made by the same rule in batch mode. -/
def FewPerRule (rule : Nat → Str → Option Nat) (jobs : Nat) (db : Db) : Prop :=
  ∀ k (ts : List Nat), ts.Nodup → (∀ t ∈ ts, ∃ r ∈ (db.target t).rules, rule t r = some k) → 2 * ts.length < 3 * jobs

/-- The commands of `t` make `x`: they are its own, or they have been given a file from which `x` could be inferred. -/
def MadeWith (db : Db) (j : J) (t x : Nat) : Prop := x = t ∨ ∃ d ∈ (j.m.info t).deps, d ∈ (db.target x).rules

/-- The world behaves, as in `Behaves`, where a command in batch mode does its work for all its targets. -/
def BatchBehaves (env : Env) (cfg : Sched.Cfg) (db : Db) (j : J) : Make.Event → Prop
  | .startProcesses a => (∀ x s, j.m.files.disk x = some s → s ≤ a.now) ∧ a.res ≠ .sync false
  | .acquired _ res _ _ => res ≠ .sync false
  | .childFinished e failed => failed = false → ∀ t, (e, t) ∈ j.s.busy → ∀ x, Wanted db cfg.targets x → MadeWith db j t x →
    DidWork (fun n => j.m.files.disk (env.abs n)) db x
  | .write file value => ∃ xs, (∀ x ∈ xs, ∃ b ∈ j.s.busy, MadeWith db j b.2 x) ∧ MayWrite env.abs db cfg.targets xs file value
  | _ => True

end Jom.Spec.Build
