/-
Joint model of one jom process: the scheduler (`Model/Scheduler.lean`), the records of the targets with
`isTargetUpToDate` (`Model/UpToDate.lean`), the cache of file times (`Model/FileInfo.lean`), the disk, and the
application of inference rules.  In `Model/Scheduler.lean` file times and "has commands" are answers of an oracle; here
they are computed from the files.

Simplifications: the disk does not change during one call of `startProcesses` (except by the built-in commands of a target
that ends before `start` returns); which of the matching inference rules is taken is an input (it is determined in
`Model/Inference.lean`); inference rules in batch mode are in
`Model/MakeBatch.lean`.
-/
import Verif.Model.Scheduler
import Verif.Model.UpToDate
import Verif.Model.FileInfo

namespace Jom.Make

open Jom.Graph Jom.Sched Jom.UpToDate

/-- `lookup` = `Makefile::target` (makefile.h 160-175), `dir` = `Makefile::dirPath`, `abs` maps a name to the file
it denotes (see `Model/FileInfo.lean`).  `key r` is `m_targets.value(dependentName)` (makefile.cpp 514) for the rule whose
inferred dependent is `r`: no normalisation of the name, and the search path of the rule in front of it. -/
structure Env where
  lookup : Str → Option Nat
  key : Str → Option Nat
  dir : Str
  abs : Str → Str

/-- The records of the targets, and disk and cache. -/
structure Mem where
  info : Nat → TInfo
  files : FileInfo.St

/-- The whole process. -/
structure J where
  s : Sched.St
  m : Mem

/-- What `FastFileInfo`, `Makefile::target` and the clock answer. -/
def world (env : Env) (now : Nat) (f : FileInfo.St) : World :=
  { fi := fun n => (FileInfo.query env.abs n f).2, lookup := env.lookup, now := now }

/-- `FastFileInfo` objects are created for some of the names (those for which `asked` is true). -/
def remember (env : Env) (asked : Str → Bool) (names : List Str) (f : FileInfo.St) : FileInfo.St :=
  (names.filter asked).foldl (fun f n => (FileInfo.query env.abs n f).1) f

/-- One call of `isTargetUpToDate` (dependencygraph.cpp 103-180). It asks for the file of the target and for some
of its dependents and inferable dependents (105, 131, 163). -/
def test (env : Env) (now : Nat) (asked : Str → Bool) (t : Nat) (m : Mem) : Mem × Bool :=
  let r := isTargetUpToDate (world env now m.files) t m.info
  let x := m.info t
  ({ info := r.1, files := remember env asked (x.name :: x.deps ++ x.rules) m.files }, r.2)

/-- The first `foreach` in the loop: dependencygraph.cpp 310-312. -/
def checkLeaves (env : Env) (now : Nat) (asked : Str → Bool) (state : Nat → NState) : List Nat → Mem → Mem × List Nat
  | [], m => (m, [])
  | l :: ls, m =>
    if state l = .executing then checkLeaves env now asked state ls m
    else
      let (m, b) := test env now asked l m
      let (m, gone) := checkLeaves env now asked state ls m
      (m, if b then l :: gone else gone)

/-- The loop of `findAvailableTarget`: dependencygraph.cpp 308-318, cf. `Graph.dirtyLoop`. -/
def dirtyLoop (env : Env) (now : Nat) (asked : Str → Bool) : Nat → Graph → Mem → Graph × Mem × List Nat
  | 0, g, m => (g, m, [])
  | fuel + 1, g, m =>
    if g.dirty then
      let (m, gone) := checkLeaves env now asked g.state g.leaves m
      let (g, m, gone') := dirtyLoop env now asked fuel (gone.foldl removeLeafNode { g with dirty := false }) m
      (g, m, gone ++ gone')
    else (g, m, [])

/-- dependencygraph.cpp 305-319, cf. `Graph.prune`. -/
def prune (env : Env) (now : Nat) (asked : Str → Bool) (ignoreTimeStamps : Bool) (g : Graph) (m : Mem) :
    Graph × Mem × List Nat :=
  if ignoreTimeStamps then (g, m, []) else dirtyLoop env now asked (g.ids.length + 1) g m

/-- The test of `filterRulesByDependent`: makefile.cpp 508-515. `dependentName` is taken to denote the same file as
`inferredDependent(targetName)`. -/
def there (env : Env) (m : Mem) (r : Str) : Bool :=
  ((env.key r).any fun k => (m.info k).fileExists) || (m.files.disk (env.abs r)).isSome

/-- The rules left by `filterRulesByDependent`, as names of the inferred dependents: makefile.cpp 498-522, 593-594. -/
def matching (env : Env) (m : Mem) (t : Nat) : List Str := (m.info t).rules.filter (there env m)

/-- `applyInferenceRules(target)` with `applyInferenceRule`: makefile.cpp 588-619. `choose t` is the inferred dependent
of the rule with the best priority (any other matching one if `choose t` does not match). A rule without
commands leaves the target without commands: that is not modelled, rules have commands. -/
def applyRule (env : Env) (choose : Nat → Str) (m : Mem) (t : Nat) : Mem :=
  match matching env m t with
  | [] => m
  | r :: rs =>
    let d := if choose t ∈ r :: rs then choose t else r
    let x := m.info t
    let deps := if d ∈ x.deps then x.deps else x.deps ++ [d]
    { m with info := upd m.info t { x with rules := [], deps := deps, hasCmds := true } }

/-- What the outside world decides during one call of `startProcesses`: the clock, the names for which `FastFileInfo` is
asked, the choice of inference rules, exceptions while macros in the commands of inference rules are expanded
(makefile.cpp 629-634), the outcome of `CommandExecutor::start`, and what built-in commands do to the disk. -/
structure Answers where
  now : Nat
  asked : Str → Bool
  choose : Nat → Str
  throws : Nat → Bool
  res : StartRes
  writes : List (Str × Option Nat)

/-- A process writes (`some time`) or deletes (`none`) a file. -/
def write (m : Mem) (w : Str × Option Nat) : Mem :=
  { m with files := { m.files with disk := fun x => if x = w.1 then w.2 else m.files.disk x } }

/-- `FastFileInfo::clearCacheForFile(executor->target()->targetName())`: targetexecutor.cpp 236. -/
def forget (t : Nat) (m : Mem) : Mem := { m with files := FileInfo.clearCache (m.info t).name m.files }

/-- `findNextTarget` with `findAvailableTarget`: targetexecutor.cpp 203-222, dependencygraph.cpp 300-342, cf.
`Sched.findNextTarget`. An exception is only possible when a rule is applied. With `/A` the chosen target is tested
for the message only (337). -/
def findNextTarget (env : Env) (cfg : Cfg) (a : Answers) : Nat → J → Except J J
  | 0, j => .ok j
  | i + 1, j =>
    if j.s.g.leaves.isEmpty then .ok { j with s := { j.s with next := none } }
    else
      let (g, m, gone) := prune env a.now a.asked cfg.buildAll j.s.g j.m
      let s := { j.s with g := g, log := j.s.log ++ gone.map (.upToDate j.s.build ·) }
      if a.throws i && g.leaves.any (fun t => !(matching env m t).isEmpty) then .error { s := s, m := m }
      else
        let m := g.leaves.foldl (applyRule env a.choose) m
        let (g, r) := pick s.g
        let s := { s with g := g, next := r }
        match r with
        | none => .ok { s := s, m := m }
        | some t =>
          let m := if cfg.buildAll then (test env a.now a.asked t m).1 else m
          if (m.info t).hasCmds = false then
            findNextTarget env cfg a i
              { s := { s with g := removeLeaf s.g t, next := none, log := s.log ++ [.noCommands s.build t] }, m := m }
          else if cfg.keepGoing && s.g.state t == .unbuildable then
            findNextTarget env cfg a i
              { s := { s with g := removeLeaf s.g t, next := none, log := s.log ++ [.unbuildable s.build t] }, m := m }
          else .ok { s := s, m := m }

/-- `buildNextTarget`: targetexecutor.cpp 156-173, cf. `Sched.buildNextTarget`. `CommandExecutor::start` asks for the
target and its dependents when it expands file name macros (makefile.cpp 350-352). If the target ends before
`start` returns, its commands have changed the disk and its cache entry is dropped. -/
def buildNextTarget (env : Env) (cfg : Cfg) (asked : Str → Bool) (res : StartRes) (writes : List (Str × Option Nat))
    (j : J) : J :=
  { s := Sched.buildNextTarget cfg res j.s
    m := match j.s.next with
      | none => j.m
      | some t =>
        if j.s.aborted then j.m
        else
          let x := j.m.info t
          let m := { j.m with files := remember env asked (x.name :: x.deps) j.m.files }
          match res with
          | .sync _ => forget t (writes.foldl write m)
          | _ => m }

/-- `invalidateTimeStamps`: makefile.cpp 577-586. -/
def invalidate (m : Mem) : Mem := { m with info := fun k => { m.info k with time := 0, fileExists := false } }

/-- `startProcesses`: targetexecutor.cpp 119-154, cf. `Sched.startProcesses`. -/
def startProcesses (env : Env) (cfg : Cfg) (a : Answers) (j : J) : J :=
  if j.s.aborted || j.s.acquiring || j.s.avail.isEmpty then j
  else
    match (if j.s.next.isNone then findNextTarget env cfg a (j.s.g.ids.length + 1) j else .ok j) with
    | .error j => { j with s := onException cfg j.s }
    | .ok j =>
      if j.s.next.isSome then
        if j.s.running cfg = 0 then buildNextTarget env cfg a.asked a.res a.writes j
        else { j with s := { j.s with jobAcq := j.s.jobAcq + 1, acquiring := true } }
      else if j.s.running cfg = 0 then
        match j.s.pending with
        | [] => { j with s := finishBuild cfg 0 j.s }
        | t :: rest => { s := rebuild cfg (j.s.build + 1) t rest j.s, m := invalidate j.m }
      else j

/-- Events; `write` is what the processes started by jom (and others) do to the disk. -/
inductive Event where
  | startProcesses (a : Answers)
  | grant
  | acquired (asked : Str → Bool) (res : StartRes) (writes : List (Str × Option Nat)) (inWait : Bool)
  | childFinished (executor : Nat) (failed : Bool)
  | abortDone
  | write (file : Str) (value : Option Nat)

/-- One step, cf. `Sched.step`; `none` = the event is not possible in this state. -/
def step (env : Env) (cfg : Cfg) (j : J) : Event → Option J
  | .startProcesses a =>
    if j.s.dead = false ∧ 0 < j.s.queued then
      some (startProcesses env cfg a { j with s := { j.s with queued := j.s.queued - 1 } }) else none
  | .grant =>
    if j.s.dead = false ∧ j.s.acquiring = true ∧ j.s.granted = false then
      some { j with s := { j.s with granted := true, taken := j.s.taken + 1 } } else none
  | .acquired asked res writes inWait =>
    if j.s.dead = false ∧ j.s.granted = true ∧ (inWait = true → 0 < j.s.frames)
        ∧ (inWait = false → j.s.busy ≠ [] ∨ j.s.frames = 0) then
      let j := buildNextTarget env cfg asked res writes { j with s := { j.s with acquiring := false, granted := false } }
      some (if inWait then { j with s := { j.s with relWait := j.s.relWait + 1 } } else j)
    else none
  | .childFinished e failed =>
    if j.s.dead then none
    else match j.s.busy.find? (·.1 = e) with
      | some (_, t) => some { s := childFinished cfg e t failed j.s, m := forget t j.m }
      | none => none
  | .abortDone =>
    if j.s.dead = false ∧ 0 < j.s.frames ∧ j.s.acquiring = false then
      let s := finishBuild cfg 2 { j.s with frames := j.s.frames - 1 }
      some { j with s := { s with queued := s.queued + 1 } }
    else none
  | .write file value => some { j with m := write j.m (file, value) }

/-- What a dependent name stands for when the graph is built: dependencygraph.cpp 189-205. -/
def resolve (env : Env) (f : FileInfo.St) (d : Str) : Dep :=
  match env.lookup d with
  | some k => .node k
  | none =>
    match env.lookup (env.dir ++ '\\' :: d) with
    | some k => .node k
    | none => if ((FileInfo.query env.abs d f).2).isSome then .file else .missing

/-- The dependents of the `b`-th graph are those that the records and files say. -/
def DepsNow (env : Env) (cfg : Cfg) (m : Mem) (b : Nat) : Prop :=
  ∀ t, cfg.deps b t = (m.info t).deps.map (resolve env m.files)

/-- `DependencyGraph::internalBuild` asks for dependents that are not targets (dependencygraph.cpp 197). -/
def buildAsked (env : Env) (names : List Str) (m : Mem) : Mem :=
  let noTarget := fun n => (env.lookup n).isNone && (env.lookup (env.dir ++ '\\' :: n)).isNone
  { m with files := remember env noTarget names m.files }

/-- `asked` are names that `internalBuild` asks for while it builds the present graph. -/
def AskedNow (j : J) (asked : List Str) : Prop := ∀ n ∈ asked, ∃ t ∈ j.s.g.ids, n ∈ (j.m.info t).deps

/-- Runs of jom on the makefile whose targets have the records `info`, beginning with the files `disk`, all of whose events
satisfy `ok`. -/
inductive Run (env : Env) (cfg : Cfg) (info : Nat → TInfo) (disk : Str → Option Nat) (ok : J → Event → Prop) : J → Prop
  | start (asked : List Str) : DepsNow env cfg { info := info, files := { disk := disk, cache := [] } } 0 →
      AskedNow { s := Sched.init cfg, m := { info := info, files := { disk := disk, cache := [] } } } asked →
      Run env cfg info disk ok
        { s := Sched.init cfg, m := buildAsked env asked { info := info, files := { disk := disk, cache := [] } } }
  | step {j j' : J} {e : Event} (asked : List Str) : Run env cfg info disk ok j → ok j e → step env cfg j e = some j' →
      (j'.s.build ≠ j.s.build → DepsNow env cfg j'.m j'.s.build) → AskedNow j' asked →
      Run env cfg info disk ok
        (if j'.s.build ≠ j.s.build then { j' with m := buildAsked env asked j'.m } else j')

end Jom.Make
