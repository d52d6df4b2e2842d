/-
The joint model of `Model/Make.lean` with inference rules in batch mode (`.c.obj::`), which is what jom does without the option
`/Y`.  Only the application of inference rules to the leaves differs (makefile.cpp 524-543, 588-614, 641-653).

The simplifications are those of `Model/Make.lean`.
-/
import Verif.Model.Make
import Verif.Model.Inference

namespace Jom.MakeBatch

open Jom.Graph Jom.Sched Jom.UpToDate Jom.Make
open Jom.Inference (addDep filesPerBatch batches)

/-- An element of `m_batchModeTargets`: rule, target, inferred dependent. -/
abbrev Waiting := Nat × Nat × Str

/-- `applyInferenceRules(target)` with `applyInferenceRule(target, rule)`: makefile.cpp 588-619. `rule t d` is the rule in
batch mode whose inferred dependent for the target `t` is `d`, if there is one. Such a rule is only noted (610-613); its
target has no candidate rules any more (605). -/
def note (env : Env) (rule : Nat → Str → Option Nat) (choose : Nat → Str) (x : Mem × List Waiting) (t : Nat) :
    Mem × List Waiting :=
  match matching env x.1 t with
  | [] => x
  | r :: rs =>
    let d := if choose t ∈ r :: rs then choose t else r
    match rule t d with
    | none => (applyRule env choose x.1 t, x.2)
    | some k => ({ x.1 with info := upd x.1.info t { x.1.info t with rules := [] } }, x.2 ++ [(k, t, d)])

/-- `applyInferenceRule(batch, rule)`: makefile.cpp 641-656. Only the first target gets the commands, and the inferred
dependents of all. -/
def applyGroup (m : Mem) : List (Nat × Str) → Mem
  | [] => m
  | (t, d) :: g =>
    let x := m.info t
    { m with info := upd m.info t { x with deps := ((t, d) :: g).foldl (fun ds p => addDep ds p.2) x.deps, hasCmds := true } }

/-- `m_batchModeTargets.values(rule)`: makefile.cpp 531. The values are the most recent first, and so are the leaves in
`multiHash.values(mf)` (dependencygraph.cpp 329), so that the order is that of the leaves. -/
def ofRule (k : Nat) (q : List Waiting) : List (Nat × Str) := (q.filter (·.1 = k)).map (·.2)

/-- makefile.cpp 529-542. The order of the rules (that of a hash table there) does not matter, as different rules have
different targets. -/
def applyWaiting (jobs : Nat) (q : List Waiting) (m : Mem) : Mem :=
  (q.map (·.1)).eraseDups.foldl (fun m k =>
    (batches (filesPerBatch (ofRule k q).length jobs) ((ofRule k q).length + 1) (ofRule k q)).foldl applyGroup m) m

/-- `applyInferenceRules(targets)`: makefile.cpp 524-543. -/
def applyAll (env : Env) (rule : Nat → Str → Option Nat) (jobs : Nat) (choose : Nat → Str) (leaves : List Nat) (m : Mem) : Mem :=
  let r := leaves.foldl (note env rule choose) (m, [])
  applyWaiting jobs r.2 r.1

/-- `findNextTarget`: targetexecutor.cpp 203-222, dependencygraph.cpp 300-342, cf. `Make.findNextTarget`. -/
def findNextTarget (env : Env) (cfg : Cfg) (rule : Nat → Str → Option Nat) (a : Answers) : Nat → J → Except J J
  | 0, j => .ok j
  | i + 1, j =>
    if j.s.g.leaves.isEmpty then .ok { j with s := { j.s with next := none } }
    else
      let (g, m, gone) := prune env a.now a.asked cfg.buildAll j.s.g j.m
      let s := { j.s with g := g, log := j.s.log ++ gone.map (.upToDate j.s.build ·) }
      if a.throws i && g.leaves.any (fun t => !(matching env m t).isEmpty) then .error { s := s, m := m }
      else
        let m := applyAll env rule cfg.jobs a.choose g.leaves m
        let (g, r) := pick s.g
        let s := { s with g := g, next := r }
        match r with
        | none => .ok { s := s, m := m }
        | some t =>
          let m := if cfg.buildAll then (test env a.now a.asked t m).1 else m
          if (m.info t).hasCmds = false then
            findNextTarget env cfg rule a i
              { s := { s with g := removeLeaf s.g t, next := none, log := s.log ++ [.noCommands s.build t] }, m := m }
          else if cfg.keepGoing && s.g.state t == .unbuildable then
            findNextTarget env cfg rule a i
              { s := { s with g := removeLeaf s.g t, next := none, log := s.log ++ [.unbuildable s.build t] }, m := m }
          else .ok { s := s, m := m }

/-- `startProcesses`: targetexecutor.cpp 119-154, cf. `Make.startProcesses`. -/
def startProcesses (env : Env) (cfg : Cfg) (rule : Nat → Str → Option Nat) (a : Answers) (j : J) : J :=
  if j.s.aborted || j.s.acquiring || j.s.avail.isEmpty then j
  else
    match (if j.s.next.isNone then findNextTarget env cfg rule a (j.s.g.ids.length + 1) j else .ok j) with
    | .error j => { j with s := onException cfg j.s }
    | .ok j =>
      if j.s.next.isSome then
        if j.s.running cfg = 0 then buildNextTarget env cfg a.asked a.res a.writes j
        else { j with s := { j.s with jobAcq := j.s.jobAcq + 1, acquiring := true } }
      else if j.s.running cfg = 0 then
        match j.s.pending with
        | [] => { j with s := finishBuild cfg 0 j.s }
        | t :: rest => { s := rebuild cfg (j.s.build + 1) t rest j.s, m := invalidate j.m }
      else j

/-- One step, cf. `Make.step`. -/
def step (env : Env) (cfg : Cfg) (rule : Nat → Str → Option Nat) (j : J) : Make.Event → Option J
  | .startProcesses a =>
    if j.s.dead = false ∧ 0 < j.s.queued then
      some (startProcesses env cfg rule a { j with s := { j.s with queued := j.s.queued - 1 } }) else none
  | e => Make.step env cfg j e

/-- Runs, cf. `Make.Run`. -/
inductive Run (env : Env) (cfg : Cfg) (rule : Nat → Str → Option Nat) (info : Nat → TInfo) (disk : Str → Option Nat)
    (ok : J → Make.Event → Prop) : J → Prop
  | start (asked : List Str) : DepsNow env cfg { info := info, files := { disk := disk, cache := [] } } 0 →
      AskedNow { s := Sched.init cfg, m := { info := info, files := { disk := disk, cache := [] } } } asked →
      Run env cfg rule info disk ok
        { s := Sched.init cfg, m := buildAsked env asked { info := info, files := { disk := disk, cache := [] } } }
  | step {j j' : J} {e : Make.Event} (asked : List Str) : Run env cfg rule info disk ok j → ok j e →
      step env cfg rule j e = some j' →
      (j'.s.build ≠ j.s.build → DepsNow env cfg j'.m j'.s.build) → AskedNow j' asked →
      Run env cfg rule info disk ok
        (if j'.s.build ≠ j.s.build then { j' with m := buildAsked env asked j'.m } else j')

end Jom.MakeBatch
