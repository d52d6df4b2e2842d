/-
Model of nested joms that create job servers of their own: `initJobServer` (src/app/main.cpp 116-149) starts a new job server in a nested jom
whose `-j` differs from the inherited number of jobs, and the environment of its commands names the new server (jobserver.cpp 60-61).

A group is a tree of joms that share one job server (`Model/JobTree.lean`, `Model/NotParallel.lean`).  The outermost jom of each group but the
first runs as a command of a jom of another group.  As in `Model/JobTree.lean`, an executor cannot finish its target while it runs a jom, and it runs
one jom at a time.

Not modelled: when a nested jom creates a server (C52); here it may do so at any time.
-/
import Verif.Model.NotParallel

namespace Jom.Forest

open Jom.Sched Jom.Tree

/-- A tree of joms with a job server for `n` jobs; `host` = group, process and executor that run its outermost jom. -/
structure Group where
  n : Nat
  y : Sys
  host : Option (Nat × Nat × Nat)

/-- The outermost jom has not ended. -/
def Group.alive (G : Group) : Bool :=
  match G.y.procs[0]? with
  | none => false
  | some p => p.alive

/-- The executors of group `g` that run a live jom with a job server of its own. -/
def guests (f : List Group) (g : Nat) : List (Nat × Nat) :=
  f.filterMap fun G =>
    match G.host with
    | none => none
    | some (g', k, x) => if G.alive = true ∧ g' = g then some (k, x) else none

inductive GEvent where
  /-- an event inside of group `g` -/
  | inner (g : Nat) (e : SysEvent)
  /-- executor `x` of process `k` of group `g` starts a jom with a job server for `n` jobs -/
  | server (g k x n : Nat) (cfg : Cfg)

/-- Executors that run a jom of another group neither finish nor start a jom. -/
def allowed (f : List Group) (g : Nat) : SysEvent → Bool
  | .proc k (.childFinished x _) => decide ((k, x) ∉ guests f g)
  | .proc _ _ => true
  | .spawn k x _ => decide ((k, x) ∉ guests f g)

/-- One step; `none` = not possible. A jom has at least one executor, a server at least one job (options.cpp 42, 295-302). -/
def step (f : List Group) : GEvent → Option (List Group)
  | .inner g e =>
    match f[g]? with
    | none => none
    | some G => if allowed f g e then (Tree.step G.y e).map fun y => f.set g { G with y := y } else none
  | .server g k x n cfg =>
    match f[g]? with
    | none => none
    | some G =>
      if (k, x) ∈ slots G.y ∧ (k, x) ∉ hosts G.y ∧ (k, x) ∉ guests f g ∧ 0 < n ∧ 0 < cfg.jobs then
        some (f ++ [{ n := n, y := startWith n cfg, host := some (g, k, x) }])
      else none

/-- A sequence of steps. -/
def run : List Group → List GEvent → Option (List Group)
  | f, [] => some f
  | f, e :: es => (step f e).bind fun f => run f es

/-- The outermost jom of all, with a job server for `n` jobs. -/
def first (n : Nat) (cfg : Cfg) : List Group := [{ n := n, y := startWith n cfg, host := none }]

/-- States that can occur. -/
def Reachable (n : Nat) (cfg : Cfg) (f : List Group) : Prop := ∃ es, run (first n cfg) es = some f

end Jom.Forest
