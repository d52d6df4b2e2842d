/-
Model of a tree of joms whose outermost makefile contains `.NOTPARALLEL`: the job server is started with the number of jobs of the command line
(src/app/main.cpp 143, in `initJobServer`, called in line 198), and only then the number of executors of the outermost jom is set to 1 (main.cpp 208-211).

Not modelled: as in `Model/JobTree.lean`.
-/
import Verif.Model.JobTree
import Verif.Model.Blocks

namespace Jom.Tree

open Jom.Sched

/-- The first jom, with a job server for `n` jobs: main.cpp 196-213, jobserver.cpp 55. The number of executors, `cfg.jobs`, is that of `Blocks.jobsOf`. -/
def startWith (n : Nat) (cfg : Cfg) : Sys := { sem := n - 1, procs := [{ cfg := cfg, st := init cfg, parent := none }] }

/-- States of the tree that can occur. -/
def ReachableWith (n : Nat) (cfg : Cfg) (y : Sys) : Prop := ∃ es, run (startWith n cfg) es = some y

end Jom.Tree
