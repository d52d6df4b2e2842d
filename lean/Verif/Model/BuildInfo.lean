/-
Model of what `/D` prints: `DependencyGraph::displayNodeBuildInfo` (src/jomlib/dependencygraph.cpp 344-356) and its calls (314, 336).

The functions follow `Model/Make.lean` and compute the lines that are printed on the way.

Simplifications: the target of a line is given by its number and the time by the value of `m_timeStamp`; the conversion of a time to a local
date (`FileTimeToSystemTime`, `SystemTimeToTzSpecificLocalTime`) is a parameter. The conversion to the local 8-bit encoding is not modelled.
-/
import Verif.Model.Make

namespace Jom.Make

open Jom.Graph Jom.Sched Jom.UpToDate

/-- One call of `displayNodeBuildInfo(node, isUpToDate)`: dependencygraph.cpp 344. -/
structure Line where
  upToDate : Bool
  time : Nat
  target : Nat
deriving DecidableEq, Repr

/-- A local date and time: the fields of `SYSTEMTIME` that are printed. -/
structure Stamp where
  day : Nat
  month : Nat
  year : Nat
  hour : Nat
  minute : Nat
  second : Nat
deriving DecidableEq, Repr

/-- `%02d`. -/
def two (n : Nat) : Str := if n < 10 then '0' :: Nat.toDigits 10 n else Nat.toDigits 10 n

/-- `FileTime::toString`: filetime.cpp 72-75. (The buffer of 512 characters is large enough: 5 + 5 * 5 + 6 characters at most.) -/
def Stamp.text (s : Stamp) : Str :=
  two s.day ++ '.' :: (two s.month ++ '.' :: (Nat.toDigits 10 s.year ++ ' ' :: (two s.hour ++ ':' :: (two s.minute ++ ':' :: two s.second))))

/-- dependencygraph.cpp 347-354. -/
def Line.text (stamp : Nat → Stamp) (name : Nat → Str) (l : Line) : Str :=
  (if l.upToDate then ' ' else '*') :: ((stamp l.time).text ++ ' ' :: name l.target)

/-- The lines of the loop in `findAvailableTarget`: dependencygraph.cpp 308-318, cf. `dirtyLoop`. The leaves that are up to date are shown after
all leaves have been tested. -/
def dirtyLines (env : Env) (now : Nat) (asked : Str → Bool) : Nat → Graph → Mem → List Line
  | 0, _, _ => []
  | fuel + 1, g, m =>
    if g.dirty then
      let (m, gone) := checkLeaves env now asked g.state g.leaves m
      gone.map (fun l => ⟨true, (m.info l).time, l⟩) ++ dirtyLines env now asked fuel (gone.foldl removeLeafNode { g with dirty := false }) m
    else []

/-- dependencygraph.cpp 305-319, cf. `prune`. -/
def pruneLines (env : Env) (now : Nat) (asked : Str → Bool) (ignoreTimeStamps : Bool) (g : Graph) (m : Mem) : List Line :=
  if ignoreTimeStamps then [] else dirtyLines env now asked (g.ids.length + 1) g m

/-- The lines printed by `findNextTarget` with `findAvailableTarget`: targetexecutor.cpp 203-222, dependencygraph.cpp 300-342, cf.
`findNextTarget`. With `/A` the chosen target is tested before it is shown (336). -/
def findLines (env : Env) (cfg : Cfg) (a : Answers) : Nat → J → List Line
  | 0, _ => []
  | i + 1, j =>
    if j.s.g.leaves.isEmpty then []
    else
      let lines := pruneLines env a.now a.asked cfg.buildAll j.s.g j.m
      let (g, m, gone) := prune env a.now a.asked cfg.buildAll j.s.g j.m
      let s : Sched.St := { j.s with g := g, log := j.s.log ++ gone.map (Ev.upToDate j.s.build ·) }
      if a.throws i && g.leaves.any (fun t => !(matching env m t).isEmpty) then lines
      else
        let m := g.leaves.foldl (applyRule env a.choose) m
        let (g, r) := pick s.g
        let s := { s with g := g, next := r }
        match r with
        | none => lines
        | some t =>
          let r := if cfg.buildAll then test env a.now a.asked t m else (m, false)
          let m := r.1
          let lines := lines ++ [⟨r.2, (m.info t).time, t⟩]
          if (m.info t).hasCmds = false then
            lines ++ findLines env cfg a i
              { s := { s with g := removeLeaf s.g t, next := none, log := s.log ++ [Ev.noCommands s.build t] }, m := m }
          else if cfg.keepGoing && s.g.state t == .unbuildable then
            lines ++ findLines env cfg a i
              { s := { s with g := removeLeaf s.g t, next := none, log := s.log ++ [Ev.unbuildable s.build t] }, m := m }
          else lines

/-- The lines printed while an event is handled: only `startProcesses` (targetexecutor.cpp 119-154, cf. `startProcesses`) looks for
targets, unless there is one already. -/
def printed (env : Env) (cfg : Cfg) (j : J) : Event → List Line
  | .startProcesses a =>
    if j.s.dead = false ∧ 0 < j.s.queued then
      let j := { j with s := { j.s with queued := j.s.queued - 1 } }
      if j.s.aborted || j.s.acquiring || j.s.avail.isEmpty then []
      else if j.s.next.isNone then findLines env cfg a (j.s.g.ids.length + 1) j else []
    else []
  | _ => []

end Jom.Make
