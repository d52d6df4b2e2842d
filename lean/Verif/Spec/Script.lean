/-
Specification of the recipe of a target as a script (C87): which lines are shown, and which processes are started in which directory with
which environment, if processes end with given exit codes. Independent of the functions of `Model/CommandExec.lean`.
-/
import Verif.Spec.CommandExec

namespace Jom.Spec.Exec
open Jom.Exec (Ev World)
open Inference (Command)

/-- The environment of a process. -/
abbrev Env := List (Str × Str)

/-- What the user sees of a log: lines and processes. -/
def seen (l : List Ev) : List Ev := l.filter fun e => match e with
  | .print _ | .run _ _ _ => true
  | _ => false

/-- A line is shown unless it or jom is silent. -/
def echo (quiet : Bool) (c : Command) : List Ev := if c.cmd.silent || quiet then [] else [.print c.cmd.line]

/-- The argument `a` names the directory `d`, possibly in double quotes. -/
def DirName (a d : Str) : Prop := (a = d ∧ d ≠ [] ∧ d.head? ≠ some '"') ∨ a = '"' :: (d ++ ['"'])

/-- The line says `cd` and `rest` follows. -/
def Says (word line rest : Str) : Prop := ∃ u b, line = u ++ b :: rest ∧ isSpace b = true ∧ toLower u = word

/-- The line says `cd d` or `cd /d d`. -/
def SaysCd (line d : Str) : Prop := ∃ rest, Says c!"cd" line rest ∧
  ((toLower ((trimmed rest).take 2) ≠ c!"/d" ∧ DirName (trimmed rest) d) ∨
   ∃ x b r, trimmed rest = '/' :: x :: b :: r ∧ (x = 'd' ∨ x = 'D') ∧ isSpace b = true ∧ DirName (trimmed r) d)

/-- The line says `cd` alone. -/
def AsksDir (line : Str) : Prop := ∃ rest, Says c!"cd" line rest ∧ trimmed rest = []

/-- The line says `set n=v`. -/
def SaysSet (line n v : Str) : Prop := ∃ rest, Says c!"set" line rest ∧ trimmed rest = n ++ '=' :: v ∧ '=' ∉ n

/-- The line says `set` without an assignment. -/
def AsksVariable (line : Str) : Prop := ∃ rest, Says c!"set" line rest ∧ '=' ∉ trimmed rest

/-- jom executes the line itself. -/
def Own (line : Str) : Prop := Plain line ∧ (FirstWord c!"cd" line ∨ FirstWord c!"set" line)

/-- The line is to be executed by a process with the command line `p`: the line itself, if it needs no shell and can be started, and
otherwise by the shell. -/
def ProcessOf (w : World) (dir line p : Str) : Prop :=
  (Plain line ∧ ¬ Internal line ∧ (∃ n, w.starts n dir line = true) ∧ p = line) ∨
  ((¬ Plain line ∨ Internal line ∨ ∃ n, w.starts n dir line = false) ∧ p = viaShell w.comSpec line)

/-- Execution of a script in the directory `dir` (empty: that of jom) with the environment `env`; the processes end with these exit codes,
one after the other. The list is what is to be seen; the last component tells whether the script has failed, `none` = a process is
running. -/
inductive Script (w : World) (quiet : Bool) : Str → Env → List Command → List Nat → List Ev → Option Bool → Prop
  | done {dir env codes} : Script w quiet dir env [] codes [] (some false)
  | comment {dir env c cs codes out r} (h : Comment (unescape c.cmd.line)) (ht : Script w quiet dir env cs codes out r) :
      Script w quiet dir env (c :: cs) codes (echo quiet c ++ out) r
  | askDir {dir env c cs codes out r} (hp : Plain (unescape c.cmd.line)) (h : AsksDir (unescape c.cmd.line))
      (ht : Script w quiet dir env cs codes out r) :
      Script w quiet dir env (c :: cs) codes (echo quiet c ++ .print (if dir = [] then w.cwd else dir) :: out) r
  | cd {dir env c cs codes out r d p} (hp : Plain (unescape c.cmd.line)) (h : SaysCd (unescape c.cmd.line) d) (hd : w.abs d = some p)
      (ht : Script w quiet p env cs codes out r) : Script w quiet dir env (c :: cs) codes (echo quiet c ++ out) r
  | noDir {dir env c cs codes out r d} (hp : Plain (unescape c.cmd.line)) (h : SaysCd (unescape c.cmd.line) d) (hd : w.abs d = none)
      (hl : 1 ≤ c.cmd.maxExitCode) (ht : Script w quiet dir env cs codes out r) :
      Script w quiet dir env (c :: cs) codes (echo quiet c ++ out) r
  | noDirFails {dir env c cs codes d} (hp : Plain (unescape c.cmd.line)) (h : SaysCd (unescape c.cmd.line) d) (hd : w.abs d = none)
      (hl : c.cmd.maxExitCode < 1) : Script w quiet dir env (c :: cs) codes (echo quiet c) (some true)
  | set {dir env c cs codes out r n v} (hp : Plain (unescape c.cmd.line)) (h : SaysSet (unescape c.cmd.line) n v)
      (ht : Script w quiet dir (envSet n v env) cs codes out r) : Script w quiet dir env (c :: cs) codes (echo quiet c ++ out) r
  | askVariable {dir env c cs codes out r} (hp : Plain (unescape c.cmd.line)) (h : AsksVariable (unescape c.cmd.line))
      (ht : Script w quiet dir env cs codes out r) : Script w quiet dir env (c :: cs) codes (echo quiet c ++ out) r
  | waits {dir env c cs p} (hc : ¬ Comment (unescape c.cmd.line)) (ho : ¬ Own (unescape c.cmd.line))
      (hp : ProcessOf w dir (unescape c.cmd.line) p) :
      Script w quiet dir env (c :: cs) [] (echo quiet c ++ [.run p dir env]) none
  | process {dir env c cs p x code codes out r} (hc : ¬ Comment (unescape c.cmd.line)) (ho : ¬ Own (unescape c.cmd.line))
      (hp : ProcessOf w dir (unescape c.cmd.line) p) (hx : CodeOf x code) (hl : code ≤ c.cmd.maxExitCode)
      (ht : Script w quiet dir env cs codes out r) :
      Script w quiet dir env (c :: cs) (x :: codes) (echo quiet c ++ .run p dir env :: out) r
  | processFails {dir env c cs p x code codes} (hc : ¬ Comment (unescape c.cmd.line)) (ho : ¬ Own (unescape c.cmd.line))
      (hp : ProcessOf w dir (unescape c.cmd.line) p) (hx : CodeOf x code) (hl : c.cmd.maxExitCode < code) :
      Script w quiet dir env (c :: cs) (x :: codes) (echo quiet c ++ [.run p dir env]) (some true)

/-- The directories behind `cd` are written in one of the ways above (not: `cd /docs`, which jom takes for `cd /d cs`). -/
def CdsFine (cs : List Command) : Prop :=
  ∀ c ∈ cs, Plain (unescape c.cmd.line) → FirstWord c!"cd" (unescape c.cmd.line) →
    AsksDir (unescape c.cmd.line) ∨ ∃ d, SaysCd (unescape c.cmd.line) d

end Jom.Spec.Exec
