/-
Specification of the execution of commands (C42, C43, C45, C59, C60), independent of the functions of `Model/CommandExec.lean`.
-/
import Verif.Model.CommandExec

namespace Jom.Spec.Exec
open Jom.Exec (Ev World)
open Inference (Command)

/-- `%%` in a command stands for `%`. -/
def unescape : Str → Str
  | [] => []
  | c :: s =>
    if c = '%' then
      match s with
      | '%' :: s => '%' :: unescape s
      | s => c :: unescape s
    else c :: unescape s

/-- The first word of the line is `word`, in any case, and a blank follows. -/
def FirstWord (word line : Str) : Prop := ∃ w b rest, line = w ++ b :: rest ∧ isSpace b = true ∧ toLower w = word

/-- A line without pipes, redirections and several commands. -/
def Plain (line : Str) : Prop := ∀ c ∈ line, c ∉ ['|', '>', '<', '&']

/-- Lines that do nothing. -/
def Comment (line : Str) : Prop := line.head? = some ':' ∨ FirstWord c!"rem" line

/-- Internal commands of the shell. -/
def Internal (line : Str) : Prop := ∃ w ∈ [c!"assoc", c!"break", c!"call", c!"chdir", c!"cd", c!"cls", c!"color", c!"copy", c!"del",
   c!"dir", c!"echo", c!"endlocal", c!"erase", c!"exit", c!"for", c!"ftype", c!"goto", c!"if", c!"md", c!"move", c!"path",
   c!"pause", c!"popd", c!"prompt", c!"pushd", c!"ren", c!"rename", c!"setlocal", c!"shift", c!"time", c!"title", c!"type",
   c!"ver", c!"verify", c!"vol"], FirstWord w line

/-- How a line is passed to the shell. -/
def viaShell (comSpec line : Str) : Str :=
  (if comSpec = [] then c!"cmd.exe" else comSpec) ++ c!" /C " ++ (if '"' ∈ line then ['"'] ++ line ++ ['"'] else line)

/-- The exit code that counts: negative codes and 0xf291 are crashes, which count as 2. -/
def CodeOf (exitCode code : Nat) : Prop :=
  (exitCode < 2147483648 ∧ exitCode ≠ 62097 ∧ code = exitCode) ∨
  ((2147483648 ≤ exitCode ∨ exitCode = 62097) ∧ code = 2)

/-- Events within the execution of one command. -/
def Inner : Ev → Prop
  | .begin _ | .ended _ _ | .finished _ => False
  | _ => True

/-- Is a process started? -/
def isRun : Ev → Bool
  | .run _ _ _ => true
  | _ => false

/-- A command is over without a process: a comment, a builtin, a failed `cd`, or neither the program nor the shell can be
started. -/
def NoProcess (w : World) (c : Command) (mid : List Ev) (code : Nat) : Prop :=
  (∀ e ∈ mid, Inner e) ∧ mid.countP isRun = 0 ∧
  (code = 0 ∨ (code = 1 ∧ FirstWord c!"cd" (unescape c.cmd.line)) ∨
    (code = 2 ∧ ∃ n d, w.starts n d (viaShell w.comSpec (unescape c.cmd.line)) = false))

/-- One process has been started. -/
def OneProcess (mid : List Ev) : Prop := (∀ e ∈ mid, Inner e) ∧ mid.countP isRun = 1

/-- One command, executed with the exit codes of processes that end in the future: what happens, the code of the command,
and the exit codes that are left. -/
inductive Step (w : World) (c : Command) : List Nat → List Ev → Nat → List Nat → Prop
  | builtin {codes mid code} (h : NoProcess w c mid code) : Step w c codes mid code codes
  | process {x codes mid code} (h : OneProcess mid) (hc : CodeOf x code) : Step w c (x :: codes) mid code codes

/-- What is to be seen of a list of commands, the first with number `i`, if the processes end with these exit codes, one after
the other: in order, one at a time, up to the first failure. -/
inductive Trace (w : World) : Nat → List Command → List Nat → List Ev → Prop
  | waiting {i c later mid} (h : OneProcess mid) : Trace w i (c :: later) [] (.begin i :: mid)
  | fails {i c later codes mid code codes'} (h : Step w c codes mid code codes') (hc : c.cmd.maxExitCode < code) :
      Trace w i (c :: later) codes (.begin i :: (mid ++ [.ended i code, .error [], .finished true]))
  | last {i c codes mid code codes'} (h : Step w c codes mid code codes') (hc : code ≤ c.cmd.maxExitCode) :
      Trace w i [c] codes (.begin i :: (mid ++ [.ended i code, .finished false]))
  | next {i c later codes mid code codes' t} (h : Step w c codes mid code codes') (hc : code ≤ c.cmd.maxExitCode)
      (hl : later ≠ []) (ht : Trace w (i + 1) later codes' t) :
      Trace w i (c :: later) codes (.begin i :: (mid ++ .ended i code :: t))

/-- The text of a command is shown, unless it or jom is silent; with /N always. -/
def shown (o : Jom.Exec.Opts) (c : Command) : List Ev :=
  if o.dryRun = true ∨ (c.cmd.silent = false ∧ o.silent = false) then [.print c.cmd.line] else []

/-- The working directory chosen last; empty = the current directory of jom. -/
def lastDir (l : List Ev) : Str := l.foldl (fun d e => match e with | .chdir x => x | _ => d) []

/-- Every process is started in the directory chosen last. -/
def DirLog (l : List Ev) : Prop := ∀ pre line d e post, l = pre ++ .run line d e :: post → d = lastDir pre

/-- The environment after assignments. -/
def envAfter (env : List (Str × Str)) (l : List Ev) : List (Str × Str) :=
  l.foldl (fun env e => match e with | .assign n v => envSet n v env | _ => env) env

/-- Every process gets the environment after all assignments before. -/
def EnvLog (env : List (Str × Str)) (l : List Ev) : Prop :=
  ∀ pre line d e post, l = pre ++ .run line d e :: post → e = envAfter env pre

end Jom.Spec.Exec
