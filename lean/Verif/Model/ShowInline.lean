/-
`createTempFiles` with the option /U (`dumpInlineFiles`), src/jomlib/commandexecutor.cpp 257-312: the same as `createTemps` of `Model/CommandExec.lean`, with what is
written to the standard output.

Simplifications: the conversion to the local encoding and the conversion of `\n` by the C library (only for output that is not buffered) are left out.
-/
import Verif.Model.CommandExec

namespace Jom.Exec
open Inference (Command InlineFile)

/-- `writeToStandardOutput` (commandexecutor.cpp 329-335): into the buffer of the process, or with `fputs` (323-327), which ends at the first null character. -/
def put (buffered : Bool) (text : Str) : Str := if buffered then text else text.takeWhile (· != Char.ofNat 0)

/-- commandexecutor.cpp 287-293. -/
def showFile (buffered : Bool) (name content : Str) : Str :=
  put buffered c!"---" ++ put buffered name ++ put buffered c!"---\n" ++ put buffered content ++ put buffered c!"---end of inline file---\n"

/-- One inline file (commandexecutor.cpp 263-309). An exception leaves behind what was written before. -/
def createTempU (dump buffered : Bool) (writable : Str → Bool) (native : Str → Str) (cand : Nat → Str) (fuel : Nat) (f : InlineFile)
    (line : Str) (t : TempSt) (out : Str) : Except (TempErr × Str) (Str × TempSt × Str) :=
  match (if f.filename.isEmpty then freshName t.fs cand fuel t.next else some (f.filename, t.next)) with
  | none => .error (.noName, out)
  | some (name, next) =>
    if !writable name then .error (.cannotOpen name, out)
    else
      let out := if dump then out ++ showFile buffered name f.content else out
      let fs : FS := fun x => if x = name then some f.content else t.fs x
      let line := match indexOf? c!"<<" line with
        | some (i + 1) => line.take (i + 1) ++ quoteName (native name) ++ line.drop (i + 3)
        | _ => line
      .ok (line, { fs := fs, next := next, temps := t.temps ++ [(name, f.keep)] }, out)

/-- The inline files of one command. -/
def createTempsOfU (dump buffered : Bool) (writable : Str → Bool) (native : Str → Str) (cand : Nat → Str) (fuel : Nat) :
    List InlineFile → Str → TempSt → Str → Except (TempErr × Str) (Str × TempSt × Str)
  | [], line, t, out => .ok (line, t, out)
  | f :: files, line, t, out =>
    match createTempU dump buffered writable native cand fuel f line t out with
    | .error e => .error e
    | .ok (line, t, out) => createTempsOfU dump buffered writable native cand fuel files line t out

/-- `createTempFiles` (commandexecutor.cpp 257-312). -/
def createTempsU (dump buffered : Bool) (writable : Str → Bool) (native : Str → Str) (cand : Nat → Str) (fuel : Nat) :
    List Command → TempSt → Str → Except (TempErr × Str) (List Command × TempSt × Str)
  | [], t, out => .ok ([], t, out)
  | c :: cmds, t, out =>
    match createTempsOfU dump buffered writable native cand fuel c.files c.cmd.line t out with
    | .error e => .error e
    | .ok (line, t, out) =>
      match createTempsU dump buffered writable native cand fuel cmds t out with
      | .error e => .error e
      | .ok (cmds, t, out) => .ok ({ c with cmd := { c.cmd with line := line } } :: cmds, t, out)

end Jom.Exec
