import Verif.Model.Blocks
import Verif.Model.MacroTable

/-!
What `/P` prints about macros, inference rules and targets (src/app/main.cpp 187-194, src/jomlib/macrotable.cpp 369-375,
src/jomlib/makefile.cpp 458-497).

The lists of macros and targets are in the order in which the hash tables are iterated. The conversion to the local 8-bit encoding is left out.
-/

namespace Jom.Report

open Inference (Rule)

/-- `MacroTable::dump`: macrotable.cpp 369-375. -/
def macros (ms : Macros) : Str := ms.flatMap fun m => m.1 ++ c!" = " ++ m.2.value ++ ['\n']

/-- The path in front of an extension: makefile.cpp 479-481 and 483-485. -/
def path (p : Str) : Str := if p = ['.'] then [] else '{' :: (p ++ ['}'])

/-- One round of `Makefile::dumpInferenceRules`: makefile.cpp 479-495. -/
def rule (r : Rule) : Str :=
  path r.fromPath ++ r.fromExt ++ path r.toPath ++ r.toExt ++ (if r.batch then c!"::\n" else c!":\n") ++
    r.commands.flatMap (fun c => '\t' :: (c.cmd.line ++ ['\n'])) ++ ['\n']

/-- `Makefile::dumpInferenceRules`: makefile.cpp 476-497. -/
def rules (rs : List Rule) : Str := rs.flatMap rule

/-- One round of `Makefile::dumpTargets`: makefile.cpp 461-472. Nothing is printed at the end of a list, so that an empty list of dependents is
followed by `commands:` on the same line. -/
def target (b : Blocks.DBlock) : Str :=
  b.name ++ c!":\n\tdependents:" ++ b.deps.flatMap (fun d => '\t' :: (d ++ ['\n'])) ++
    c!"\tcommands:" ++ b.cmds.flatMap (fun c => '\t' :: (c.cmd.line ++ ['\n'])) ++ ['\n']

/-- `Makefile::dumpTargets`: makefile.cpp 458-474. -/
def targets (bs : List Blocks.DBlock) : Str := bs.flatMap target

/-- All that `/P` prints: main.cpp 187-194. -/
def all (ms : Macros) (rs : List Rule) (bs : List Blocks.DBlock) : Str :=
  c!"MACROS:\n\n" ++ macros ms ++ c!"\nINFERENCE RULES:\n\n" ++ rules rs ++ c!"\nTARGETS:\n\n" ++ targets bs

end Jom.Report
