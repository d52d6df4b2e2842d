import Verif.Model.Wildcards
import Verif.Model.Prepare
import Verif.Model.Parser

/-!
From the text of a makefile to the targets that are about to be built: `MakefileFactory::apply`
(src/jomlib/makefilefactory.cpp 159-168), which reads and checks the makefile, and `TargetExecutor::apply` (main.cpp 216).

`entries` lists the names of the files in a folder that match a pattern. `order` and `keys` are the orders in which the hash tables
of sync points and of target extensions are iterated.
-/

namespace Jom.Whole

open Parse Blocks Inference Prepare

/-- Why nothing is built. -/
inductive LoadErr where
  | read (e : PErr)
  | setup (e : Prepare.Err)

/-- The makefile as read (makefilefactory.cpp 162-168, parser.cpp 56-102). `s` is the preprocessor after `openFile`. -/
def read (w : PP.World) (fuel : Nat) (entries : Str → Str → List Str) (dirPath : Str) (silent stop : Bool) (s : PP.St) :
    Except PErr (PSt PP.St) :=
  parse (ppSource w fuel) (Wildcards.files entries dirPath) fuel silent stop s

/-- Reading and preparing (makefilefactory.cpp 162-168, main.cpp 216). -/
def load (w : PP.World) (fuel : Nat) (entries : Str → Str → List Str) (dirPath : Str) (order : List (Str × List Str) → List (Str × List Str))
    (keys : List Rule → List Str) (silent stop : Bool) (active : List Str) (s : PP.St) : Except LoadErr (PSt PP.St × Tab × List Nat) :=
  match read w fuel entries dirPath silent stop s with
  | .error e => .error (.read e)
  | .ok p =>
    match setup p.rules p.suffixes (order p.table.sync) (keys p.rules) active p.table with
    | .error e => .error (.setup e)
    | .ok (t, ids) => .ok (p, t, ids)

end Jom.Whole
