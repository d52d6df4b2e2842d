/-
What a user knows about a call of jom: the variables of the environment and the command line.
-/
import Verif.Spec.Options

namespace Jom.Spec.Main
open Jom Jom.Cmd Jom.Spec.Cmd

/-- Names of variables are the same in capital and small letters. -/
def SameName (a b : Str) : Prop := toLower a = toLower b

/-- The text `NAME=value` gives the variable this value. -/
def Sets (text name value : Str) : Prop := ∃ n, text = n ++ '=' :: value ∧ '=' ∉ n ∧ SameName n name

/-- The variable is not set. -/
def Unset (env : List Str) (name : Str) : Prop := ∀ t ∈ env, ∀ v, ¬ Sets t name v

/-- The variable has this value (the last one, should there be several). -/
def Variable (env : List Str) (name value : Str) : Prop :=
  ∃ pre text post, env = pre ++ text :: post ∧ Sets text name value ∧ Unset post name

/-- The argument does not define this variable. -/
def DefinesNot (name arg : Str) : Prop := ∀ n v, Defines arg n v → ¬ SameName n name

/-- A correct command line: options with usable numbers of jobs, definitions of macros, targets. -/
structure Correct (items : List Item) (plain args : List Str) : Prop where
  spelled : Args items plain args
  numbers : ∀ n ∈ jobNumbers items, ∃ v, JobCount n v
  names : ∀ p ∈ plain, '=' ∈ p → ∃ n v, Defines p n v

/-- Help or the version is asked for. -/
def AsksOnly (items : List Item) : Prop := Given items 'H' ∨ Given items '?' ∨ GivenLong items .version

/-- No name of a variable contains a dollar sign. -/
def PlainNames (env : List Str) : Prop := ∀ t ∈ env, ∀ n v, t = n ++ '=' :: v → '=' ∉ n → '$' ∉ n

/-- The predefined macros for tools and their options. -/
def tools : List (Str × Str) :=
  [(c!"AS", c!"ml"), (c!"BC", c!"bc"), (c!"CC", c!"cl"), (c!"COBOL", c!"cobol"), (c!"CPP", c!"cl"), (c!"CXX", c!"cl"), (c!"FOR", c!"fl"),
   (c!"PASCAL", c!"pl"), (c!"RC", c!"rc"), (c!"ASFLAGS", []), (c!"BCFLAGS", []), (c!"CCFLAGS", []), (c!"COBOLFLAGS", []), (c!"CPPFLAGS", []),
   (c!"CXXFLAGS", []), (c!"FORFLAGS", []), (c!"PASCALFLAGS", []), (c!"RCFLAGS", [])]

/-- The name of a predefined macro. -/
def Predefined (name : Str) : Prop := name = c!"MAKE" ∨ name = c!"MAKEDIR" ∨ ∃ v, (name, v) ∈ tools

/-- A path for use in a command line: with backslashes, in double quotes if there is a blank in it. -/
def ForCommands (path x : Str) : Prop :=
  ∃ p, p = path.map (fun c => if c = '/' then '\\' else c) ∧ ((∃ c ∈ path, isSpace c = true) ∧ x = '"' :: (p ++ ['"']) ∨
    (∀ c ∈ path, isSpace c = false) ∧ x = p)

/-- The variable is not set, or to the empty text. -/
def Blank (env : List Str) (name : Str) : Prop := Unset env name ∨ Variable env name []

/-- The flags in the environment: `JOMFLAGS`, else `MAKEFLAGS`. -/
def EnvFlags (env : List Str) (f : Str) : Prop :=
  f ≠ [] ∧ (Variable env c!"JOMFLAGS" f ∨ Blank env c!"JOMFLAGS" ∧ Variable env c!"MAKEFLAGS" f)

end Jom.Spec.Main
