/-
Specification vocabulary for builds: makefiles as declarations, files as times, and when everything is in order.
Independent of the data structures and algorithms of jom.
-/
import Verif.QtStr
import Mathlib.Logic.Relation

namespace Jom.Spec.Build

/-- What a makefile says about a target: its name, its dependents, whether it has commands, and the files from which
inference rules could make it. -/
structure Decl where
  name : Str
  deps : List Str
  hasCmds : Bool
  rules : List Str

/-- A makefile: `lookup` finds the target with a name, `dir` is the directory of the makefile. -/
structure Db where
  lookup : Str → Option Nat
  dir : Str
  target : Nat → Decl

/-- The time of the file with a name, if there is one. -/
abbrev Files := Str → Option Nat

/-- There are commands that make `t`: its own or those of an inference rule. -/
def Buildable (f : Files) (db : Db) (t : Nat) : Prop :=
  (db.target t).hasCmds = true ∨ ∃ r ∈ (db.target t).rules, ∃ s, f r = some s

/-- The dependents that count for `t`: the declared ones and the existing files from which it could be made. -/
def Counts (f : Files) (db : Db) (t : Nat) (d : Str) : Prop :=
  d ∈ (db.target t).deps ∨ (d ∈ (db.target t).rules ∧ ∃ s, f d = some s)

/-- Nothing stands behind the name `d`: no file and not a target, or a target that still has to be made, or a target
without file and dependents, or a target without file one of whose dependents is missing. -/
inductive Missing (f : Files) (db : Db) : Str → Prop
  | noFile {d} : f d = none → db.lookup d = none → Missing f db d
  | toBuild {d k} : f d = none → db.lookup d = some k → Buildable f db k → Missing f db d
  | empty {d k} : f d = none → db.lookup d = some k → (db.target k).deps = [] → Missing f db d
  | behind {d k e} : f d = none → db.lookup d = some k → e ∈ (db.target k).deps → Missing f db e → Missing f db d

/-- `s` is the time of the file `d` or, if `d` is a target without file, of a file that stands behind one of its
dependents. -/
inductive Behind (f : Files) (db : Db) : Str → Nat → Prop
  | file {d s} : f d = some s → Behind f db d s
  | behind {d k e s} : f d = none → db.lookup d = some k → e ∈ (db.target k).deps → Behind f db e s → Behind f db d s

/-- The file of `t` exists, no dependent is missing and no file behind a dependent is newer. -/
def UpToDate (f : Files) (db : Db) (t : Nat) : Prop :=
  ∃ T, f (db.target t).name = some T ∧ ∀ d, Counts f db t d → ¬ Missing f db d ∧ ∀ s, Behind f db d s → s ≤ T

/-- `k` is the target meant by a dependent of `t`; a name that is no target may be one in the directory of the
makefile. -/
def Needs (db : Db) (t k : Nat) : Prop :=
  ∃ d ∈ (db.target t).deps, db.lookup d = some k ∨ (db.lookup d = none ∧ db.lookup (db.dir ++ '\\' :: d) = some k)

/-- The name `n` stands for the target `k`. -/
def Resolves (db : Db) (n : Str) (k : Nat) : Prop :=
  db.lookup n = some k ∨ (db.lookup n = none ∧ db.lookup (db.dir ++ '\\' :: n) = some k)

/-- `t` is one of the requested targets or needed by them, directly or indirectly. -/
def Wanted (db : Db) (requested : List Nat) (t : Nat) : Prop :=
  ∃ r ∈ requested, Relation.ReflTransGen (Needs db) r t

/-- The name `n` is used by a wanted target: for itself, for a dependent or for a file from which it could be inferred. -/
def Mentioned (db : Db) (requested : List Nat) (n : Str) : Prop :=
  ∃ t, Wanted db requested t ∧ (n = (db.target t).name ∨ n ∈ (db.target t).deps ∨ n ∈ (db.target t).rules)

/-- Everything that is wanted and can be made is up to date. -/
def InOrder (f : Files) (db : Db) (requested : List Nat) : Prop :=
  ∀ t, Wanted db requested t → Buildable f db t → UpToDate f db t

/-- The makefile and the files fit together: a dependent whose name is that of a target denotes
the file of the target; no file has the
invalid time; a dependent that is not a target exists as a file; an existing file from which a target could be
inferred is either no target or a declared dependent. -/
structure Regular (f : Files) (db : Db) (requested : List Nat) : Prop where
  spelling : ∀ t, Wanted db requested t → ∀ d, d ∈ (db.target t).deps ∨ d ∈ (db.target t).rules →
    ∀ k, db.lookup d = some k → f d = f (db.target k).name
  times : ∀ d s, f d = some s → s ≠ 0
  sources : ∀ t, Wanted db requested t → ∀ d ∈ (db.target t).deps, db.lookup d = none →
    db.lookup (db.dir ++ '\\' :: d) = none → f d ≠ none
  inferred : ∀ t, Wanted db requested t → ∀ d ∈ (db.target t).rules, f d ≠ none → ∀ k, db.lookup d = some k → Needs db t k

/-- The wanted targets are among finitely many, fewer than `n`. -/
def FewerThan (db : Db) (requested : List Nat) (n : Nat) : Prop :=
  ∃ U : List Nat, (∀ r ∈ requested, r ∈ U) ∧ (∀ x ∈ U, ∀ k, Needs db x k → k ∈ U) ∧ U.length < n

/-- The makefile is unambiguous: a name mentioned by a wanted target stands for a wanted target iff it denotes its file
(`abs` maps names to files); different wanted targets have different files; a file from which a target could be
inferred is no target unless it is a declared dependent; a target found only through the directory of the makefile has
commands; targets do not depend on themselves; at most one of the files from which a target could be inferred exists or
is that of a wanted target; a target without commands and dependents has a file or can be inferred; no file has the
invalid time. -/
structure Unambiguous (abs : Str → Str) (f : Files) (db : Db) (requested : List Nat) : Prop where
  names : ∀ t, Wanted db requested t → ∀ n, n ∈ (db.target t).deps ∨ n ∈ (db.target t).rules →
    ∀ k, Wanted db requested k → (Resolves db n k ↔ abs n = abs (db.target k).name)
  distinct : ∀ k l, Wanted db requested k → Wanted db requested l → abs (db.target k).name = abs (db.target l).name → k = l
  inferred : ∀ t, Wanted db requested t → ∀ r ∈ (db.target t).rules, ∀ k, Resolves db r k → Needs db t k
  viaDir : ∀ t, Wanted db requested t → ∀ n ∈ (db.target t).deps, db.lookup n = none →
    ∀ k, Resolves db n k → (db.target k).hasCmds = true
  acyclic : ∀ t, Wanted db requested t → ¬ Relation.TransGen (Needs db) t t
  oneRule : ∀ t, Wanted db requested t → ∀ r ∈ (db.target t).rules, ∀ r' ∈ (db.target t).rules,
    (f r ≠ none ∨ ∃ k, Wanted db requested k ∧ abs r = abs (db.target k).name) →
    (f r' ≠ none ∨ ∃ k, Wanted db requested k ∧ abs r' = abs (db.target k).name) → r = r'
  filled : ∀ t, Wanted db requested t → (db.target t).deps ≠ [] ∨ (db.target t).hasCmds = true ∨
    f (db.target t).name ≠ none ∨ ∃ r ∈ (db.target t).rules, f r ≠ none
  times : ∀ n s, f n = some s → s ≠ 0

/-- What a command may do to the files while `busy` are the targets being made: write the file of its target, or touch
files that nobody mentions. -/
def MayWrite (abs : Str → Str) (db : Db) (requested : List Nat) (busy : List Nat) (file : Str) (value : Option Nat) : Prop :=
  value ≠ some 0 ∧
  ((∃ t ∈ busy, file = abs (db.target t).name ∧ value ≠ none) ∨
    ∀ n, Mentioned db requested n → file ≠ abs n)

/-- The commands of `t` have done their work: its file exists and is not older than the files that count. -/
def DidWork (f : Files) (db : Db) (t : Nat) : Prop :=
  ∃ T, f (db.target t).name = some T ∧ ∀ d, Counts f db t d → ∀ s, Behind f db d s → s ≤ T

end Jom.Spec.Build
