/-
Specification of what jom is about to build, given what the makefile says about targets and rules.  Independent of tables
and of the order in which they are filled.
-/
import Verif.Spec.Blocks
import Verif.Spec.Inference
import Mathlib.Logic.Relation

namespace Jom.Spec.Setup

open Jom.Inference Jom.Spec.Blocks Relation

/-- A makefile: what it says about a name (names that differ in letter case or slashes mean the same). -/
abbrev Says := Str → Option Described

/-- The names of the requested targets, of their dependents, of the dependents of these, and so on. -/
inductive Named (said : Says) (requested : List Str) : Str → Prop
  | requested {n} : n ∈ requested → Named said requested n
  | dependent {m d n} : Named said requested m → said m = some d → n ∈ d.deps → Named said requested n

/-- The target `b` is a dependent of the target `a`. -/
def Leads (said : Says) (a b : Str) : Prop :=
  ∃ d, said a = some d ∧ (∃ x ∈ d.deps, canon x = canon b) ∧ said b ≠ none

/-- A cycle of dependents can be reached. -/
def Cyclic (said : Says) (requested : List Str) : Prop :=
  ∃ a ∈ requested, ∃ b, ReflTransGen (Leads said) a b ∧ TransGen (Leads said) b b

/-- A rule could make the file `path` if its source was there: directory and extension fit, and the source suffix is in
`.SUFFIXES`. -/
def Fits (rules : List Rule) (suffixes : List Str) (path : Str) (r : Rule) : Prop :=
  r ∈ rules ∧ Applies (fun _ => true) path r ∧ ∃ i, FirstIn suffixes r.fromExt i

/-- The same target; a dependent that is named twice may be listed once. -/
def Alike (d d' : Described) : Prop := d'.name = d.name ∧ d'.cmds = d.cmds ∧ ∀ x, x ∈ d'.deps ↔ x ∈ d.deps

/-- What there is to build: `target` are the targets and `candidates` the inference rules that are candidates for a target.
The described targets are as described. Another name is a target exactly if it was named and some rule fits; such a target
has no dependents and commands. A named target without commands has exactly the rules that fit as candidates,
a target with commands has none. -/
structure Ready (said : Says) (fits : Str → Rule → Prop) (requested : List Str) (target : Str → Option Described)
    (candidates : Str → List Rule) : Prop where
  described : ∀ n d, said n = some d → ∃ d', target n = some d' ∧ Alike d d'
  created : ∀ n, said n = none → (target n ≠ none ↔ ∃ n', Named said requested n' ∧ canon n' = canon n ∧ ∃ r, fits n' r)
  createdEmpty : ∀ n d, said n = none → target n = some d → d.deps = [] ∧ d.cmds = [] ∧ canon d.name = canon n ∧
    Named said requested d.name
  fitting : ∀ n d, Named said requested n → target n = some d → d.cmds = [] → ∀ r, r ∈ candidates n ↔ fits d.name r
  noCandidates : ∀ n d, target n = some d → d.cmds ≠ [] → candidates n = []

/-- The target that a dependent means: the one with this name, otherwise the one with this name in the directory of the makefile. -/
def Means (target : Str → Option Described) (dir x : Str) : Option Described := (target x).or (target (dir ++ '\\' :: x))

/-- The targets that matter for building the requested ones: these, the targets that are dependents of a target that matters, and the targets
from which a candidate rule would make a target that matters. -/
inductive Needed (target : Str → Option Described) (candidates : Str → List Rule) (dir : Str) (requested : List Str) : Described → Prop
  | requested {n d} : n ∈ requested → target n = some d → Needed target candidates dir requested d
  | dependent {d x d'} : Needed target candidates dir requested d → x ∈ d.deps → Means target dir x = some d' →
      Needed target candidates dir requested d'
  | inferred {d r x d'} : Needed target candidates dir requested d → r ∈ candidates d.name → Source r d.name x → Means target dir x = some d' →
      Needed target candidates dir requested d'

/-- Files from which a candidate rule would make a target are dependents of this target if they are targets themselves. -/
def SourcesDeclared (target : Str → Option Described) (candidates : Str → List Rule) (dir : Str) (requested : List Str) : Prop :=
  ∀ d r n, Needed target candidates dir requested d → r ∈ candidates d.name → Source r d.name n → target n ≠ none →
    ∃ x ∈ d.deps, canon x = canon n

end Jom.Spec.Setup
