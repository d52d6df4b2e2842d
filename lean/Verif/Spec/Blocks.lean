/-
Specification of the targets of a makefile, independent of the order in which a parser fills a table: what the description blocks
say about a name.
-/
import Verif.Spec.FileMacros
import Verif.Model.Inference

namespace Jom.Spec.Blocks

open FileMacro (Piece render meaning Target Ref Fine)
open Inference (Command)

/-- A description block; dependents are texts with file name macros. -/
structure Block where
  targets : List Str
  deps : List (List Piece)
  double : Bool
  cmds : List Command
deriving DecidableEq, Repr

/-- Names are compared without regard to letter case and direction of slashes. -/
def canon (name : Str) : Str := (toLower name).map fun c => if c = '/' then '\\' else c

/-- A name that begins and ends with a double quote. -/
def Enclosed (name : Str) : Prop := name = ['"'] ∨ ∃ y, name = '"' :: (y ++ ['"'])

theorem not_enclosed {s : Str} (h : '"' ∉ s) : ¬ Enclosed s := by
  rintro (rfl | ⟨y, rfl⟩) <;> simp at h

instance : DecidablePred Enclosed := fun s =>
  if h : s = ['"'] then isTrue (Or.inl h)
  else if h' : s.head? = some '"' ∧ s.tail.getLast? = some '"' then isTrue (Or.inr (by
    obtain ⟨h1, h2⟩ := h'
    cases s with
    | nil => cases h1
    | cons c t =>
      simp only [List.head?_cons, Option.some.injEq] at h1
      subst h1
      obtain ⟨y, hy⟩ := List.getLast?_eq_some_iff.1 h2
      exact ⟨y, by simp only [List.tail_cons] at hy; rw [hy]⟩))
  else isFalse (by
    rintro (h1 | ⟨y, rfl⟩)
    · exact h h1
    · exact h' (by simp))

/-- All places where a target is described, with its spelling there. `.NOTPARALLEL` is not a target. -/
def occurrences (bs : List Block) : List (Str × Block) :=
  bs.flatMap fun b => (b.targets.filter (· ≠ c!".NOTPARALLEL")).map fun t => (t, b)

/-- The descriptions of one target. -/
def descriptions (bs : List Block) (name : Str) : List (Str × Block) :=
  (occurrences bs).filter fun o => canon o.1 = canon name

/-- The target name a dependent's macros refer to. -/
def named (name : Str) : Target := { name := name, deps := [], time := fun _ => 0 }

/-- The dependents of a block; `.SYNC` is not one. -/
def dependents (b : Block) : List (List Piece) := b.deps.filter fun d => render '$' d ≠ c!".SYNC"

/-- What the makefile says about a target. -/
structure Described where
  name : Str
  deps : List Str
  cmds : List Command
deriving DecidableEq, Repr

/-- The target a name denotes: spelled as in its first description, with the dependents of all descriptions and the commands of all
(`::`) or of the first one with commands (`:`). -/
def described (bs : List Block) (name : Str) : Option Described :=
  let ds := descriptions bs name
  match ds with
  | [] => none
  | (n, b) :: _ => some {
      name := n
      deps := ds.flatMap fun o => (dependents o.2).map (meaning (named n) none)
      cmds := if b.double then ds.flatMap fun o => o.2.cmds else ((ds.map fun o => o.2.cmds).find? (· ≠ [])).getD [] }

/-- Some target is described with `:` and with `::`. -/
def Mixed (bs : List Block) : Prop :=
  ∃ o ∈ occurrences bs, ∃ o' ∈ occurrences bs, canon o.1 = canon o'.1 ∧ o.2.double ≠ o'.2.double

/-- What is required of the blocks: target names without `/` (the parser replaces it), and dependents whose macros are expanded
as they should; `m` is jom's mark for macros. -/
structure Good (m : Char) (bs : List Block) : Prop where
  native : ∀ o ∈ occurrences bs, '/' ∉ o.1
  kinds : ∀ o ∈ occurrences bs, ∀ d ∈ o.2.deps, ∀ r, .ref r ∈ d → r.kind = .target ∨ r.kind = .stem
  fine : ∀ o ∈ occurrences bs, ∀ o' ∈ occurrences bs, canon o.1 = canon o'.1 → ∀ d ∈ o.2.deps, Fine m (named o'.1) none [] d

end Jom.Spec.Blocks
