/-
What a preprocessor delivers to the parser.
-/
import Verif.Model.Parser
import Verif.Spec.Parser

namespace Jom.Parse

open Jom.Spec.Makefile

variable {σ : Type}

/-- The source delivers these lines. -/
inductive Delivers (S : Source σ) : σ → List Line → σ → Prop
  | nil {s} : Delivers S s [] s
  | cons {s s' z l ls} : S.next l.inl s = .ok (some l.text, s') → S.macros s' = l.macros → Delivers S s' ls z → Delivers S s (l :: ls) z

/-- `E b` is the state after the source was asked at its end, the last time in mode `b`: it stays at its end. -/
def Stays (S : Source σ) (E : Bool → σ) : Prop := ∀ b b', S.next b (E b') = .ok (none, E b)

/-- The source is at its end if it is asked for a line in mode `b`; asked for an ordinary line it is in the state `e` from then on. -/
def AtEnd (S : Source σ) (b : Bool) (z e : σ) : Prop := ∃ E, S.next b z = .ok (none, E b) ∧ Stays S E ∧ e = E false

/-- Exactly these lines are still to be read. `cut`: the end is met inside of an inline file. -/
def Before (S : Source σ) (cut : Bool) (s : σ) (ls : List Line) (e : σ) : Prop := ∃ z, Delivers S s ls z ∧ AtEnd S cut z e

/-- A source that has once been at its end stays there. -/
def Sticky (S : Source σ) : Prop := ∀ b s s', S.next b s = .ok (none, s') → ∃ E, E b = s' ∧ Stays S E

end Jom.Parse
