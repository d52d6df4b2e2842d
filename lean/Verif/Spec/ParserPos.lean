/- Which line an error of the parser is about (C104). -/
import Verif.Spec.Parser
import Verif.Model.Parser

namespace Jom.Spec.Makefile

open Jom.Parse (Source PErr)

/-- The states the preprocessor can reach from `s` when lines are read from it. -/
inductive Reached {σ : Type} (S : Source σ) (s : σ) : σ → Prop
  | start : Reached S s s
  | next {inline x s1 s2} : Reached S s s1 → S.next inline s1 = .ok (x, s2) → Reached S s s2

/-- The same with the modes in which the lines are read: `true` stands for lines of inline files. -/
inductive ReachedIn {σ : Type} (S : Source σ) (s : σ) : List Bool → σ → Prop
  | start : ReachedIn S s [] s
  | next {modes inline x s1 s2} : ReachedIn S s modes s1 → S.next inline s1 = .ok (x, s2) → ReachedIn S s (modes ++ [inline]) s2

/-- In the state `s'`, `l` is the line read last. -/
def LastRead {σ : Type} (S : Source σ) (s s' : σ) (l : Str) : Prop :=
  ∃ inline s0, Reached S s s0 ∧ S.next inline s0 = .ok (some l, s')

/-- The error is about the line `l`, read while `m` are the macros: `l` is none of the things a makefile consists of, or a part of it is a wrong
macro invocation. -/
inductive About (m : Macros) (l : Str) : PErr → Prop
  | syntax {t : Str} : Means m false l t → ¬ Blank t → (∀ d v, ¬ DotText d v t) → ¬ IsRule t →
      (∀ glob targets deps double cmd, ¬ Header glob m l targets deps double cmd) → About m l .syntax
  | macro {part : Str} {dep : Bool} {e : MacroErr} : part.Sublist l → (∀ t, ¬ Means m dep part t) → About m l (.macro e)

end Jom.Spec.Makefile
