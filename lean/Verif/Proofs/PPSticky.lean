/-
Once the preprocessor has reported the end it goes on doing so.
-/
import Verif.Spec.Source
import Verif.Model.Preprocessor

namespace Jom.PP

open Jom.Parse (Source Sticky Stays ppSource)

theorem basic_inline (s : St) : (basicReadLine s).2.inline = s.inline := by
  unfold basicReadLine
  split <;> rfl

theorem complete_inline (x : MLine) (s : St) : (complete x s).2.inline = s.inline := by
  have : ∀ n x s, (completeF n x s).2.inline = s.inline := by
    intro n
    induction n with
    | zero => intro x s; rfl
    | succ n ih =>
      intro x s
      unfold completeF
      split
      · rfl
      · simp only
        split
        · exact basic_inline s
        · rw [ih, basic_inline]
  exact this _ x s

theorem exit_inline {s s' : St} (h : exitConditional s = .ok s') : s'.inline = s.inline := by
  unfold exitConditional at h
  split at h
  · cases h
  · injection h with h; subst h; rfl

theorem skip_inline {s s' : St} (h : skip s = .ok s') : s'.inline = s.inline := by
  have : ∀ n d s, skipF n d s = .ok s' → s'.inline = s.inline := by
    intro n
    induction n with
    | zero => intro d s h; cases h
    | succ n ih =>
      intro d s h
      unfold skipF at h
      simp only at h
      have hc : (completeDirective (basicReadLine s).1 (basicReadLine s).2).2.inline = s.inline := by
        unfold completeDirective
        split
        · rw [complete_inline, basic_inline]
        · exact basic_inline s
      split at h
      · injection h with h; subst h; exact basic_inline s
      · split at h
        · cases h
        · rw [ih _ _ h, hc]
        · rw [ih _ _ h, hc]
        · split at h
          · injection h with h; subst h; exact hc
          · rw [ih _ _ h, hc]
        · split at h
          · rw [exit_inline h, hc]
          · rw [ih _ _ h, hc]
  exact this _ _ s h

theorem directive_inline {w : World} {l : Str} {s s' : St} (h : parseDirective w l s = .ok (some s')) : s'.inline = s.inline := by
  have hif : ∀ d v, onIf w d v s = .ok s' → s'.inline = s.inline := by
    intro d v h
    unfold onIf at h
    split at h
    · cases h
    · simp only at h
      split at h
      · injection h with h; subst h; rfl
      · rw [skip_inline h]
  have heif : ∀ d v, onElseIf w d v s = .ok s' → s'.inline = s.inline := by
    intro d v h
    unfold onElseIf at h
    split at h
    · cases h
    · exact skip_inline h
    · split at h
      · cases h
      · split at h
        · injection h with h; subst h; rfl
        · exact skip_inline h
  unfold parseDirective at h
  split at h
  · cases h
  · cases h
  next d v _ =>
    split at h
    next s1 hd =>
      simp only [Except.ok.injEq, Option.some.injEq] at h
      subst h
      unfold onDirective at hd
      split at hd
      · injection hd with hd; subst hd; rfl
      · cases hd
      · injection hd with hd; subst hd; rfl
      · split at hd
        · cases hd
        · unfold openFile at hd
          split at hd
          · cases hd
          · split at hd
            · cases hd
            · split at hd
              · cases hd
              · injection hd with hd; subst hd; rfl
      · exact hif _ _ hd
      · exact hif _ _ hd
      · exact hif _ _ hd
      · unfold onElse at hd
        split at hd
        · cases hd
        · split at hd
          · injection hd with hd; subst hd; rfl
          · exact skip_inline hd
      · exact heif _ _ hd
      · exact heif _ _ hd
      · exact heif _ _ hd
      · exact exit_inline hd
      · injection hd with hd; subst hd; rfl
      · cases hd
    · cases h

theorem readFiles_none (b : Bool) (fs : List TextFile) (h : (readFiles b fs).1.content = none) : readFiles b fs = ({}, []) := by
  induction fs with
  | nil => rfl
  | cons f fs ih =>
    unfold readFiles at h ⊢
    simp only at h ⊢
    split
    next hc =>
      rw [if_pos hc] at h
      exact ih h
    next hc =>
      rw [if_neg hc] at h
      exact absurd (by rw [Option.isNone_iff_eq_none]; exact h) hc

theorem basic_none {s : St} (h : (basicReadLine s).1.content = none) : s.putBack = [] ∧ basicReadLine s = ({}, { s with files := [] }) := by
  unfold basicReadLine at h ⊢
  split
  next l ls hp => rw [hp] at h; cases h
  next hp =>
    rw [hp] at h
    rw [readFiles_none _ _ h]
    exact ⟨hp, rfl⟩

/-- How the loop ends at the end. -/
theorem readLineF_end {w : World} : ∀ {n : Nat} {x : MLine} {s s' : St}, readLineF w n x s = .ok (none, s') →
    s'.inline = s.inline ∧ s'.putBack = [] ∧ s'.files = [] ∧ s'.conds = [] := by
  intro n
  induction n with
  | zero => intro x s s' h; cases h
  | succ n ih =>
    intro x s s' h
    unfold readLineF at h
    have hb := basic_inline s
    cases hr : round w x s with
    | error e => rw [hr] at h; cases h
    | ok r =>
      rw [hr] at h
      unfold round at hr
      simp only at hr
      have hy : (if isComplete x then (basicReadLine s).1 else joinLines x (basicReadLine s).1).content = none → (basicReadLine s).1.content = none := by
        intro h1
        split at h1
        · exact h1
        · cases h1
      generalize (if isComplete x then (basicReadLine s).1 else joinLines x (basicReadLine s).1) = y at hr hy
      split at hr
      · have hc := complete_inline (basicReadLine s).1 (basicReadLine s).2
        split at hr
        · cases hr
        · injection hr with hr; subst hr
          have := ih h
          rw [hc, hb] at this
          exact this
        next s1 hd =>
          injection hr with hr; subst hr
          have := ih h
          rw [directive_inline hd, hc, hb] at this
          exact this
      · split at hr
        · injection hr with hr; subst hr
          have := ih h
          rw [hb] at this
          exact this
        · split at hr
          · cases hr
          · injection hr with hr; subst hr
            have := ih h
            simp only [hb] at this
            exact this
          · split at hr
            · cases hr
            next s1 hd =>
              injection hr with hr; subst hr
              have := ih h
              rw [directive_inline hd, hb] at this
              exact this
            next hd =>
              injection hr with hr; subst hr
              simp only at h
              split at h
              · cases h
              next hnc =>
                simp only [Except.ok.injEq, Prod.mk.injEq] at h
                obtain ⟨h1, rfl⟩ := h
                obtain ⟨h2, h3⟩ := basic_none (hy h1)
                refine ⟨hb, by rw [h3]; exact h2, by rw [h3], ?_⟩
                rw [h1] at hnc
                simpa using hnc

/-- At the end a line is asked for in vain. -/
theorem readLine_at_end {w : World} {n : Nat} {s : St} (h1 : s.putBack = []) (h2 : s.files = []) (h3 : s.conds = []) :
    readLine w (n + 1) s = .ok (none, s) := by
  have hb : basicReadLine s = ({}, s) := by
    cases s
    simp only at h1 h2
    subst h1 h2
    rfl
  have hx : expandMacros s.table.macros [] = .ok [] := by
    unfold expandMacros expandU need
    rw [show ([] : Str).length + 1 + unusedSize s.table.macros [] = unusedSize s.table.macros [] + 1 by simp; omega]
    rfl
  have hm : parseMacro s.table [] = .ok none := rfl
  have hd : parseDirective w [] s = .ok none := by
    unfold parseDirective directiveOf
    rw [hx]
    rfl
  unfold readLine readLineF round
  rw [hb]
  simp only [Option.getD_none, isComplete, startsWith]
  have hif : (if s.inline = true then Except.ok none else parseMacro s.table []) = .ok none := by rw [hm]; split <;> rfl
  simp [hif, hd, h3]

/-- The preprocessor stays at its end. -/
theorem ppSource_sticky (w : World) (fuel : Nat) : Sticky (ppSource w fuel) := by
  intro b s s' h
  unfold ppSource at h
  simp only at h
  split at h
  next r hr =>
    injection h with h
    subst h
    cases fuel with
    | zero => cases hr
    | succ n =>
      obtain ⟨h1, h2, h3, h4⟩ := readLineF_end hr
      refine ⟨fun b => { s' with inline := b }, ?_, ?_⟩
      · simp only at h1
        rw [← h1]
      · intro b1 b2
        unfold ppSource
        simp only
        rw [readLine_at_end (s := { s' with inline := b1 }) h2 h3 h4]
  · cases h

end Jom.PP
