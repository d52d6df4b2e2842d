import Verif.Model.Preprocessor

/-! Reading lines in the preprocessor: the lines still to come, and the loops `complete` and `skip` without fuel. -/

namespace Jom.PP

/-- The lines a file delivers. -/
def linesOf (text : Str) : List MLine := readAllU text

theorem tsReadLine_some {s l r : Str} (h : tsReadLine s = (some l, r)) : r.length < s.length := by
  induction s generalizing l r with
  | nil => simp [tsReadLine] at h
  | cons c s ih =>
    rw [tsReadLine] at h
    by_cases hc : (c == '\n') = true
    · rw [if_pos hc] at h
      simp only [Prod.mk.injEq] at h
      rw [← h.2]; simp
    · rw [if_neg hc] at h
      simp only [Prod.mk.injEq] at h
      rw [← h.2]
      cases hs : tsReadLine s with
      | mk a b =>
        cases a with
        | none =>
          cases s with
          | nil => simp [tsReadLine] at hs; simp [← hs]
          | cons d s =>
            rw [tsReadLine] at hs
            by_cases hd : (d == '\n') = true
            · rw [if_pos hd] at hs; simp at hs
            · rw [if_neg hd] at hs; simp at hs
        | some a =>
          have := ih hs
          simp only [List.length_cons]
          omega

theorem decodeU_content (s : Str) : (decodeU s).content.isNone = false := by
  unfold decodeU
  by_cases h1 : endsWith s ['^', '\\'] = true
  · rw [if_pos h1]; rfl
  · rw [if_neg h1]
    by_cases h2 : endsWith s ['\\', '\\'] = true
    · rw [if_pos h2]; rfl
    · rw [if_neg h2]
      by_cases h3 : endsWith s ['\\'] = true
      · rw [if_pos h3]; rfl
      · rw [if_neg h3]
        by_cases h4 : endsWith s ['^'] = true
        · rw [if_pos h4]; rfl
        · rw [if_neg h4]; rfl

theorem readLineUF_shorter {f : Nat} {s : Str} (h : (readLineUF f s).1.content.isNone = false) :
    (readLineUF f s).2.length < s.length := by
  induction f generalizing s with
  | zero => simp [readLineUF] at h
  | succ f ih =>
    rw [readLineUF] at h ⊢
    cases hs : tsReadLine s with
    | mk a b =>
      cases a with
      | none => rw [hs] at h; simp at h
      | some l =>
        rw [hs] at h
        have hl := tsReadLine_some hs
        simp only at h ⊢
        by_cases hc : startsWith l ['#'] = true
        · rw [if_pos hc] at h ⊢
          have := ih h
          omega
        · rw [if_neg hc]
          exact hl

theorem readLineU_shorter {s : Str} (h : (readLineU s).1.content.isNone = false) :
    (readLineU s).2.length < s.length := readLineUF_shorter h

theorem readAllUF_fuel (f : Nat) : ∀ (g : Nat) (s : Str), s.length < f → s.length < g → readAllUF f s = readAllUF g s := by
  induction f with
  | zero => intro g s h; omega
  | succ f ih =>
    intro g s h1 h2
    cases g with
    | zero => omega
    | succ g =>
      rw [readAllUF, readAllUF]
      cases hn : (readLineU s).1.content.isNone with
      | true => simp
      | false =>
        have := readLineU_shorter hn
        simp only [Bool.false_eq_true, if_false]
        rw [ih g _ (by omega) (by omega)]

theorem linesOf_eq (s : Str) : linesOf s =
    if (readLineU s).1.content.isNone then [] else (readLineU s).1 :: linesOf (readLineU s).2 := by
  show readAllUF (s.length + 1) s = _
  rw [readAllUF]
  cases hn : (readLineU s).1.content.isNone with
  | true => simp
  | false =>
    have := readLineU_shorter hn
    simp only [Bool.false_eq_true, if_false]
    rw [readAllUF_fuel s.length ((readLineU s).2.length + 1) _ (by omega) (by omega)]
    rfl

theorem linesOf_nil {s : Str} (h : linesOf s = []) : (readLineU s).1.content.isNone = true := by
  rw [linesOf_eq] at h
  cases hn : (readLineU s).1.content.isNone with
  | true => rfl
  | false => rw [hn] at h; simp at h

theorem linesOf_cons {s : Str} {l : MLine} {ls : List MLine} (h : linesOf s = l :: ls) :
    (readLineU s).1 = l ∧ linesOf (readLineU s).2 = ls ∧ l.content.isNone = false ∧ (readLineU s).2.length < s.length := by
  rw [linesOf_eq] at h
  cases hn : (readLineU s).1.content.isNone with
  | true => rw [hn] at h; simp at h
  | false =>
    rw [hn] at h
    simp only [Bool.false_eq_true, if_false, List.cons.injEq] at h
    exact ⟨h.1, h.2, h.1 ▸ hn, readLineU_shorter hn⟩

theorem linesOf_content {s : Str} {l : MLine} (h : l ∈ linesOf s) : l.content.isNone = false := by
  generalize hls : linesOf s = ls at h
  induction ls generalizing s with
  | nil => cases h
  | cons a ls ih =>
    obtain ⟨_, h2, h3, _⟩ := linesOf_cons hls
    rcases List.mem_cons.1 h with rfl | h
    · exact h3
    · exact ih h2 h

/-! ### `basicReadLine` -/

/-- In both modes a line takes at least one character. -/
theorem readerLine_shorter {i : Bool} {s : Str} (h : (readerLine i s).1.content.isNone = false) :
    (readerLine i s).2.length < s.length := by
  cases i with
  | false => exact readLineU_shorter h
  | true =>
    cases s with
    | nil => simp [readerLine] at h
    | cons c s =>
      show (devReadLine (s.length + 1) (c :: s)).2.length < _
      have hle : ∀ (n : Nat) (s : Str), (devReadLine n s).2.length ≤ s.length := by
        intro n
        induction n with
        | zero => intro s; simp [devReadLine]
        | succ n ih =>
          intro s
          cases s with
          | nil => simp [devReadLine]
          | cons d s =>
            rw [devReadLine]
            by_cases hd : (d == '\n') = true
            · rw [if_pos hd]; simp
            · rw [if_neg hd]
              have := ih s
              simp only [List.length_cons]; omega
      rw [devReadLine]
      by_cases hd : (c == '\n') = true
      · rw [if_pos hd]; simp
      · rw [if_neg hd]
        have := hle s.length s
        simp only [List.length_cons]; omega

theorem readFiles_smaller {i : Bool} {fs : List TextFile} (h : (readFiles i fs).1.content.isNone = false) :
    ((readFiles i fs).2.map fun f => f.rest.length + 1).sum < (fs.map fun f => f.rest.length + 1).sum := by
  induction fs with
  | nil => simp [readFiles] at h
  | cons f fs ih =>
    rw [readFiles] at h ⊢
    cases hn : (readerLine i f.rest).1.content.isNone with
    | true =>
      rw [hn] at h
      simp only [if_true] at h ⊢
      have := ih h
      simp only [List.map_cons, List.sum_cons]; omega
    | false =>
      have := readerLine_shorter hn
      simp only [Bool.false_eq_true, if_false, List.map_cons, List.sum_cons]; omega

theorem readFiles_le (i : Bool) (fs : List TextFile) :
    ((readFiles i fs).2.map fun f => f.rest.length + 1).sum ≤ (fs.map fun f => f.rest.length + 1).sum := by
  cases h : (readFiles i fs).1.content.isNone with
  | false => exact Nat.le_of_lt (readFiles_smaller h)
  | true =>
    have : (readFiles i fs).2 = [] := by
      induction fs with
      | nil => rfl
      | cons f fs ih =>
        rw [readFiles] at h ⊢
        cases hn : (readerLine i f.rest).1.content.isNone with
        | true => rw [hn] at h; simp only [if_true] at h ⊢; exact ih h
        | false => rw [hn] at h; simp [hn] at h
    rw [this]; simp

theorem basicReadLine_smaller {s : St} (h : (basicReadLine s).1.content.isNone = false) :
    size (basicReadLine s).2 < size s := by
  unfold basicReadLine at h ⊢
  unfold size
  cases hp : s.putBack with
  | cons l ls => simp
  | nil =>
    rw [hp] at h
    have := readFiles_smaller h
    simp only [List.length_nil, Nat.zero_add]
    exact this

theorem basicReadLine_le (s : St) : size (basicReadLine s).2 ≤ size s := by
  unfold basicReadLine size
  cases hp : s.putBack with
  | cons l ls => simp
  | nil =>
    simp only [List.length_nil, Nat.zero_add]
    exact readFiles_le _ _

/-! ### `complete` and `skip` without fuel -/

theorem completeF_fuel (f : Nat) : ∀ (g : Nat) (line : MLine) (s : St), size s < f → size s < g →
    completeF f line s = completeF g line s := by
  induction f with
  | zero => intro g line s h; omega
  | succ f ih =>
    intro g line s h1 h2
    cases g with
    | zero => omega
    | succ g =>
      rw [completeF, completeF]
      by_cases hc : isComplete line = true
      · rw [if_pos hc, if_pos hc]
      · rw [if_neg hc, if_neg hc]
        cases hn : (basicReadLine s).1.content.isNone with
        | true => simp [hn]
        | false =>
          have := basicReadLine_smaller hn
          simp only [hn, Bool.false_eq_true, if_false]
          exact ih g _ _ (by omega) (by omega)

theorem complete_eq (line : MLine) (s : St) : complete line s =
    if isComplete line then (line, s)
    else if (basicReadLine s).1.content.isNone then ({ line with cont := .none }, (basicReadLine s).2)
    else complete (joinDirective line (basicReadLine s).1) (basicReadLine s).2 := by
  unfold complete
  rw [completeF]
  by_cases hc : isComplete line = true
  · rw [if_pos hc, if_pos hc]
  · rw [if_neg hc, if_neg hc]
    cases hn : (basicReadLine s).1.content.isNone with
    | true => simp [hn]
    | false =>
      have := basicReadLine_smaller hn
      simp only [hn, Bool.false_eq_true, if_false]
      exact completeF_fuel _ _ _ _ (by omega) (by omega)

theorem completeF_le (f : Nat) : ∀ (line : MLine) (s : St), size (completeF f line s).2 ≤ size s := by
  induction f with
  | zero => intro line s; exact Nat.le_refl _
  | succ f ih =>
    intro line s
    rw [completeF]
    by_cases hc : isComplete line = true
    · rw [if_pos hc]; exact Nat.le_refl _
    · rw [if_neg hc]
      have h1 := basicReadLine_le s
      cases hn : (basicReadLine s).1.content.isNone with
      | true => simpa [hn] using h1
      | false =>
        simp only [hn, Bool.false_eq_true, if_false]
        exact Nat.le_trans (ih _ _) h1

theorem completeDirective_le (line : MLine) (s : St) : size (completeDirective line s).2 ≤ size s := by
  unfold completeDirective
  by_cases h : startsWith (line.content.getD []) ['!'] = true
  · rw [if_pos h]; exact completeF_le _ _ _
  · rw [if_neg h]; exact Nat.le_refl _

theorem skipF_fuel (f : Nat) : ∀ (g depth : Nat) (s : St), size s < f → size s < g →
    skipF f depth s = skipF g depth s := by
  induction f with
  | zero => intro g depth s h; omega
  | succ f ih =>
    intro g depth s h1 h2
    cases g with
    | zero => omega
    | succ g =>
      rw [skipF, skipF]
      cases hn : (basicReadLine s).1.content.isNone with
      | true => simp
      | false =>
        have h3 := basicReadLine_smaller hn
        have h4 := completeDirective_le (basicReadLine s).1 (basicReadLine s).2
        have ih' := fun d => ih g d (completeDirective (basicReadLine s).1 (basicReadLine s).2).2 (by omega) (by omega)
        simp only [Bool.false_eq_true, if_false, ih']

/-- `skipUntilNextMatchingConditional` inside `depth` further conditionals. -/
def skipAt (depth : Nat) (s : St) : Except Err St := skipF (size s + 1) depth s

theorem skip_eq_skipAt (s : St) : skip s = skipAt 0 s := rfl

/-- What the skipping loop does with the next (completed) line. -/
theorem skipAt_eq (depth : Nat) (s : St) : skipAt depth s =
    if (basicReadLine s).1.content.isNone then .ok (basicReadLine s).2
    else
      match skippedTok (completeDirective (basicReadLine s).1 (basicReadLine s).2).2.table.macros
          ((completeDirective (basicReadLine s).1 (basicReadLine s).2).1.content.getD []) with
      | .error e => .error (.macro e)
      | .ok (.uninteresting, _) => skipAt depth (completeDirective (basicReadLine s).1 (basicReadLine s).2).2
      | .ok (.if, _) => skipAt (depth + 1) (completeDirective (basicReadLine s).1 (basicReadLine s).2).2
      | .ok (.else, expanded) =>
        if depth = 0 then
          .ok { (completeDirective (basicReadLine s).1 (basicReadLine s).2).2 with
            putBack := (completeDirective (basicReadLine s).1 (basicReadLine s).2).2.putBack ++ [expanded] }
        else skipAt depth (completeDirective (basicReadLine s).1 (basicReadLine s).2).2
      | .ok (.endif, _) =>
        if depth = 0 then exitConditional (completeDirective (basicReadLine s).1 (basicReadLine s).2).2
        else skipAt (depth - 1) (completeDirective (basicReadLine s).1 (basicReadLine s).2).2 := by
  unfold skipAt
  rw [skipF]
  cases hn : (basicReadLine s).1.content.isNone with
  | true => simp
  | false =>
    have h3 := basicReadLine_smaller hn
    have h4 := completeDirective_le (basicReadLine s).1 (basicReadLine s).2
    have ih' := fun d => skipF_fuel (size s) (size (completeDirective (basicReadLine s).1 (basicReadLine s).2).2 + 1) d
      (completeDirective (basicReadLine s).1 (basicReadLine s).2).2 (by omega) (by omega)
    simp only [Bool.false_eq_true, if_false, ih']
    generalize skippedTok _ _ = x
    rcases x with e | ⟨t, e⟩
    · rfl
    · cases t <;> rfl

end Jom.PP
