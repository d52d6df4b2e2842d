import Verif.Model.Helpers

/-! General lemmas about the string functions. -/

namespace Jom

/-- Induction from the end of a list. -/
theorem snoc_induction {α : Type} {P : List α → Prop} (h0 : P []) (h1 : ∀ l a, P l → P (l ++ [a]))
    (l : List α) : P l := by
  have : ∀ n (l : List α), l.length = n → P l := by
    intro n
    induction n with
    | zero => intro l hl; rw [List.length_eq_zero_iff.1 hl]; exact h0
    | succ n ih =>
      intro l hl
      rcases List.eq_nil_or_concat l with rfl | ⟨r, c, rfl⟩
      · exact h0
      · rw [List.concat_eq_append] at hl ⊢
        exact h1 r c (ih r (by simpa using hl))
  exact this _ l rfl

/-- Does not start or end with a blank. -/
def Tight (s : Str) : Prop := (∀ c r, s = c :: r → isSpace c = false) ∧ (∀ c r, s = r ++ [c] → isSpace c = false)

theorem dropWhile_blanks {b s : Str} (hb : ∀ c ∈ b, isSpace c = true) :
    (b ++ s).dropWhile isSpace = s.dropWhile isSpace := by
  induction b with
  | nil => rfl
  | cons c b ih => simp [hb c (by simp), ih (fun d hd => hb d (by simp [hd]))]

theorem trimLeft_tight {s : Str} (h : Tight s) : trimLeft s = s := by
  cases s with
  | nil => rfl
  | cons c s => simp [trimLeft, h.1 c s rfl]

theorem trimRight_tight {s : Str} (h : Tight s) : trimRight s = s := by
  unfold trimRight
  rcases List.eq_nil_or_concat s with rfl | ⟨r, c, rfl⟩
  · rfl
  · have := h.2 c r (by simp)
    simp [this]

theorem trimmed_tight {s : Str} (h : Tight s) : trimmed s = s := by
  rw [trimmed, trimLeft_tight h, trimRight_tight h]

theorem trimmed_blanks_left {b s : Str} (hb : ∀ c ∈ b, isSpace c = true) : trimmed (b ++ s) = trimmed s := by
  simp [trimmed, trimLeft, dropWhile_blanks hb]

theorem trimmed_blanks {b : Str} (hb : ∀ c ∈ b, isSpace c = true) : trimmed b = [] := by
  have := trimmed_blanks_left (s := []) hb
  simpa [trimmed, trimLeft, trimRight] using this

theorem dropWhile_blanks_left' {s : Str} (h : s.dropWhile isSpace = []) : ∀ c ∈ s, isSpace c = true := by
  induction s with
  | nil => intro c hc; cases hc
  | cons d s ih =>
    by_cases hd : isSpace d = true
    · simp only [List.dropWhile_cons, hd, if_true] at h
      intro c hc
      simp only [List.mem_cons] at hc
      rcases hc with rfl | hc
      · exact hd
      · exact ih h c hc
    · simp [hd] at h

theorem trimmed_eq_nil {s : Str} (h : trimmed s = []) : ∀ c ∈ s, isSpace c = true := by
  apply dropWhile_blanks_left'
  unfold trimmed trimRight trimLeft at h
  simp only [List.reverse_eq_nil_iff] at h
  have h1 := dropWhile_blanks_left' h
  cases hx : s.dropWhile isSpace with
  | nil => rfl
  | cons c r =>
    exfalso
    have hc := h1 c (by rw [hx]; simp)
    have := List.head?_dropWhile_not (p := isSpace) s
    rw [hx] at this
    simp [hc] at this

theorem tight_trimmed (s : Str) : Tight (trimmed s) := by
  constructor
  · intro c r h
    rw [Bool.eq_false_iff]
    intro hc
    have h1 : trimmed s = trimRight (trimLeft s) := rfl
    have hpre : trimmed s <+: trimLeft s := by
      rw [h1]
      unfold trimRight
      have h3 : (trimLeft s).reverse.dropWhile isSpace <:+ (trimLeft s).reverse := List.dropWhile_suffix _
      have h4 := List.reverse_prefix.2 h3
      rwa [List.reverse_reverse] at h4
    obtain ⟨t, ht⟩ := hpre
    rw [h] at ht
    have := List.head?_dropWhile_not (p := isSpace) s
    unfold trimLeft at ht
    rw [← ht] at this
    simp [hc] at this
  · intro c r h
    have h1 : (trimmed s).reverse = (trimLeft s).reverse.dropWhile isSpace := by simp [trimmed, trimRight]
    have := List.head?_dropWhile_not (p := isSpace) (trimLeft s).reverse
    rw [← h1, h] at this
    simpa using this

theorem trimmed_split (s : Str) : ∃ a b, s = a ++ trimmed s ++ b ∧ (∀ c ∈ a, isSpace c = true) ∧
    (∀ c ∈ b, isSpace c = true) := by
  refine ⟨s.takeWhile isSpace, ((s.dropWhile isSpace).reverse.takeWhile isSpace).reverse, ?_, ?_, ?_⟩
  · unfold trimmed trimRight trimLeft
    rw [List.append_assoc, ← List.reverse_append, List.takeWhile_append_dropWhile, List.reverse_reverse,
      List.takeWhile_append_dropWhile]
  · intro c hc
    have := List.all_takeWhile (l := s) (p := isSpace)
    rw [List.all_eq_true] at this
    exact this c hc
  · intro c hc
    have := List.all_takeWhile (l := (s.dropWhile isSpace).reverse) (p := isSpace)
    rw [List.all_eq_true] at this
    exact this c (by simpa using hc)

/-! ### indexOf for a single character -/

theorem indexOf?_char {c : Char} {p q : Str} (h : c ∉ p) :
    indexOf? [c] (p ++ c :: q) = some p.length := by
  induction p with
  | nil => simp [indexOf?]
  | cons d p ih =>
    simp only [List.mem_cons, not_or] at h
    have : (c == d) = false := by simpa using h.1
    simp [indexOf?, List.isPrefixOf, this, ih h.2]

theorem indexOf?_char_none {c : Char} {p : Str} (h : c ∉ p) : indexOf? [c] p = none := by
  induction p with
  | nil => rfl
  | cons d p ih =>
    simp only [List.mem_cons, not_or] at h
    have : (c == d) = false := by simpa using h.1
    simp [indexOf?, List.isPrefixOf, this, ih h.2]

theorem indexOfFrom?_char {c : Char} {x p q : Str} (h : c ∉ p) :
    indexOfFrom? [c] (x ++ (p ++ c :: q)) x.length = some (x.length + p.length) := by
  unfold indexOfFrom?
  rw [if_pos (by simp)]
  simp [indexOf?_char h, Nat.add_comm]

theorem indexOfFrom?_char_none {c : Char} {x p : Str} (h : c ∉ p) :
    indexOfFrom? [c] (x ++ p) x.length = none := by
  unfold indexOfFrom?
  rw [if_pos (by simp)]
  simp [indexOf?_char_none h]

theorem indexOfFrom?_past {pat s : Str} {k : Nat} (h : s.length < k) : indexOfFrom? pat s k = none := by
  unfold indexOfFrom?
  rw [if_neg (by omega)]

/-- Skipping a character that does not match. -/
theorem indexOfFrom?_skip {c d : Char} {x y : Str} (h : d ≠ c) :
    indexOfFrom? [c] (x ++ d :: y) x.length = indexOfFrom? [c] (x ++ d :: y) (x.length + 1) := by
  unfold indexOfFrom?
  rw [if_pos (by simp), if_pos (by simp)]
  have e1 : (x ++ d :: y).drop x.length = d :: y := by simp
  have e2 : (x ++ d :: y).drop (x.length + 1) = y := by
    rw [show x ++ d :: y = (x ++ [d]) ++ y by simp, List.drop_left' (by simp)]
  rw [e1, e2]
  have : (c == d) = false := by simpa using fun e => h e.symm
  simp only [indexOf?, List.isPrefixOf, this, Bool.false_and, Bool.false_eq_true, if_false]
  cases indexOf? [c] y with
  | none => rfl
  | some k => simp; omega

/-- Specification of the search for a single character: the result is the first matching position. -/
theorem indexOfFrom?_spec (c : Char) (s : Str) (k : Nat) :
    match indexOfFrom? [c] s k with
    | some i => k ≤ i ∧ s[i]? = some c ∧ ∀ j, k ≤ j → j < i → s[j]? ≠ some c
    | none => ∀ j, k ≤ j → s[j]? ≠ some c := by
  by_cases hk : k ≤ s.length
  · obtain ⟨x, y, rfl, rfl⟩ : ∃ x y, s = x ++ y ∧ x.length = k :=
      ⟨s.take k, s.drop k, (List.take_append_drop k s).symm, by simp; omega⟩
    by_cases hc : c ∈ y
    · obtain ⟨p, q, rfl, hp⟩ := List.eq_append_cons_of_mem hc
      rw [indexOfFrom?_char hp]
      refine ⟨by omega, ?_, ?_⟩
      · rw [List.getElem?_append_right (by omega), Nat.add_sub_cancel_left]
        simp
      · intro j h1 h2 h3
        rw [List.getElem?_append_right h1, List.getElem?_append_left (by omega)] at h3
        exact hp (List.mem_of_getElem? h3)
    · rw [indexOfFrom?_char_none hc]
      intro j h1 h2
      rw [List.getElem?_append_right h1] at h2
      exact hc (List.mem_of_getElem? h2)
  · rw [indexOfFrom?_past (by omega)]
    intro j h1 h2
    rw [List.getElem?_eq_none (by omega)] at h2
    cases h2

end Jom
