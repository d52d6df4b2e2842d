import Verif.Model.ParserText
import Verif.Proofs.StrLemmas

/-! Properties C12 (inline comments) and C13 (comment and command separator of a description block). -/

namespace Jom.Spec

/-- Every `^` directly in front of a `#` is dropped. -/
def unescHash : Str → Str
  | [] => []
  | [c] => [c]
  | c :: d :: s => if c = '^' ∧ d = '#' then unescHash (d :: s) else c :: unescHash (d :: s)

/-- The text `s` ends with `c`. -/
def EndsIn (s : Str) (c : Char) : Prop := ∃ r, s = r ++ [c]

/-- A comment starts behind the prefix `a` of the line `a ++ '#' :: b`: the `#` is not preceded by `^`
and does not directly follow an escaped `#`. -/
def StartsComment (a : Str) : Prop := ¬ EndsIn a '^' ∧ ¬ ∃ r, a = r ++ ['^', '#']

/-- No comment starts inside `s`. -/
def NoComment (s : Str) : Prop := ∀ a b, s = a ++ '#' :: b → ¬ StartsComment a

end Jom.Spec

namespace Jom.Props
open Jom Jom.Spec

theorem unescHash_snoc (a : Str) (c : Char) (h : ¬ (EndsIn a '^' ∧ c = '#')) :
    unescHash (a ++ [c]) = unescHash a ++ [c] := by
  induction a with
  | nil => rfl
  | cons d a ih =>
    cases a with
    | nil =>
      have : ¬ (d = '^' ∧ c = '#') := by
        rintro ⟨rfl, rfl⟩; exact h ⟨⟨[], rfl⟩, rfl⟩
      simp [unescHash, this]
    | cons e a =>
      have := ih (by rintro ⟨⟨r, hr⟩, rfl⟩; exact h ⟨⟨d :: r, by simp [hr]⟩, rfl⟩)
      simp only [List.cons_append, unescHash] at this ⊢
      rw [this]
      by_cases hc : d = '^' ∧ e = '#' <;> simp [hc]

theorem unescHash_caret_hash (a : Str) : unescHash (a ++ ['^', '#']) = unescHash a ++ ['#'] := by
  induction a with
  | nil => decide
  | cons d a ih =>
    cases a with
    | nil => simp [unescHash]
    | cons e a =>
      simp only [List.cons_append, unescHash] at ih ⊢
      rw [ih]
      by_cases hc : d = '^' ∧ e = '#' <;> simp [hc]

theorem unescHash_append_free (a p : Str) (h : '#' ∉ p) : unescHash (a ++ p) = unescHash a ++ p := by
  induction p using snoc_induction with
  | h0 => simp
  | h1 p c ih =>
    simp only [List.mem_append, List.mem_singleton, not_or] at h
    rw [← List.append_assoc, unescHash_snoc, ih h.1, List.append_assoc]
    rintro ⟨_, rfl⟩; exact h.2 rfl

theorem endsIn_unescHash (a : Str) (c : Char) : EndsIn (unescHash a) c ↔ EndsIn a c := by
  rcases List.eq_nil_or_concat a with rfl | ⟨r, d, rfl⟩
  · rfl
  · simp only [List.concat_eq_append]
    by_cases h : EndsIn r '^' ∧ d = '#'
    · obtain ⟨⟨r, rfl⟩, rfl⟩ := h
      rw [show r ++ ['^'] ++ ['#'] = r ++ ['^', '#'] by simp, unescHash_caret_hash]
      constructor
      · rintro ⟨r', h⟩; exact ⟨r ++ ['^'], by have := List.append_inj_right' h rfl; rw [← this]; simp⟩
      · rintro ⟨r', h⟩
        refine ⟨unescHash r, ?_⟩
        rw [show r ++ ['^', '#'] = (r ++ ['^']) ++ ['#'] by simp] at h
        have := List.append_inj_right' h rfl
        rw [this]
    · rw [unescHash_snoc _ _ h]
      constructor
      · rintro ⟨r', h⟩; exact ⟨r, by have := List.append_inj_right' h rfl; rw [this]⟩
      · rintro ⟨r', h⟩; exact ⟨unescHash r, by have := List.append_inj_right' h rfl; rw [this]⟩

/-- What the loop of `removeInlineComments` computes, from a resumption point: `a` is the part of the
original line that has been dealt with. -/
theorem ricLoop_spec (f : Nat) (a b : Str) (hf : b.length < f)
    (ha : a = [] ∨ ∃ r c, a = r ++ ['^', '#', c]) (hn : NoComment a) :
    (NoComment (a ++ b) ∧ ricLoop f (unescHash a ++ b) (unescHash a).length = (unescHash (a ++ b), none)) ∨
    ∃ A B l, a ++ b = A ++ '#' :: B ∧ StartsComment A ∧ NoComment A ∧
      ricLoop f (unescHash a ++ b) (unescHash a).length = (unescHash A ++ l, some (unescHash A).length) := by
  induction f generalizing a b with
  | zero => omega
  | succ f ih =>
    by_cases hb : '#' ∈ b
    · obtain ⟨p, q, rfl, hp⟩ := List.eq_append_cons_of_mem hb
      have hA : unescHash a ++ (p ++ '#' :: q) = unescHash (a ++ p) ++ '#' :: q := by
        rw [unescHash_append_free _ _ hp]; simp
      have hidx : indexOfFrom? ['#'] (unescHash a ++ (p ++ '#' :: q)) (unescHash a).length =
          some (unescHash (a ++ p)).length := by
        rw [indexOfFrom?_char hp, unescHash_append_free _ _ hp]; simp
      have hnp : NoComment (a ++ p) := by
        intro x y e hs
        rcases List.append_eq_append_iff.1 e with ⟨z, rfl, hz⟩ | ⟨z, rfl, hz⟩
        · exact hp (by rw [hz]; simp)
        · cases z with
          | nil => exact hp (by simp at hz; rw [← hz]; simp)
          | cons d z =>
            simp only [List.cons_append, List.cons.injEq] at hz
            obtain ⟨rfl, _⟩ := hz
            exact hn x z rfl hs
      simp only [ricLoop, hidx]
      by_cases hc : EndsIn (a ++ p) '^'
      · obtain ⟨A0, hA0⟩ := hc
        have hun : unescHash (a ++ p) = unescHash A0 ++ ['^'] := by
          rw [hA0, unescHash_snoc _ _ (by rintro ⟨_, h⟩; exact absurd h (by decide))]
        have hcond : 0 < (unescHash (a ++ p)).length ∧
            (unescHash a ++ (p ++ '#' :: q))[(unescHash (a ++ p)).length - 1]? = some '^' := by
          rw [hA, hun]; simp
        rw [if_pos hcond]
        have herase : (unescHash a ++ (p ++ '#' :: q)).eraseIdx ((unescHash (a ++ p)).length - 1) =
            unescHash (a ++ p ++ ['#']) ++ q := by
          rw [hA, hun, hA0, List.append_assoc A0, List.cons_append, List.nil_append, unescHash_caret_hash]
          have e : (unescHash A0 ++ ['^']).length - 1 = (unescHash A0).length := by simp
          rw [e, List.append_assoc, List.eraseIdx_append_of_length_le (by omega)]
          simp
        have hlen : (unescHash (a ++ p)).length + 1 = (unescHash (a ++ p ++ ['#'])).length + 1 := by
          rw [hun, hA0, List.append_assoc A0, List.cons_append, List.nil_append, unescHash_caret_hash]; simp
        have hnh : NoComment (a ++ p ++ ['#']) := by
          intro x y e hs
          rcases List.eq_nil_or_concat y with rfl | ⟨y', d, rfl⟩
          · have := List.append_inj_left' e rfl
            rw [← this, hA0] at hs
            exact hs.1 ⟨A0, rfl⟩
          · simp only [List.concat_eq_append, ← List.cons_append, ← List.append_assoc] at e
            exact hnp x y' (by have := List.append_inj_left' e rfl; simpa using this) hs
        rw [herase, hlen]
        cases q with
        | nil =>
          left
          refine ⟨by simpa using hnh, ?_⟩
          cases f with
          | zero => simp [ricLoop]
          | succ f =>
            simp only [ricLoop]
            rw [indexOfFrom?_past (by simp)]
            simp
        | cons c q =>
          have hne : ¬ (EndsIn (a ++ p ++ ['#']) '^' ∧ c = '#') := by
            rintro ⟨⟨r, hr⟩, _⟩
            have := List.append_inj_right' hr rfl
            simp at this
          have hx := unescHash_snoc (a ++ p ++ ['#']) c hne
          have e1 : unescHash (a ++ p ++ ['#']) ++ c :: q = unescHash (a ++ p ++ ['#'] ++ [c]) ++ q := by
            rw [hx]; simp
          have e2 : (unescHash (a ++ p ++ ['#'])).length + 1 = (unescHash (a ++ p ++ ['#'] ++ [c])).length := by
            rw [hx]; simp
          rw [e1, e2]
          have hform : a ++ p ++ ['#'] ++ [c] = A0 ++ ['^', '#', c] := by rw [hA0]; simp
          have := ih (a ++ p ++ ['#'] ++ [c]) q (by simp at hf; omega) (Or.inr ⟨A0, c, hform⟩) (by
            intro x y e hs
            rcases List.eq_nil_or_concat y with rfl | ⟨y', d, rfl⟩
            · have := List.append_inj_left' e rfl
              exact hs.2 ⟨A0, by rw [← this, hA0]; simp⟩
            · simp only [List.concat_eq_append, ← List.cons_append, ← List.append_assoc] at e
              exact hnh x y' (by have := List.append_inj_left' e rfl; simpa using this) hs)
          simpa using this
      · have hcond : ¬ (0 < (unescHash (a ++ p)).length ∧
            (unescHash a ++ (p ++ '#' :: q))[(unescHash (a ++ p)).length - 1]? = some '^') := by
          rintro ⟨h1, h2⟩
          rw [hA, List.getElem?_append_left (by omega)] at h2
          apply hc
          rw [← endsIn_unescHash]
          rw [← List.getLast?_eq_getElem?] at h2
          exact List.getLast?_eq_some_iff.1 h2
        rw [if_neg hcond]
        right
        refine ⟨a ++ p, q, '#' :: q, by simp, ⟨hc, ?_⟩, hnp, by rw [hA]⟩
        rintro ⟨r, hr⟩
        rcases List.eq_nil_or_concat p with rfl | ⟨p', d, rfl⟩
        · rcases ha with rfl | ⟨r', c, rfl⟩
          · simp at hr
          · simp only [List.append_nil] at hr
            rw [show r' ++ ['^', '#', c] = (r' ++ ['^']) ++ ['#', c] by simp] at hr
            have := List.append_inj_right' hr rfl
            simp at this
        · apply hp
          rw [show r ++ ['^', '#'] = (r ++ ['^']) ++ ['#'] by simp, List.concat_eq_append,
            ← List.append_assoc] at hr
          have := List.append_inj_right' hr rfl
          simp at this
          simp [this]
    · left
      refine ⟨?_, ?_⟩
      · intro x y e hs
        rcases List.append_eq_append_iff.1 e with ⟨z, rfl, hz⟩ | ⟨z, rfl, hz⟩
        · exact hb (by rw [hz]; simp)
        · cases z with
          | nil => exact hb (by simp at hz; rw [← hz]; simp)
          | cons d z =>
            simp only [List.cons_append, List.cons.injEq] at hz
            obtain ⟨rfl, _⟩ := hz
            exact hn x z rfl hs
      · simp only [ricLoop, indexOfFrom?_char_none hb]
        rw [unescHash_append_free _ _ hb]

/-- C12, exactly as implemented: the text from the first comment sign is dropped, every `^#` in front of
it becomes `#`, and the rest is trimmed. -/
theorem C12_comment_removed (a b : Str) (h : StartsComment a) (hn : NoComment a) :
    removeInlineComments (a ++ '#' :: b) = trimmed (unescHash a) := by
  rcases ricLoop_spec ((a ++ '#' :: b).length + 1) [] (a ++ '#' :: b) (by omega) (Or.inl rfl)
    (by intro x y e; simp at e) with ⟨h1, _⟩ | ⟨A, B, l, h1, h2, h3, h4⟩
  · exact absurd h (h1 a b rfl)
  · have : a = A := by
      simp only [List.nil_append] at h1
      rcases List.append_eq_append_iff.1 h1 with ⟨z, hz, hz'⟩ | ⟨z, hz, hz'⟩
      · cases z with
        | nil => simpa using hz.symm
        | cons d z =>
          simp only [List.cons_append, List.cons.injEq] at hz'
          obtain ⟨rfl, _⟩ := hz'
          exact absurd h (h3 a z hz)
      · cases z with
        | nil => simpa using hz
        | cons d z =>
          simp only [List.cons_append, List.cons.injEq] at hz'
          obtain ⟨rfl, _⟩ := hz'
          exact absurd h2 (hn A z hz)
    subst this
    simp only [unescHash, List.nil_append, List.length_nil] at h4
    simp only [removeInlineComments, h4, List.take_left']

/-- C12: a line without comment is kept, every `^#` becomes `#`. -/
theorem C12_no_comment (s : Str) (h : NoComment s) : removeInlineComments s = unescHash s := by
  rcases ricLoop_spec (s.length + 1) [] s (by omega) (Or.inl rfl)
    (by intro x y e; simp at e) with ⟨_, h1⟩ | ⟨A, B, l, h1, h2, h3, h4⟩
  · simp only [unescHash, List.nil_append, List.length_nil] at h1
    simp [removeInlineComments, h1]
  · exact absurd h2 (h A B h1)

/-- C12: the two cases are exhaustive. -/
theorem C12_cases (s : Str) : NoComment s ∨ ∃ a b, s = a ++ '#' :: b ∧ StartsComment a ∧ NoComment a := by
  rcases ricLoop_spec (s.length + 1) [] s (by omega) (Or.inl rfl)
    (by intro x y e; simp at e) with ⟨h1, _⟩ | ⟨A, B, l, h1, h2, h3, h4⟩
  · exact Or.inl h1
  · exact Or.inr ⟨A, B, h1, h2, h3⟩

/-- C12 as stated (any `#` not preceded by `^` starts the comment) for lines without `^##`. -/
theorem C12_first_hash_partial (a b : Str) (hc : ¬ EndsIn a '^')
    (hfirst : ∀ x y, a = x ++ '#' :: y → EndsIn x '^') (hq : ¬ ∃ r, a = r ++ ['^', '#']) :
    removeInlineComments (a ++ '#' :: b) = trimmed (unescHash a) :=
  C12_comment_removed a b ⟨hc, hq⟩ (fun x y e hs => hs.1 (hfirst x y e))

example : removeInlineComments c!"a ^# b  # c" = c!"a # b" := by decide +kernel
example : StartsComment c!"a ^# b  " ∧ ¬ EndsIn c!"a ^# b  " '^' := by
  have h1 : ∀ (c : Char), EndsIn c!"a ^# b  " c → c = ' ' := by
    rintro c ⟨r, hr⟩
    have := congrArg List.getLast? hr
    simpa using this.symm
  refine ⟨⟨fun h => absurd (h1 _ h) (by decide), ?_⟩, fun h => absurd (h1 _ h) (by decide)⟩
  rintro ⟨r, hr⟩
  exact absurd (h1 '#' ⟨r ++ ['^'], by rw [hr]; simp⟩) (by decide)

/-- Where the claim as stated fails: in `a^##b` the second `#` is not preceded by `^`, but no comment is
recognised. -/
theorem C12_refuted_hash_after_escaped_hash : removeInlineComments c!"a^##b" = c!"a##b" := by
  decide +kernel

end Jom.Props

/-! ### C13 -/

namespace Jom.Spec

/-- Behind the text `a` one is inside double quotes. -/
def InQuotes (a : Str) : Prop := a.count '"' % 2 = 1

instance (a : Str) : Decidable (InQuotes a) := inferInstanceAs (Decidable (_ = _))

/-- A `#` behind `a` starts a comment of a description block line. -/
def BlockComment (a : Str) : Prop := ¬ EndsIn a '^' ∧ ¬ InQuotes a

/-- No comment starts inside `s`. -/
def NoBlockComment (s : Str) : Prop := ∀ a b, s = a ++ '#' :: b → ¬ BlockComment a

/-- Every `;` inside `s` is quoted. -/
def NoSeparator (s : Str) : Prop := ∀ a b, s = a ++ ';' :: b → InQuotes a

end Jom.Spec

namespace Jom.Props
open Jom Jom.Spec

theorem quotedVector_at (q : Bool) (a b : Str) (c : Char) (hc : c ≠ '"') :
    (quotedVector q (a ++ c :: b))[a.length]? = some (q ^^ decide (a.count '"' % 2 = 1)) := by
  induction a generalizing q with
  | nil => simp [quotedVector, hc]
  | cons d a ih =>
    simp only [List.cons_append, quotedVector, List.length_cons, List.getElem?_cons_succ]
    rw [ih]
    by_cases hd : d = '"'
    · subst hd
      simp only [beq_self_eq_true, if_true, List.count_cons_self]
      rcases Nat.mod_two_eq_zero_or_one (a.count '"') with h | h
      · have h' : (a.count '"' + 1) % 2 = 1 := by omega
        simp [h, h']
      · have h' : (a.count '"' + 1) % 2 = 0 := by omega
        simp [h, h']
    · have : (d == '"') = false := by simpa using hd
      simp [this, List.count_cons]

theorem quoted_iff (a b : Str) (c : Char) (hc : c ≠ '"') :
    (quotedVector false (a ++ c :: b))[a.length]? = some true ↔ InQuotes a := by
  rw [quotedVector_at _ _ _ _ hc]; simp [InQuotes]

theorem prev_iff (a b : Str) :
    (0 < a.length ∧ (a ++ b)[a.length - 1]? = some '^') ↔ EndsIn a '^' := by
  rcases List.eq_nil_or_concat a with rfl | ⟨r, c, rfl⟩
  · simp [EndsIn]
  · simp only [List.concat_eq_append]
    have : (r ++ [c] ++ b)[(r ++ [c]).length - 1]? = some c := by simp
    rw [this]
    simp only [List.length_append, List.length_singleton, Nat.zero_lt_succ, true_and, Option.some.injEq]
    constructor
    · rintro rfl; exact ⟨r, rfl⟩
    · rintro ⟨r', h⟩; have := List.append_inj_right' h rfl; simpa using this

/-- Case distinction for a decomposition of `a ++ p` at a character. -/
theorem append_split {a p x y : Str} {c : Char} (e : a ++ p = x ++ c :: y) :
    (∃ z, a = x ++ c :: z) ∨ c ∈ p := by
  rcases List.append_eq_append_iff.1 e with ⟨z, rfl, hz⟩ | ⟨z, rfl, hz⟩
  · exact Or.inr (by rw [hz]; simp)
  · cases z with
    | nil => exact Or.inr (by simp at hz; rw [← hz]; simp)
    | cons d z =>
      simp only [List.cons_append, List.cons.injEq] at hz
      obtain ⟨rfl, _⟩ := hz
      exact Or.inl ⟨z, rfl⟩

theorem snoc_split {a x y : Str} {c d : Char} (e : a ++ [d] = x ++ c :: y) :
    (∃ z, a = x ++ c :: z) ∨ (a = x ∧ d = c) := by
  rcases List.eq_nil_or_concat y with rfl | ⟨y', e', rfl⟩
  · have h1 := List.append_inj_left' e rfl
    have h2 := List.append_inj_right' e rfl
    exact Or.inr ⟨h1, by simpa using h2⟩
  · simp only [List.concat_eq_append, ← List.cons_append, ← List.append_assoc] at e
    exact Or.inl ⟨y', List.append_inj_left' e rfl⟩

/-- First occurrence is unique. -/
theorem first_unique {P : Str → Prop} {a a' b b' : Str} {c : Char} (e : a ++ c :: b = a' ++ c :: b')
    (h : P a) (h' : P a') (hn : ∀ x y, a = x ++ c :: y → ¬ P x) (hn' : ∀ x y, a' = x ++ c :: y → ¬ P x) :
    a = a' := by
  rcases List.append_eq_append_iff.1 e with ⟨z, hz, hz'⟩ | ⟨z, hz, hz'⟩
  · cases z with
    | nil => simpa using hz.symm
    | cons d z =>
      simp only [List.cons_append, List.cons.injEq] at hz'
      obtain ⟨rfl, _⟩ := hz'
      exact absurd h (hn' a z hz)
  · cases z with
    | nil => simpa using hz
    | cons d z =>
      simp only [List.cons_append, List.cons.injEq] at hz'
      obtain ⟨rfl, _⟩ := hz'
      exact absurd h' (hn a' z hz)

def Removes (a : Str) (rm : List Nat) : Prop :=
  ∀ x, rm.foldl (fun l i => l.eraseIdx i) (a ++ x) = unescHash a ++ x

theorem commentLoop_spec (f : Nat) (a b : Str) (rm : List Nat) (hf : b.length < f)
    (ha : a = [] ∨ EndsIn a '#') (hn : NoBlockComment a) (hr : Removes a rm) :
    (NoBlockComment (a ++ b) ∧
      (commentLoop (a ++ b) (quotedVector false (a ++ b)) f a.length rm).1 = none) ∨
    ∃ A B rm', a ++ b = A ++ '#' :: B ∧ BlockComment A ∧ NoBlockComment A ∧
      commentLoop (a ++ b) (quotedVector false (a ++ b)) f a.length rm = (some A.length, rm') ∧
      rm'.foldl (fun l i => l.eraseIdx i) A = unescHash A := by
  induction f generalizing a b rm with
  | zero => omega
  | succ f ih =>
    by_cases hb : '#' ∈ b
    · obtain ⟨p, q, rfl, hp⟩ := List.eq_append_cons_of_mem hb
      have hnp : NoBlockComment (a ++ p) := by
        intro x y e hs
        rcases append_split e with ⟨z, hz⟩ | h
        · exact hn x z hz hs
        · exact hp h
      have eA : a ++ (p ++ '#' :: q) = (a ++ p) ++ '#' :: q := by simp
      have eA' : (a ++ p) ++ '#' :: q = (a ++ p ++ ['#']) ++ q := by simp
      have elen : a.length + p.length = (a ++ p).length := by simp
      have elen' : (a ++ p).length + 1 = (a ++ p ++ ['#']).length := by simp; omega
      have hidx : indexOfFrom? ['#'] ((a ++ p) ++ '#' :: q) a.length = some (a ++ p).length := by
        rw [← eA, indexOfFrom?_char hp, elen]
      have hflt : q.length < f := by simp at hf; omega
      rw [eA]
      simp only [commentLoop, hidx]
      by_cases hc : EndsIn (a ++ p) '^'
      · rw [if_pos ((prev_iff _ _).2 hc), eA', elen']
        have hrm : Removes (a ++ p ++ ['#']) (((a ++ p).length - 1) :: rm) := by
          intro x
          rcases List.eq_nil_or_concat p with rfl | ⟨p', d, rfl⟩
          · exfalso
            rcases ha with rfl | ⟨r, rfl⟩
            · obtain ⟨r, hr⟩ := hc; simp at hr
            · obtain ⟨r', hr⟩ := hc
              rw [List.append_nil] at hr
              have := List.append_inj_right' hr rfl
              simp at this
          · simp only [List.concat_eq_append] at hc hp ⊢
            obtain ⟨A0, hA0⟩ := hc
            rw [← List.append_assoc] at hA0
            have h1 := List.append_inj_left' hA0 rfl
            have h2 := List.append_inj_right' hA0 rfl
            simp only [List.cons.injEq, and_true] at h2
            subst h1; subst h2
            simp only [List.foldl_cons]
            have e : (a ++ (p' ++ ['^']) ++ ['#'] ++ x).eraseIdx ((a ++ (p' ++ ['^'])).length - 1) =
                a ++ (p' ++ '#' :: x) := by
              have e1 : a ++ (p' ++ ['^']) ++ ['#'] ++ x = (a ++ p') ++ '^' :: ('#' :: x) := by simp
              have e2 : (a ++ (p' ++ ['^'])).length - 1 = (a ++ p').length := by simp
              rw [e1, e2, List.eraseIdx_append_of_length_le (by omega)]
              simp
            rw [e, hr, show a ++ (p' ++ ['^']) ++ ['#'] = (a ++ p') ++ ['^', '#'] by simp, unescHash_caret_hash,
              unescHash_append_free _ _ (by intro h; exact hp (by simp [h]))]
            simp
        have := ih (a ++ p ++ ['#']) q (((a ++ p).length - 1) :: rm) hflt (Or.inr ⟨_, rfl⟩) (by
          intro x y e hs
          rcases snoc_split e with ⟨z, hz⟩ | ⟨rfl, _⟩
          · exact hnp x z hz hs
          · exact hs.1 hc) hrm
        exact this
      · rw [if_neg (fun h => hc ((prev_iff _ _).1 h))]
        by_cases hq : InQuotes (a ++ p)
        · rw [if_pos ((quoted_iff _ _ _ (by decide)).2 hq), eA', elen']
          refine ih (a ++ p ++ ['#']) q rm hflt (Or.inr ⟨_, rfl⟩) ?_ ?_
          · intro x y e hs
            rcases snoc_split e with ⟨z, hz⟩ | ⟨rfl, _⟩
            · exact hnp x z hz hs
            · exact hs.2 hq
          · intro x
            rw [unescHash_snoc _ _ (fun h => hc h.1), unescHash_append_free _ _ hp]
            have := hr (p ++ '#' :: x)
            simpa using this
        · rw [if_neg (fun h => hq ((quoted_iff _ _ _ (by decide)).1 h))]
          right
          refine ⟨a ++ p, q, rm, rfl, ⟨hc, hq⟩, hnp, rfl, ?_⟩
          rw [hr p, unescHash_append_free _ _ hp]
    · left
      refine ⟨?_, by simp only [commentLoop, indexOfFrom?_char_none hb]⟩
      intro x y e hs
      rcases append_split e with ⟨z, hz⟩ | h
      · exact hn x z hz hs
      · exact hb h

theorem sepLoop_spec (f : Nat) (a b : Str) (hf : b.length < f) (hn : NoSeparator a) :
    (NoSeparator (a ++ b) ∧ sepLoop (a ++ b) (quotedVector false (a ++ b)) f a.length = none) ∨
    ∃ A B, a ++ b = A ++ ';' :: B ∧ ¬ InQuotes A ∧ NoSeparator A ∧
      sepLoop (a ++ b) (quotedVector false (a ++ b)) f a.length = some A.length := by
  induction f generalizing a b with
  | zero => omega
  | succ f ih =>
    by_cases hb : ';' ∈ b
    · obtain ⟨p, q, rfl, hp⟩ := List.eq_append_cons_of_mem hb
      have hnp : NoSeparator (a ++ p) := by
        intro x y e
        rcases append_split e with ⟨z, hz⟩ | h
        · exact hn x z hz
        · exact absurd h hp
      have eA : a ++ (p ++ ';' :: q) = (a ++ p) ++ ';' :: q := by simp
      have eA' : (a ++ p) ++ ';' :: q = (a ++ p ++ [';']) ++ q := by simp
      have elen : a.length + p.length = (a ++ p).length := by simp
      have elen' : (a ++ p).length + 1 = (a ++ p ++ [';']).length := by simp; omega
      have hidx : indexOfFrom? [';'] ((a ++ p) ++ ';' :: q) a.length = some (a ++ p).length := by
        rw [← eA, indexOfFrom?_char hp, elen]
      rw [eA]
      simp only [sepLoop, hidx]
      by_cases hq : InQuotes (a ++ p)
      · rw [if_pos ((quoted_iff _ _ _ (by decide)).2 hq), eA', elen']
        refine ih (a ++ p ++ [';']) q (by simp at hf; omega) ?_
        intro x y e
        rcases snoc_split e with ⟨z, hz⟩ | ⟨rfl, _⟩
        · exact hnp x z hz
        · exact hq
      · rw [if_neg (fun h => hq ((quoted_iff _ _ _ (by decide)).1 h))]
        exact Or.inr ⟨a ++ p, q, rfl, hq, hnp, rfl⟩
    · left
      refine ⟨?_, by simp only [sepLoop, indexOfFrom?_char_none hb]⟩
      intro x y e
      rcases append_split e with ⟨z, hz⟩ | h
      · exact hn x z hz
      · exact absurd h hb

/-- A line with a separator in front of which no comment starts. -/
def SepFirst (line a b : Str) : Prop :=
  line = a ++ ';' :: b ∧ ¬ InQuotes a ∧ NoSeparator a ∧ NoBlockComment a

/-- A line with a comment in front of which there is no separator. -/
def CommentFirst (line a b : Str) : Prop :=
  line = a ++ '#' :: b ∧ BlockComment a ∧ NoBlockComment a ∧ NoSeparator a

/-- What the two loops return together. -/
theorem c13_master (line : Str) :
    (NoBlockComment line ∧ NoSeparator line ∧ removeCommentsAndFindCommandSeparator line = (line, none)) ∨
    (∃ a b, CommentFirst line a b ∧ removeCommentsAndFindCommandSeparator line = (unescHash a, none)) ∨
    (∃ a b, SepFirst line a b ∧ removeCommentsAndFindCommandSeparator line = (line, some a.length)) := by
  cases hl : line with
  | nil =>
    exact Or.inl ⟨fun a b e => by simp at e, fun a b e => by simp at e, rfl⟩
  | cons c0 l0 =>
  rw [← hl]
  have hemp : line.isEmpty = false := by rw [hl]; rfl
  have h1 := commentLoop_spec (line.length + 1) [] line [] (by omega) (Or.inl rfl)
    (fun a b e => by simp at e) (fun x => rfl)
  have h2 := sepLoop_spec (line.length + 1) [] line (by omega) (fun a b e => by simp at e)
  simp only [List.nil_append, List.length_nil] at h1 h2
  unfold removeCommentsAndFindCommandSeparator
  simp only [hemp, Bool.false_eq_true, if_false]
  rcases h1 with ⟨hn1, hr1⟩ | ⟨A, B, rm, he1, hc1, hn1, hr1, hu1⟩
  · rw [hr1]
    rcases h2 with ⟨hn2, hr2⟩ | ⟨A', B', he2, hc2, hn2, hr2⟩
    · exact Or.inl ⟨hn1, hn2, by rw [hr2]⟩
    · refine Or.inr (Or.inr ⟨A', B', ⟨he2, hc2, hn2, ?_⟩, by rw [hr2]⟩)
      intro x y e
      exact hn1 x (y ++ ';' :: B') (by rw [he2, e]; simp)
  · have htake : line.take A.length = A := by rw [he1]; simp
    rw [hr1]
    rcases h2 with ⟨hn2, hr2⟩ | ⟨A', B', he2, hc2, hn2, hr2⟩
    · refine Or.inr (Or.inl ⟨A, B, ⟨he1, hc1, hn1, ?_⟩, by rw [hr2]; simp only [htake, hu1]⟩)
      intro x y e
      exact hn2 x (y ++ '#' :: B) (by rw [he1, e]; simp)
    · rw [hr2]
      simp only
      have hee : A ++ '#' :: B = A' ++ ';' :: B' := by rw [← he1, he2]
      by_cases hlt : A.length < A'.length
      · rw [if_pos hlt]
        refine Or.inr (Or.inl ⟨A, B, ⟨he1, hc1, hn1, ?_⟩, by simp only [htake, hu1]⟩)
        intro x y e
        rcases List.append_eq_append_iff.1 hee with ⟨z, hz, _⟩ | ⟨z, hz, _⟩
        · exact hn2 x (y ++ z) (by rw [hz, e]; simp)
        · rw [hz] at hlt; simp at hlt; omega
      · rw [if_neg hlt]
        refine Or.inr (Or.inr ⟨A', B', ⟨he2, hc2, hn2, ?_⟩, rfl⟩)
        intro x y e
        rcases List.append_eq_append_iff.1 hee with ⟨z, hz, _⟩ | ⟨z, hz, _⟩
        · rw [hz] at hlt
          simp at hlt
          subst hlt
          simp only [List.append_nil] at hz
          exact hn1 x y (by rw [← hz]; exact e)
        · exact hn1 x (y ++ z) (by rw [hz, e]; simp)

theorem sepFirst_not_commentFirst {line a b a' b' : Str} (h : SepFirst line a b)
    (h' : CommentFirst line a' b') : False := by
  obtain ⟨e, hq, hs, hc⟩ := h
  obtain ⟨e', hb', hc', hs'⟩ := h'
  rw [e] at e'
  rcases List.append_eq_append_iff.1 e' with ⟨z, hz, hz'⟩ | ⟨z, hz, hz'⟩
  · cases z with
    | nil => simp at hz'
    | cons d z =>
      simp only [List.cons_append, List.cons.injEq] at hz'
      obtain ⟨rfl, _⟩ := hz'
      exact hq (hs' a z hz)
  · cases z with
    | nil => simp at hz'
    | cons d z =>
      simp only [List.cons_append, List.cons.injEq] at hz'
      obtain ⟨rfl, _⟩ := hz'
      exact hc a' z hz hb'

/-- C13: if the first unquoted `;` comes before any comment, the command part starts there and the line
is unchanged. -/
theorem C13_separator_first (line a b : Str) (h : SepFirst line a b) :
    removeCommentsAndFindCommandSeparator line = (line, some a.length) := by
  rcases c13_master line with ⟨_, h2, _⟩ | ⟨a', b', h1, _⟩ | ⟨a', b', h1, h2⟩
  · exact absurd (h2 a b h.1) h.2.1
  · exact (sepFirst_not_commentFirst h h1).elim
  · rw [h2]
    have : a = a' := first_unique (P := fun x => ¬ InQuotes x) (by rw [← h.1, h1.1]) h.2.1 h1.2.1
      (fun x y e hx => hx (h.2.2.1 x y e)) (fun x y e hx => hx (h1.2.2.1 x y e))
    rw [this]

/-- C13: if a comment comes first, it is dropped, there is no command part, and each `^#` in front of it
becomes `#`. -/
theorem C13_comment_first (line a b : Str) (h : CommentFirst line a b) :
    removeCommentsAndFindCommandSeparator line = (unescHash a, none) := by
  rcases c13_master line with ⟨h1, _, _⟩ | ⟨a', b', h1, h2⟩ | ⟨a', b', h1, _⟩
  · exact absurd h.2.1 (h1 a b h.1)
  · rw [h2]
    have : a = a' := first_unique (P := BlockComment) (by rw [← h.1, h1.1]) h.2.1 h1.2.1 h.2.2.1 h1.2.2.1
    rw [this]
  · exact (sepFirst_not_commentFirst h1 h).elim

/-- C13: a line with neither is unchanged and has no command part. -/
theorem C13_neither (line : Str) (h1 : NoBlockComment line) (h2 : NoSeparator line) :
    removeCommentsAndFindCommandSeparator line = (line, none) := by
  rcases c13_master line with ⟨_, _, h⟩ | ⟨a, b, h, _⟩ | ⟨a, b, h, _⟩
  · exact h
  · exact absurd h.2.1 (h1 a b h.1)
  · exact absurd (h2 a b h.1) h.2.1

/-- C13: one of the three cases applies to every line. -/
theorem C13_cases (line : Str) : (NoBlockComment line ∧ NoSeparator line) ∨
    (∃ a b, CommentFirst line a b) ∨ ∃ a b, SepFirst line a b := by
  rcases c13_master line with ⟨h1, h2, _⟩ | ⟨a, b, h, _⟩ | ⟨a, b, h, _⟩
  · exact Or.inl ⟨h1, h2⟩
  · exact Or.inr (Or.inl ⟨a, b, h⟩)
  · exact Or.inr (Or.inr ⟨a, b, h⟩)

example : removeCommentsAndFindCommandSeparator c!"a : \"b;#\" ; c" = (c!"a : \"b;#\" ; c", some 10) ∧
    removeCommentsAndFindCommandSeparator c!"a^#x : \"b;#\" # ; c" = (c!"a#x : \"b;#\" ", none) := by
  decide +kernel

/-- `a;b` meets `SepFirst`, `a#b` meets `CommentFirst`. -/
example : SepFirst c!"a;b" ['a'] ['b'] ∧ CommentFirst c!"a#b" ['a'] ['b'] := by
  have h1 : NoSeparator ['a'] := by
    intro x y e; have := congrArg (List.count ';') e; simp at this
  have h2 : NoBlockComment ['a'] := by
    intro x y e; have := congrArg (List.count '#') e; simp at this
  have h3 : ¬ EndsIn ['a'] '^' := by
    rintro ⟨r, hr⟩; have := congrArg List.getLast? hr; simp at this
  exact ⟨⟨rfl, by decide, h1, h2⟩, ⟨rfl, ⟨h3, by decide⟩, h2, h1⟩⟩

/-- A finding beside C13: the `^` of an escaped `#` is only removed if a comment follows. -/
theorem C13_escape_kept_without_comment :
    removeCommentsAndFindCommandSeparator c!"a^#b : c" = (c!"a^#b : c", none) := by decide +kernel

end Jom.Props
