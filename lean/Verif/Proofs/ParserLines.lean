/-
Lemmas on single lines for `Model/Parser.lean`.
-/
import Verif.Spec.Parser
import Verif.Model.Parser

namespace Jom.Parse

open Jom.Spec.Makefile
open Jom.Spec (EndsIn IsBlank Modified Modifier hasSilent hasSingle)
open Inference (Command InlineFile)

theorem blank_iff {s : Str} : Blank s ↔ (trimmed s).isEmpty = true := by
  rw [List.isEmpty_iff]
  exact ⟨trimmed_blanks, trimmed_eq_nil⟩

theorem indented_iff {s : Str} : Indented s ↔ startsWithSpaceOrTab s = true := by
  cases s with
  | nil => simp [Indented, startsWithSpaceOrTab]
  | cons c r => simp [Indented, startsWithSpaceOrTab, isSpaceOrTab, IsBlank]

theorem means_iff {m : Macros} {dep : Bool} {s t : Str} : Means m dep s t ↔ expandMacros m s dep = .ok t :=
  (Props.C02_expansion_meaning m s t dep).symm

/-! ### Words -/

theorem words_blank {b : Str} (hb : Blank b) (s : Str) : words (b ++ s) [] = words s [] := by
  induction b with
  | nil => rfl
  | cons c b ih =>
    have := hb c (by simp)
    simp only [List.cons_append, words, this, if_true, List.isEmpty_nil]
    exact ih fun d hd => hb d (by simp [hd])

theorem words_word {w : Str} (hw : ∀ c ∈ w, isSpace c = false) (s cur : Str) : words (w ++ s) cur = words s (cur ++ w) := by
  induction w generalizing cur with
  | nil => simp
  | cons c w ih =>
    have := hw c (by simp)
    simp only [List.cons_append, words, this, Bool.false_eq_true, if_false]
    rw [ih (fun d hd => hw d (by simp [hd]))]; simp

theorem words_end {rest : Str} (h : rest = [] ∨ ∃ c r, rest = c :: r ∧ isSpace c = true) {w : Str} (hw : w ≠ []) :
    words rest w = w :: words rest [] := by
  have he : w.isEmpty = false := by simpa using hw
  rcases h with rfl | ⟨c, r, rfl, hc⟩
  · simp [words, he]
  · simp [words, he, hc]

theorem words_spec {ws : List Str} {s : Str} (h : Words ws s) : words s [] = ws := by
  induction h with
  | @nil b hb =>
    have := words_blank hb []
    rw [List.append_nil] at this
    rw [this]; rfl
  | @cons b w ws rest hb hne hw _ he ih =>
    rw [List.append_assoc, words_blank hb, words_word hw, List.nil_append, words_end he hne, ih]

/-- Every text consists of words. -/
theorem words_exist (s : Str) : Words (words s []) s := by
  have key : ∀ n (s : Str), s.length ≤ n → ∃ ws, Words ws s := by
    intro n
    induction n with
    | zero =>
      intro s hs
      rw [List.length_eq_zero_iff.1 (Nat.le_zero.1 hs)]
      exact ⟨[], .nil (by intro c hc; cases hc)⟩
    | succ n ih =>
      intro s hs
      have e1 : s = s.takeWhile isSpace ++ s.dropWhile isSpace := (List.takeWhile_append_dropWhile).symm
      have hb : Blank (s.takeWhile isSpace) := by
        intro c hc
        have := List.all_takeWhile (l := s) (p := isSpace)
        rw [List.all_eq_true] at this
        exact this c hc
      cases hd : s.dropWhile isSpace with
      | nil => exact ⟨[], .nil (by rw [e1, hd, List.append_nil]; exact hb)⟩
      | cons c r =>
        have hc : isSpace c = false := by
          have := List.head?_dropWhile_not (p := isSpace) s
          rw [hd] at this
          simpa using this
        have e2 : r = r.takeWhile (fun c => !isSpace c) ++ r.dropWhile (fun c => !isSpace c) := (List.takeWhile_append_dropWhile).symm
        have hl : (r.dropWhile fun c => !isSpace c).length ≤ n := by
          have h1 := (List.dropWhile_sublist (fun c => !isSpace c) (l := r)).length_le
          have h2 := (List.dropWhile_sublist isSpace (l := s)).length_le
          rw [hd] at h2
          simp at h2
          omega
        obtain ⟨ws, hws⟩ := ih _ hl
        refine ⟨(c :: r.takeWhile fun c => !isSpace c) :: ws, ?_⟩
        have e : s = s.takeWhile isSpace ++ (c :: r.takeWhile fun c => !isSpace c) ++ r.dropWhile fun c => !isSpace c := by
          rw [List.append_assoc, List.cons_append, ← e2, ← hd]; exact e1
        rw [e]
        refine .cons hb (by simp) ?_ hws ?_
        · intro d hd'
          rcases List.mem_cons.1 hd' with rfl | hd'
          · exact hc
          · have := List.all_takeWhile (l := r) (p := fun c => !isSpace c)
            rw [List.all_eq_true] at this
            simpa using this d hd'
        · cases hx : r.dropWhile fun c => !isSpace c with
          | nil => exact .inl rfl
          | cons d r' =>
            right
            refine ⟨d, r', rfl, ?_⟩
            have := List.head?_dropWhile_not (p := fun c => !isSpace c) r
            rw [hx] at this
            simpa using this
  obtain ⟨ws, h⟩ := key _ s (Nat.le_refl _)
  rw [words_spec h]
  exact h

theorem hasWord_iff {w s : Str} (hne : w ≠ []) (hw : ∀ c ∈ w, isSpace c = false) : w ∈ words s [] ↔ HasWord w s := by
  constructor
  · intro h
    have hs := words_exist s
    generalize words s [] = ws at h hs
    induction hs with
    | nil => cases h
    | @cons b v ws rest hb _ _ _ he ih =>
      rcases List.mem_cons.1 h with rfl | h
      · refine ⟨b, rest, rfl, ?_, he⟩
        rcases List.eq_nil_or_concat b with rfl | ⟨r, c, rfl⟩
        · exact .inl rfl
        · rw [List.concat_eq_append]
          exact .inr ⟨r, c, rfl, hb c (by simp)⟩
      · obtain ⟨x, y, e, hx, hy⟩ := ih h
        refine ⟨b ++ v ++ x, y, by rw [e]; simp, ?_, hy⟩
        right
        rcases hx with rfl | ⟨r, c, rfl, hc⟩
        · rcases he with he | ⟨c, r, he, hc⟩
          · rw [he] at e
            have := congrArg List.length e
            simp at this
            exact absurd (List.length_eq_zero_iff.1 (by omega)) hne
          · rw [he] at e
            cases w with
            | nil => exact absurd rfl hne
            | cons d w =>
              simp at e
              rw [e.1] at hc
              rw [hw d (by simp)] at hc
              cases hc
        · exact ⟨b ++ v ++ r, c, by simp, hc⟩
  · rintro ⟨x, y, rfl, hx, hy⟩
    have key : ∀ (x cur : Str), (x = [] ∧ cur = [] ∨ ∃ r c, x = r ++ [c] ∧ isSpace c = true) → w ∈ words (x ++ (w ++ y)) cur := by
      intro x
      induction x with
      | nil =>
        rintro cur (⟨-, rfl⟩ | ⟨r, c, e, _⟩)
        · rw [List.nil_append, words_word hw, List.nil_append, words_end hy hne]; simp
        · simp at e
      | cons d x ih =>
        rintro cur (⟨h, -⟩ | ⟨r, c, e, hc⟩)
        · cases h
        · have hx' : ∀ cur, (x = [] → cur = []) → w ∈ words (x ++ (w ++ y)) cur := by
            intro cur hcur
            apply ih
            cases r with
            | nil => simp at e; exact .inl ⟨e.2, hcur e.2⟩
            | cons d' r => simp at e; exact .inr ⟨r, c, e.2, hc⟩
          simp only [List.cons_append, words]
          by_cases hd : isSpace d = true
          · simp only [hd, if_true]
            split
            · exact hx' _ fun _ => rfl
            · exact List.mem_cons_of_mem _ (hx' _ fun _ => rfl)
          · simp only [hd, Bool.false_eq_true, if_false]
            apply hx'
            rintro rfl
            cases r with
            | nil => simp at e; exact absurd (e ▸ hc) hd
            | cons d' r => simp at e
    rw [List.append_assoc]
    apply key
    rcases hx with rfl | h
    · exact .inl ⟨rfl, rfl⟩
    · exact .inr h

/-! ### Dot directives -/

/-- The directive of the program. -/
def dotOf : Directive → Dot
  | .ignore => .ignore
  | .precious => .precious
  | .silent => .silent
  | .suffixes => .suffixes

theorem afterColon_iff {s v : Str} : afterColon s = some v ↔ ∃ b, Blank b ∧ s = b ++ ':' :: v := by
  unfold afterColon trimLeft
  constructor
  · intro h
    split at h
    next v' hs =>
      injection h with h
      subst h
      refine ⟨s.takeWhile isSpace, ?_, by rw [← hs, List.takeWhile_append_dropWhile]⟩
      intro c hc
      have := List.all_takeWhile (l := s) (p := isSpace)
      rw [List.all_eq_true] at this
      exact this c hc
    · cases h
  · rintro ⟨b, hb, rfl⟩
    rw [dropWhile_blanks hb]
    simp [show isSpace ':' = false by decide]

theorem startsWith_append (p s : Str) : startsWith (p ++ s) p = true := by
  rw [startsWith, List.isPrefixOf_iff_prefix]; exact List.prefix_append p s

theorem startsWith_split {s p : Str} (h : startsWith s p = true) : s = p ++ s.drop p.length := by
  rw [startsWith, List.isPrefixOf_iff_prefix] at h
  obtain ⟨t, rfl⟩ := h
  simp

theorem dot_iff {d : Directive} {v s : Str} : dotDirective s = some (dotOf d, v) ↔ DotText d v s := by
  constructor
  · intro h
    unfold dotDirective at h
    split at h
    next h1 =>
      obtain ⟨v', h2, h3⟩ := Option.map_eq_some_iff.1 h
      cases d <;> simp [dotOf] at h3
      subst h3
      obtain ⟨b, hb, e⟩ := afterColon_iff.1 h2
      refine ⟨b, hb, ?_⟩
      rw [startsWith_split h1]
      simp only [List.length_cons, List.length_nil, e, Directive.name, List.append_assoc]
    · split at h
      next h1 =>
        obtain ⟨v', h2, h3⟩ := Option.map_eq_some_iff.1 h
        cases d <;> simp [dotOf] at h3
        subst h3
        obtain ⟨b, hb, e⟩ := afterColon_iff.1 h2
        refine ⟨b, hb, ?_⟩
        rw [startsWith_split h1]
        simp only [List.length_cons, List.length_nil, e, Directive.name, List.append_assoc]
      · split at h
        next h1 =>
          obtain ⟨v', h2, h3⟩ := Option.map_eq_some_iff.1 h
          cases d <;> simp [dotOf] at h3
          subst h3
          obtain ⟨b, hb, e⟩ := afterColon_iff.1 h2
          refine ⟨b, hb, ?_⟩
          rw [startsWith_split h1]
          simp only [List.length_cons, List.length_nil, e, Directive.name, List.append_assoc]
        · split at h
          next h1 =>
            obtain ⟨v', h2, h3⟩ := Option.map_eq_some_iff.1 h
            cases d <;> simp [dotOf] at h3
            subst h3
            obtain ⟨b, hb, e⟩ := afterColon_iff.1 h2
            refine ⟨b, hb, ?_⟩
            rw [startsWith_split h1]
            simp only [List.length_cons, List.length_nil, e, Directive.name, List.append_assoc]
          · cases h
  · rintro ⟨b, hb, rfl⟩
    have ha : afterColon (b ++ ':' :: v) = some v := afterColon_iff.2 ⟨b, hb, rfl⟩
    unfold dotDirective
    cases d <;> simp [Directive.name, startsWith, List.isPrefixOf, ha, dotOf]

theorem dot_none {s : Str} (h : ∀ d v, ¬ DotText d v s) : dotDirective s = none := by
  cases hd : dotDirective s with
  | none => rfl
  | some r =>
    obtain ⟨d, v⟩ := r
    exfalso
    cases d with
    | ignore => exact h .ignore v (dot_iff.1 hd)
    | precious => exact h .precious v (dot_iff.1 hd)
    | silent => exact h .silent v (dot_iff.1 hd)
    | suffixes => exact h .suffixes v (dot_iff.1 hd)

/-! ### The separator of description blocks -/

theorem snoc_inj' {a b : Str} {c d : Char} (h : a ++ [c] = b ++ [d]) : a = b ∧ c = d :=
  ⟨List.append_inj_left' h rfl, by simpa using List.append_inj_right' h rfl⟩

theorem depth_snoc (a : Str) (c : Char) : depth (a ++ [c]) = depth a + (if c = '(' then 1 else 0) - (if c = ')' then 1 else 0) := by
  unfold depth
  by_cases h1 : c = '('
  · subst h1; simp; omega
  · by_cases h2 : c = ')'
    · subst h2; simp; omega
    · simp [h1, h2, List.count_append]

/-- The character before the last one. -/
def prev2 (a : Str) : Option Char := a.dropLast.getLast?

theorem drive_iff (first : Char) (a b : Str) (hf : (a ++ ':' :: b).head? = some first) :
    Drive a ↔ ((a.length == 1 && isLetter first) = true ∨ (decide (1 < a.length) && (a.getLast?.map isLetter).getD false &&
      ((prev2 a).map fun c => isSpace c || c == '"').getD false) = true) := by
  rcases List.eq_nil_or_concat a with rfl | ⟨r, c, rfl⟩
  · constructor
    · rintro ⟨b', c', e, _⟩; simp at e
    · simp
  · rw [List.concat_eq_append] at *
    rcases List.eq_nil_or_concat r with rfl | ⟨r', d, rfl⟩
    · simp at hf
      subst hf
      constructor
      · rintro ⟨b', c', e, h, _⟩
        have := snoc_inj' e
        rw [← this.2] at h
        simp [h]
      · rintro (h | h)
        · exact ⟨[], c, rfl, by simpa using h, .inl rfl⟩
        · simp at h
    · rw [List.concat_eq_append] at *
      have hp : prev2 (r' ++ [d] ++ [c]) = some d := by simp [prev2]
      rw [hp]
      constructor
      · rintro ⟨b', c', e, h, h'⟩
        obtain ⟨e1, e2⟩ := snoc_inj' e
        subst e2
        right
        rcases h' with rfl | ⟨b'', d', rfl, h'⟩
        · simp at e1
        · obtain ⟨-, e3⟩ := snoc_inj' e1
          subst e3
          simp [h, h']
      · rintro (h | h)
        · simp at h
        · simp at h
          exact ⟨r' ++ [d], c, rfl, h.1, .inr ⟨r', d, rfl, h.2⟩⟩

theorem dbSeparator_spec (first : Char) : ∀ (s pre a rest : Str), pre ++ s = a ++ ':' :: rest → pre.length ≤ a.length →
    (pre ++ s).head? = some first → Separates a → (∀ x y, a = x ++ ':' :: y → ¬ Separates x) →
    dbSeparator first s pre.length (depth pre) pre.getLast? (prev2 pre) = some a.length := by
  intro s
  induction s with
  | nil =>
    intro pre a rest e hl
    have := congrArg List.length e
    simp at this
    omega
  | cons c s ih =>
    intro pre a rest e hl hf hs hn
    have hstep : pre.length < a.length → dbSeparator first s (pre.length + 1) (depth (pre ++ [c])) (some c) pre.getLast? = some a.length := by
      intro hlt
      have := ih (pre ++ [c]) a rest (by simpa using e) (by simp; omega) (by simpa using hf) hs hn
      simpa [prev2] using this
    have hpre : pre.length < a.length → ∃ y, a = pre ++ c :: y := by
      intro hlt
      rcases List.append_eq_append_iff.1 e with ⟨z, hz, hz'⟩ | ⟨z, hz, hz'⟩
      · cases z with
        | nil => simp at hz; rw [hz] at hlt; omega
        | cons d z => simp at hz'; exact ⟨z, by rw [hz, hz'.1]⟩
      · rw [hz] at hlt; simp at hlt; omega
    have hend : pre.length = a.length → pre = a ∧ c = ':' := by
      intro h
      obtain ⟨h1, h2⟩ := List.append_inj e h
      simp at h2
      exact ⟨h1, h2.1⟩
    simp only [dbSeparator]
    by_cases h1 : c = '('
    · subst h1
      have hlt : pre.length < a.length := by
        rcases Nat.lt_or_eq_of_le hl with h | h
        · exact h
        · exact absurd (hend h).2 (by decide)
      have := hstep hlt
      rw [depth_snoc] at this
      simpa using this
    · rw [if_neg (by simpa using h1)]
      by_cases h2 : c = ')'
      · subst h2
        have hlt : pre.length < a.length := by
          rcases Nat.lt_or_eq_of_le hl with h | h
          · exact h
          · exact absurd (hend h).2 (by decide)
        have := hstep hlt
        rw [depth_snoc] at this
        simpa using this
      · rw [if_neg (by simpa using h2)]
        have hd : depth (pre ++ [c]) = depth pre := by rw [depth_snoc]; simp [h1, h2]
        rw [hd] at hstep
        by_cases h3 : c = ':'
        · subst h3
          by_cases h4 : depth pre = 0
          · rw [if_pos (by simp [h4])]
            have hdr := drive_iff first pre s hf
            by_cases h5 : (pre.length == 1 && isLetter first) = true
            · rw [if_pos h5]
              rcases Nat.lt_or_eq_of_le hl with h | h
              · exact hstep h
              · exact absurd (hdr.2 (.inl h5)) (by rw [(hend h).1]; exact hs.2)
            · rw [if_neg h5]
              by_cases h6 : (decide (1 < pre.length) && (pre.getLast?.map isLetter).getD false &&
                  ((prev2 pre).map fun c => isSpace c || c == '"').getD false) = true
              · rw [if_pos h6]
                rcases Nat.lt_or_eq_of_le hl with h | h
                · exact hstep h
                · exact absurd (hdr.2 (.inr h6)) (by rw [(hend h).1]; exact hs.2)
              · rw [if_neg h6]
                rcases Nat.lt_or_eq_of_le hl with h | h
                · obtain ⟨y, hy⟩ := hpre h
                  refine absurd ⟨h4, ?_⟩ (hn pre y hy)
                  rw [hdr]
                  rintro (h | h)
                  · exact h5 h
                  · exact h6 h
                · rw [h]
          · rw [if_neg (by simp [h4])]
            rcases Nat.lt_or_eq_of_le hl with h | h
            · exact hstep h
            · exact absurd hs.1 (by rw [← (hend h).1]; exact h4)
        · rw [if_neg (by simp [h3])]
          rcases Nat.lt_or_eq_of_le hl with h | h
          · exact hstep h
          · exact absurd (hend h).2 h3

/-- The separator is found; `tail` is the command behind `;`. -/
theorem separator_spec {line a d tail : Str} {double : Bool} (h : Separated line a double d) (hi : ¬ Indented line)
    (ht : ∀ r, tail ≠ ':' :: r) :
    descriptionBlockSeparator (line ++ tail) = some (a.length, if double then 2 else 1) := by
  have e1 : line ++ tail = a ++ ':' :: ((if double then [':'] else []) ++ d ++ tail) := by
    rw [h.eq]; cases double <;> simp
  cases hl : line ++ tail with
  | nil => rw [e1] at hl; simp at hl
  | cons first r =>
    have hne : line ≠ [] := by
      have := h.eq
      intro hx
      rw [hx] at this
      have := congrArg List.length this
      cases double <;> simp at this
    have hfi : ∃ r', line = first :: r' := by
      cases line with
      | nil => exact absurd rfl hne
      | cons c r' => simp at hl; exact ⟨r', by rw [hl.1]⟩
    obtain ⟨r', hr'⟩ := hfi
    have hb : isSpaceOrTab first = false := by
      have := mt indented_iff.2 hi
      rw [hr'] at this
      simpa [startsWithSpaceOrTab] using this
    simp only [descriptionBlockSeparator, hb, Bool.false_eq_true, if_false]
    have := dbSeparator_spec first (first :: r) [] a ((if double then [':'] else []) ++ d ++ tail) (by rw [List.nil_append, ← hl, e1])
      (by simp) rfl h.sep h.first
    simp only [List.length_nil, depth, List.count_nil, List.getLast?_nil, prev2, List.dropLast_nil] at this
    have hz : ((0 : Nat) : Int) - ((0 : Nat) : Int) = 0 := by omega
    rw [hz] at this
    rw [this]
    simp only [Option.some.injEq, Prod.mk.injEq, true_and]
    rw [← hl, e1]
    have hi : (a ++ ':' :: ((if double then [':'] else []) ++ d ++ tail))[a.length + 1]? = ((if double then [':'] else []) ++ d ++ tail)[0]? := by
      rw [List.getElem?_append_right (by omega)]
      simp
    rw [hi]
    cases hd : double with
    | true => simp
    | false =>
      simp only [Bool.false_eq_true, if_false, List.nil_append]
      rw [if_neg]
      cases d with
      | nil =>
        cases tail with
        | nil => simp
        | cons c t =>
          intro hx
          simp at hx
          exact ht t (by rw [hx])
      | cons c d =>
        intro hx
        simp at hx
        exact h.single hd d (by rw [hx])

/-- The first place of its kind. -/
theorem first_place {P : Str → Prop} {s : Str} {c : Char} (h : ∃ a b, s = a ++ c :: b ∧ P a) :
    ∃ a b, s = a ++ c :: b ∧ P a ∧ ∀ x y, a = x ++ c :: y → ¬ P x := by
  obtain ⟨a, b, e, ha⟩ := h
  have key : ∀ n (a b : Str), a.length ≤ n → s = a ++ c :: b → P a → ∃ a b, s = a ++ c :: b ∧ P a ∧ ∀ x y, a = x ++ c :: y → ¬ P x := by
    intro n
    induction n with
    | zero =>
      intro a b hl e ha
      have := List.length_eq_zero_iff.1 (Nat.le_zero.1 hl)
      subst this
      exact ⟨[], b, e, ha, by intro x y e; simp at e⟩
    | succ n ih =>
      intro a b hl e ha
      by_cases hx : ∃ x y, a = x ++ c :: y ∧ P x
      · obtain ⟨x, y, rfl, hp⟩ := hx
        exact ih x (y ++ c :: b) (by simp at hl; omega) (by rw [e]; simp) hp
      · exact ⟨a, b, e, ha, fun x y hxy hp => hx ⟨x, y, hxy, hp⟩⟩
  exact key a.length a b (Nat.le_refl _) e ha

theorem dbSeparator_some (first : Char) : ∀ (s pre : Str) (i : Nat), (pre ++ s).head? = some first →
    dbSeparator first s pre.length (depth pre) pre.getLast? (prev2 pre) = some i → ∃ a b, pre ++ s = a ++ ':' :: b ∧ Separates a := by
  intro s
  induction s with
  | nil => intro pre i _ h; simp [dbSeparator] at h
  | cons c s ih =>
    intro pre i hf h
    have hstep : dbSeparator first s (pre.length + 1) (depth (pre ++ [c])) (some c) pre.getLast? = some i → ∃ a b, pre ++ c :: s = a ++ ':' :: b ∧ Separates a := by
      intro h'
      have := ih (pre ++ [c]) i (by simpa using hf) (by simpa [prev2] using h')
      simpa using this
    simp only [dbSeparator] at h
    by_cases h1 : c = '('
    · subst h1
      apply hstep
      rw [depth_snoc]
      simpa using h
    · rw [if_neg (by simpa using h1)] at h
      by_cases h2 : c = ')'
      · subst h2
        apply hstep
        rw [depth_snoc]
        simpa using h
      · rw [if_neg (by simpa using h2)] at h
        have hd : depth (pre ++ [c]) = depth pre := by rw [depth_snoc]; simp [h1, h2]
        rw [hd] at hstep
        split at h
        next h3 =>
          simp only [Bool.and_eq_true, beq_iff_eq] at h3
          obtain ⟨h3, rfl⟩ := h3
          split at h
          · exact hstep h
          next h5 =>
            split at h
            · exact hstep h
            next h6 =>
              refine ⟨pre, s, rfl, h3, ?_⟩
              rw [drive_iff first pre s hf]
              rintro (hx | hx)
              · exact h5 hx
              · exact h6 hx
        · exact hstep h

/-- A line with a separator. -/
theorem separator_exists {line : Str} {r : Nat × Nat} (h : descriptionBlockSeparator line = some r) :
    ¬ Indented line ∧ ∃ a double d, Separated line a double d := by
  unfold descriptionBlockSeparator at h
  split at h
  · cases h
  next first rest =>
    split at h
    · cases h
    next hb =>
      split at h
      · cases h
      next pos hp =>
        refine ⟨?_, ?_⟩
        · rw [indented_iff]
          simpa [startsWithSpaceOrTab] using hb
        · have h1 := dbSeparator_some first (first :: rest) [] pos rfl (by
            simpa [depth, prev2] using hp)
          obtain ⟨a, b, e, hs, hf⟩ := first_place h1
          rw [List.nil_append] at e
          cases b with
          | nil => exact ⟨a, false, [], by simpa using e, by intro _ r hr; simp at hr, hs, hf⟩
          | cons c b =>
            by_cases hc : c = ':'
            · subst hc
              exact ⟨a, true, b, by simpa using e, (by intro hx; cases hx), hs, hf⟩
            · exact ⟨a, false, c :: b, by simpa using e, by intro _ r hr; injection hr with h1 _; exact hc h1, hs, hf⟩

/-! ### Inference rules -/

theorem isWord_iff {c : Char} : isWord c = true ↔ (isLetterOrNumber c = true ∨ c = '_') := by
  simp [isWord]

theorem ext_word {e : Str} (h : Ext e) : ∀ c ∈ e, isWord c = true := fun c hc => isWord_iff.2 (h.2 c hc)

theorem takeWhile_all {p : Char → Bool} {a b : Str} (ha : ∀ c ∈ a, p c = true) (hb : ∀ c r, b = c :: r → p c = false) :
    (a ++ b).takeWhile p = a ∧ (a ++ b).dropWhile p = b := by
  induction a with
  | nil =>
    cases b with
    | nil => simp
    | cons c b => simp [hb c b rfl]
  | cons c a ih =>
    have := ih fun d hd => ha d (by simp [hd])
    simp [ha c (by simp), this]

theorem extAtEnd_iff {s g e : Str} : extAtEnd s = some (g, e) ↔ ∃ w, Ext w ∧ e = '.' :: w ∧ s = g ++ e := by
  constructor
  · intro h
    unfold extAtEnd at h
    simp only at h
    split at h
    next r hr =>
      split at h
      · cases h
      next hw =>
        injection h with h
        injection h with h1 h2
        refine ⟨(s.reverse.takeWhile isWord).reverse, ⟨by simpa using hw, ?_⟩, h2.symm, ?_⟩
        · intro c hc
          have := List.all_takeWhile (l := s.reverse) (p := isWord)
          rw [List.all_eq_true] at this
          exact isWord_iff.1 (this c (by simpa using hc))
        · rw [← h1, ← h2]
          have := List.takeWhile_append_dropWhile (p := isWord) (l := s.reverse)
          rw [hr] at this
          have := congrArg List.reverse this
          rw [List.reverse_reverse] at this
          refine this.symm.trans ?_
          simp
    · cases h
  · rintro ⟨w, hw, rfl, rfl⟩
    have hrev : (g ++ '.' :: w).reverse = w.reverse ++ '.' :: g.reverse := by simp
    obtain ⟨h1, h2⟩ := takeWhile_all (p := isWord) (a := w.reverse) (b := '.' :: g.reverse) (fun c hc => ext_word hw c (by simpa using hc))
      (by intro c r hc; simp at hc; rw [← hc.1]; decide)
    unfold extAtEnd
    simp only [hrev, h1, h2, List.reverse_reverse]
    have : w.isEmpty = false := by simpa using hw.1
    simp [this]

theorem braces_iff {g : Str} : (g.isEmpty || (startsWith g ['{'] && endsWith g ['}'] && decide (2 ≤ g.length))) = true ↔
    ∃ p, g = braces p := by
  constructor
  · intro h
    simp only [Bool.or_eq_true, Bool.and_eq_true, decide_eq_true_eq] at h
    rcases h with h | ⟨⟨h1, h2⟩, h3⟩
    · exact ⟨none, List.isEmpty_iff.1 h⟩
    · have e1 := startsWith_split h1
      rw [endsWith, List.isSuffixOf_iff_suffix] at h2
      obtain ⟨t, rfl⟩ := h2
      cases t with
      | nil => simp at h3
      | cons c t =>
        simp at e1
        exact ⟨some t, by simp [braces, e1]⟩
  · rintro ⟨p, rfl⟩
    cases p with
    | none => rfl
    | some p =>
      have h2 : endsWith ('{' :: (p ++ ['}'])) ['}'] = true := by
        rw [endsWith, List.isSuffixOf_iff_suffix]; exact ⟨'{' :: p, rfl⟩
      simp [braces, h2, startsWith, List.isPrefixOf]

theorem pathExt_iff {s g e : Str} : pathExt s = some (g, e) ↔ ∃ p w, Ext w ∧ g = braces p ∧ e = '.' :: w ∧ s = g ++ e := by
  unfold pathExt
  constructor
  · intro h
    split at h
    · cases h
    next g' e' hx =>
      split at h
      next hb =>
        injection h with h
        injection h with h1 h2
        subst h1 h2
        obtain ⟨w, hw, he, hs⟩ := extAtEnd_iff.1 hx
        obtain ⟨p, hp⟩ := braces_iff.1 hb
        exact ⟨p, w, hw, hp, he, hs⟩
      · cases h
  · rintro ⟨p, w, hw, hg, he, hs⟩
    rw [extAtEnd_iff.2 ⟨w, hw, he, hs⟩]
    simp only
    rw [if_pos (braces_iff.2 ⟨p, hg⟩)]

theorem twoPaths_sound {s g e t : Str} : ∀ {n : Nat}, twoPaths s n = some (g, e, t) → endsWith s ['}'] = true →
    ∃ p w q, Ext w ∧ g = braces p ∧ e = '.' :: w ∧ t = braces (some q) ∧ s = g ++ e ++ t := by
  intro n
  induction n with
  | zero => intro h; cases h
  | succ n ih =>
    intro h hs
    unfold twoPaths at h
    split at h
    next hn =>
      split at h
      next g' e' hx =>
        injection h with h
        simp only [Prod.mk.injEq] at h
        obtain ⟨rfl, rfl, rfl⟩ := h
        obtain ⟨p, w, hw, hg, he, e1⟩ := pathExt_iff.1 hx
        have hd : ∃ r, s.drop n = '{' :: r := by
          obtain ⟨hlt, hc⟩ := List.getElem?_eq_some_iff.1 hn
          exact ⟨s.drop (n + 1), by rw [List.drop_eq_getElem_cons hlt, hc]⟩
        obtain ⟨r, hr⟩ := hd
        have e2 : s = s.take n ++ s.drop n := (List.take_append_drop n s).symm
        have : ∃ q, r = q ++ ['}'] := by
          rw [endsWith, List.isSuffixOf_iff_suffix] at hs
          obtain ⟨x, hx'⟩ := hs
          rcases List.eq_nil_or_concat r with rfl | ⟨q, c, rfl⟩
          · rw [hr] at e2
            rw [← hx'] at e2
            have := (snoc_inj' e2).2
            exact absurd this (by decide)
          · rw [hr, List.concat_eq_append] at e2
            rw [← hx'] at e2
            have h3 : x ++ ['}'] = (List.take n (x ++ ['}']) ++ '{' :: q) ++ [c] := by rw [List.append_assoc]; exact e2
            rw [← (snoc_inj' h3).2]
            exact ⟨q, by simp⟩
        obtain ⟨q, rfl⟩ := this
        exact ⟨p, w, q, hw, hg, he, by rw [hr]; rfl, by rw [← e1]; exact e2⟩
      · exact ih h hs
    · exact ih h hs

theorem twoPaths_none {s : Str} : ∀ {n : Nat}, twoPaths s n = none → ∀ p w q, Ext w → s = braces p ++ '.' :: w ++ braces (some q) →
    n ≤ (braces p ++ '.' :: w).length := by
  intro n
  induction n with
  | zero => intros; omega
  | succ n ih =>
    intro h p w q hw hs
    unfold twoPaths at h
    split at h
    next hn =>
      split at h
      · cases h
      next hx =>
        have := ih h p w q hw hs
        rcases Nat.lt_or_eq_of_le this with hlt | heq
        · omega
        · exfalso
          have ht : s.take n = braces p ++ '.' :: w := by rw [heq, hs, List.take_left]
          rw [ht, pathExt_iff.2 ⟨p, w, hw, rfl, rfl, rfl⟩] at hx
          cases hx
    next hn =>
      have := ih h p w q hw hs
      rcases Nat.lt_or_eq_of_le this with hlt | heq
      · omega
      · exfalso
        apply hn
        rw [heq, hs, List.getElem?_append_right (Nat.le_refl _)]
        simp [braces]

theorem twoPaths_clear {p : Option Str} {w q : Str} (hw : Ext w) (hq : '{' ∉ q) :
    ∀ {n : Nat}, (braces p ++ '.' :: w).length < n →
      twoPaths (braces p ++ '.' :: w ++ braces (some q)) n = some (braces p, '.' :: w, braces (some q)) := by
  intro n
  induction n with
  | zero => intro h; omega
  | succ n ih =>
    intro h
    unfold twoPaths
    by_cases hn : n = (braces p ++ '.' :: w).length
    · have ht : (braces p ++ '.' :: w ++ braces (some q)).take n = braces p ++ '.' :: w := by rw [hn, List.take_left]
      have hd : (braces p ++ '.' :: w ++ braces (some q)).drop n = braces (some q) := by rw [hn, List.drop_left]
      rw [if_pos]
      · rw [ht, pathExt_iff.2 ⟨p, w, hw, rfl, rfl, rfl⟩, hd]
      · rw [hn, List.getElem?_append_right (Nat.le_refl _)]
        simp [braces]
    · rw [if_neg]
      · exact ih (by omega)
      · rw [List.getElem?_append_right (by omega)]
        obtain ⟨k, hk⟩ : ∃ k, n - (braces p ++ '.' :: w).length = k + 1 := ⟨n - (braces p ++ '.' :: w).length - 1, by omega⟩
        rw [hk]
        simp only [braces, List.getElem?_cons_succ]
        intro hx
        have := List.mem_of_getElem? hx
        simp at this
        exact hq this

/-- The colons at the end. -/
theorem colons_spec {s : Str} {k : Nat} (hs : ∀ r, s ≠ r ++ [':']) :
    ((s ++ List.replicate k ':').reverse.takeWhile (· == ':')).length = k := by
  have e : (s ++ List.replicate k ':').reverse = List.replicate k ':' ++ s.reverse := by simp
  rw [e, (takeWhile_all (p := (· == ':')) (a := List.replicate k ':') (b := s.reverse) (by intro c hc; simp [(List.mem_replicate.1 hc).2])
    ?_).1, List.length_replicate]
  intro c r hr
  have := congrArg List.reverse hr
  rw [List.reverse_reverse, List.reverse_cons] at this
  simp only [beq_eq_false_iff_ne, ne_eq]
  rintro rfl
  exact hs _ this

theorem colons_split (s : Str) : s = s.take (s.length - (s.reverse.takeWhile (· == ':')).length) ++
    List.replicate (s.reverse.takeWhile (· == ':')).length ':' := by
  have h := List.takeWhile_append_dropWhile (p := (· == ':')) (l := s.reverse)
  have h1 : s.reverse.takeWhile (· == ':') = List.replicate (s.reverse.takeWhile (· == ':')).length ':' := by
    rw [List.eq_replicate_iff]
    refine ⟨rfl, fun c hc => ?_⟩
    have := List.all_takeWhile (l := s.reverse) (p := (· == ':'))
    rw [List.all_eq_true] at this
    simpa using this c hc
  generalize (s.reverse.takeWhile (· == ':')).length = k at h1 ⊢
  rw [h1] at h
  have h2 := congrArg List.reverse h
  rw [List.reverse_reverse, List.reverse_append, List.reverse_replicate] at h2
  generalize (s.reverse.dropWhile (· == ':')).reverse = x at h2
  subst h2
  simp

theorem ruleHead_text (h : RuleHead) : h.render = (braces h.fromPath ++ '.' :: h.fromExt ++ braces h.toPath ++ '.' :: h.toExt) ++
    List.replicate (if h.batch then 2 else 1) ':' := by
  unfold RuleHead.render
  cases h.batch <;> simp [List.replicate]

theorem ext_end {g w r : Str} (hw : Ext w) : g ++ '.' :: w ≠ r ++ [':'] := by
  intro e
  rcases List.eq_nil_or_concat w with rfl | ⟨w', c, rfl⟩
  · exact hw.1 rfl
  · rw [List.concat_eq_append] at *
    have h1 : (g ++ '.' :: w') ++ [c] = r ++ [':'] := by simpa using e
    have := ext_word hw c (by simp)
    rw [(snoc_inj' h1).2] at this
    exact absurd this (by decide)

theorem endsBrace_ext {p : Option Str} {w : Str} (hw : Ext w) : endsWith (braces p ++ '.' :: w) ['}'] = false := by
  rw [Bool.eq_false_iff]
  intro h
  rw [endsWith, List.isSuffixOf_iff_suffix] at h
  obtain ⟨t, ht⟩ := h
  rcases List.eq_nil_or_concat w with rfl | ⟨w', c, rfl⟩
  · exact hw.1 rfl
  · rw [List.concat_eq_append] at *
    have h1 : t ++ ['}'] = (braces p ++ '.' :: w') ++ [c] := by rw [ht]; simp
    have := ext_word hw c (by simp)
    rw [← (snoc_inj' h1).2] at this
    exact absurd this (by decide)

theorem endsBrace_path {s q : Str} : endsWith (s ++ braces (some q)) ['}'] = true := by
  rw [endsWith, List.isSuffixOf_iff_suffix]
  exact ⟨s ++ '{' :: q, by simp [braces]⟩

/-- A rule head is recognised. -/
theorem inferenceRule_spec {h : RuleHead} (hc : h.Clear) :
    inferenceRule h.render = some ((braces h.fromPath, '.' :: h.fromExt, braces h.toPath, '.' :: h.toExt), h.batch) := by
  obtain ⟨h1, h2, h3⟩ := hc
  have hcol := colons_spec (s := braces h.fromPath ++ '.' :: h.fromExt ++ braces h.toPath ++ '.' :: h.toExt) (k := if h.batch then 2 else 1)
    (fun r => ext_end h2)
  have hext : extAtEnd (braces h.fromPath ++ '.' :: h.fromExt ++ braces h.toPath ++ '.' :: h.toExt) =
      some (braces h.fromPath ++ '.' :: h.fromExt ++ braces h.toPath, '.' :: h.toExt) := extAtEnd_iff.2 ⟨_, h2, rfl, rfl⟩
  unfold inferenceRule
  rw [ruleHead_text]
  simp only [hcol]
  have hk : (if h.batch then 2 else 1) = 1 ∨ (if h.batch then 2 else 1) = 2 := by cases h.batch <;> simp
  rw [if_pos hk]
  have htake : ∀ (x : Str) (k : Nat), (x ++ List.replicate k ':').take ((x ++ List.replicate k ':').length - k) = x := by
    intro x k; simp
  rw [htake, hext]
  simp only
  have hb : decide ((if h.batch then 2 else 1) = 2) = h.batch := by cases h.batch <;> decide
  cases ht : h.toPath with
  | none =>
    rw [show braces none = [] from rfl, List.append_nil]
    have hx : endsWith (braces h.fromPath ++ '.' :: h.fromExt) ['}'] = false := endsBrace_ext h1
    rw [if_neg (by rw [hx]; decide), pathExt_iff.2 ⟨h.fromPath, h.fromExt, h1, rfl, rfl, rfl⟩]
    simp only [Option.map_some, hb]
  | some q =>
    rw [if_pos endsBrace_path, twoPaths_clear h1 (h3 q (.inr ht)).1 (by simp [braces])]
    simp only [Option.map_some, hb]

/-- The parts of a rule head as the parser sees them. -/
def parts (h : RuleHead) : (Str × Str × Str × Str) × Bool := ((braces h.fromPath, '.' :: h.fromExt, braces h.toPath, '.' :: h.toExt), h.batch)

theorem render_tail {h h' : RuleHead} (h2 : Ext h.toExt) (h2' : Ext h'.toExt) (e : h.render = h'.render) :
    h.batch = h'.batch ∧ h.toExt = h'.toExt ∧
      braces h.fromPath ++ '.' :: h.fromExt ++ braces h.toPath = braces h'.fromPath ++ '.' :: h'.fromExt ++ braces h'.toPath := by
  have hc := colons_spec (s := braces h.fromPath ++ '.' :: h.fromExt ++ braces h.toPath ++ '.' :: h.toExt) (k := if h.batch then 2 else 1)
    (fun r => ext_end h2)
  have hc' := colons_spec (s := braces h'.fromPath ++ '.' :: h'.fromExt ++ braces h'.toPath ++ '.' :: h'.toExt) (k := if h'.batch then 2 else 1)
    (fun r => ext_end h2')
  rw [ruleHead_text, ruleHead_text] at e
  rw [e, hc'] at hc
  have hb : h.batch = h'.batch := by
    cases h1 : h.batch <;> cases h2 : h'.batch <;> simp [h1, h2] at hc ⊢
  rw [hb] at e
  have e := List.append_cancel_right e
  have e1 : extAtEnd (braces h.fromPath ++ '.' :: h.fromExt ++ braces h.toPath ++ '.' :: h.toExt) =
      some (braces h.fromPath ++ '.' :: h.fromExt ++ braces h.toPath, '.' :: h.toExt) := extAtEnd_iff.2 ⟨_, h2, rfl, rfl⟩
  have e2 : extAtEnd (braces h'.fromPath ++ '.' :: h'.fromExt ++ braces h'.toPath ++ '.' :: h'.toExt) =
      some (braces h'.fromPath ++ '.' :: h'.fromExt ++ braces h'.toPath, '.' :: h'.toExt) := extAtEnd_iff.2 ⟨_, h2', rfl, rfl⟩
  rw [e, e2] at e1
  simp at e1
  refine ⟨hb, e1.2.symm, ?_⟩
  simpa using e1.1.symm

theorem rule_order {p p' : Option Str} {w w' x x' : Str} (hw : Ext w') (e : braces p ++ '.' :: w ++ '{' :: x = braces p' ++ '.' :: w' ++ '{' :: x')
    (hlt : (braces p ++ '.' :: w).length < (braces p' ++ '.' :: w').length) : (braces p).length < (braces p').length := by
  have h1 : (braces p ++ '.' :: w ++ '{' :: x)[(braces p ++ '.' :: w).length]? = some '{' := by
    rw [List.getElem?_append_right (Nat.le_refl _)]; simp
  rw [e, List.getElem?_append_left hlt] at h1
  by_cases h2 : (braces p ++ '.' :: w).length < (braces p').length
  · simp at h2; omega
  · rw [List.getElem?_append_right (by omega)] at h1
    have := List.mem_of_getElem? h1
    rcases List.mem_cons.1 this with h3 | h3
    · exact absurd h3 (by decide)
    · exact absurd (ext_word hw _ h3) (by decide)

theorem twoPaths_best {s g e t : Str} : ∀ {n : Nat}, twoPaths s n = some (g, e, t) → ∀ p w q, Ext w → s = braces p ++ '.' :: w ++ braces (some q) →
    (braces p ++ '.' :: w).length < n → (braces p ++ '.' :: w).length ≤ (g ++ e).length := by
  intro n
  induction n with
  | zero => intro h; cases h
  | succ n ih =>
    intro h p w q hw hs hlt
    unfold twoPaths at h
    have hat : s[(braces p ++ '.' :: w).length]? = some '{' := by
      rw [hs, List.getElem?_append_right (Nat.le_refl _)]; simp [braces]
    have htk : s.take (braces p ++ '.' :: w).length = braces p ++ '.' :: w := by rw [hs, List.take_left]
    split at h
    next hn =>
      split at h
      next g' e' hx =>
        injection h with h
        simp only [Prod.mk.injEq] at h
        obtain ⟨rfl, rfl, rfl⟩ := h
        obtain ⟨p', w', _, _, _, e1⟩ := pathExt_iff.1 hx
        rw [← e1, List.length_take]
        have := (List.getElem?_eq_some_iff.1 hn).1
        omega
      next hx =>
        refine ih h p w q hw hs ?_
        rcases Nat.lt_or_eq_of_le (Nat.le_of_lt_succ hlt) with h1 | h1
        · exact h1
        · rw [← h1, htk, pathExt_iff.2 ⟨p, w, hw, rfl, rfl, rfl⟩] at hx
          cases hx
    next hn =>
      refine ih h p w q hw hs ?_
      rcases Nat.lt_or_eq_of_le (Nat.le_of_lt_succ hlt) with h1 | h1
      · exact h1
      · rw [← h1] at hn
        exact absurd hat hn

/-- What is recognised is a rule head. -/
theorem inferenceRule_sound {s : Str} {r : (Str × Str × Str × Str) × Bool} (hx : inferenceRule s = some r) : ∃ h : RuleHead, h.Chosen s ∧ r = parts h := by
  unfold inferenceRule at hx
  simp only at hx
  have hs := colons_split s
  generalize hk : (s.reverse.takeWhile (· == ':')).length = k at hx hs
  generalize s.take (s.length - k) = body at hx hs
  split at hx
  next hk12 =>
    split at hx
    · cases hx
    next r' toExt he =>
      obtain ⟨w2, hw2, rfl, rfl⟩ := extAtEnd_iff.1 he
      have hrep : List.replicate k ':' = List.replicate (if decide (k = 2) then 2 else 1) ':' := by
        rcases hk12 with rfl | rfl <;> rfl
      split at hx
      next hb =>
        obtain ⟨⟨g, e, t⟩, ht, hr⟩ := Option.map_eq_some_iff.1 hx
        obtain ⟨p, w, q, hw, rfl, rfl, rfl, rfl⟩ := twoPaths_sound ht hb
        have htext : ({ fromPath := p, fromExt := w, toPath := some q, toExt := w2, batch := decide (k = 2) } : RuleHead).render = s := by
          rw [ruleHead_text, hs, hrep]
        refine ⟨{ fromPath := p, fromExt := w, toPath := some q, toExt := w2, batch := decide (k = 2) }, ⟨hw, hw2, htext, ?_⟩, hr.symm⟩
        intro h' h1 h2 h3
        obtain ⟨-, -, h4⟩ := render_tail h2 hw2 (h3.trans htext.symm)
        simp only at h4 ⊢
        cases hq : h'.toPath with
        | none =>
          rw [hq, show braces none = [] from rfl, List.append_nil] at h4
          have h5 := endsBrace_ext (p := h'.fromPath) h1
          rw [h4, endsBrace_path] at h5
          cases h5
        | some q' =>
          rw [hq] at h4
          have h5 := twoPaths_best ht _ _ _ h1 h4.symm (by rw [← h4]; simp [braces])
          refine Nat.le_of_not_lt fun h6 => ?_
          rcases Nat.lt_or_eq_of_le h5 with h7 | h7
          · have := rule_order hw (x := q' ++ ['}']) (x' := q ++ ['}']) (by simpa [braces] using h4) h7
            omega
          · obtain ⟨h8, _⟩ := List.append_inj h4 h7
            · have e2 : extAtEnd (braces p ++ '.' :: w) = some (braces p, '.' :: w) := extAtEnd_iff.2 ⟨w, hw, rfl, rfl⟩
              have e3 : extAtEnd (braces h'.fromPath ++ '.' :: h'.fromExt) = some (braces h'.fromPath, '.' :: h'.fromExt) := extAtEnd_iff.2 ⟨_, h1, rfl, rfl⟩
              rw [h8, e2] at e3
              simp at e3
              rw [e3.1] at h6
              omega
      next hb =>
        obtain ⟨⟨g, e⟩, ht, hr⟩ := Option.map_eq_some_iff.1 hx
        obtain ⟨p, w, hw, rfl, rfl, rfl⟩ := pathExt_iff.1 ht
        have htext : ({ fromPath := p, fromExt := w, toPath := none, toExt := w2, batch := decide (k = 2) } : RuleHead).render = s := by
          rw [ruleHead_text, hs, hrep]
          simp [braces]
        refine ⟨{ fromPath := p, fromExt := w, toPath := none, toExt := w2, batch := decide (k = 2) }, ⟨hw, hw2, htext, ?_⟩, hr.symm⟩
        intro h' h1 h2 h3
        obtain ⟨-, -, h4⟩ := render_tail h2 hw2 (h3.trans htext.symm)
        simp only [show braces none = [] from rfl, List.append_nil] at h4 ⊢
        cases hq : h'.toPath with
        | none =>
          rw [hq, show braces none = [] from rfl, List.append_nil] at h4
          have e2 : extAtEnd (braces p ++ '.' :: w) = some (braces p, '.' :: w) := extAtEnd_iff.2 ⟨w, hw, rfl, rfl⟩
          have e3 : extAtEnd (braces h'.fromPath ++ '.' :: h'.fromExt) = some (braces h'.fromPath, '.' :: h'.fromExt) := extAtEnd_iff.2 ⟨_, h1, rfl, rfl⟩
          rw [h4, e2] at e3
          simp at e3
          rw [e3.1]
        | some q' =>
          rw [hq] at h4
          have h5 := endsBrace_ext (p := p) hw
          rw [← h4, endsBrace_path] at h5
          cases h5
  · cases hx

/-- There is only one choice. -/
theorem chosen_unique {h h' : RuleHead} {s : Str} (hc : h.Chosen s) (hc' : h'.Chosen s) : parts h = parts h' := by
  obtain ⟨h1, h2, h3⟩ := render_tail hc.to_ext hc'.to_ext (hc.text.trans hc'.text.symm)
  have h4 := hc.longest h' hc'.from_ext hc'.to_ext hc'.text
  have h5 := hc'.longest h hc.from_ext hc.to_ext hc.text
  rw [List.append_assoc, List.append_assoc] at h3
  obtain ⟨h6, h7⟩ := List.append_inj h3 (by omega)
  simp only [List.cons_append, List.cons.injEq, true_and] at h7
  have hnw : ∀ (p : Option Str) c r, braces p ++ [] = c :: r → isWord c = false := by
    intro p c r e
    cases p with
    | none => simp [braces] at e
    | some q => simp [braces] at e; rw [← e.1]; decide
  have t1 := takeWhile_all (p := isWord) (a := h.fromExt) (b := braces h.toPath) (ext_word hc.from_ext) (fun c r e => hnw h.toPath c r (by simpa using e))
  have t2 := takeWhile_all (p := isWord) (a := h'.fromExt) (b := braces h'.toPath) (ext_word hc'.from_ext) (fun c r e => hnw h'.toPath c r (by simpa using e))
  rw [h7] at t1
  unfold parts
  rw [h6, h1, h2, t1.1.symm.trans t2.1, t1.2.symm.trans t2.2]

theorem inferenceRule_none {s : Str} (h : ¬ IsRule s) : inferenceRule s = none := by
  cases hx : inferenceRule s with
  | none => rfl
  | some r =>
    obtain ⟨h', hc, _⟩ := inferenceRule_sound hx
    exact absurd ⟨h', hc.from_ext, hc.to_ext, hc.text⟩ h

theorem inferenceRule_some {s : Str} (h : IsRule s) : (inferenceRule s).isSome = true := by
  obtain ⟨h, h1, h2, rfl⟩ := h
  have hcol := colons_spec (s := braces h.fromPath ++ '.' :: h.fromExt ++ braces h.toPath ++ '.' :: h.toExt) (k := if h.batch then 2 else 1)
    (fun r => ext_end h2)
  have hext : extAtEnd (braces h.fromPath ++ '.' :: h.fromExt ++ braces h.toPath ++ '.' :: h.toExt) =
      some (braces h.fromPath ++ '.' :: h.fromExt ++ braces h.toPath, '.' :: h.toExt) := extAtEnd_iff.2 ⟨_, h2, rfl, rfl⟩
  unfold inferenceRule
  rw [ruleHead_text]
  simp only [hcol]
  have hk : (if h.batch then 2 else 1) = 1 ∨ (if h.batch then 2 else 1) = 2 := by cases h.batch <;> simp
  rw [if_pos hk]
  have htake : ∀ (x : Str) (k : Nat), (x ++ List.replicate k ':').take ((x ++ List.replicate k ':').length - k) = x := by
    intro x k; simp
  rw [htake, hext]
  simp only
  cases ht : h.toPath with
  | none =>
    rw [show braces none = [] from rfl, List.append_nil]
    have hx : endsWith (braces h.fromPath ++ '.' :: h.fromExt) ['}'] = false := endsBrace_ext h1
    rw [if_neg (by rw [hx]; decide), pathExt_iff.2 ⟨h.fromPath, h.fromExt, h1, rfl, rfl, rfl⟩]
    rfl
  | some q =>
    rw [if_pos endsBrace_path]
    cases htp : twoPaths (braces h.fromPath ++ '.' :: h.fromExt ++ braces (some q)) (braces h.fromPath ++ '.' :: h.fromExt ++ braces (some q)).length with
    | none =>
      have := twoPaths_none htp _ _ _ h1 rfl
      simp [braces] at this
      omega
    | some r => rfl

theorem inferenceRule_chosen {h : RuleHead} {s : Str} (hc : h.Chosen s) : inferenceRule s = some (parts h) := by
  have h1 := inferenceRule_some ⟨h, hc.from_ext, hc.to_ext, hc.text⟩
  cases hx : inferenceRule s with
  | none => rw [hx] at h1; cases h1
  | some r =>
    obtain ⟨h', hc', rfl⟩ := inferenceRule_sound hx
    rw [chosen_unique hc hc']

/-- Without braces in the paths there is no choice. -/
theorem clear_chosen {h : RuleHead} (hc : h.Clear) : h.Chosen h.render := by
  obtain ⟨h', hc', e⟩ := inferenceRule_sound (inferenceRule_spec hc)
  refine ⟨hc.1, hc.2.1, rfl, fun h2 h3 h4 h5 => ?_⟩
  have := hc'.longest h2 h3 h4 h5
  simp only [parts, Prod.mk.injEq] at e
  rw [e.1.1]
  exact this

theorem rulePath_spec (p : Option Str) : rulePath (braces p) = directory p := by
  cases p with
  | none => decide
  | some p =>
    have h1 : 2 ≤ (braces (some p)).length := by simp [braces]
    have h2 : ((braces (some p)).drop 1).take ((braces (some p)).length - 2) = p := by simp [braces]
    unfold rulePath
    simp only [if_pos h1, h2]
    cases p with
    | nil => decide
    | cons c p =>
      simp only [List.isEmpty_cons, Bool.false_eq_true, if_false, directory, removeDirSeparatorAtEnd]
      cases hl : (c :: p).getLast? with
      | none => simp at hl
      | some d =>
        simp only [Option.some.injEq, Bool.or_eq_true, beq_iff_eq]

/-! ### Inline files -/

theorem angles_at {a rest : Str} (h : NoAngles (a ++ ['<'])) : indexOf? c!"<<" (a ++ '<' :: '<' :: rest) = some a.length := by
  induction a with
  | nil => simp [indexOf?, List.isPrefixOf]
  | cons c a ih =>
    have h' : NoAngles (a ++ ['<']) := fun x y e => h (c :: x) y (by simp [e])
    have hp : (c!"<<").isPrefixOf (c :: (a ++ '<' :: '<' :: rest)) = false := by
      rw [Bool.eq_false_iff]
      intro hx
      simp only [List.isPrefixOf, Bool.and_eq_true, beq_iff_eq] at hx
      obtain ⟨rfl, hx⟩ := hx
      cases a with
      | nil => exact h [] [] rfl
      | cons d a =>
        simp [List.isPrefixOf] at hx
        subst hx
        exact h [] (a ++ ['<']) rfl
    simp only [List.cons_append, indexOf?, hp, Bool.false_eq_true, if_false, ih h', Option.map_some, List.length_cons]

theorem angles_none {s : Str} (h : NoAngles s) : indexOf? c!"<<" s = none := by
  induction s with
  | nil => rfl
  | cons c s ih =>
    have h' : NoAngles s := fun x y e => h (c :: x) y (by simp [e])
    have hp : (c!"<<").isPrefixOf (c :: s) = false := by
      rw [Bool.eq_false_iff]
      intro hx
      cases s with
      | nil => simp [List.isPrefixOf] at hx
      | cons d s =>
        simp [List.isPrefixOf] at hx
        obtain ⟨rfl, rfl⟩ := hx
        exact h [] s rfl
    simp only [indexOf?, hp, Bool.false_eq_true, if_false, ih h', Option.map_none]

theorem indexFrom {pat pre s : Str} : indexOfFrom? pat (pre ++ s) pre.length = (indexOf? pat s).map (· + pre.length) := by
  simp [indexOfFrom?]

/-- A name without file. -/
def ofName (n : Str) : InlineFile := { filename := n }

theorem inlineNames_spec {text line : Str} {names : List Str} (h : Named text line names) :
    ∀ (n : Nat) (pre : Str) (files : List InlineFile), text.length < n →
      inlineNames n (pre ++ text) pre.length files = (pre ++ line, files ++ names.map ofName) := by
  induction h with
  | @done s hs =>
    intro n pre files hn
    obtain ⟨n, rfl⟩ : ∃ k, n = k + 1 := ⟨n - 1, by omega⟩
    unfold inlineNames
    rw [indexFrom, angles_none hs]
    simp
  | @anonymous a rest line ns ha he _ ih =>
    intro n pre files hn
    obtain ⟨n, rfl⟩ : ∃ k, n = k + 1 := ⟨n - 1, by omega⟩
    unfold inlineNames
    rw [indexFrom, angles_at ha]
    simp only [Option.map_some]
    have e1 : pre ++ (a ++ '<' :: '<' :: rest) = (pre ++ (a ++ ['<', '<'])) ++ rest := by simp
    have e2 : a.length + pre.length + 2 = (pre ++ (a ++ ['<', '<'])).length := by simp; omega
    rw [e1, e2, List.drop_left]
    have hih := ih n (pre ++ (a ++ ['<', '<'])) (files ++ [ofName []]) (by simp at hn; omega)
    have hr : (pre ++ (a ++ ['<', '<']) ++ line, files ++ [ofName []] ++ ns.map ofName) =
        (pre ++ (a ++ '<' :: '<' :: line), files ++ ([] :: ns).map ofName) := by simp [ofName]
    rcases he with rfl | ⟨c, r, rfl, hc⟩
    · exact hih.trans hr
    · simp only [hc, if_true]
      exact hih.trans hr
  | @plain a m rest line ns ha hne hm hq he _ ih =>
    intro n pre files hn
    obtain ⟨n, rfl⟩ : ∃ k, n = k + 1 := ⟨n - 1, by omega⟩
    unfold inlineNames
    rw [indexFrom, angles_at ha]
    simp only [Option.map_some]
    have e1 : pre ++ (a ++ '<' :: '<' :: (m ++ rest)) = (pre ++ (a ++ ['<', '<'])) ++ (m ++ rest) := by simp
    have e2 : a.length + pre.length + 2 = (pre ++ (a ++ ['<', '<'])).length := by simp; omega
    rw [e1, e2, List.drop_left, List.take_left]
    have hih := ih n (pre ++ (a ++ ['<', '<'])) (files ++ [{ filename := m }]) (by simp at hn; omega)
    have hr : (pre ++ (a ++ ['<', '<']) ++ line, files ++ [{ filename := m }] ++ ns.map ofName) =
        (pre ++ (a ++ '<' :: '<' :: line), files ++ (m :: ns).map ofName) := by simp [ofName]
    obtain ⟨h1, h2⟩ := takeWhile_all (p := fun c => !isSpace c) (a := m) (b := rest) (fun c hc => by simp [hm c hc])
      (by
        intro c r e
        rcases he with rfl | ⟨c', r', rfl, hc⟩
        · cases e
        · injection e with e _; subst e; simp [hc])
    cases m with
    | nil => exact absurd rfl hne
    | cons c m =>
      have hc := hm c (by simp)
      have hc' : c ≠ '"' := by rintro rfl; exact hq rfl
      simp only [List.cons_append, hc, Bool.false_eq_true, if_false, if_neg hc'] at h1 h2 ⊢
      rw [h1, h2]
      exact hih.trans hr
  | @quoted a m rest line ns ha hm _ ih =>
    intro n pre files hn
    obtain ⟨n, rfl⟩ : ∃ k, n = k + 1 := ⟨n - 1, by omega⟩
    unfold inlineNames
    rw [indexFrom, angles_at ha]
    simp only [Option.map_some]
    have e1 : pre ++ (a ++ '<' :: '<' :: '"' :: (m ++ '"' :: rest)) = (pre ++ (a ++ ['<', '<'])) ++ '"' :: (m ++ '"' :: rest) := by simp
    have e2 : a.length + pre.length + 2 = (pre ++ (a ++ ['<', '<'])).length := by simp; omega
    rw [e1, e2, List.drop_left, List.take_left]
    have hih := ih n (pre ++ (a ++ ['<', '<'])) (files ++ [{ filename := m }]) (by simp at hn; omega)
    have hr : (pre ++ (a ++ ['<', '<']) ++ line, files ++ [{ filename := m }] ++ ns.map ofName) =
        (pre ++ (a ++ '<' :: '<' :: line), files ++ (m :: ns).map ofName) := by simp [ofName]
    have hsp : isSpace '"' = false := by decide
    have ed : (m ++ '"' :: rest).drop (m.length + 1) = rest := by
      rw [show m ++ '"' :: rest = (m ++ ['"']) ++ rest by simp, List.drop_left' (by simp)]
    simp only [hsp, Bool.false_eq_true, if_false, if_true, indexOf?_char hm, List.take_left, ed]
    exact hih.trans hr
  | @missing a rest line ns ha hm _ ih =>
    intro n pre files hn
    obtain ⟨n, rfl⟩ : ∃ k, n = k + 1 := ⟨n - 1, by omega⟩
    unfold inlineNames
    rw [indexFrom, angles_at ha]
    simp only [Option.map_some]
    have e1 : pre ++ (a ++ '<' :: '<' :: '"' :: rest) = (pre ++ (a ++ ['<', '<'])) ++ '"' :: rest := by simp
    have e2 : a.length + pre.length + 2 = (pre ++ (a ++ ['<', '<'])).length := by simp; omega
    rw [e1, e2, List.drop_left]
    have hih := ih n (pre ++ (a ++ ['<', '<'])) (files ++ [ofName []]) (by simp at hn ⊢; omega)
    have hr : (pre ++ (a ++ ['<', '<']) ++ line, files ++ [ofName []] ++ ns.map ofName) =
        (pre ++ (a ++ '<' :: '<' :: line), files ++ ([] :: ns).map ofName) := by simp [ofName]
    have hsp : isSpace '"' = false := by decide
    simp only [hsp, Bool.false_eq_true, if_false, if_true, indexOf?_char_none hm]
    exact hih.trans hr

theorem endsWith_iff' (s p : Str) : endsWith s p = true ↔ ∃ a, s = a ++ p := by
  rw [endsWith, List.isSuffixOf_iff_suffix]
  constructor
  · rintro ⟨a, h⟩; exact ⟨a, h.symm⟩
  · rintro ⟨a, h⟩; exact ⟨a, h.symm⟩

theorem crlf_spec {s t : Str} (h : CrLf s t) : withCrLf s = t := by
  unfold withCrLf
  cases h with
  | @both a => rw [if_pos ((endsWith_iff' _ _).2 ⟨a, rfl⟩)]
  | @lf a ha =>
    rw [if_neg, if_pos ((endsWith_iff' _ _).2 ⟨a, rfl⟩), List.dropLast_concat]
    intro hx
    obtain ⟨b, hb⟩ := (endsWith_iff' _ _).1 hx
    have hb' : a ++ ['\n'] = (b ++ ['\r']) ++ ['\n'] := by rw [hb]; simp
    exact ha ⟨b, (snoc_inj' hb').1⟩
  | @none a ha =>
    have hn : endsWith s ['\n'] = false := by
      rw [Bool.eq_false_iff]
      intro hx
      obtain ⟨b, hb⟩ := (endsWith_iff' _ _).1 hx
      exact ha ⟨b, hb⟩
    rw [if_neg, if_neg (by rw [hn]; decide)]
    intro hx
    obtain ⟨b, hb⟩ := (endsWith_iff' _ _).1 hx
    exact ha ⟨b ++ ['\r'], by rw [hb]; simp⟩

theorem crlf_exists (s : Str) : CrLf s (withCrLf s) := by
  by_cases h1 : ∃ a, s = a ++ ['\n']
  · obtain ⟨a, rfl⟩ := h1
    by_cases h2 : ∃ b, a = b ++ ['\r']
    · obtain ⟨b, rfl⟩ := h2
      have : CrLf (b ++ ['\r', '\n']) (b ++ ['\r', '\n']) := .both
      rw [show b ++ ['\r'] ++ ['\n'] = b ++ ['\r', '\n'] by simp, crlf_spec this]
      exact this
    · have : CrLf (a ++ ['\n']) (a ++ ['\r', '\n']) := .lf h2
      rw [crlf_spec this]; exact this
  · have : CrLf s (s ++ ['\r', '\n']) := .none h1
    rw [crlf_spec this]; exact this

/-! ### Modifiers, comments and wildcards -/

theorem limitAfter_eq (ms : List Modifier) (m : Nat) : Props.limitAfter m ms =
    match lastDash ms with
    | none => m
    | some [] => uintMax
    | some ds => toUInt ds := by
  induction ms generalizing m with
  | nil => rfl
  | cons x ms ih =>
    cases x with
    | dash ds =>
      simp only [Props.limitAfter, lastDash]
      rw [ih]
      cases lastDash ms with
      | none => cases ds <;> simp
      | some d => cases d <;> simp
    | silent => simp only [Props.limitAfter, lastDash, ih]
    | single => simp only [Props.limitAfter, lastDash, ih]

theorem modifiers_spec {ms : List Modifier} {e r : Str} (h : Modified ms e r) (fl : Flags) :
    evaluateModifiers { line := e, maxExitCode := if fl.ignore then uintMax else 0, silent := fl.silent } =
      { line := r, maxExitCode := limit fl ms, silent := fl.silent || hasSilent ms, singleExecution := hasSingle ms } := by
  have := Props.evalMod_correct h { line := e, maxExitCode := if fl.ignore then uintMax else 0, silent := fl.silent } (e.length + 1) (by omega)
  unfold evaluateModifiers
  rw [this, limitAfter_eq]
  unfold limit
  rcases lastDash ms with _ | _ | _ <;> simp

/-- The command with its `;`. -/
def tailOf : Option Str → Str
  | none => []
  | some b => ';' :: b

/-- The line without comment, the position of `;` and the rest. -/
theorem uncommented_spec {s line : Str} {cmd : Option Str} (h : Uncommented s line cmd) :
    removeCommentsAndFindCommandSeparator s = (line ++ tailOf cmd, cmd.map fun _ => line.length) := by
  unfold tailOf
  cases h with
  | neither h1 h2 => rw [Props.C13_neither s h1 h2]; simp
  | @comment a b h1 h2 h3 => rw [Props.C13_comment_first _ a b ⟨rfl, h1, h2, h3⟩]; simp
  | @command a b h1 h2 h3 => rw [Props.C13_separator_first _ line b ⟨rfl, h1, h2, h3⟩]; rfl

theorem wild_spec {glob : Str → List Str} {ds fs : List Str} (h : Wild glob ds fs) : expandWildcards glob ds = fs := by
  induction h with
  | nil => rfl
  | @name d ds fs h1 _ ih =>
    have : containsWildcard d = false := by
      rw [Bool.eq_false_iff]
      intro hx
      obtain ⟨x, c, y, e, hc, hn⟩ := (Props.C15_wildcard_exact d).1 hx
      exact hn (h1 x c y e hc)
    simp [expandWildcards, this, ih]
  | @files x c y ds fs hc hn _ ih =>
    have : containsWildcard (x ++ c :: y) = true := (Props.C15_wildcard_exact _).2 ⟨x, c, y, rfl, hc, hn⟩
    simp [expandWildcards, this, ih]

theorem uncommented_exists (s : Str) : ∃ line cmd, Uncommented s line cmd := by
  rcases Props.C13_cases s with ⟨h1, h2⟩ | ⟨a, b, rfl, h1, h2, h3⟩ | ⟨a, b, rfl, h1, h2, h3⟩
  · exact ⟨s, none, .neither h1 h2⟩
  · exact ⟨_, none, .comment h1 h2 h3⟩
  · exact ⟨a, some b, .command h1 h2 h3⟩

theorem wild_exists (glob : Str → List Str) (ds : List Str) : Wild glob ds (expandWildcards glob ds) := by
  induction ds with
  | nil => exact .nil
  | cons d ds ih =>
    unfold expandWildcards
    cases h : containsWildcard d with
    | false =>
      refine .name (fun x c y e hc => ?_) ih
      apply Classical.byContradiction
      intro hn
      rw [(Props.C15_wildcard_exact d).2 ⟨x, c, y, e, hc, hn⟩] at h
      cases h
    | true =>
      obtain ⟨x, c, y, rfl, hc, hn⟩ := (Props.C15_wildcard_exact d).1 h
      exact .files hc hn ih

theorem noAngles_of {s : Str} (h : '<' ∉ s) : NoAngles s := by
  rintro x y rfl
  exact h (by simp)

theorem first_angles {s : Str} (h : ¬ NoAngles s) : ∃ a rest, s = a ++ '<' :: '<' :: rest ∧ NoAngles (a ++ ['<']) := by
  induction s with
  | nil => exact absurd (noAngles_of (by simp)) h
  | cons c t ih =>
    by_cases hs : ∃ r, c :: t = '<' :: '<' :: r
    · obtain ⟨r, hr⟩ := hs
      refine ⟨[], r, hr, ?_⟩
      intro x y e
      have := congrArg List.length e
      simp at this
      omega
    · have ht : ¬ NoAngles t := by
        intro hn
        apply h
        intro x y e
        cases x with
        | nil => exact hs ⟨y, e⟩
        | cons d x => injection e with _ e; exact hn x y e
      obtain ⟨a, rest, rfl, ha⟩ := ih ht
      refine ⟨c :: a, rest, rfl, ?_⟩
      intro x y e
      cases x with
      | nil =>
        injection e with e1 e2
        subst e1
        cases a with
        | nil => exact hs ⟨_, rfl⟩
        | cons d a => injection e2 with e3 _; subst e3; exact hs ⟨_, rfl⟩
      | cons d x => injection e with _ e; exact ha x y e

theorem names_exist (text : Str) : ∃ line names, Named text line names := by
  have hex : ∀ n (s : Str), s.length ≤ n → ∃ line names, Named s line names := by
    intro n
    induction n with
    | zero =>
      intro s hs
      have : s = [] := List.length_eq_zero_iff.1 (by omega)
      subst this
      exact ⟨[], [], .done (noAngles_of (by simp))⟩
    | succ n ih =>
      intro s hs
      by_cases hno : NoAngles s
      · exact ⟨s, [], .done hno⟩
      · obtain ⟨a, rest, rfl, ha⟩ := first_angles hno
        have hlen : rest.length ≤ n := by simp at hs; omega
        cases rest with
        | nil =>
          obtain ⟨line, ns, h⟩ := ih [] (by simp)
          exact ⟨_, _, .anonymous ha (.inl rfl) h⟩
        | cons c r =>
          by_cases hc : isSpace c = true
          · obtain ⟨line, ns, h⟩ := ih (c :: r) hlen
            exact ⟨_, _, .anonymous ha (.inr ⟨c, r, rfl, hc⟩) h⟩
          · by_cases hq : c = '"'
            · subst hq
              by_cases hm : '"' ∈ r
              · obtain ⟨x, y, rfl, hx⟩ := List.eq_append_cons_of_mem hm
                obtain ⟨line, ns, h⟩ := ih y (by simp at hlen; omega)
                exact ⟨_, _, .quoted ha hx h⟩
              · obtain ⟨line, ns, h⟩ := ih ('"' :: r) hlen
                exact ⟨_, _, .missing ha hm h⟩
            · have hsplit := List.takeWhile_append_dropWhile (p := fun c => !isSpace c) (l := c :: r)
              obtain ⟨line, ns, h⟩ := ih ((c :: r).dropWhile fun c => !isSpace c) (by
                have := (List.dropWhile_suffix (fun c => !isSpace c) (l := c :: r)).length_le
                omega)
              refine ⟨a ++ '<' :: '<' :: line, (c :: r).takeWhile (fun c => !isSpace c) :: ns, ?_⟩
              have hsplit' : a ++ '<' :: '<' :: c :: r = a ++ '<' :: '<' :: ((c :: r).takeWhile (fun c => !isSpace c) ++ (c :: r).dropWhile (fun c => !isSpace c)) := by
                rw [hsplit]
              rw [hsplit']
              refine .plain ha ?_ ?_ ?_ ?_ h
              · simp [hc]
              · intro d hd
                have := List.all_takeWhile (p := fun c => !isSpace c) (l := c :: r)
                rw [List.all_eq_true] at this
                simpa using this d hd
              · simp [hc, hq]
              · cases hd : (c :: r).dropWhile fun c => !isSpace c with
                | nil => exact .inl rfl
                | cons d t =>
                  right
                  have := List.head?_dropWhile_not (p := fun c => !isSpace c) (c :: r)
                  rw [hd] at this
                  exact ⟨d, t, rfl, by simpa using this⟩
  exact hex text.length text (Nat.le_refl _)

end Jom.Parse
