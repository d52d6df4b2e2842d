import Verif.Props.Comments

/-! Properties C14 (target name lists), C15 (wildcards) and C16 (command modifiers). -/

namespace Jom.Spec

/-- Separators of target names. -/
def IsBlank (c : Char) : Prop := c = ' ' ∨ c = '\t'

/-- How a target name may be written: bare, or enclosed in double quotes. -/
inductive NameText : Str → Str → Prop
  | bare {a} : a ≠ [] → (∀ c ∈ a, isSpace c = false ∧ c ≠ '"') → NameText a a
  | quoted {a} : a ≠ [] → '"' ∉ a → NameText a ('"' :: (a ++ ['"']))

/-- A list of names separated by blanks. -/
inductive NameLine : List Str → Str → Prop
  | nil {b} : (∀ c ∈ b, IsBlank c) → NameLine [] b
  | cons {b a t as rest} : (∀ c ∈ b, IsBlank c) → NameText a t → NameLine as rest →
      (rest = [] ∨ ∃ c r, rest = c :: r ∧ IsBlank c) → NameLine (a :: as) (b ++ t ++ rest)

/-- Only blanks inside quotes. -/
def Chunk (t : Str) : Prop := ∀ x c y, t = x ++ c :: y → IsBlank c → InQuotes x

/-- White space. -/
def White (s : Str) : Prop := ∀ c ∈ s, isSpace c = true

/-- The name written as `t`: without white space around it and without the quotes that enclose it. -/
inductive Stripped : Str → Str → Prop
  | quoted {l a r} : White l → White r → Stripped (l ++ '"' :: (a ++ '"' :: r)) a
  | quote {l r} : White l → White r → Stripped (l ++ '"' :: r) []
  | bare {l a r} : White l → White r → (∀ c x, a = c :: x → isSpace c = false) → (∀ c x, a = x ++ [c] → isSpace c = false) →
      (∀ x, a ≠ '"' :: (x ++ ['"'])) → a ≠ ['"'] → Stripped (l ++ a ++ r) a

/-- The names in a line, whatever it looks like: blanks outside of quotes separate, nothing is no name. -/
inductive NameList : List Str → Str → Prop
  | nil {b} : (∀ c ∈ b, IsBlank c) → NameList [] b
  | cons {b t a as as' rest} : (∀ c ∈ b, IsBlank c) → t ≠ [] → Chunk t → Stripped t a →
      (rest = [] ∨ ¬ InQuotes t ∧ ∃ c r, rest = c :: r ∧ IsBlank c) → NameList as rest →
      (as' = if a = [] then as else a :: as) → NameList as' (b ++ t ++ rest)

end Jom.Spec

namespace Jom.Props
open Jom Jom.Spec

/-- `splitTargetNames` as a machine collecting the current entry. -/
def nameMachine : Str → Str → Bool → List Str → List Str
  | [], cur, _, lst => if cur = [] then lst else splitAppendHelper lst cur
  | ch :: s, cur, inq, lst =>
    if ch == '"' then nameMachine s (cur ++ [ch]) (!inq) lst
    else if !inq && (ch == ' ' || ch == '\t') then
      if cur = [] then nameMachine s [ch] inq lst else nameMachine s [] inq (splitAppendHelper lst cur)
    else nameMachine s (cur ++ [ch]) inq lst

/-- The end of `splitTargetNames`. -/
def namesFinish (str : Str) (r : Nat × List Str) : List Str :=
  if r.1 < str.length then splitAppendHelper r.2 (str.drop r.1) else r.2

theorem splitTargetNamesGo_machine (str rest pre cur : Str) (inq : Bool) (to : Nat) (lst : List Str)
    (hs : str = pre ++ cur ++ rest) (hto : to ≤ pre.length) :
    namesFinish str (splitTargetNamesGo str rest (pre ++ cur).length inq pre.length to lst) =
      nameMachine rest cur inq lst := by
  have hto' : ¬ pre.length < to := by omega
  induction rest generalizing pre cur inq to lst with
  | nil =>
    simp only [splitTargetNamesGo, nameMachine, namesFinish]
    subst hs
    simp only [List.append_nil, List.length_append, List.drop_left']
    by_cases hc : cur = []
    · subst hc; simp
    · have : 0 < cur.length := List.length_pos_iff.2 hc
      rw [if_pos (by omega), if_neg hc]
  | cons ch rest ih =>
    have hlen : (pre ++ cur).length + 1 = (pre ++ (cur ++ [ch])).length := by simp; omega
    have hs' : str = pre ++ (cur ++ [ch]) ++ rest := by rw [hs]; simp
    simp only [splitTargetNamesGo, nameMachine]
    by_cases hq : ch = '"'
    · subst hq
      simp only [beq_self_eq_true, if_true, if_neg hto', hlen]
      exact ih pre _ _ to lst hs' hto hto'
    · have hq' : (ch == '"') = false := by simpa using hq
      simp only [hq', Bool.false_eq_true, if_false]
      by_cases hb : (!inq && (ch == ' ' || ch == '\t')) = true
      · simp only [hb, if_true]
        by_cases hc : cur = []
        · subst hc
          simp only [List.append_nil, Nat.lt_irrefl, if_false, if_true]
          have := ih pre [ch] inq pre.length lst (by rw [hs]; simp) (Nat.le_refl _) (Nat.lt_irrefl _)
          simpa using this
        · have : 0 < cur.length := List.length_pos_iff.2 hc
          have h1 : pre.length < (pre ++ cur).length := by simp; omega
          rw [if_pos h1, if_neg hc]
          have e : (str.drop pre.length).take ((pre ++ cur).length - pre.length) = cur := by
            rw [hs]; simp
          rw [e]
          have := ih (pre ++ cur ++ [ch]) [] inq (pre ++ cur ++ [ch]).length (splitAppendHelper lst cur)
            (by rw [hs]; simp) (Nat.le_refl _) (Nat.lt_irrefl _)
          simpa [Nat.add_assoc] using this
      · simp only [hb, Bool.false_eq_true, if_false, if_neg hto', hlen]
        exact ih pre _ _ to lst hs' hto hto'

theorem splitTargetNames_machine (s : Str) : splitTargetNames s = nameMachine s [] false [] :=
  splitTargetNamesGo_machine s s [] [] false 0 [] rfl (Nat.le_refl _)

theorem isBlank_space {c : Char} (h : IsBlank c) : isSpace c = true := by
  rcases h with rfl | rfl <;> decide

theorem splitAppendHelper_blanks {b : Str} (hb : ∀ c ∈ b, IsBlank c) (lst : List Str) :
    splitAppendHelper lst b = lst := by
  unfold splitAppendHelper
  rw [trimmed_blanks (fun c hc => isBlank_space (hb c hc))]
  rfl

theorem machine_blanks (b s cur : Str) (lst : List Str) (hb : ∀ c ∈ b, IsBlank c) (hc : ∀ c ∈ cur, IsBlank c) :
    ∃ cur', (∀ c ∈ cur', IsBlank c) ∧ nameMachine (b ++ s) cur false lst = nameMachine s cur' false lst := by
  induction b generalizing cur with
  | nil => exact ⟨cur, hc, rfl⟩
  | cons d b ih =>
    have hd := hb d (by simp)
    have h1 : (d == '"') = false := by rcases hd with rfl | rfl <;> decide
    have h2 : (d == ' ' || d == '\t') = true := by rcases hd with rfl | rfl <;> decide
    simp only [List.cons_append, nameMachine, h1, h2, Bool.not_false, Bool.and_true, if_true, Bool.false_eq_true,
      if_false]
    by_cases hn : cur = []
    · rw [if_pos hn]
      exact ih [d] (fun c h => hb c (by simp [h])) (by intro c h; simp at h; rw [h]; exact hd)
    · rw [if_neg hn, splitAppendHelper_blanks hc]
      exact ih [] (fun c h => hb c (by simp [h])) (by simp)

theorem machine_plain (a s cur : Str) (lst : List Str) (ha : ∀ c ∈ a, isSpace c = false ∧ c ≠ '"') :
    nameMachine (a ++ s) cur false lst = nameMachine s (cur ++ a) false lst := by
  induction a generalizing cur with
  | nil => simp
  | cons c a ih =>
    obtain ⟨h1, h2⟩ := ha c (by simp)
    have h3 : (c == '"') = false := by simpa using h2
    have h4 : (c == ' ' || c == '\t') = false := by
      simp only [Bool.or_eq_false_iff, beq_eq_false_iff_ne, ne_eq]
      constructor <;> (rintro rfl; exact absurd h1 (by decide))
    simp only [List.cons_append, nameMachine, h3, h4, Bool.and_false, Bool.false_eq_true, if_false]
    rw [ih _ (fun d hd => ha d (by simp [hd]))]; simp

theorem machine_inside (a s cur : Str) (lst : List Str) (ha : '"' ∉ a) :
    nameMachine (a ++ s) cur true lst = nameMachine s (cur ++ a) true lst := by
  induction a generalizing cur with
  | nil => simp
  | cons c a ih =>
    simp only [List.mem_cons, not_or] at ha
    have h3 : (c == '"') = false := by simpa using Ne.symm ha.1
    simp only [List.cons_append, nameMachine, h3, Bool.not_true, Bool.false_and, Bool.false_eq_true, if_false]
    rw [ih _ ha.2]; simp

theorem helper_name {a t b : Str} (h : NameText a t) (hb : ∀ c ∈ b, IsBlank c) (lst : List Str) :
    splitAppendHelper lst (b ++ t) = lst ++ [a] := by
  unfold splitAppendHelper
  rw [trimmed_blanks_left (fun c hc => isBlank_space (hb c hc))]
  cases h with
  | bare hne ha =>
    have ht : trimmed a = a := trimmed_tight
      ⟨fun c r e => (ha c (by simp [e])).1, fun c r e => (ha c (by simp [e])).1⟩
    have hr : removeDoubleQuotes a = a := by
      unfold removeDoubleQuotes
      rw [if_neg]
      cases a with
      | nil => exact absurd rfl hne
      | cons c a =>
        have := (ha c (by simp)).2
        have h2 : ('"' == c) = false := by simpa using Ne.symm this
        simp only [startsWith, List.isPrefixOf, h2, Bool.false_and, Bool.false_eq_true, not_false_eq_true]
    rw [ht, hr]
    simp [hne]
  | quoted hne ha =>
    have ht : trimmed ('"' :: (a ++ ['"'])) = '"' :: (a ++ ['"']) := by
      apply trimmed_tight
      constructor
      · intro c r e; simp at e; rw [← e.1]; decide
      · intro c r e
        rw [← List.cons_append] at e
        have := List.append_inj_right' e rfl
        simp only [List.cons.injEq, and_true] at this
        rw [← this]; decide
    have hr : removeDoubleQuotes ('"' :: (a ++ ['"'])) = a := by
      unfold removeDoubleQuotes
      have h1 : startsWith ('"' :: (a ++ ['"'])) ['"'] = true := by simp [startsWith]
      have h2 : endsWith ('"' :: (a ++ ['"'])) ['"'] = true := by
        rw [endsWith, List.isSuffixOf_iff_suffix]
        exact ⟨'"' :: a, by simp⟩
      rw [h1, h2]
      simp [List.dropLast]
    rw [ht, hr]
    simp [hne]

theorem machine_name {a t cur : Str} (h : NameText a t) (s : Str) (lst : List Str) :
    nameMachine (t ++ s) cur false lst = nameMachine s (cur ++ t) false lst := by
  cases h with
  | bare hne ha => exact machine_plain _ _ _ _ ha
  | quoted hne ha =>
    simp only [List.cons_append, nameMachine, beq_self_eq_true, if_true, Bool.not_false]
    rw [List.append_assoc, machine_inside _ _ _ _ ha]
    simp only [List.cons_append, List.nil_append, nameMachine, beq_self_eq_true, if_true, Bool.not_true]
    simp

/-- C14: splitting a list of (bare or quoted) names with arbitrary blanks between them returns exactly
these names, in order. -/
theorem C14_split_names (as : List Str) (line : Str) (h : NameLine as line) : splitTargetNames line = as := by
  have key : ∀ (as : List Str) (line : Str), NameLine as line → ∀ cur lst, (∀ c ∈ cur, IsBlank c) →
      nameMachine line cur false lst = lst ++ as := by
    intro as line h
    induction h with
    | @nil b hb =>
      intro cur lst hcur
      obtain ⟨cur', hc', h1⟩ := machine_blanks b [] cur lst hb hcur
      rw [List.append_nil] at h1
      rw [h1]
      simp only [nameMachine, List.append_nil]
      split
      · rfl
      · exact splitAppendHelper_blanks hc' lst
    | @cons b a t as rest hb ha hrest hsep ih =>
      intro cur lst hcur
      obtain ⟨cur', hc', h1⟩ := machine_blanks b (t ++ rest) cur lst hb hcur
      rw [List.append_assoc, h1, machine_name ha]
      have hne : cur' ++ t ≠ [] := by cases ha <;> simp_all
      rcases hsep with rfl | ⟨c, r, rfl, hc⟩
      · have h0 := ih [] lst (by simp)
        simp only [nameMachine, if_true] at h0
        have has : as = [] := by simpa using h0
        simp only [nameMachine, if_neg hne, helper_name ha hc', has]
      · have h3 : (c == '"') = false := by rcases hc with rfl | rfl <;> decide
        have h2 : (c == ' ' || c == '\t') = true := by rcases hc with rfl | rfl <;> decide
        have hcb : ∀ x ∈ [c], IsBlank x := by intro x hx; simp at hx; rw [hx]; exact hc
        have h0 := ih [c] (lst ++ [a]) hcb
        simp only [nameMachine, h3, h2, Bool.not_false, Bool.and_true, if_true, Bool.false_eq_true, if_false,
          if_neg hne, helper_name ha hc'] at h0 ⊢
        rw [if_neg (by simp), splitAppendHelper_blanks hcb] at h0
        rw [h0]; simp
  rw [splitTargetNames_machine]
  simpa using key as line h [] [] (by simp)

/-- Non-trivial instance. -/
example : NameLine [c!"a.obj", c!"my file"] c!" a.obj\t \"my file\" " ∧
    splitTargetNames c!" a.obj\t \"my file\" " = [c!"a.obj", c!"my file"] := by
  have hsp : ∀ c ∈ [' '], IsBlank c := by intro c hc; simp at hc; exact Or.inl hc
  refine ⟨?_, by decide +kernel⟩
  refine NameLine.cons (b := [' ']) (t := c!"a.obj") (rest := c!"\t \"my file\" ") hsp
    (.bare (by decide) (by decide)) ?_ (Or.inr ⟨'\t', _, rfl, Or.inr rfl⟩)
  refine NameLine.cons (b := c!"\t ") (t := c!"\"my file\"") (rest := [' ']) ?_ (.quoted (by decide) (by decide))
    (.nil hsp) (Or.inr ⟨' ', [], rfl, Or.inl rfl⟩)
  intro c hc
  simp at hc
  rcases hc with rfl | rfl
  · exact Or.inr rfl
  · exact Or.inl rfl

theorem quote_cons (c : Char) (t : Str) : InQuotes (c :: t) ↔ if c = '"' then ¬ InQuotes t else InQuotes t := by
  unfold InQuotes
  by_cases h : c = '"'
  · subst h; simp; omega
  · simp [h]

theorem machine_chunk (t s cur : Str) (lst : List Str) (q : Bool)
    (ht : ∀ x c y, t = x ++ c :: y → IsBlank c → (q = true ↔ ¬ InQuotes x)) :
    nameMachine (t ++ s) cur q lst = nameMachine s (cur ++ t) (q ^^ decide (InQuotes t)) lst := by
  induction t generalizing cur q with
  | nil => simp [InQuotes]
  | cons c t ih =>
    have hrec : ∀ q', (q' = if c = '"' then !q else q) → ∀ x d y, t = x ++ d :: y → IsBlank d → (q' = true ↔ ¬ InQuotes x) := by
      intro q' hq x d y e hd
      have := ht (c :: x) d y (by rw [e]; rfl) hd
      rw [quote_cons] at this
      subst hq
      split at this
      next h => simp only [h, if_true]; cases q <;> simp_all
      next h => simp only [h, if_false]; exact this
    have hx : (q ^^ decide (InQuotes (c :: t))) = ((if c = '"' then !q else q) ^^ decide (InQuotes t)) := by
      have := quote_cons c t
      by_cases h : c = '"'
      · simp only [h, if_true] at this ⊢
        by_cases h2 : InQuotes t <;> cases q <;> simp_all
      · simp only [h, if_false] at this ⊢
        simp only [this]
    rw [hx]
    by_cases hq : c = '"'
    · subst hq
      simp only [List.cons_append, nameMachine, beq_self_eq_true, if_true]
      rw [ih _ _ (hrec _ (by simp))]
      simp
    · have hq' : (c == '"') = false := by simpa using hq
      have hb : (!q && (c == ' ' || c == '\t')) = false := by
        rw [Bool.eq_false_iff]
        intro h
        simp only [Bool.and_eq_true, Bool.not_eq_true', Bool.or_eq_true, beq_iff_eq] at h
        have := (ht [] c t rfl h.2).2 (by simp [InQuotes])
        rw [h.1] at this; cases this
      simp only [List.cons_append, nameMachine, hq', hb, Bool.false_eq_true, if_false]
      rw [ih _ _ (hrec q (by simp [hq]))]
      simp [hq]

theorem trimmed_around {l a r : Str} (hl : White l) (hr : White r) (h1 : ∀ c x, a = c :: x → isSpace c = false)
    (h2 : ∀ c x, a = x ++ [c] → isSpace c = false) : trimmed (l ++ a ++ r) = a := by
  rw [List.append_assoc, trimmed_blanks_left hl]
  cases a with
  | nil => rw [List.nil_append]; exact trimmed_blanks hr
  | cons c x =>
    have hc := h1 c x rfl
    have h3 : trimLeft (c :: x ++ r) = c :: x ++ r := by simp [trimLeft, hc]
    rw [trimmed, h3]
    have h4 : trimRight (c :: x) = c :: x := trimRight_tight ⟨h1, h2⟩
    unfold trimRight at h4 ⊢
    rw [List.reverse_append, dropWhile_blanks (b := r.reverse) (fun c hc => hr c (by simpa using hc)), h4]

theorem quote_tight {a : Str} (h : ∃ x, a = '"' :: (x ++ ['"'])) : (∀ c x, a = c :: x → isSpace c = false) ∧ (∀ c x, a = x ++ [c] → isSpace c = false) := by
  obtain ⟨y, rfl⟩ := h
  have hq : isSpace '"' = false := by decide
  constructor
  · intro c r e; simp at e; rw [← e.1]; exact hq
  · intro c r e
    rw [← List.cons_append] at e
    have := List.append_inj_right' e rfl
    simp only [List.cons.injEq, and_true] at this
    rw [← this]; exact hq

theorem helper_stripped {t a b : Str} (h : Stripped t a) (hb : ∀ c ∈ b, IsBlank c) (lst : List Str) :
    splitAppendHelper lst (b ++ t) = if a = [] then lst else lst ++ [a] := by
  have hq : isSpace '"' = false := by decide
  unfold splitAppendHelper
  rw [trimmed_blanks_left (fun c hc => isBlank_space (hb c hc))]
  cases h with
  | @quoted l a r hl hr =>
    have ht : trimmed (l ++ '"' :: (a ++ '"' :: r)) = '"' :: (a ++ ['"']) := by
      rw [show l ++ '"' :: (a ++ '"' :: r) = l ++ '"' :: (a ++ ['"']) ++ r by simp]
      exact trimmed_around hl hr (quote_tight ⟨a, rfl⟩).1 (quote_tight ⟨a, rfl⟩).2
    have hr' : removeDoubleQuotes ('"' :: (a ++ ['"'])) = a := by
      unfold removeDoubleQuotes
      have h1 : startsWith ('"' :: (a ++ ['"'])) ['"'] = true := by simp [startsWith]
      have h2 : endsWith ('"' :: (a ++ ['"'])) ['"'] = true := by
        rw [endsWith, List.isSuffixOf_iff_suffix]
        exact ⟨'"' :: a, by simp⟩
      rw [h1, h2]
      simp [List.dropLast]
    rw [ht, hr']
    cases a <;> simp
  | @quote l r hl hr =>
    have ht : trimmed (l ++ '"' :: r) = ['"'] := by
      rw [show l ++ '"' :: r = l ++ ['"'] ++ r by simp]
      refine trimmed_around hl hr (by intro c x e; simp at e; rw [← e.1]; exact hq) (fun c x e => ?_)
      rw [← (show '"' = c by cases x <;> simp at e; exact e)]
      exact hq
    rw [ht]
    have : removeDoubleQuotes ['"'] = [] := by decide
    rw [this]
    simp
  | @bare l _ r hl hr h1 h2 h3 h4 =>
    have ht : trimmed (l ++ a ++ r) = a := trimmed_around hl hr h1 h2
    have hr' : removeDoubleQuotes a = a := by
      unfold removeDoubleQuotes
      rw [if_neg]
      rintro h
      simp only [Bool.and_eq_true] at h
      obtain ⟨h5, h6⟩ := h
      cases a with
      | nil => simp [startsWith] at h5
      | cons c a =>
        simp [startsWith, List.isPrefixOf] at h5
        subst h5
        rw [endsWith, List.isSuffixOf_iff_suffix] at h6
        obtain ⟨x, hx⟩ := h6
        cases x with
        | nil => exact h4 hx.symm
        | cons d x =>
          simp at hx
          exact h3 x (by rw [← hx.2])
    rw [ht, hr']
    cases a <;> simp

/-- The list is split like this. -/
theorem list_spec {as : List Str} {line : Str} (h : NameList as line) : splitTargetNames line = as := by
  have key : ∀ (as : List Str) (line : Str), NameList as line → ∀ cur lst, (∀ c ∈ cur, IsBlank c) →
      nameMachine line cur false lst = lst ++ as := by
    intro as line h
    induction h with
    | @nil b hb =>
      intro cur lst hcur
      obtain ⟨cur', hc', h1⟩ := machine_blanks b [] cur lst hb hcur
      rw [List.append_nil] at h1
      rw [h1]
      simp only [nameMachine, List.append_nil]
      split
      · rfl
      · exact splitAppendHelper_blanks hc' lst
    | @cons b t a as as' rest hb hne hch hst hsep hrest has ih =>
      intro cur lst hcur
      obtain ⟨cur', hc', h1⟩ := machine_blanks b (t ++ rest) cur lst hb hcur
      rw [List.append_assoc, h1, machine_chunk t rest cur' lst false (fun x c y e hc => by simp [hch x c y e hc])]
      have hne : cur' ++ t ≠ [] := by simp [hne]
      subst has
      rcases hsep with rfl | ⟨hq, c, r, rfl, hc⟩
      · have h0 := ih [] lst (by simp)
        simp only [nameMachine, if_true] at h0
        have has : as = [] := by simpa using h0
        simp only [nameMachine, if_neg hne, helper_stripped hst hc', has]
        split <;> simp
      · have h3 : (c == '"') = false := by rcases hc with rfl | rfl <;> decide
        have h2 : (c == ' ' || c == '\t') = true := by rcases hc with rfl | rfl <;> decide
        have hcb : ∀ x ∈ [c], IsBlank x := by intro x hx; simp at hx; rw [hx]; exact hc
        have h0 := ih [c] (if a = [] then lst else lst ++ [a]) hcb
        simp only [hq, decide_false, Bool.xor_false]
        simp only [nameMachine, h3, h2, Bool.not_false, Bool.and_true, if_true, Bool.false_eq_true, if_false,
          if_neg hne, helper_stripped hst hc'] at h0 ⊢
        rw [if_neg (by simp), splitAppendHelper_blanks hcb] at h0
        rw [h0]
        split <;> simp
  rw [splitTargetNames_machine]
  simpa using key as line h [] [] (by simp)

theorem stripped_exists (t : Str) : ∃ a, Stripped t a := by
  obtain ⟨l, r, e, hl, hr⟩ := trimmed_split t
  have htt : Tight (trimmed t) := tight_trimmed t
  by_cases h1 : ∃ x, trimmed t = '"' :: (x ++ ['"'])
  · obtain ⟨x, hx⟩ := h1
    rw [hx] at e
    refine ⟨x, ?_⟩
    rw [show t = l ++ '"' :: (x ++ '"' :: r) by simpa using e]
    exact .quoted hl hr
  · by_cases h2 : trimmed t = ['"']
    · rw [h2] at e
      refine ⟨[], ?_⟩
      rw [show t = l ++ '"' :: r by simpa using e]
      exact .quote hl hr
    · refine ⟨trimmed t, ?_⟩
      generalize trimmed t = u at *
      subst e
      exact .bare hl hr htt.1 htt.2 (fun x hx => h1 ⟨x, hx⟩) h2

/-- The text up to the first blank outside of quotes; `q`: quotes are open. -/
theorem chunk_split (s : Str) : Chunk s ∨ ∃ t c r, s = t ++ c :: r ∧ IsBlank c ∧ ¬ InQuotes t ∧ Chunk t := by
  induction s using snoc_induction with
  | h0 => exact .inl (by intro x c y e; simp at e)
  | h1 s d ih =>
    rcases ih with h | ⟨t, c, r, rfl, h1, h2, h3⟩
    · by_cases hd : IsBlank d ∧ ¬ InQuotes s
      · exact .inr ⟨s, d, [], rfl, hd.1, hd.2, h⟩
      · left
        intro x c y e hc
        rcases List.eq_nil_or_concat y with rfl | ⟨y', z, rfl⟩
        · obtain ⟨rfl, e2⟩ := List.append_inj' e rfl
          injection e2 with e2 _
          subst e2
          exact Classical.byContradiction fun hn => hd ⟨hc, hn⟩
        · rw [List.concat_eq_append, ← List.cons_append, ← List.append_assoc] at e
          exact h x c y' (List.append_inj_left' e rfl) hc
    · exact .inr ⟨t, c, r ++ [d], by simp, h1, h2, h3⟩

theorem list_exists (line : Str) : ∃ as, NameList as line := by
  have : ∀ n (line : Str), line.length ≤ n → ∃ as, NameList as line := by
    intro n
    induction n with
    | zero =>
      intro line hl
      have := List.length_eq_zero_iff.1 (Nat.le_zero.1 hl)
      subst this
      exact ⟨[], .nil (by simp)⟩
    | succ n ih =>
      intro line hl
      cases line with
      | nil => exact ⟨[], .nil (by simp)⟩
      | cons d s =>
        by_cases hd : IsBlank d
        · obtain ⟨as, h⟩ := ih s (by simp at hl; omega)
          refine ⟨as, ?_⟩
          cases h with
          | nil hb => exact .nil (by intro c hc; rcases List.mem_cons.1 hc with rfl | hc; exact hd; exact hb c hc)
          | @cons b t a as as' rest hb h1 h2 h3 h4 h5 h6 =>
            exact .cons (b := d :: b) (by intro c hc; rcases List.mem_cons.1 hc with rfl | hc; exact hd; exact hb c hc) h1 h2 h3 h4 h5 h6
        · rcases chunk_split (d :: s) with h | ⟨t, c, r, e, h1, h2, h3⟩
          · obtain ⟨a, ha⟩ := stripped_exists (d :: s)
            have := NameList.cons (b := []) (rest := []) (by simp) (by simp) h ha (.inl rfl) (.nil (by simp)) rfl
            exact ⟨_, by simpa using this⟩
          · obtain ⟨a, ha⟩ := stripped_exists t
            have ht : t ≠ [] := by
              rintro rfl
              simp at e
              exact hd (e.1 ▸ h1)
            obtain ⟨as, h⟩ := ih (c :: r) (by
              have := congrArg List.length e
              have := List.length_pos_iff.2 ht
              simp at *
              omega)
            have := NameList.cons (b := []) (by simp) ht h3 ha (.inr ⟨h2, c, r, rfl, h1⟩) h rfl
            exact ⟨_, by rw [e]; simpa using this⟩
  exact this line.length line (Nat.le_refl _)

/-- C14 for every line: unbalanced quotes, quotes inside names and white space other than blanks included. -/
theorem C14_every_line (as : List Str) (line : Str) : splitTargetNames line = as ↔ NameList as line := by
  refine ⟨fun h => ?_, list_spec⟩
  obtain ⟨as', h'⟩ := list_exists line
  rw [← h, list_spec h']
  exact h'

example : NameList [c!"a\"b c\"d", c!"\"e f"] c!"a\"b c\"d \"\" \"e f" := (C14_every_line _ _).1 (by decide +kernel)

/-! ### C15 -/

/-- The wildcard at the end of `a ++ [c]` belongs to a file-name macro (`$*`, `$?`, `$(*`, `$(?`; the `$` is
the magic escape character at this stage). -/
def InFileNameMacro (a : Str) : Prop := EndsIn a magicEscape ∨ ∃ r, a = r ++ [magicEscape, '(']

theorem wc_go (st : WcState) (a b : Str)
    (h0 : st = .afterDollar ↔ EndsIn a magicEscape)
    (h1 : st = .afterDollarParen ↔ ∃ r, a = r ++ [magicEscape, '(']) :
    containsWildcardGo st b = true ↔
      ∃ x c y, b = x ++ c :: y ∧ (c = '*' ∨ c = '?') ∧ ¬ InFileNameMacro (a ++ x) := by
  have hm : magicEscape ≠ '(' ∧ magicEscape ≠ '*' ∧ magicEscape ≠ '?' := by decide
  have snoc_magic : ∀ (r : Str) (d : Char), EndsIn (r ++ [d]) magicEscape ↔ d = magicEscape := by
    intro r d
    constructor
    · rintro ⟨r', h⟩; have := List.append_inj_right' h rfl; simpa using this
    · rintro rfl; exact ⟨r, rfl⟩
  have snoc_paren : ∀ (r : Str) (d : Char), (∃ r', r ++ [d] = r' ++ [magicEscape, '(']) ↔
      d = '(' ∧ EndsIn r magicEscape := by
    intro r d
    constructor
    · rintro ⟨r', h⟩
      rw [show r' ++ [magicEscape, '('] = (r' ++ [magicEscape]) ++ ['('] by simp] at h
      have e1 := List.append_inj_right' h rfl
      have e2 := List.append_inj_left' h rfl
      exact ⟨by simpa using e1, r', e2⟩
    · rintro ⟨rfl, r', rfl⟩; exact ⟨r', by simp⟩
  induction b generalizing st a with
  | nil => simp [containsWildcardGo]
  | cons d b ih =>
    have step : ∀ st', (st' = .afterDollar ↔ d = magicEscape) →
        (st' = .afterDollarParen ↔ d = '(' ∧ EndsIn a magicEscape) →
        ¬ ((d = '*' ∨ d = '?') ∧ ¬ InFileNameMacro a) →
        (containsWildcardGo st' b = true ↔
          ∃ x c y, d :: b = x ++ c :: y ∧ (c = '*' ∨ c = '?') ∧ ¬ InFileNameMacro (a ++ x)) := by
      intro st' e0 e1 hd
      refine Iff.trans (ih st' (a ++ [d]) (by rw [e0, snoc_magic]) (by rw [e1, snoc_paren])) ?_
      constructor
      · rintro ⟨x, c, y, rfl, hc, hx⟩
        exact ⟨d :: x, c, y, rfl, hc, by simpa using hx⟩
      · rintro ⟨x, c, y, e, hc, hx⟩
        cases x with
        | nil =>
          simp only [List.nil_append, List.cons.injEq] at e
          obtain ⟨rfl, rfl⟩ := e
          exact absurd ⟨hc, by simpa using hx⟩ hd
        | cons d' x =>
          simp only [List.cons_append, List.cons.injEq] at e
          obtain ⟨rfl, rfl⟩ := e
          exact ⟨x, c, y, rfl, hc, by simpa using hx⟩
    unfold containsWildcardGo
    by_cases hd : d = magicEscape
    · subst hd
      simp only [beq_self_eq_true, if_true]
      apply step
      · simp
      · simp [hm.1]
      · rintro ⟨h | h, _⟩
        · exact hm.2.1 h
        · exact hm.2.2 h
    · have hd' : (d == magicEscape) = false := by simpa using hd
      simp only [hd', Bool.false_eq_true, if_false]
      cases st with
      | afterDollar =>
        have ha : EndsIn a magicEscape := h0.1 rfl
        apply step
        · split <;> simp [hd]
        · by_cases hp : d = '(' <;> simp [hp, ha]
        · rintro ⟨_, h⟩; exact h (Or.inl ha)
      | afterDollarParen =>
        have ha := h1.1 rfl
        have hna : ¬ EndsIn a magicEscape := fun h => by have := h0.2 h; cases this
        apply step
        · simp [hd]
        · simp [hna]
        · rintro ⟨_, h⟩; exact h (Or.inr ha)
      | initial =>
        have hna : ¬ EndsIn a magicEscape := fun h => by have := h0.2 h; cases this
        have hnp : ¬ ∃ r, a = r ++ [magicEscape, '('] := fun h => by have := h1.2 h; cases this
        by_cases hw : d = '*' ∨ d = '?'
        · have : (d == '*' || d == '?') = true := by simpa using hw
          simp only [this, if_true, true_iff]
          refine ⟨[], d, b, rfl, hw, ?_⟩
          rw [List.append_nil]
          rintro (h | h)
          · exact hna h
          · exact hnp h
        · have : (d == '*' || d == '?') = false := by
            simpa using hw
          simp only [this, Bool.false_eq_true, if_false]
          apply step
          · simp [hd]
          · simp [hna]
          · rintro ⟨h, _⟩; exact hw h

/-- C15: a name is a wildcard exactly if it contains a `*` or `?` that is not part of a file-name macro. -/
theorem C15_wildcard_exact (s : Str) : containsWildcard s = true ↔
    ∃ x c y, s = x ++ c :: y ∧ (c = '*' ∨ c = '?') ∧ ¬ InFileNameMacro x := by
  have h := wc_go .initial [] s (by simp [EndsIn]) (by simp)
  simpa [containsWildcard] using h

/-- C15: names that are not wildcards are passed through unchanged and in place; wildcards are replaced
by what the directory search finds. -/
theorem C15_expansion_in_place (glob : Str → List Str) (pre post : List Str) (s : Str) :
    expandWildcards glob (pre ++ s :: post) =
      expandWildcards glob pre ++ (if containsWildcard s then glob s else [s]) ++ expandWildcards glob post := by
  induction pre with
  | nil => rfl
  | cons p pre ih => simp [expandWildcards, ih]

/-- C15: a list without wildcards is unchanged. -/
theorem C15_no_wildcards (glob : Str → List Str) (l : List Str) (h : ∀ s ∈ l, containsWildcard s = false) :
    expandWildcards glob l = l := by
  induction l with
  | nil => rfl
  | cons s l ih =>
    simp [expandWildcards, h s (by simp), ih (fun t ht => h t (by simp [ht]))]

example : containsWildcard c!"src/*.cpp" = true ∧ containsWildcard [magicEscape, '*', 'x'] = false ∧
    containsWildcard [magicEscape, '(', '?', 'D', ')'] = false ∧ containsWildcard [magicEscape, '*', '*'] = true := by
  decide +kernel

/-! ### C16 -/

end Jom.Props

namespace Jom.Spec

/-- Command modifiers. -/
inductive Modifier where
  | dash (limit : Str)
  | silent
  | single

/-- `Modified ms line r`: the command line `line` consists of the modifiers `ms` and the command `r`. -/
inductive Modified : List Modifier → Str → Str → Prop
  | done {r} : (∀ c s, r = c :: s → c ≠ '-' ∧ c ≠ '@' ∧ c ≠ '!') → Modified [] r r
  | silent {ms t r} : Modified ms t r → Modified (.silent :: ms) ('@' :: t) r
  | single {ms t r} : Modified ms t r → Modified (.single :: ms) ('!' :: t) r
  | dash {ms ds t r} : (∀ c ∈ ds, isDigit c = true) → (∀ c s, t = c :: s → isDigit c = false) →
      Modified ms t r → Modified (.dash ds :: ms) ('-' :: (ds ++ t)) r

/-- Does the exit code (as an unsigned number) count as failure?  The last `-` decides. -/
def failsFrom : Option Str → List Modifier → Nat → Bool
  | none, [], code => code != 0
  | some [], [], _ => false
  | some ds, [], code => decide (toUInt ds < code)
  | _, .dash ds :: ms, code => failsFrom (some ds) ms code
  | cur, _ :: ms, code => failsFrom cur ms code

def fails (ms : List Modifier) (code : Nat) : Bool := failsFrom none ms code

def hasSilent (ms : List Modifier) : Bool := ms.any fun m => match m with | .silent => true | _ => false
def hasSingle (ms : List Modifier) : Bool := ms.any fun m => match m with | .single => true | _ => false

end Jom.Spec

namespace Jom.Props
open Jom Jom.Spec

/-- The limit after the modifiers `ms`, starting with `m`. -/
def limitAfter : Nat → List Modifier → Nat
  | m, [] => m
  | _, .dash ds :: ms => limitAfter (if ds = [] then uintMax else toUInt ds) ms
  | m, _ :: ms => limitAfter m ms

theorem takeWhile_digits {ds t : Str} (h1 : ∀ c ∈ ds, isDigit c = true)
    (h2 : ∀ c s, t = c :: s → isDigit c = false) : (ds ++ t).takeWhile isDigit = ds := by
  induction ds with
  | nil => cases t with
    | nil => rfl
    | cons c t => simp [h2 c t rfl]
  | cons d ds ih => simp [h1 d (by simp), ih (fun c hc => h1 c (by simp [hc]))]

theorem evalMod_correct {ms : List Modifier} {line r : Str} (h : Modified ms line r) (c : Cmd) (f : Nat)
    (hf : line.length < f) : evalModF f { c with line := line } =
      { line := r, maxExitCode := limitAfter c.maxExitCode ms, silent := c.silent || hasSilent ms,
        singleExecution := c.singleExecution || hasSingle ms } := by
  induction h generalizing c f with
  | @done r hr =>
    obtain ⟨f, rfl⟩ : ∃ g, f = g + 1 := ⟨f - 1, by omega⟩
    cases r with
    | nil => simp [evalModF, limitAfter, hasSilent, hasSingle]
    | cons d r =>
      obtain ⟨h1, h2, h3⟩ := hr d r rfl
      unfold evalModF
      split
      · rename_i heq; simp at heq
      · rename_i heq; simp only [List.cons.injEq] at heq; exact absurd heq.1 h1
      · rename_i heq; simp only [List.cons.injEq] at heq; exact absurd heq.1 h2
      · rename_i heq; simp only [List.cons.injEq] at heq; exact absurd heq.1 h3
      · simp [limitAfter, hasSilent, hasSingle]
  | @silent ms t r h ih =>
    obtain ⟨f, rfl⟩ : ∃ g, f = g + 1 := ⟨f - 1, by omega⟩
    have := ih { c with silent := true } f (by simp at hf; omega)
    simp only [evalModF]
    rw [this]
    simp [limitAfter, hasSilent, hasSingle]
  | @single ms t r h ih =>
    obtain ⟨f, rfl⟩ : ∃ g, f = g + 1 := ⟨f - 1, by omega⟩
    have := ih { c with singleExecution := true } f (by simp at hf; omega)
    simp only [evalModF]
    rw [this]
    simp [limitAfter, hasSilent, hasSingle]
  | @dash ms ds t r hds ht h ih =>
    obtain ⟨f, rfl⟩ : ∃ g, f = g + 1 := ⟨f - 1, by omega⟩
    by_cases hd : ds = []
    · subst hd
      have hm : limitAfter c.maxExitCode (.dash [] :: ms) = limitAfter uintMax ms := by simp [limitAfter]
      rw [hm]
      cases t with
      | nil =>
        have := ih { c with maxExitCode := uintMax } f (by simp at hf ⊢; omega)
        simp only [evalModF]
        simp only [List.nil_append, List.dropWhile_nil, List.takeWhile_nil, List.length_nil, Nat.lt_irrefl,
          gt_iff_lt, if_false]
        rw [this]
        simp [hasSilent, hasSingle]
      | cons d t =>
        by_cases hdash : d = '-'
        · subst hdash
          have := ih { c with maxExitCode := uintMax } (f + 1) (by simp at hf ⊢; omega)
          simp only [List.nil_append]
          have e : evalModF (f + 1) { c with line := '-' :: '-' :: t } =
              evalModF (f + 1) { c with line := '-' :: t, maxExitCode := uintMax } := by
            simp only [evalModF]
            simp
          rw [e, this]
          simp [hasSilent, hasSingle]
        · have hnd := ht d t rfl
          have := ih { c with maxExitCode := uintMax } f (by simp at hf ⊢; omega)
          simp only [evalModF]
          have h1 : (d :: t).dropWhile (· == '-') = d :: t := by simp [hdash]
          have h2 : (d :: t).takeWhile isDigit = [] := by simp [hnd]
          simp only [List.nil_append, h1, h2, List.length_nil, Nat.lt_irrefl, gt_iff_lt, if_false]
          rw [this]
          simp [hasSilent, hasSingle]
    · have hm : limitAfter c.maxExitCode (.dash ds :: ms) = limitAfter (toUInt ds) ms := by
        simp [limitAfter, hd]
      rw [hm]
      have := ih { c with maxExitCode := toUInt ds } f (by simp at hf ⊢; omega)
      simp only [evalModF]
      have h1 : (ds ++ t).dropWhile (· == '-') = ds ++ t := by
        cases ds with
        | nil => exact absurd rfl hd
        | cons d ds =>
          have h3 := hds d (by simp)
          have : d ≠ '-' := by rintro rfl; exact absurd h3 (by decide)
          simp [this]
      have h2 := takeWhile_digits hds ht
      have h3 : ds.length > 0 := List.length_pos_iff.2 hd
      simp only [h1, h2, if_pos h3, List.drop_left']
      rw [this]
      simp [hasSilent, hasSingle]

theorem limit_fails (cur : Option Str) (m : Nat) (ms : List Modifier) (code : Nat) (hcode : code ≤ uintMax)
    (hm : match cur with | none => m = 0 | some [] => m = uintMax | some ds => m = toUInt ds) :
    failsFrom cur ms code = decide (limitAfter m ms < code) := by
  induction ms generalizing cur m with
  | nil =>
    match cur, hm with
    | none, hm =>
      simp only at hm
      subst hm
      simp only [failsFrom, limitAfter]
      by_cases h : code = 0
      · simp [h]
      · have : 0 < code := by omega
        simp [h, this]
    | some [], hm =>
      simp only at hm
      subst hm
      simp only [failsFrom, limitAfter]
      have : ¬ uintMax < code := by omega
      simp [this]
    | some (d :: ds), hm =>
      simp only at hm
      subst hm
      simp only [failsFrom, limitAfter]
      exact decide_eq_decide.2 Iff.rfl
  | cons x ms ih =>
    cases x with
    | dash ds =>
      have : failsFrom cur (.dash ds :: ms) code = failsFrom (some ds) ms code := by
        cases cur with
        | none => rfl
        | some l => cases l <;> rfl
      rw [this]
      simp only [limitAfter]
      apply ih
      cases ds <;> simp
    | silent =>
      have : failsFrom cur (.silent :: ms) code = failsFrom cur ms code := by
        cases cur with
        | none => rfl
        | some l => cases l <;> rfl
      rw [this]
      exact ih cur m hm
    | single =>
      have : failsFrom cur (.single :: ms) code = failsFrom cur ms code := by
        cases cur with
        | none => rfl
        | some l => cases l <;> rfl
      rw [this]
      exact ih cur m hm

/-- C16 for modifiers without blanks between them: all leading modifiers are recognised and removed, the
rest of the command is unchanged, and exit codes are judged by the last `-`.
Missing from the full claim: blanks between the modifiers, see `C16_refuted_blank_between`. -/
theorem C16_modifiers_partial (ms : List Modifier) (line r : Str) (h : Modified ms line r) :
    (evaluateModifiers { line := line }).line = r ∧
    (evaluateModifiers { line := line }).silent = hasSilent ms ∧
    (evaluateModifiers { line := line }).singleExecution = hasSingle ms ∧
    ∀ code : Int, (evaluateModifiers { line := line }).failsWith code = fails ms (toUnsigned code) := by
  have := evalMod_correct h { line := line } (line.length + 1) (by omega)
  simp only at this
  unfold evaluateModifiers
  rw [this]
  refine ⟨rfl, by simp, by simp, fun code => ?_⟩
  unfold Cmd.failsWith fails
  rw [limit_fails none 0 ms (toUnsigned code) (by unfold toUnsigned uintMax; omega) rfl]

/-- C16: every command line has such a decomposition. -/
theorem C16_every_line (line : Str) : ∃ ms r, Modified ms line r := by
  have : ∀ n (line : Str), line.length ≤ n → ∃ ms r, Modified ms line r := by
    intro n
    induction n with
    | zero =>
      intro line hl
      have := List.length_eq_zero_iff.1 (Nat.le_zero.1 hl)
      subst this
      exact ⟨[], [], .done (by simp)⟩
    | succ n ih =>
      intro line hl
      cases line with
      | nil => exact ⟨[], [], .done (by simp)⟩
      | cons c s =>
        simp only [List.length_cons] at hl
        by_cases h1 : c = '-'
        · subst h1
          have hsplit : s.takeWhile isDigit ++ s.dropWhile isDigit = s := List.takeWhile_append_dropWhile
          have hlen : (s.dropWhile isDigit).length ≤ n := by
            have := congrArg List.length hsplit
            rw [List.length_append] at this; omega
          obtain ⟨ms, r, h⟩ := ih _ hlen
          refine ⟨.dash (s.takeWhile isDigit) :: ms, r, ?_⟩
          have := Modified.dash (ds := s.takeWhile isDigit) (t := s.dropWhile isDigit) (by
            intro c hc
            have := List.all_takeWhile (l := s) (p := isDigit)
            rw [List.all_eq_true] at this
            exact this c hc) (by
            intro c t e
            have := List.head?_dropWhile_not (p := isDigit) s
            rw [e] at this
            simpa using this) h
          rwa [hsplit] at this
        · by_cases h2 : c = '@'
          · subst h2
            obtain ⟨ms, r, h⟩ := ih s (by omega)
            exact ⟨_, r, .silent h⟩
          · by_cases h3 : c = '!'
            · subst h3
              obtain ⟨ms, r, h⟩ := ih s (by omega)
              exact ⟨_, r, .single h⟩
            · refine ⟨[], c :: s, .done ?_⟩
              intro d t e
              simp only [List.cons.injEq] at e
              rw [← e.1]
              exact ⟨h1, h2, h3⟩
  exact this _ line (Nat.le_refl _)

/-- C16 in terms of the three documented cases. -/
theorem C16_exit_codes :
    (∀ code : Int, Cmd.failsWith { line := [] } code = true ↔ toUnsigned code ≠ 0) ∧
    (∀ (r : Str) (code : Int), (∀ c s, r = c :: s → isDigit c = false) →
      (∀ c s, r = c :: s → c ≠ '-' ∧ c ≠ '@' ∧ c ≠ '!') →
      (evaluateModifiers { line := '-' :: r }).failsWith code = false) ∧
    (∀ (ds r : Str) (code : Int), ds ≠ [] → (∀ c ∈ ds, isDigit c = true) → decValue ds ≤ uintMax →
      (∀ c s, r = c :: s → isDigit c = false ∧ c ≠ '-' ∧ c ≠ '@' ∧ c ≠ '!') →
      ((evaluateModifiers { line := '-' :: (ds ++ r) }).failsWith code = true ↔ decValue ds < toUnsigned code)) := by
  refine ⟨fun code => ?_, fun r code h1 h2 => ?_, fun ds r code h1 h2 h3 h4 => ?_⟩
  · simp [Cmd.failsWith]; omega
  · have := (C16_modifiers_partial [.dash []] ('-' :: ([] ++ r)) r (.dash (by simp) h1 (.done h2))).2.2.2 code
    simpa [fails, failsFrom] using this
  · have := (C16_modifiers_partial [.dash ds] ('-' :: (ds ++ r)) r
      (.dash h2 (fun c s e => (h4 c s e).1) (.done (fun c s e => (h4 c s e).2)))).2.2.2 code
    rw [this]
    cases ds with
    | nil => exact absurd rfl h1
    | cons d ds => simp [fails, failsFrom, toUInt, h3]

example : evaluateModifiers { line := c!"@-3!cmd -x" } =
    { line := c!"cmd -x", maxExitCode := 3, silent := true, singleExecution := true } := by decide +kernel

/-- A limit that does not fit into 32 bits is read as 0: `-5000000000 cmd` ignores no exit code. -/
theorem C16_limit_overflow :
    (evaluateModifiers { line := c!"-5000000000 cmd" }).maxExitCode = 0 := by decide +kernel

/-- Where the claim fails: modifiers separated by a blank are not recognised. -/
theorem C16_refuted_blank_between : evaluateModifiers { line := c!"- @echo" } =
    { line := c!" @echo", maxExitCode := uintMax, silent := false, singleExecution := false } := by
  decide +kernel

end Jom.Props
