import Verif.Spec.Preprocessor
import Verif.Proofs.StrLemmas
import Verif.Proofs.PathLemmas

/-! Single directives: words, conditions, the search for included files. -/

namespace Jom.PP
open Jom.Spec

/-! ### Conditions -/

theorem alookup_isSome {β : Type} {k : Str} {l : List (Str × β)} : (alookup k l).isSome = true ↔ ∃ m, (k, m) ∈ l := by
  induction l with
  | nil => simp [alookup]
  | cons x l ih =>
    obtain ⟨a, b⟩ := x
    unfold alookup
    by_cases h : a = k
    · subst h
      simp only [if_true, Option.isSome_some, true_iff]
      exact ⟨b, by simp⟩
    · rw [if_neg h]
      simp only [ih, List.mem_cons, Prod.mk.injEq]
      constructor
      · rintro ⟨m, hm⟩; exact ⟨m, .inr hm⟩
      · rintro ⟨m, ⟨hm, _⟩ | hm⟩
        · exact absurd hm.symm h
        · exact ⟨m, hm⟩

theorem defined_iff {t : MacroTable} {v : Str} : isMacroDefined t v = true ↔ ∃ m, (v, m) ∈ t.macros := alookup_isSome

theorem notDefined_iff {t : MacroTable} {v : Str} : isMacroDefined t v = false ↔ ∀ m, (v, m) ∉ t.macros := by
  rw [← Bool.not_eq_true, defined_iff]
  simp

theorem expanded_iff {m : Macros} {s t : Str} : Expanded m s t ↔ expandMacros m s = .ok t := (Props.C02_expansion_meaning m s t false).symm

theorem _root_.Jom.Spec.Holds.condition {w : World} {t : MacroTable} {d : Dir} {v : Str} {b : Bool} (h : Holds w t d v b) :
    condition w t d v = .ok b := by
  cases h with
  | defined m h1 h2 =>
    have := defined_iff.2 ⟨m, h2⟩
    rcases h1 with rfl | rfl <;> simp only [PP.condition, this]
  | missing h1 h2 =>
    have := notDefined_iff.2 h2
    rcases h1 with rfl | rfl <;> simp only [PP.condition, this]
  | undefined h1 h2 =>
    have := notDefined_iff.2 h2
    rcases h1 with rfl | rfl <;> simp only [PP.condition, this, Bool.not_false]
  | present m h1 h2 =>
    have := defined_iff.2 ⟨m, h2⟩
    rcases h1 with rfl | rfl <;> simp only [PP.condition, this, Bool.not_true]
  | nonzero e n h1 h2 h3 h4 =>
    rcases h1 with rfl | rfl <;> simp only [PP.condition, evaluateExpression, expanded_iff.1 h2, h3] <;> simp [h4]
  | zero e h1 h2 h3 =>
    rcases h1 with rfl | rfl <;> simp only [PP.condition, evaluateExpression, expanded_iff.1 h2, h3] <;> simp

/-- The directives with a condition. -/
def hasCondition : Dir → Bool
  | .if | .ifdef | .ifndef | .elseif | .elseifdef | .elseifndef => true
  | _ => false

theorem condition_holds {w : World} {t : MacroTable} {d : Dir} {v : Str} {b : Bool} (hd : hasCondition d = true)
    (h : condition w t d v = .ok b) : Holds w t d v b := by
  have expr : d = .if ∨ d = .elseif → Holds w t d v b := by
    intro hd'
    have h : (match evaluateExpression w t v with
        | .ok v => .ok (decide (v ≠ 0))
        | .error e => .error e : Except Err Bool) = .ok b := by
      rcases hd' with rfl | rfl <;> exact h
    unfold evaluateExpression at h
    cases he : expandMacros t.macros v with
    | error e => rw [he] at h; cases h
    | ok e =>
      rw [he] at h
      simp only at h
      cases hv : w.eval t e with
      | none => rw [hv] at h; cases h
      | some n =>
        rw [hv] at h
        simp only [Except.ok.injEq] at h
        by_cases hn : n = 0
        · subst hn
          simp at h
          subst h
          exact .zero _ _ e hd' (expanded_iff.2 he) hv
        · simp [hn] at h
          subst h
          exact .nonzero _ _ e n hd' (expanded_iff.2 he) hv hn
  have def1 : d = .ifdef ∨ d = .elseifdef → Holds w t d v b := by
    intro hd'
    have h : (.ok (isMacroDefined t v) : Except Err Bool) = .ok b := by rcases hd' with rfl | rfl <;> exact h
    cases b with
    | true => obtain ⟨m, hm⟩ := defined_iff.1 (Except.ok.inj h); exact .defined _ _ m hd' hm
    | false => exact .missing _ _ hd' (notDefined_iff.1 (Except.ok.inj h))
  have def2 : d = .ifndef ∨ d = .elseifndef → Holds w t d v b := by
    intro hd'
    have h : (.ok (!isMacroDefined t v) : Except Err Bool) = .ok b := by rcases hd' with rfl | rfl <;> exact h
    cases b with
    | false => obtain ⟨m, hm⟩ := defined_iff.1 (by simpa using h); exact .present _ _ m hd' hm
    | true => exact .undefined _ _ hd' (notDefined_iff.1 (by simpa using h))
  cases d <;> first | (exact absurd hd (by decide)) | exact expr (by decide) | exact def1 (by decide) | exact def2 (by decide)

/-! ### Included files -/

theorem startsWith_cons {v : Str} {c : Char} : startsWith v [c] = true ↔ ∃ r, v = c :: r := by
  cases v with
  | nil => simp [startsWith]
  | cons d r =>
    simp only [startsWith, List.isPrefixOf, Bool.and_true, beq_iff_eq, List.cons.injEq]
    exact ⟨fun h => ⟨r, h.symm, rfl⟩, fun ⟨_, h, _⟩ => h.symm⟩

theorem endsWith_snoc {v : Str} {c : Char} : endsWith v [c] = true ↔ ∃ r, v = r ++ [c] := by
  unfold endsWith
  rw [List.isSuffixOf_iff_suffix]
  constructor
  · rintro ⟨r, h⟩; exact ⟨r, h.symm⟩
  · rintro ⟨r, h⟩; exact ⟨r, h.symm⟩

/-- Text in a pair of different characters, or the lone character if they are the same. -/
theorem enclosed {v : Str} {a b : Char} (h1 : startsWith v [a] = true) (h2 : endsWith v [b] = true) :
    (v = [a] ∧ a = b) ∨ ∃ q, v = a :: (q ++ [b]) := by
  obtain ⟨r, rfl⟩ := startsWith_cons.1 h1
  obtain ⟨r', h⟩ := endsWith_snoc.1 h2
  cases r' with
  | nil => simp at h; exact .inl ⟨by simp [h], h.1⟩
  | cons x r' => simp at h; exact .inr ⟨r', by simp [h]⟩

theorem unquoted_iff {v p : Str} : removeDoubleQuotes v = p ↔ Unquoted v p := by
  constructor
  · intro h
    unfold removeDoubleQuotes at h
    by_cases hq : (startsWith v ['"'] && endsWith v ['"']) = true
    · rw [if_pos hq] at h
      rw [Bool.and_eq_true] at hq
      rcases enclosed hq.1 hq.2 with ⟨rfl, _⟩ | ⟨q, rfl⟩
      · subst h; exact .lone
      · rw [← List.cons_append, List.dropLast_concat] at h
        simp at h
        subst h
        exact .quoted _
    · rw [if_neg hq] at h
      subst h
      refine .plain _ ?_ ?_
      · rintro rfl; exact hq (by decide)
      · rintro q rfl
        exact hq (by rw [Bool.and_eq_true]; exact ⟨startsWith_cons.2 ⟨_, rfl⟩, endsWith_snoc.2 ⟨'"' :: q, rfl⟩⟩)
  · intro h
    unfold removeDoubleQuotes
    cases h with
    | quoted =>
      rw [if_pos (by rw [Bool.and_eq_true]; exact ⟨startsWith_cons.2 ⟨_, rfl⟩, endsWith_snoc.2 ⟨'"' :: p, rfl⟩⟩)]
      rw [← List.cons_append, List.dropLast_concat]
      rfl
    | lone => rfl
    | plain _ h1 h2 =>
      rw [if_neg]
      intro hq
      rw [Bool.and_eq_true] at hq
      rcases enclosed hq.1 hq.2 with ⟨h, _⟩ | ⟨q, h⟩
      · exact h1 h
      · exact h2 q h

theorem splitChar_entries (s : Str) : ∀ cur : Str, ';' ∉ cur → Entries (cur ++ s) (splitChar ';' s cur) := by
  induction s with
  | nil =>
    intro cur hc
    unfold splitChar
    cases cur with
    | nil => exact .nil
    | cons a cur => simp only [List.isEmpty_cons, Bool.false_eq_true, if_false, List.append_nil]; exact .last _ (by simp) hc
  | cons c s ih =>
    intro cur hc
    unfold splitChar
    by_cases h : c = ';'
    · subst h
      rw [if_pos (by decide)]
      cases cur with
      | nil => exact .skip _ _ (ih [] (by simp))
      | cons a cur => exact .more _ _ _ (by simp) hc (ih [] (by simp))
    · rw [if_neg (by simpa using h)]
      have := ih (cur ++ [c]) (by simp [hc, Ne.symm h])
      rwa [List.append_assoc] at this

theorem entries_unique {s : Str} {l l' : List Str} (h : Entries s l) (h' : Entries s l') : l = l' := by
  have cut : ∀ (e e' s s' : Str), ';' ∉ e → ';' ∉ e' → e ++ ';' :: s = e' ++ ';' :: s' → e = e' ∧ s = s' := by
    intro e
    induction e with
    | nil =>
      intro e' s s' _ h1 h
      cases e' with
      | nil => simp at h; exact ⟨rfl, h⟩
      | cons a e' => simp at h; simp [← h.1] at h1
    | cons a e ih =>
      intro e' s s' h0 h1 h
      cases e' with
      | nil => simp at h; simp [h.1] at h0
      | cons b e' =>
        simp only [List.cons_append, List.cons.injEq, List.mem_cons, not_or] at h h0 h1
        obtain ⟨h2, h3⟩ := ih e' s s' h0.2 h1.2 h.2
        exact ⟨by rw [h.1, h2], h3⟩
  induction h generalizing l' with
  | nil =>
    generalize hs : ([] : Str) = s' at h'
    cases h' with
    | nil => rfl
    | skip => cases hs
    | last _ h => exact absurd hs.symm h
    | more => simp at hs
  | skip s l h ih =>
    generalize hs : ';' :: s = s' at h'
    cases h' with
    | nil => cases hs
    | skip s' _ h' => cases hs; exact ih h'
    | last _ _ h => subst hs; simp at h
    | more e s' l' h1 h2 h' =>
      cases e with
      | nil => exact absurd rfl h1
      | cons a e => simp only [List.cons_append, List.cons.injEq] at hs; simp [← hs.1] at h2
  | last e h1 h2 =>
    cases h' with
    | nil => exact absurd rfl h1
    | skip => simp at h2
    | last => rfl
    | more => simp at h2
  | more e s l h1 h2 h ih =>
    generalize hs : e ++ ';' :: s = s' at h'
    cases h' with
    | nil => simp at hs
    | skip s' _ h' =>
      cases e with
      | nil => exact absurd rfl h1
      | cons a e => simp only [List.cons_append, List.cons.injEq] at hs; simp [hs.1] at h2
    | last _ _ h => subst hs; simp at h
    | more e' s' l' h3 h4 h' =>
      obtain ⟨rfl, rfl⟩ := cut _ _ _ _ h2 h4 hs
      rw [ih h']

theorem findSome?_split {α β : Type} {f : α → Option β} {l : List α} {b : β} :
    l.findSome? f = some b ↔ ∃ x q y, l = x ++ q :: y ∧ (∀ a ∈ x, f a = none) ∧ f q = some b := by
  rw [List.findSome?_eq_some_iff]
  constructor
  · rintro ⟨x, q, y, h1, h2, h3⟩; exact ⟨x, q, y, h1, h3, h2⟩
  · rintro ⟨x, q, y, h1, h2, h3⟩; exact ⟨x, q, y, h1, h3, h2⟩

theorem named_iff {v p : Str} {b : Bool} : Named v p b ↔
    (b = (startsWith v ['<'] && endsWith v ['>']) ∧ p = removeDoubleQuotes (if b then v.dropLast.drop 1 else v)) := by
  constructor
  · intro h
    cases h with
    | angle v _ hu =>
      have hb : (startsWith ('<' :: (v ++ ['>'])) ['<'] && endsWith ('<' :: (v ++ ['>'])) ['>']) = true := by
        rw [Bool.and_eq_true]; exact ⟨startsWith_cons.2 ⟨_, rfl⟩, endsWith_snoc.2 ⟨'<' :: v, rfl⟩⟩
      refine ⟨hb.symm, ?_⟩
      rw [if_pos rfl, ← List.cons_append, List.dropLast_concat]
      exact (unquoted_iff.2 hu).symm
    | plain _ _ h1 hu =>
      refine ⟨?_, (unquoted_iff.2 hu).symm⟩
      rw [eq_comm, Bool.eq_false_iff]
      intro hb
      rw [Bool.and_eq_true] at hb
      rcases enclosed hb.1 hb.2 with ⟨_, h⟩ | ⟨q, h⟩
      · exact absurd h (by decide)
      · exact h1 q h
  · rintro ⟨hb, hp⟩
    cases b with
    | true =>
      have hb' := hb.symm
      rw [Bool.and_eq_true] at hb'
      rcases enclosed hb'.1 hb'.2 with ⟨_, h⟩ | ⟨q, rfl⟩
      · exact absurd h (by decide)
      · rw [if_pos rfl, ← List.cons_append, List.dropLast_concat] at hp
        exact .angle _ _ (unquoted_iff.1 hp.symm)
    | false =>
      refine .plain _ _ ?_ (unquoted_iff.1 hp.symm)
      rintro q rfl
      have : (startsWith ('<' :: (q ++ ['>'])) ['<'] && endsWith ('<' :: (q ++ ['>'])) ['>']) = true := by
        rw [Bool.and_eq_true]; exact ⟨startsWith_cons.2 ⟨_, rfl⟩, endsWith_snoc.2 ⟨'<' :: q, rfl⟩⟩
      rw [this] at hb
      cases hb

theorem found_iff (o : Option Str) (p : Str) :
    (match o with | some p => Except.ok p | none => Except.error Err.fileNotFound : Except Err Str) = .ok p ↔ o = some p := by
  cases o <;> simp

/-- `findIncludeFile` looks at the places in order. -/
theorem findInclude_iff {w : World} {stk : List TextFile} {t : MacroTable} {v p : Str} :
    findIncludeFile w { files := stk, table := t } v = .ok p ↔ Included w stk t v p := by
  have key : ∀ (name : Str) (angle : Bool) (dirs : List Str),
      ((name :: stk.map fun f => f.dir ++ ['/'] ++ name).findSome? w.find).or
        (if angle then dirs.findSome? fun d => w.find (d ++ ['/'] ++ name) else none) =
      (places stk name angle dirs).findSome? w.find := by
    intro name angle dirs
    unfold places
    rw [← List.cons_append, List.findSome?_append]
    have h1 : (fun f : TextFile => f.dir ++ ['/'] ++ name) = fun f => f.dir ++ '/' :: name := by funext f; simp
    rw [h1]
    congr 1
    cases angle with
    | false => rfl
    | true =>
      simp only [if_true, List.findSome?_map]
      congr 1
      funext d
      simp
  have hmap : ∀ s : Str, (s.map fun c => if c = '\t' then ' ' else c) = s.map fun c => if c == '\t' then ' ' else c := by
    intro s; congr 1; funext c; simp
  unfold findIncludeFile
  simp only
  rw [key]
  refine Iff.trans (found_iff _ _) ?_
  rw [findSome?_split]
  constructor
  · rintro ⟨x, q, y, h1, h2, h3⟩
    refine ⟨_, _, _, x, q, y, named_iff.2 ⟨rfl, rfl⟩, ?_, h1, h2, h3⟩
    rw [hmap]
    exact splitChar_entries _ [] (by simp)
  · rintro ⟨name, angle, dirs, x, q, y, h0, h1, h2, h3, h4⟩
    obtain ⟨rfl, rfl⟩ := named_iff.1 h0
    refine ⟨x, q, y, ?_, h3, h4⟩
    rw [← h2]
    rw [hmap] at h1
    exact congrArg _ (entries_unique (splitChar_entries _ [] (by simp)) h1)

/-! ### Words -/

theorem toUpperC_space {c : Char} (h : isSpace c = true) : toUpperC c = c := by
  unfold toUpperC
  rw [if_neg]
  simp only [isSpace, Bool.or_eq_true, beq_iff_eq, Bool.and_eq_true, decide_eq_true_eq] at h
  rcases h with rfl | h
  · decide
  · omega

/-- A word whose capitals contain no blank contains no blank. -/
theorem word_noSpace {w k : Str} (h : toUpper w = k) (hk : ∀ c ∈ k, isSpace c = false) : ∀ c ∈ w, isSpace c = false := by
  intro c hc
  by_cases hs : isSpace c = true
  · have : c ∈ k := by
      rw [← h, ← toUpperC_space hs]
      exact List.mem_map_of_mem hc
    exact hk c this
  · simpa using hs

theorem toLowerC_toUpperC (c : Char) : toLowerC (toUpperC c) = toLowerC c := by
  unfold toUpperC
  by_cases h : 97 ≤ c.toNat ∧ c.toNat ≤ 122
  · rw [if_pos h]
    unfold toLowerC
    rw [toNat_ofNat_ascii (by omega), if_pos (by omega), if_neg (by omega)]
    have : c.toNat - 32 + 32 = c.toNat := by omega
    rw [this, Char.ofNat_toNat]
  · rw [if_neg h]

theorem toLower_toUpper (s : Str) : toLower (toUpper s) = toLower s := by
  simp only [toLower, toUpper, List.map_map]
  congr 1
  funext c
  exact toLowerC_toUpperC c

theorem matchDirective_word {b w rest : Str} (hb : Spaces b) (hw : ∀ c ∈ w, isSpace c = false) (hne : w ≠ [])
    (hr : ∀ c r, rest = c :: r → isSpace c = true) :
    matchDirective ('!' :: (b ++ w ++ rest)) = some (toUpper w, trimmed rest) := by
  have h1 : trimLeft (b ++ w ++ rest) = w ++ rest := by
    rw [trimLeft, List.append_assoc, dropWhile_blanks hb]
    cases w with
    | nil => exact absurd rfl hne
    | cons c w => simp [hw c (by simp)]
  have h2 : (w ++ rest).takeWhile (fun c => !isSpace c) = w := by
    rw [List.takeWhile_append_of_pos (fun c hc => by simp [hw c hc])]
    cases rest with
    | nil => simp
    | cons c r => simp [hr c r rfl]
  have h3 : (w ++ rest).dropWhile (fun c => !isSpace c) = rest := by
    rw [List.dropWhile_append_of_pos (fun c hc => by simp [hw c hc])]
    cases rest with
    | nil => simp
    | cons c r => simp [hr c r rfl]
  unfold matchDirective
  simp only [h1, h2, h3]
  rw [if_neg (by simpa using hne)]

theorem trimmed_pad {b v b' : Str} (hb : Spaces b) (hb' : Spaces b') (hv : NoOuter v) : trimmed (b ++ v ++ b') = v := by
  rw [List.append_assoc, trimmed_blanks_left hb]
  have h1 : trimLeft (v ++ b') = if v = [] then [] else v ++ b' := by
    cases v with
    | nil => rw [List.nil_append]; simpa [trimLeft] using dropWhile_blanks (s := []) hb'
    | cons c r => simp [trimLeft, hv.1 c r rfl]
  unfold trimmed
  rw [h1]
  by_cases h : v = []
  · subst h; rfl
  · rw [if_neg h]
    unfold trimRight
    rw [List.reverse_append, dropWhile_blanks (by intro c hc; exact hb' c (by simpa using hc))]
    exact trimRight_tight hv

theorem rest_space {b v b' : Str} (hb : Spaces b) (hb' : Spaces b') (hne : v ≠ [] → b ≠ []) :
    ∀ c r, b ++ v ++ b' = c :: r → isSpace c = true := by
  intro c r h
  cases b with
  | nil =>
    have : v = [] := by
      by_cases hv : v = []
      · exact hv
      · exact absurd rfl (hne hv)
    subst this
    exact hb' c (by rw [List.nil_append, List.nil_append] at h; simp [h])
  | cons d b =>
    simp only [List.cons_append, List.cons.injEq] at h
    exact h.1 ▸ hb d (by simp)

theorem rawDirective_of {s d v : Str} (h : matchDirective ('!' :: s) = some (d, v)) :
    rawDirective ('!' :: s) = if d = wELSE then
          match elseForm v with
          | some (kw, v) => some (d ++ kw, v)
          | none => some (d, v)
        else some (d, v) := by
  have h1 : isSpaceOrTab '!' = false := by decide
  unfold rawDirective
  simp only [h1, h, ne_eq, not_true_eq_false, false_and, if_false, Bool.false_eq_true]
  rfl

theorem keyword_dirOf {d : Dir} {k : Str} (h : keyword d = some k) : dirOf k = d ∧ (∀ c ∈ k, isSpace c = false) ∧ k ≠ [] ∧
    (d ≠ .else → k ≠ wELSE) := by
  cases d <;> simp only [keyword, Option.some.injEq, reduceCtorEq] at h <;> subst h <;> decide

theorem elseWord_spec {d : Dir} {k : Str} (h : elseWord d = some k) : dirOf (wELSE ++ k) = d ∧
    (k = c!"IF" ∨ k = c!"IFDEF" ∨ k = c!"IFNDEF") := by
  cases d <;> simp only [elseWord, Option.some.injEq, reduceCtorEq] at h <;> subst h <;> decide

theorem elseKeyword_hit {kw w' : Str} {c : Char} {v : Str} (h : toLower w' = kw) (hc : isSpace c = true) :
    elseKeyword kw (w' ++ c :: v) = some (toUpper kw, trimLeft (c :: v)) := by
  have hl : kw.length = w'.length := by rw [← h]; simp [toLower]
  unfold elseKeyword
  rw [hl, List.take_left, List.drop_left, h]
  simp [hc]

theorem elseKeyword_some {kw v k x : Str} (h : elseKeyword kw v = some (k, x)) :
    ∃ w' c r, toLower w' = kw ∧ isSpace c = true ∧ v = w' ++ c :: r ∧ k = toUpper kw ∧ x = trimLeft (c :: r) := by
  unfold elseKeyword at h
  by_cases h1 : toLower (v.take kw.length) == kw
  · rw [if_pos h1] at h
    cases hd : v.drop kw.length with
    | nil => rw [hd] at h; cases h
    | cons c r =>
      rw [hd] at h
      simp only at h
      by_cases hc : isSpace c = true
      · rw [if_pos hc] at h
        cases h
        refine ⟨v.take kw.length, c, r, by simpa using h1, hc, ?_, rfl, rfl⟩
        rw [← hd, List.take_append_drop]
      · rw [if_neg hc] at h; cases h
  · rw [if_neg h1] at h; cases h

theorem toUpper_toLower {w k : Str} (h : toLower w = k) : toUpper w = toUpper k := by
  have : ∀ c, toUpperC (toLowerC c) = toUpperC c := by
    intro c
    unfold toLowerC
    by_cases h : 65 ≤ c.toNat ∧ c.toNat ≤ 90
    · rw [if_pos h]
      unfold toUpperC
      rw [toNat_ofNat_ascii (by omega), if_pos (by omega), if_neg (by omega)]
      have : c.toNat + 32 - 32 = c.toNat := by omega
      rw [this, Char.ofNat_toNat]
    · rw [if_neg h]
  rw [← h]
  simp only [toLower, toUpper, List.map_map]
  congr 1
  funext c
  exact (this c).symm

theorem elseForm_some {v k x : Str} (h : elseForm v = some (k, x)) : ∃ d w' c r, elseWord d = some (toUpper w') ∧
    toUpper w' = k ∧ isSpace c = true ∧ v = w' ++ c :: r ∧ x = trimLeft (c :: r) := by
  unfold elseForm at h
  rw [Option.or_eq_some_iff, Option.or_eq_some_iff] at h
  rcases h with h | ⟨_, h | ⟨_, h⟩⟩
  · obtain ⟨w', c, r, h1, h2, h3, h4, h5⟩ := elseKeyword_some h
    exact ⟨.elseifndef, w', c, r, by rw [toUpper_toLower h1]; decide, by rw [toUpper_toLower h1, h4], h2, h3, h5⟩
  · obtain ⟨w', c, r, h1, h2, h3, h4, h5⟩ := elseKeyword_some h
    exact ⟨.elseifdef, w', c, r, by rw [toUpper_toLower h1]; decide, by rw [toUpper_toLower h1, h4], h2, h3, h5⟩
  · obtain ⟨w', c, r, h1, h2, h3, h4, h5⟩ := elseKeyword_some h
    exact ⟨.elseif, w', c, r, by rw [toUpper_toLower h1]; decide, by rw [toUpper_toLower h1, h4], h2, h3, h5⟩

/-- A word followed by a blank is determined by the text. -/
theorem word_cut {a b : Str} {x y : Char} {r s : Str} (ha : ∀ c ∈ a, isSpace c = false) (hb : ∀ c ∈ b, isSpace c = false)
    (hx : isSpace x = true) (hy : isSpace y = true) (h : a ++ x :: r = b ++ y :: s) : a = b ∧ x = y ∧ r = s := by
  induction a generalizing b with
  | nil =>
    cases b with
    | nil => simp at h; exact ⟨rfl, h⟩
    | cons d b => simp at h; rw [h.1] at hx; rw [hb d (by simp)] at hx; cases hx
  | cons c a ih =>
    cases b with
    | nil => simp at h; rw [← h.1] at hy; rw [ha c (by simp)] at hy; cases hy
    | cons d b =>
      simp only [List.cons_append, List.cons.injEq] at h
      obtain ⟨h1, h2⟩ := ih (b := b) (fun c hc => ha c (by simp [hc])) (fun c hc => hb c (by simp [hc])) h.2
      exact ⟨by rw [h.1, h1], h2⟩

theorem elseWord_noSpace {d : Dir} {w : Str} (h : elseWord d = some (toUpper w)) : ∀ c ∈ w, isSpace c = false := by
  refine word_noSpace rfl ?_
  rcases (elseWord_spec h).2 with h | h | h <;> rw [h] <;> decide

theorem elseForm_hit {d : Dir} {w' : Str} {c : Char} {r : Str} (h : elseWord d = some (toUpper w')) (hc : isSpace c = true) :
    elseForm (w' ++ c :: r) = some (toUpper w', trimLeft (c :: r)) := by
  have hlow : ∃ kw, toLower w' = kw ∧ (kw = c!"if" ∨ kw = c!"ifdef" ∨ kw = c!"ifndef") := by
    refine ⟨_, rfl, ?_⟩
    rw [← toLower_toUpper]
    rcases (elseWord_spec h).2 with h | h | h <;> rw [h] <;> decide
  have hsome : ∃ k x, elseForm (w' ++ c :: r) = some (k, x) := by
    obtain ⟨kw, h1, h2⟩ := hlow
    have := elseKeyword_hit (v := r) h1 hc
    unfold elseForm
    rcases h2 with rfl | rfl | rfl <;> rw [this]
    · cases elseKeyword ['i', 'f', 'n', 'd', 'e', 'f'] (w' ++ c :: r) <;>
        cases elseKeyword ['i', 'f', 'd', 'e', 'f'] (w' ++ c :: r) <;> exact ⟨_, _, rfl⟩
    · cases elseKeyword ['i', 'f', 'n', 'd', 'e', 'f'] (w' ++ c :: r) <;> exact ⟨_, _, rfl⟩
    · exact ⟨_, _, rfl⟩
  obtain ⟨k, x, hs⟩ := hsome
  obtain ⟨d', w'', c', r', h1, h2, h3, h4, h5⟩ := elseForm_some hs
  obtain ⟨rfl, rfl, rfl⟩ := word_cut (elseWord_noSpace h) (elseWord_noSpace h1) hc h3 h4
  rw [hs, h2, h5]

/-- What a line says is what the program reads. -/
theorem says_raw {line k v : Str} (h : SaysWord line k v) : rawDirective line = some (k, v) := by
  cases h with
  | word b w b' _ b'' hb hw1 hw2 hw3 hb' hb'' hv hne =>
    have hm := matchDirective_word (b := b) (w := w) (rest := b' ++ v ++ b'') hb hw2 hw1 (rest_space hb' hb'' hne)
    rw [trimmed_pad hb' hb'' hv] at hm
    have he : b ++ w ++ b' ++ v ++ b'' = b ++ w ++ (b' ++ v ++ b'') := by simp
    rw [he, rawDirective_of hm, if_neg (show ¬ toUpper w = wELSE from hw3)]
  | «else» b w b' _ b'' hb hk hb' hb'' hv hne hno =>
    have hm := matchDirective_word (b := b) (w := w) (rest := b' ++ v ++ b'') hb (word_noSpace hk (by decide))
      (by rintro rfl; cases hk) (rest_space hb' hb'' hne)
    rw [trimmed_pad hb' hb'' hv] at hm
    have he : b ++ w ++ b' ++ v ++ b'' = b ++ w ++ (b' ++ v ++ b'') := by simp
    rw [he, rawDirective_of hm, if_pos (show toUpper w = wELSE from hk), hk]
    cases hf : elseForm v with
    | none => rfl
    | some y =>
      obtain ⟨k, x⟩ := y
      obtain ⟨d', w'', c', r', h1, h2, h3, h4, h5⟩ := elseForm_some hf
      exact absurd h4 (hno d' w'' c' r' h1 h3)
  | elseIf b w b1 w' b2 _ b3 _ hb hk hb1 hn1 hk' hb2 hn2 hv hnv hb3 =>
    have hw' := elseWord_noSpace hk'
    have hne' : w' ≠ [] := by
      rintro rfl
      rcases (elseWord_spec hk').2 with h | h | h <;> cases h
    obtain ⟨c2, b2', rfl⟩ := List.exists_cons_of_ne_nil hn2
    have hin : NoOuter (w' ++ (c2 :: b2' ++ v)) := by
      constructor
      · intro c r h
        cases w' with
        | nil => exact absurd rfl hne'
        | cons x w' => simp only [List.cons_append, List.cons.injEq] at h; rw [← h.1]; exact hw' x (by simp)
      · intro c r h
        rcases List.eq_nil_or_concat v with rfl | ⟨v', c', rfl⟩
        · exact absurd rfl hnv
        · have : c' = c := by
            rw [List.concat_eq_append, ← List.append_assoc, ← List.append_assoc] at h
            exact (List.append_inj_right' h rfl) |> fun h => by simpa using h
          rw [← this]
          exact hv.2 c' v' (by simp)
    have hm := matchDirective_word (b := b) (w := w) (rest := b1 ++ (w' ++ (c2 :: b2' ++ v)) ++ b3) hb (word_noSpace hk (by decide))
      (by rintro rfl; cases hk) (rest_space hb1 hb3 (fun _ => hn1))
    rw [trimmed_pad hb1 hb3 hin] at hm
    have he : b ++ w ++ b1 ++ w' ++ (c2 :: b2') ++ v ++ b3 = b ++ w ++ (b1 ++ (w' ++ (c2 :: b2' ++ v)) ++ b3) := by simp
    have hf : elseForm (w' ++ (c2 :: b2' ++ v)) = some (toUpper w', v) := by
      rw [List.cons_append, elseForm_hit hk' (hb2 c2 (by simp))]
      have : trimLeft (c2 :: (b2' ++ v)) = v := by
        rw [trimLeft, ← List.cons_append, dropWhile_blanks hb2]
        exact trimLeft_tight hv
      rw [this]
    rw [he, rawDirective_of hm, if_pos (show toUpper w = wELSE from hk), hf, hk]
  | oldStyle w c _ hk hc hv =>
    have hl : w.length = 7 := by
      have := congrArg List.length hk
      simpa [toUpper] using this
    have hlow : toLower w = c!"include" := by rw [← toLower_toUpper, hk]; decide
    obtain ⟨x, w', rfl⟩ : ∃ x w', w = x :: w' := by cases w with | nil => cases hl | cons x w' => exact ⟨x, w', rfl⟩
    have hx : toUpperC x = 'I' := by simp [toUpper] at hk; exact hk.1
    have hxs : isSpaceOrTab x = false := by
      have := word_noSpace hk (by decide) x (by simp)
      simp only [isSpace, Bool.or_eq_false_iff, Bool.and_eq_false_iff, decide_eq_false_iff_not, beq_eq_false_iff_ne] at this
      simp only [isSpaceOrTab, Bool.or_eq_false_iff, beq_eq_false_iff_ne]
      refine ⟨this.1, ?_⟩
      rintro rfl
      revert this
      decide
    have hxb : x ≠ '!' := by rintro rfl; revert hx; decide
    have h9 : 8 < (x :: w' ++ c :: v).length := by
      have := List.length_pos_iff.2 hv
      simp only [List.length_append, List.length_cons] at hl ⊢
      omega
    have h7 : (x :: w' ++ c :: v)[7]? = some c := by
      rw [List.getElem?_append_right (by omega), hl]; rfl
    have ht : (x :: w' ++ c :: v).take 7 = x :: w' := by rw [← hl, List.take_left]
    have hdr : (x :: w' ++ c :: v).drop 8 = v := by
      rw [show 8 = (x :: w').length + 1 by omega, List.drop_append]
      simp
    unfold rawDirective
    simp only [List.cons_append] at h7 ht hdr h9 ⊢
    rw [hxs, if_neg (by simp), if_pos ⟨hxb, h9⟩, h7, ht, hlow, hdr, if_pos ⟨hc, rfl⟩]
    rfl

theorem mem_takeWhile' {p : Char → Bool} {l : Str} {c : Char} (h : c ∈ l.takeWhile p) : p c = true := by
  have := List.all_takeWhile (l := l) (p := p)
  rw [List.all_eq_true] at this
  exact this c h

theorem dropWhile_head {p : Char → Bool} {l : Str} {c : Char} {r : Str} (h : l.dropWhile p = c :: r) : p c = false := by
  induction l with
  | nil => cases h
  | cons a l ih =>
    rw [List.dropWhile_cons] at h
    by_cases ha : p a = true
    · rw [if_pos ha] at h; exact ih h
    · rw [if_neg ha] at h; cases h; simpa using ha

theorem trimmed_noOuter (s : Str) : NoOuter (trimmed s) := by
  constructor
  · intro c r h
    have h1 : trimLeft s = trimmed s ++ ((trimLeft s).reverse.takeWhile isSpace).reverse := by
      unfold trimmed trimRight
      rw [← List.reverse_append, List.takeWhile_append_dropWhile, List.reverse_reverse]
    rw [h] at h1
    exact dropWhile_head h1
  · intro c r h
    unfold trimmed trimRight at h
    have := congrArg List.reverse h
    rw [List.reverse_reverse, List.reverse_append] at this
    exact dropWhile_head this

theorem ite_or {α : Type} (c : Prop) [Decidable c] (a b : α) {d : α} (h : (if c then a else b) = d) : (c ∧ a = d) ∨ b = d := by
  by_cases hc : c
  · rw [if_pos hc] at h; exact .inl ⟨hc, h⟩
  · rw [if_neg hc] at h; exact .inr h

theorem dirOf_keyword {k : Str} {d : Dir} (h : dirOf k = d) (hd : d ≠ .unknown) : keyword d = some k := by
  unfold dirOf at h
  iterate 13
    rcases ite_or _ _ _ h with ⟨rfl, rfl⟩ | h'
    · rfl
    replace h := h'
  exact absurd h.symm hd

theorem matchDirective_split {line k v : Str} (h : matchDirective line = some (k, v)) :
    ∃ b w b' b'', line = '!' :: (b ++ w ++ b' ++ v ++ b'') ∧ Spaces b ∧ toUpper w = k ∧ (w ≠ [] ∧ ∀ c ∈ w, isSpace c = false) ∧ Spaces b' ∧ Spaces b'' ∧ NoOuter v ∧
      (v ≠ [] → b' ≠ []) := by
  unfold matchDirective at h
  split at h
  · rename_i s
    simp only at h
    split at h
    · cases h
    · rename_i hwn
      simp only [Option.some.injEq, Prod.mk.injEq] at h
      obtain ⟨h1, h2⟩ := h
      obtain ⟨b', b'', h3, h4, h5⟩ := trimmed_split ((trimLeft s).dropWhile fun c => !isSpace c)
      have h6 := trimmed_noOuter ((trimLeft s).dropWhile fun c => !isSpace c)
      rw [h2] at h3 h6
      refine ⟨s.takeWhile isSpace, (trimLeft s).takeWhile fun c => !isSpace c, b', b'', ?_, ?_, h1, ⟨by simpa using hwn, fun c hc => by simpa using mem_takeWhile' hc⟩,
        h4, h5, h6, ?_⟩
      · congr 1
        have e1 : s = s.takeWhile isSpace ++ trimLeft s := (List.takeWhile_append_dropWhile (p := isSpace) (l := s)).symm
        have e2 := (List.takeWhile_append_dropWhile (p := fun c => !isSpace c) (l := trimLeft s)).symm
        conv => lhs; rw [e1, e2, h3]
        simp
      · intro c hc
        exact mem_takeWhile' hc
      · rintro hv rfl
        cases v with
        | nil => exact hv rfl
        | cons c v =>
          have hc := h6.1 c v rfl
          rw [List.nil_append] at h3
          have := dropWhile_head h3
          rw [hc] at this
          cases this
  · cases h

/-- What the program reads is what the line says. -/
theorem raw_says {line : Str} {k v : Str} (h : rawDirective line = some (k, v)) : SaysWord line k v := by
  cases line with
  | nil => cases h
  | cons c s =>
    unfold rawDirective at h
    simp only at h
    by_cases h1 : isSpaceOrTab c = true
    · rw [if_pos h1] at h; cases h
    · rw [if_neg h1] at h
      by_cases h2 : c ≠ '!' ∧ 8 < (c :: s).length
      · rw [if_pos h2] at h
        generalize c :: s = line at h h2
        split at h
        · rename_i h3
          cases h
          have hl := h2.2
          have h7 : 7 < line.length := by omega
          have hcut : line = line.take 7 ++ line[7] :: line.drop 8 := by
            conv => lhs; rw [← List.take_append_drop 7 line, List.drop_eq_getElem_cons h7]
          have hb : isSpaceOrTab line[7] = true := by
            have := h3.1
            rw [List.getElem?_eq_getElem h7] at this
            exact this
          have hs := SaysWord.oldStyle (line.take 7) line[7] (line.drop 8) (by rw [toUpper_toLower h3.2]; decide) hb
            (by intro h; have := congrArg List.length h; simp only [List.length_drop, List.length_nil] at this; omega)
          rwa [← hcut] at hs
        · cases h
      · rw [if_neg h2] at h
        cases hm : matchDirective (c :: s) with
        | none => rw [hm] at h; cases h
        | some y =>
          obtain ⟨d, v'⟩ := y
          rw [hm] at h
          simp only at h
          obtain ⟨b, w, b', b'', hline, hb, hw, hwn, hb', hb'', hv, hne⟩ := matchDirective_split hm
          rw [hline]
          by_cases he : d = wELSE
          · rw [if_pos he] at h
            cases hf : elseForm v' with
            | none =>
              rw [hf] at h
              simp only [Option.some.injEq, Prod.mk.injEq] at h
              obtain ⟨rfl, rfl⟩ := h
              rw [he]
              refine .else b w b' v' b'' hb (hw.trans he) hb' hb'' hv hne ?_
              rintro d' w' c' r hk hc rfl
              rw [elseForm_hit hk hc] at hf
              cases hf
            | some y =>
              obtain ⟨kw, x⟩ := y
              rw [hf] at h
              simp only [Option.some.injEq, Prod.mk.injEq] at h
              obtain ⟨rfl, rfl⟩ := h
              obtain ⟨d', w', c', r', g1, g2, g3, g4, g5⟩ := elseForm_some hf
              rw [he, ← g2]
              have hsplit : c' :: r' = (c' :: r').takeWhile isSpace ++ x := by
                rw [g5]; exact (List.takeWhile_append_dropWhile (p := isSpace) (l := c' :: r')).symm
              have hb1 : b' ≠ [] := hne (by rw [g4]; simp)
              have hxne : x ≠ [] := by
                rintro rfl
                rw [List.append_nil] at hsplit
                rcases List.eq_nil_or_concat (c' :: r') with h | ⟨l, z, h⟩
                · cases h
                · have hz : isSpace z = true := by
                    have hm : z ∈ (c' :: r').takeWhile isSpace := by rw [← hsplit, h]; simp
                    exact mem_takeWhile' hm
                  have := hv.2 z (w' ++ l) (by rw [g4, h]; simp)
                  rw [this] at hz
                  cases hz
              have hxv : NoOuter x := by
                constructor
                · intro z l hz
                  have e : (c' :: r').dropWhile isSpace = z :: l := by rw [← hz, g5]; rfl
                  exact dropWhile_head e
                · intro z l hz
                  refine hv.2 z (w' ++ ((c' :: r').takeWhile isSpace ++ l)) ?_
                  rw [hz] at hsplit
                  conv => lhs; rw [g4, hsplit]
                  simp
              have hs := SaysWord.elseIf b w b' w' ((c' :: r').takeWhile isSpace) x b'' d' hb (hw.trans he) hb' hb1 g1
                (by intro z hz; exact mem_takeWhile' hz) (by simp [g3]) hxv hxne hb''
              have hre : b ++ w ++ b' ++ v' ++ b'' = b ++ w ++ b' ++ w' ++ (c' :: r').takeWhile isSpace ++ x ++ b'' := by
                rw [g4]
                conv => lhs; rw [hsplit]
                simp
              rw [hre]
              exact hs
          · rw [if_neg he] at h
            cases h
            rw [← hw]
            exact .word b w b' v b'' hb hwn.1 hwn.2 (by rw [hw]; exact he) hb' hb'' hv hne

theorem saysWord_iff {line k v : Str} : SaysWord line k v ↔ rawDirective line = some (k, v) := ⟨says_raw, raw_says⟩

theorem keyword_iff {d : Dir} {k : Str} (hd : d ≠ .unknown) : keyword d = some k ↔ dirOf k = d :=
  ⟨fun h => (keyword_dirOf h).1, fun h => dirOf_keyword h hd⟩

theorem keyword_known {d : Dir} {k : Str} (h : keyword d = some k) : d ≠ .unknown := by rintro rfl; cases h

/-- The directive a line stands for. -/
theorem says_iff {line : Str} {d : Dir} {v : Str} (hd : d ≠ .unknown) :
    Says line d v ↔ ∃ k, rawDirective line = some (k, v) ∧ dirOf k = d := by
  unfold Says
  simp only [keyword_iff hd, saysWord_iff, and_comm]

/-! ### Lines -/

theorem joinDirective_eq (x y : MLine) : joinDirective x y = proceed x y := rfl

theorem joinLines_eq (p x : MLine) : joinLines p x = follow p x := by
  unfold joinLines follow glue; cases p.cont <;> rfl

theorem trimmed_iff' {s t : Str} : trimmed s = t ↔ Trimmed s t := by
  constructor
  · rintro rfl
    obtain ⟨a, b, h1, h2, h3⟩ := trimmed_split s
    exact ⟨a, b, h1, h2, h3, trimmed_noOuter s⟩
  · rintro ⟨b, b', rfl, h1, h2, h3⟩
    exact trimmed_pad h1 h2 h3

theorem uncommented_iff {s t : Str} : removeInlineComments s = t ↔ Uncommented s t := by
  constructor
  · rintro rfl
    rcases Props.C12_cases s with h | ⟨a, b, rfl, h1, h2⟩
    · rw [Props.C12_no_comment s h]; exact .none s h
    · rw [Props.C12_comment_removed a b h1 h2]
      exact .comment a b _ h1 h2 (trimmed_iff'.1 rfl)
  · intro h
    cases h with
    | none _ h => exact Props.C12_no_comment s h
    | comment a b _ h1 h2 h3 => rw [Props.C12_comment_removed a b h1 h2]; exact trimmed_iff'.2 h3

/-- What the program takes a line for is what the line says. -/
theorem directive_iff {m : Macros} {t : Str} {r : Option (Str × Str)} : Directive m t r ↔ directiveOf m t = .ok r := by
  unfold directiveOf isDirective
  constructor
  · rintro (⟨e, h1, h2⟩ | ⟨e, k, v0, v1, v, h1, h2, h3, h4⟩)
    · rw [expanded_iff.1 h1]
      cases hr : rawDirective e with
      | none => simp only [hr]
      | some y => exact absurd (raw_says hr) (h2 y.1 y.2)
    · simp only [expanded_iff.1 h1, says_raw h2, expanded_iff.1 h3, uncommented_iff.2 h4]
  · intro h
    cases he : expandMacros m t with
    | error x => simp [he] at h
    | ok e =>
      simp only [he] at h
      cases hr : rawDirective e with
      | none =>
        simp only [hr, Except.ok.injEq] at h
        subst h
        exact .none e (expanded_iff.2 he) fun k v hs => by rw [says_raw hs] at hr; cases hr
      | some y =>
        obtain ⟨k, v0⟩ := y
        simp only [hr] at h
        cases hv : expandMacros m v0 with
        | error x => simp [hv] at h
        | ok v1 =>
          simp only [hv, Except.ok.injEq] at h
          subst h
          exact .some e k v0 v1 _ (expanded_iff.2 he) (raw_says hr) (expanded_iff.2 hv) (uncommented_iff.1 rfl)

theorem roleOf_iff {k : Str} {tok : Tok} : RoleOf k tok ↔ tokOf k = tok := by
  unfold tokOf
  constructor
  · rintro (_ | r | r | ⟨_, h1, h2, h3⟩)
    · rfl
    · rfl
    · rfl
    · rw [if_neg (show ¬ k = wENDIF from h1), if_neg, if_neg]
      · intro h; obtain ⟨r, hr⟩ := List.isPrefixOf_iff_prefix.1 h; exact h3 r hr.symm
      · intro h; obtain ⟨r, hr⟩ := List.isPrefixOf_iff_prefix.1 h; exact h2 r hr.symm
  · intro h
    by_cases h1 : k = wENDIF
    · rw [if_pos h1] at h; subst h1 h; exact .endif
    · rw [if_neg h1] at h
      by_cases h2 : startsWith k wIF = true
      · rw [if_pos h2] at h
        obtain ⟨r, rfl⟩ := List.isPrefixOf_iff_prefix.1 h2
        subst h
        exact .if r
      · rw [if_neg h2] at h
        by_cases h3 : startsWith k wELSE = true
        · rw [if_pos h3] at h
          obtain ⟨r, rfl⟩ := List.isPrefixOf_iff_prefix.1 h3
          subst h
          exact .else r
        · rw [if_neg h3] at h
          subst h
          refine .other k h1 ?_ ?_
          · rintro r rfl; exact h2 (List.isPrefixOf_iff_prefix.2 ⟨r, rfl⟩)
          · rintro r rfl; exact h3 (List.isPrefixOf_iff_prefix.2 ⟨r, rfl⟩)

/-- The role of a line that is passed over. -/
theorem role_iff {m : Macros} {t : Str} {tok : Tok} : Role m t tok ↔ ∃ e, skippedTok m t = .ok (tok, e) := by
  unfold Role
  simp only [directive_iff, roleOf_iff]
  unfold skippedTok directiveOf
  cases he : expandMacros m t with
  | error x => simp
  | ok e =>
    simp only
    rcases isDirective m e with x | (_ | ⟨k, v⟩)
    · simp
    · simp [eq_comm]
    · simp

theorem startsMacro_iff (c : Char) : startsMacro c = true ↔ BeginsName c := by
  simp only [startsMacro, BeginsName, isLetter, isDigit, Char.le_def, UInt32.le_iff_toNat_le, Char.toNat, Bool.or_eq_true, Bool.and_eq_true,
    beq_iff_eq, decide_eq_true_eq]
  grind

theorem findEquals_iff (s : Str) : ∀ (i : Nat) (pre : Str) (k : Nat),
    findEquals s i ((pre.count '(' : Int) - pre.count ')') = some k ↔
      ∃ a b, s = a ++ '=' :: b ∧ k = i + a.length ∧ Level (pre ++ a) ∧
        ∀ p x q, a = p ++ x :: q → x = '=' ∨ x = ':' → ¬ Level (pre ++ p) := by
  induction s with
  | nil => intro i pre k; simp [findEquals]
  | cons c s ih =>
    intro i pre k
    have step : ∀ d : Int, d = (((pre ++ [c]).count '(' : Nat) : Int) - ((pre ++ [c]).count ')' : Nat) →
        (c = '=' ∨ c = ':' → ¬ Level pre) →
        (findEquals s (i + 1) d = some k ↔ ∃ a b, c :: s = a ++ '=' :: b ∧ k = i + a.length ∧ Level (pre ++ a) ∧
          ∀ p x q, a = p ++ x :: q → x = '=' ∨ x = ':' → ¬ Level (pre ++ p)) := by
      intro d hd hc
      rw [hd, ih]
      constructor
      · rintro ⟨a, b, rfl, rfl, h1, h2⟩
        refine ⟨c :: a, b, rfl, by simp; omega, by simpa using h1, ?_⟩
        intro p x q hp hx
        cases p with
        | nil =>
          simp only [List.nil_append, List.cons.injEq] at hp
          obtain ⟨rfl, _⟩ := hp
          simpa using hc hx
        | cons y p =>
          simp only [List.cons_append, List.cons.injEq] at hp
          obtain ⟨rfl, hp⟩ := hp
          simpa using h2 p x q hp hx
      · rintro ⟨a, b, h1, h2, h3, h4⟩
        cases a with
        | nil =>
          simp only [List.nil_append, List.cons.injEq] at h1
          simp only [List.append_nil] at h3
          exact absurd h3 (hc (.inl h1.1))
        | cons y a =>
          simp only [List.cons_append, List.cons.injEq] at h1
          obtain ⟨rfl, rfl⟩ := h1
          refine ⟨a, b, rfl, by simp at h2; omega, by simpa using h3, ?_⟩
          intro p x q hp hx
          have := h4 (c :: p) x q (by simp [hp]) hx
          simpa using this
    unfold findEquals
    split
    · rename_i h
      simp only [beq_iff_eq] at h
      subst h
      exact step _ (by simp [List.count_append]; omega) (by simp)
    · rename_i h1
      split
      · rename_i h
        simp only [beq_iff_eq] at h
        subst h
        exact step _ (by simp [List.count_append]; omega) (by simp)
      · rename_i h2
        have hk : (((pre ++ [c]).count '(' : Nat) : Int) - ((pre ++ [c]).count ')' : Nat) = pre.count '(' - pre.count ')' := by
          simp only [beq_iff_eq] at h1 h2
          simp [List.count_append, h1, h2]
        split
        · rename_i hz
          have hl : Level pre := by simp only [Level]; omega
          split
          · rename_i he
            simp only [beq_iff_eq] at he
            subst he
            constructor
            · intro h
              simp only [Option.some.injEq] at h
              exact ⟨[], s, rfl, by simp [h], by simpa using hl, by simp⟩
            · rintro ⟨a, b, e1, e2, e3, e4⟩
              cases a with
              | nil => simp [e2]
              | cons y a =>
                simp only [List.cons_append, List.cons.injEq] at e1
                obtain ⟨rfl, rfl⟩ := e1
                exact absurd (by simpa using hl) (e4 [] '=' a rfl (.inl rfl))
          · rename_i he
            split
            · rename_i hc
              simp only [beq_iff_eq] at hc
              subst hc
              constructor
              · intro h; cases h
              · rintro ⟨a, b, e1, e2, e3, e4⟩
                cases a with
                | nil => simp at e1
                | cons y a =>
                  simp only [List.cons_append, List.cons.injEq] at e1
                  obtain ⟨rfl, rfl⟩ := e1
                  exact absurd (by simpa using hl) (e4 [] ':' a rfl (.inr rfl))
            · rename_i hc
              simp only [beq_iff_eq] at he hc
              exact step _ hk.symm (by simp [he, hc])
        · rename_i hz
          have hl : ¬ Level pre := by simp only [Level]; omega
          exact step _ hk.symm (fun _ => hl)

/-- What the program takes for a definition is what the line defines. -/
theorem defines_iff {line n v : Str} : LineDefines line n v ↔ macroDefinition line = some (n, v) := by
  symm
  unfold macroDefinition
  cases line with
  | nil => simp [LineDefines]
  | cons c s =>
    simp only
    have hf := findEquals_iff s 1 []
    simp only [List.count_nil, Int.ofNat_zero, Int.sub_self, List.nil_append] at hf
    split
    · rename_i hc
      rw [startsMacro_iff] at hc
      cases hfe : findEquals s 1 0 with
      | none =>
        simp only [reduceCtorEq, false_iff]
        rintro ⟨c', a, b, u, h1, h2, h3, h4, -⟩
        simp only [List.cons.injEq] at h1
        have := (hf (1 + a.length)).2 ⟨a, b, h1.2, rfl, h3, h4⟩
        rw [hfe] at this
        cases this
      | some k =>
        obtain ⟨a, b, rfl, rfl, h3, h4⟩ := (hf k).1 hfe
        have e1 : (c :: (a ++ '=' :: b)).take (1 + a.length) = c :: a := by rw [Nat.add_comm]; simp
        have e2 : (c :: (a ++ '=' :: b)).drop (1 + a.length + 1) = b := by
          rw [Nat.add_comm 1]
          simp only [List.drop_succ_cons]
          rw [show a ++ '=' :: b = (a ++ ['=']) ++ b by simp]
          exact List.drop_left' (by simp)
        simp only [e1, e2, Option.some.injEq, Prod.mk.injEq, trimmed_iff', uncommented_iff]
        constructor
        · rintro ⟨h5, h6⟩
          exact ⟨c, a, b, _, rfl, hc, h3, h4, h5, trimmed_iff'.1 rfl, h6⟩
        · rintro ⟨c', a', b', u, h1, _, h3', h4', h5, h6, h7⟩
          simp only [List.cons.injEq] at h1
          obtain ⟨rfl, h1⟩ := h1
          have hk := (hf (1 + a'.length)).2 ⟨a', b', h1, rfl, h3', h4'⟩
          have hk' := (hf (1 + a.length)).2 ⟨a, b, rfl, rfl, h3, h4⟩
          rw [hk] at hk'
          simp only [Option.some.injEq] at hk'
          obtain ⟨rfl, h⟩ := List.append_inj h1 (by omega)
          simp only [List.cons.injEq, true_and] at h
          subst h
          exact ⟨h5, trimmed_iff'.2 h6 ▸ h7⟩
    · rename_i hc
      rw [startsMacro_iff] at hc
      simp only [reduceCtorEq, false_iff]
      rintro ⟨c', a, b, u, h1, h2, -⟩
      simp only [List.cons.injEq] at h1
      exact hc (h1.1 ▸ h2)

theorem noDefinition_iff {line : Str} : NoDefinition line ↔ macroDefinition line = none := by
  unfold NoDefinition
  simp only [defines_iff]
  cases macroDefinition line with
  | none => simp
  | some y => simp only [reduceCtorEq, iff_false]; exact fun h => h y.1 y.2 rfl

end Jom.PP
