import Verif.Proofs.PPExec
import Verif.Proofs.Replace

/-! Accepted makefiles are balanced (C18). -/

namespace Jom.PP
open Jom.Spec

/-- All lines still to come, of all files. -/
def pend (s : St) : List MLine := (s.files.map fun f => linesOf f.rest).flatten

/-- Normal mode, nothing put back. -/
structure Plain (s : St) : Prop where
  inline : s.inline = false
  putBack : s.putBack = []

theorem readFiles_pend (fs : List TextFile) :
    match (fs.map fun f => linesOf f.rest).flatten with
    | [] => readFiles false fs = ({}, [])
    | l :: ls => ∃ g, readFiles false fs = (l, g) ∧ (g.map fun f => linesOf f.rest).flatten = ls ∧ l.content.isNone = false := by
  induction fs with
  | nil => rfl
  | cons f fs ih =>
    rw [List.map_cons, List.flatten_cons]
    cases hl : linesOf f.rest with
    | nil =>
      have hr : (readerLine false f.rest).1.content.isNone = true := linesOf_nil hl
      have : readFiles false (f :: fs) = readFiles false fs := by rw [readFiles]; simp only [hr, if_true]
      rw [this]; exact ih
    | cons l ls =>
      obtain ⟨a, b, c, _⟩ := linesOf_cons hl
      have hr : readerLine false f.rest = readLineU f.rest := rfl
      refine ⟨{ f with rest := (readLineU f.rest).2 } :: fs, ?_, ?_, c⟩
      · rw [readFiles]; simp only [hr, a, c, Bool.false_eq_true, if_false]
      · rw [List.map_cons, List.flatten_cons, b]; rfl

theorem read_nil {s : St} (h : Plain s) (hp : pend s = []) : basicReadLine s = ({}, { s with files := [] }) := by
  have := readFiles_pend s.files
  unfold pend at hp
  rw [hp] at this
  unfold basicReadLine
  rw [h.putBack, h.inline, this]

theorem read_cons {s : St} {l : MLine} {ls : List MLine} (h : Plain s) (hp : pend s = l :: ls) :
    ∃ g, basicReadLine s = (l, { s with files := g }) ∧ pend { s with files := g } = ls ∧ l.content.isNone = false := by
  have := readFiles_pend s.files
  unfold pend at hp
  rw [hp] at this
  obtain ⟨g, h1, h2, h3⟩ := this
  refine ⟨g, ?_, h2, h3⟩
  unfold basicReadLine
  rw [h.putBack, h.inline, h1]

theorem complete_pend {x : MLine} {s : St} {t : Str} {rest : List MLine} (h : Plain s)
    (hj : joinUnit x (pend s) = (t, rest)) :
    ∃ g, (complete x s).2 = { s with files := g } ∧ (complete x s).1.content.getD [] = t ∧ pend { s with files := g } = rest := by
  generalize hp : pend s = ls at hj
  induction ls generalizing x s with
  | nil =>
    simp only [joinUnit, Prod.mk.injEq] at hj
    rw [complete_eq]
    by_cases hc : isComplete x = true
    · rw [if_pos hc]; exact ⟨s.files, rfl, hj.1, hp.trans hj.2⟩
    · rw [if_neg hc, read_nil h hp]
      exact ⟨[], rfl, hj.1, hj.2⟩
  | cons y ls ih =>
    rw [complete_eq]
    rw [joinUnit] at hj
    by_cases hc : x.cont = .none
    · rw [if_pos hc] at hj
      simp only [Prod.mk.injEq] at hj
      rw [if_pos (by simp [isComplete, hc])]
      exact ⟨s.files, rfl, hj.1, hp.trans hj.2⟩
    · rw [if_neg hc] at hj
      rw [if_neg (by simp [isComplete, hc])]
      obtain ⟨g, h1, h2, h3⟩ := read_cons h hp
      rw [h1]
      simp only [h3, Bool.false_eq_true, if_false]
      obtain ⟨g', h4, h5, h6⟩ := ih (s := { s with files := g }) ⟨h.inline, h.putBack⟩ h2 hj
      exact ⟨g', h4, h5, h6⟩

/-! ### Lines put back -/

/-- The line starts with `!`, blanks and `ELSE`. -/
def ElseLine (e : Str) : Prop :=
  ∃ bl a r, e = '!' :: (bl ++ (a ++ r)) ∧ (∀ c ∈ bl, isSpace c = true) ∧ toUpper a = wELSE

theorem space_not_dollar {c : Char} (h : isSpace c = true) : c ≠ '$' := by
  intro hc; subst hc; exact absurd h (by decide)

theorem expand_prefix {m : Macros} (a s : Str) (h : '$' ∉ a) {e : Str} (he : expandMacros m (a ++ s) = .ok e) :
    ∃ r, e = a ++ r ∧ expandMacros m s = .ok r := by
  induction a generalizing e with
  | nil => exact ⟨e, rfl, he⟩
  | cons c a ih =>
    unfold expandMacros at he ih ⊢
    rw [List.cons_append, expandU_lit _ _ _ _ _ (by intro hc; exact h (by simp [hc]))] at he
    generalize hx : expandU m false [] (a ++ s) = x at he
    cases x with
    | error _ => cases he
    | ok r =>
      cases he
      obtain ⟨r', h1, h2⟩ := ih (fun hd => h (by simp [hd])) hx
      exact ⟨r', by rw [h1]; rfl, h2⟩

theorem upper_not_dollar {a : Str} (h : toUpper a = wELSE) : '$' ∉ a := by
  intro hd
  have : toUpperC '$' ∈ toUpper a := by unfold toUpper; exact List.mem_map_of_mem hd
  rw [h] at this
  exact absurd this (by decide)

theorem ElseLine.expand {m : Macros} {e e' : Str} (h : ElseLine e) (he : expandMacros m e = .ok e') : ElseLine e' := by
  obtain ⟨bl, a, r, rfl, hb, ha⟩ := h
  have : '$' ∉ '!' :: (bl ++ a) := by
    intro hd
    rcases List.mem_cons.1 hd with hd | hd
    · exact absurd hd (by decide)
    · rcases List.mem_append.1 hd with hd | hd
      · exact space_not_dollar (hb _ hd) rfl
      · exact upper_not_dollar ha hd
  rw [show '!' :: (bl ++ (a ++ r)) = ('!' :: (bl ++ a)) ++ r by simp] at he
  obtain ⟨r', h1, _⟩ := expand_prefix _ _ this he
  exact ⟨bl, a, r', by rw [h1]; simp, hb, ha⟩

theorem dirOf_else {d : Str} (h : startsWith d wELSE = true) :
    dirOf d = .else ∨ isElseIf (dirOf d) ∨ dirOf d = .unknown := by
  generalize hx : dirOf d = x
  by_cases hu : x = .unknown
  · exact .inr (.inr hu)
  · have := dirOf_word hx hu
    rw [this] at h
    revert h
    cases x <;> first | exact absurd rfl hu | (intro h; exact absurd h (by decide)) | simp [isElseIf]

theorem takeWhile_append_all {p : Char → Bool} (a r : Str) (h : ∀ c ∈ a, p c = true) :
    (a ++ r).takeWhile p = a ++ r.takeWhile p := by
  induction a with
  | nil => rfl
  | cons c a ih =>
    rw [List.cons_append, List.takeWhile_cons, if_pos (h c (by simp)), ih fun d hd => h d (by simp [hd])]
    rfl

theorem upper_not_space {a : Str} (h : toUpper a = wELSE) : ∀ c ∈ a, isSpace c = false := by
  intro c hc
  cases hs : isSpace c with
  | false => rfl
  | true =>
    have h1 : toUpperC c ∈ toUpper a := by unfold toUpper; exact List.mem_map_of_mem hc
    rw [h] at h1
    have h2 : toUpperC c = c := by
      unfold toUpperC
      rw [if_neg]
      unfold isSpace at hs
      intro hh
      simp only [Bool.or_eq_true, beq_iff_eq, Bool.and_eq_true, decide_eq_true_eq] at hs
      rcases hs with hs | hs
      · subst hs; exact absurd hh (by decide)
      · omega
    rw [h2] at h1
    simp only [wELSE, List.mem_cons, List.not_mem_nil, or_false] at h1
    rcases h1 with rfl | rfl | rfl | rfl <;> exact absurd hs (by decide)

theorem startsWith_append (a r : Str) : startsWith (a ++ r) a = true := by
  unfold startsWith
  exact isPrefixOf_iff_append.2 ⟨r, rfl⟩

theorem elseForm_prefix {d v kw v' : Str} (_ : elseForm v = some (kw, v')) (h : startsWith d wELSE = true) :
    startsWith (d ++ kw) wELSE = true := by
  unfold startsWith at *
  obtain ⟨t, ht⟩ := isPrefixOf_iff_append.1 h
  exact isPrefixOf_iff_append.2 ⟨t ++ kw, by rw [ht]; simp⟩

theorem rawDirective_bang (s : Str) : rawDirective ('!' :: s) =
    match matchDirective ('!' :: s) with
    | none => none
    | some (d, v) =>
      if d = wELSE then
        match elseForm v with
        | some (kw, v) => some (d ++ kw, v)
        | none => some (d, v)
      else some (d, v) := by
  unfold rawDirective
  simp only [show isSpaceOrTab '!' = false by decide, Bool.false_eq_true, if_false, ne_eq, not_true, false_and]
  generalize matchDirective ('!' :: s) = x
  rcases x with _ | ⟨d, v⟩
  · rfl
  · simp only
    generalize elseForm v = y
    rcases y with _ | ⟨a, b⟩ <;> rfl

theorem ElseLine.raw {e d v : Str} (h : ElseLine e) (hr : rawDirective e = some (d, v)) : startsWith d wELSE = true := by
  obtain ⟨bl, a, r, rfl, hb, ha⟩ := h
  rw [rawDirective_bang] at hr
  have hns := upper_not_space ha
  have htl : trimLeft (bl ++ (a ++ r)) = a ++ r := by
    unfold trimLeft
    rw [dropWhile_blanks hb]
    cases a with
    | nil => cases ha
    | cons c a => rw [List.cons_append, List.dropWhile_cons, hns c (by simp)]; rfl
  have hw : (a ++ r).takeWhile (fun c => !isSpace c) = a ++ r.takeWhile fun c => !isSpace c :=
    takeWhile_append_all _ _ fun c hc => by rw [hns c hc]; rfl
  have hm : ∃ v', matchDirective ('!' :: (bl ++ (a ++ r))) = some (wELSE ++ toUpper (r.takeWhile fun c => !isSpace c), v') := by
    unfold matchDirective
    simp only [htl, hw]
    rw [if_neg]
    · refine ⟨trimmed ((a ++ r).dropWhile fun c => !isSpace c), ?_⟩
      unfold toUpper at ha ⊢
      rw [List.map_append, ha]
    · cases a with
      | nil => cases ha
      | cons c a => simp
  obtain ⟨v', hm⟩ := hm
  rw [hm] at hr
  simp only at hr
  have hp := startsWith_append wELSE (toUpper (r.takeWhile fun c => !isSpace c))
  by_cases hd : wELSE ++ toUpper (r.takeWhile fun c => !isSpace c) = wELSE
  · rw [if_pos hd] at hr
    cases hf : elseForm v' with
    | none => rw [hf] at hr; cases hr; exact hp
    | some kv => rw [hf] at hr; cases hr; exact elseForm_prefix hf hp
  · rw [if_neg hd] at hr; cases hr; exact hp

theorem elseLine_of_raw {e d v : Str} (hr : rawDirective e = some (d, v)) (hd : startsWith d wELSE = true) : ElseLine e := by
  cases e with
  | nil => cases hr
  | cons c s =>
    by_cases hc : c = '!'
    · subst hc
      rw [rawDirective_bang] at hr
      cases hm : matchDirective ('!' :: s) with
      | none => rw [hm] at hr; cases hr
      | some kv =>
        obtain ⟨k, v0⟩ := kv
        rw [hm] at hr
        simp only at hr
        have hk : startsWith k wELSE = true := by
          by_cases hk : k = wELSE
          · rw [hk]; decide
          · rw [if_neg hk] at hr; cases hr; exact hd
        unfold matchDirective at hm
        simp only at hm
        by_cases hw : ((trimLeft s).takeWhile fun c => !isSpace c).isEmpty = true
        · rw [if_pos hw] at hm; cases hm
        · rw [if_neg hw] at hm
          simp only [Option.some.injEq, Prod.mk.injEq] at hm
          obtain ⟨t, ht⟩ := isPrefixOf_iff_append.1 (show wELSE.isPrefixOf k = true from hk)
          rw [← hm.1] at ht
          refine ⟨s.takeWhile isSpace, (trimLeft s).take 4, (trimLeft s).drop 4, ?_, ?_, ?_⟩
          · rw [List.take_append_drop]
            unfold trimLeft
            rw [List.takeWhile_append_dropWhile]
          · intro c hc
            have := List.all_takeWhile (l := s) (p := isSpace)
            exact List.all_eq_true.1 this c hc
          · generalize trimLeft s = u at ht
            have h4 : (toUpper (u.takeWhile fun c => !isSpace c)).take 4 = wELSE := by rw [ht]; rfl
            unfold toUpper at h4 ⊢
            have h5 : ((u.takeWhile fun c => !isSpace c).map toUpperC).length = 4 + t.length := by
              have := congrArg List.length ht
              unfold toUpper at this
              simp only [List.length_map, List.length_append] at this ⊢
              rw [this]; rfl
            rw [List.length_map] at h5
            rw [← List.map_take] at h4
            have h6 : u.take 4 = (u.takeWhile fun c => !isSpace c).take 4 := by
              have h7 := List.take_append_of_le_length (l₁ := u.takeWhile fun c => !isSpace c)
                (l₂ := u.dropWhile fun c => !isSpace c) (i := 4) (by omega)
              rw [List.takeWhile_append_dropWhile] at h7
              exact h7
            rw [h6, h4]
    · unfold rawDirective at hr
      simp only at hr
      by_cases h1 : isSpaceOrTab c = true
      · rw [if_pos h1] at hr; cases hr
      · rw [if_neg h1] at hr
        by_cases h2 : c ≠ '!' ∧ 8 < (c :: s).length
        · rw [if_pos h2] at hr
          by_cases h3 : ((c :: s)[7]?.map isSpaceOrTab).getD false = true ∧
              toLower ((c :: s).take 7) = ['i', 'n', 'c', 'l', 'u', 'd', 'e']
          · rw [if_pos h3] at hr
            cases hr
            exact absurd hd (by decide)
          · rw [if_neg h3] at hr; cases hr
        · rw [if_neg h2] at hr
          have : matchDirective (c :: s) = none := by
            unfold matchDirective
            split
            · rename_i h; cases h; exact absurd rfl hc
            · rfl
          rw [this] at hr
          cases hr

theorem isDirective_raw {m : Macros} {e d v : Str} (h : isDirective m e = .ok (some (d, v))) :
    ∃ v0, rawDirective e = some (d, v0) := by
  unfold isDirective at h
  generalize rawDirective e = x at h
  rcases x with _ | ⟨d0, v0⟩
  · cases h
  · simp only at h
    generalize expandMacros m v0 = y at h
    cases y with
    | error e => cases h
    | ok y => cases h; exact ⟨v0, rfl⟩

theorem skippedTok_else {m : Macros} {t e : Str} (h : skippedTok m t = .ok (.else, e)) : ElseLine e := by
  unfold skippedTok at h
  generalize expandMacros m t = x at h
  cases x with
  | error _ => cases h
  | ok x =>
    simp only at h
    generalize hy : isDirective m x = y at h
    rcases y with _ | (_ | ⟨d, v⟩)
    · cases h
    · cases h
    · simp only [Except.ok.injEq, Prod.mk.injEq] at h
      obtain ⟨h1, rfl⟩ := h
      obtain ⟨v0, hr⟩ := isDirective_raw hy
      refine elseLine_of_raw hr ?_
      unfold tokOf at h1
      by_cases a1 : d = wENDIF
      · rw [if_pos a1] at h1; cases h1
      · rw [if_neg a1] at h1
        by_cases a2 : startsWith d wIF = true
        · rw [if_pos a2] at h1; cases h1
        · rw [if_neg a2] at h1
          by_cases a3 : startsWith d wELSE = true
          · exact a3
          · rw [if_neg a3] at h1; cases h1

/-- A line put back is never processed as anything but an alternative. -/
theorem ElseLine.dir {m : Macros} {e d v : Str} (h : ElseLine e) (hd : directiveOf m e = .ok (some (d, v))) :
    dirOf d = .else ∨ isElseIf (dirOf d) ∨ dirOf d = .unknown := by
  unfold directiveOf at hd
  generalize hx : expandMacros m e = x at hd
  cases x with
  | error _ => cases hd
  | ok x =>
    obtain ⟨v0, hr⟩ := isDirective_raw hd
    exact dirOf_else ((h.expand hx).raw hr)

theorem isIf_known {d : Dir} (h : isIf d) : d ≠ .unknown := by rcases h with rfl | rfl | rfl <;> decide

theorem isElse_known {d : Dir} (h : d = .else ∨ isElseIf d) : d ≠ .unknown := by rcases h with rfl | rfl | rfl | rfl <;> decide

theorem word_of {k : Str} {d : Dir} (h : dirOf k = d) (hd : d ≠ .unknown) : some k = keyword d := (dirOf_keyword h hd).symm

/-! ### The invariant -/

theorem joinUnit_length (x : MLine) (ls : List MLine) : (joinUnit x ls).2.length ≤ ls.length := by
  induction ls generalizing x with
  | nil => exact Nat.le_refl _
  | cons y ls ih =>
    rw [joinUnit]
    by_cases h : x.cont = .none
    · rw [if_pos h]; exact Nat.le_refl _
    · rw [if_neg h]; exact Nat.le_trans (ih _) (Nat.le_succ _)

/-- Normal mode, and at most an alternative put back, inside a conditional. -/
def Sound (s : St) : Prop :=
  s.inline = false ∧ (s.putBack = [] ∨ ∃ e, s.putBack = [e] ∧ ElseLine e ∧ s.conds ≠ [])

/-- What is still to come is balanced. -/
def BalSt (w : World) (p : MLine) (s : St) : Prop := Bal w s.table s.conds.length p (pend s)

theorem logical_nil {p : MLine} {ls : List MLine} {t : Str} {rest : List MLine} (h : Logical p ls t rest) (hl : ls = []) :
    p.cont ≠ .none := by
  cases h with
  | next => cases hl
  | last hp => exact hp

theorem bal_nil {w : World} {T : MacroTable} {d : Nat} {p : MLine} {ls : List MLine} (h : Bal w T d p ls) (hl : ls = [])
    (hp : p.cont = .none) : d = 0 := by
  cases h with
  | done => rfl
  | directive => cases hl
  | continued => cases hl
  | definition _ _ _ _ _ _ _ _ _ h => exact absurd hp (logical_nil h hl)
  | line _ _ _ _ _ _ _ _ _ _ h => exact absurd hp (logical_nil h hl)
  | skipped => cases hl
  | forgotten _ _ _ _ h => exact absurd hp h

theorem skip_bal {w : World} (n : Nat) : ∀ (k : Nat) (s s' : St), (pend s).length ≤ n → Plain s → s.conds ≠ [] →
    skipAt k s = .ok s' → Sound s' ∧ ∀ p, BalSt w p s' → Bal w s.table (s.conds.length + k) p (pend s) := by
  induction n with
  | zero =>
    intro k s s' hn hpl hc hs
    have hp : pend s = [] := List.length_eq_zero_iff.1 (by omega)
    rw [skipAt_eq, read_nil hpl hp] at hs
    simp only [Option.isNone_none, if_true, Except.ok.injEq] at hs
    subst hs
    refine ⟨⟨hpl.inline, .inl hpl.putBack⟩, fun p hb => ?_⟩
    rw [hp]
    have hb : Bal w s.table s.conds.length p [] := hb
    have hpos : 0 < s.conds.length := List.length_pos_iff.2 hc
    by_cases hpc : p.cont = .none
    · have := bal_nil hb rfl hpc
      omega
    · exact .forgotten _ _ _ _ hpc hpos hb
  | succ n ih =>
    intro k s s' hn hpl hc hs
    have hpos : 0 < s.conds.length := List.length_pos_iff.2 hc
    cases hp : pend s with
    | nil =>
      obtain ⟨a, b⟩ := (show _ from fun h => ih k s s' h hpl hc hs) (by rw [hp]; exact Nat.zero_le _)
      rw [hp] at b
      exact ⟨a, b⟩
    | cons x ls =>
      obtain ⟨g, h1, h2, h3⟩ := read_cons hpl hp
      have hu : ∃ g' t rest, (completeDirective x { s with files := g }).2 = { s with files := g' } ∧
          (completeDirective x { s with files := g }).1.content.getD [] = t ∧ pend { s with files := g' } = rest ∧
          (IsBang x → joinUnit x ls = (t, rest)) ∧ (¬ IsBang x → t = x.content.getD [] ∧ rest = ls) ∧
          rest.length ≤ ls.length := by
        unfold completeDirective
        by_cases hb : IsBang x
        · rw [if_pos ((bang_iff x).2 hb)]
          obtain ⟨g', h4, h5, h6⟩ := complete_pend (x := x) (s := { s with files := g }) ⟨hpl.inline, hpl.putBack⟩
            (t := (joinUnit x ls).1) (rest := (joinUnit x ls).2) (by rw [h2])
          exact ⟨g', _, _, h4, h5, h6, fun _ => rfl, fun h => absurd hb h, joinUnit_length _ _⟩
        · rw [if_neg (fun h => hb ((bang_iff x).1 h))]
          exact ⟨g, _, ls, rfl, rfl, h2, fun h => absurd h hb, fun _ => ⟨rfl, rfl⟩, Nat.le_refl _⟩
      obtain ⟨g', t, rest, h4, h5, h6, h7, h8, h9⟩ := hu
      rw [skipAt_eq, h1] at hs
      simp only [h3, Bool.false_eq_true, if_false, h4, h5] at hs
      have hlen : (pend { s with files := g' }).length ≤ n := by
        rw [h6]; rw [hp, List.length_cons] at hn; omega
      have ih' := fun k s' => ih k { s with files := g' } s' hlen ⟨hpl.inline, hpl.putBack⟩ hc
      generalize htk : skippedTok s.table.macros t = tk at hs
      rcases tk with e | ⟨tok, e⟩
      · cases hs
      · have hskip : ∀ p d', SkipAct (s.conds.length + k) d' tok → Bal w s.table d' p rest →
            Bal w s.table (s.conds.length + k) p (x :: ls) := fun p d' ha hb =>
          .skipped _ _ _ _ _ _ _ _ _ (by omega) h7 h8 (role_iff.2 ⟨e, htk⟩) ha hb
        rw [← h6] at hskip
        cases tok with
        | uninteresting =>
          obtain ⟨a, b⟩ := ih' k s' hs
          exact ⟨a, fun p hb => hskip p _ (.uninteresting _) (b p hb)⟩
        | «if» =>
          obtain ⟨a, b⟩ := ih' (k + 1) s' hs
          exact ⟨a, fun p hb => hskip p _ (.if _) (b p hb)⟩
        | «else» =>
          simp only at hs
          by_cases hk : k = 0
          · rw [if_pos hk] at hs
            cases hs
            subst hk
            exact ⟨⟨hpl.inline, .inr ⟨e, by simp [hpl.putBack], skippedTok_else htk, hc⟩⟩, fun p hb => hskip p _ (.else _) hb⟩
          · rw [if_neg hk] at hs
            obtain ⟨a, b⟩ := ih' k s' hs
            exact ⟨a, fun p hb => hskip p _ (.else _) (b p hb)⟩
        | endif =>
          simp only at hs
          by_cases hk : k = 0
          · rw [if_pos hk] at hs
            subst hk
            cases hcs : s.conds with
            | nil => exact absurd hcs hc
            | cons b cs =>
              rw [exit_eq (s := { s with files := g' }) hcs] at hs
              cases hs
              refine ⟨⟨hpl.inline, .inl hpl.putBack⟩, fun p hb => ?_⟩
              rw [hcs] at hskip
              exact hskip p _ (.endif _) hb
          · rw [if_neg hk] at hs
            obtain ⟨a, b⟩ := ih' (k - 1) s' hs
            refine ⟨a, fun p hb => hskip p _ ?_ (b p hb)⟩
            rw [show s.conds.length + k = (s.conds.length + (k - 1)) + 1 by omega]
            exact .endif _

theorem skip_bal' {w : World} {s s' : St} (hpl : Plain s) (hc : s.conds ≠ []) (hs : skip s = .ok s') :
    Sound s' ∧ ∀ p, BalSt w p s' → BalSt w p s :=
  skip_bal (w := w) _ 0 s s' (Nat.le_refl _) hpl hc hs

/-- A processed directive, backwards. -/
theorem directive_bal {w : World} {k v : Str} {s s' : St} (hpl : Plain s) (h : onDirective w k v s = .ok s') :
    Sound s' ∧ ∀ p, BalSt w p s' → ∃ T' d' ins, Act w s.table T' s.conds.length d' ins (some (k, v)) ∧
      Bal w T' d' p (ins ++ pend s) := by
  have hsound : Sound s := ⟨hpl.inline, .inl hpl.putBack⟩
  have hif : ∀ d, isIf d → dirOf k = d → onIf w d v s = .ok s' → Sound s' ∧ ∀ p, BalSt w p s' → ∃ T' d' ins,
      Act w s.table T' s.conds.length d' ins (some (k, v)) ∧ Bal w T' d' p (ins ++ pend s) := by
    intro d hd hk h
    unfold onIf at h
    cases hc : condition w s.table d v with
    | error e => rw [hc] at h; cases h
    | ok b =>
      rw [hc] at h
      simp only at h
      cases b with
      | true =>
        simp only [if_true, Except.ok.injEq] at h
        subst h
        exact ⟨⟨hpl.inline, .inl hpl.putBack⟩, fun p hb => ⟨_, _, [], .if _ _ _ _ _ (dirOf_keyword hk (isIf_known hd)) hd, hb⟩⟩
      | false =>
        simp only [Bool.false_eq_true, if_false] at h
        obtain ⟨a, b⟩ := skip_bal' (w := w) (s := { s with conds := true :: s.conds }) ⟨hpl.inline, hpl.putBack⟩ (by simp) h
        exact ⟨a, fun p hb => ⟨_, _, [], .if _ _ _ _ _ (dirOf_keyword hk (isIf_known hd)) hd, b p hb⟩⟩
  have helse : (dirOf k = .else ∨ isElseIf (dirOf k)) → s.conds ≠ [] → (∃ b cs, s.conds = b :: cs ∧
      ∃ b', s' = { s with conds := b' :: cs }) ∨ skip s = .ok s' → Sound s' ∧ ∀ p, BalSt w p s' → ∃ T' d' ins,
      Act w s.table T' s.conds.length d' ins (some (k, v)) ∧ Bal w T' d' p (ins ++ pend s) := by
    intro hd hne h
    obtain ⟨d, hd'⟩ : ∃ d, s.conds.length = d + 1 := ⟨s.conds.length - 1, by
      have := List.length_pos_iff.2 hne; omega⟩
    rcases h with ⟨b, cs, hcs, b', rfl⟩ | h
    · refine ⟨⟨hpl.inline, .inl hpl.putBack⟩, fun p hb => ⟨s.table, s.conds.length, [], ?_, ?_⟩⟩
      · rw [hd']; exact .else _ _ _ _ _ (dirOf_keyword rfl (isElse_known hd)) hd
      · have hb : Bal w s.table (cs.length + 1) p (pend s) := hb
        rw [hcs]; exact hb
    · obtain ⟨a, b⟩ := skip_bal' (w := w) hpl hne h
      refine ⟨a, fun p hb => ⟨s.table, s.conds.length, [], ?_, b p hb⟩⟩
      rw [hd']; exact .else _ _ _ _ _ (dirOf_keyword rfl (isElse_known hd)) hd
  have helseif : ∀ d, isElseIf d → dirOf k = d → onElseIf w d v s = .ok s' → Sound s' ∧ ∀ p, BalSt w p s' → ∃ T' d' ins,
      Act w s.table T' s.conds.length d' ins (some (k, v)) ∧ Bal w T' d' p (ins ++ pend s) := by
    intro d hd hk h
    refine helse (.inr (by rw [hk]; exact hd)) ?_ ?_
    · intro hc; unfold onElseIf at h; rw [hc] at h; cases h
    · cases hcs : s.conds with
      | nil => unfold onElseIf at h; rw [hcs] at h; cases h
      | cons b cs =>
        cases b with
        | false => rw [onElseIf_false hcs] at h; exact .inr h
        | true =>
          unfold onElseIf at h
          rw [hcs] at h
          simp only at h
          cases hc : condition w s.table d v with
          | error e => rw [hc] at h; cases h
          | ok b =>
            rw [hc] at h
            cases b with
            | true => cases h; exact .inl ⟨_, _, rfl, _, rfl⟩
            | false => exact .inr h
  unfold onDirective at h
  generalize hk : dirOf k = dk at h
  cases dk with
  | cmdswitches => cases h; exact ⟨hsound, fun p hb => ⟨_, _, [], Option.some.inj (word_of hk (by decide)) ▸ .cmdswitches _ _ _, hb⟩⟩
  | error => cases h
  | message => cases h; exact ⟨⟨hpl.inline, .inl hpl.putBack⟩, fun p hb => ⟨_, _, [], Option.some.inj (word_of hk (by decide)) ▸ .message _ _ _, hb⟩⟩
  | «include» =>
    simp only at h
    cases hf : findIncludeFile w s v with
    | error e => rw [hf] at h; cases h
    | ok path =>
      rw [hf] at h
      simp only at h
      unfold openFile at h
      cases hw : w.find path with
      | none => rw [hw] at h; cases h
      | some abs =>
        rw [hw] at h
        simp only at h
        by_cases hm : abs ∈ s.files.map (·.name)
        · rw [if_pos hm] at h; cases h
        · rw [if_neg hm] at h
          cases hct : w.content abs with
          | none => rw [hct] at h; cases h
          | some text =>
            rw [hct] at h
            cases h
            refine ⟨⟨hpl.inline, .inl hpl.putBack⟩, fun p hb => ⟨_, _, linesOf text, by rw [Option.some.inj (word_of hk (by decide))]; exact .include _ _ _ _ _ hct, ?_⟩⟩
            have hb : Bal w s.table s.conds.length p (pend _) := hb
            unfold pend at hb
            rw [List.map_cons, List.flatten_cons] at hb
            exact hb
  | «if» => exact hif _ (.inl rfl) hk h
  | ifdef => exact hif _ (.inr (.inl rfl)) hk h
  | ifndef => exact hif _ (.inr (.inr rfl)) hk h
  | «else» =>
    simp only at h
    refine helse (.inl hk) ?_ ?_
    · intro hc; unfold onElse at h; rw [hc] at h; cases h
    · cases hcs : s.conds with
      | nil => unfold onElse at h; rw [hcs] at h; cases h
      | cons b cs =>
        cases b with
        | false => rw [onElse_false hcs] at h; exact .inr h
        | true => rw [onElse_true hcs] at h; cases h; exact .inl ⟨_, _, rfl, true, by rw [← hcs]⟩
  | elseif => exact helseif _ (.inl rfl) hk h
  | elseifdef => exact helseif _ (.inr (.inl rfl)) hk h
  | elseifndef => exact helseif _ (.inr (.inr rfl)) hk h
  | endif =>
    simp only at h
    unfold exitConditional at h
    cases hcs : s.conds with
    | nil => rw [hcs] at h; cases h
    | cons b cs =>
      rw [hcs] at h
      cases h
      exact ⟨⟨hpl.inline, .inl hpl.putBack⟩, fun p hb => ⟨_, _, [], Option.some.inj (word_of hk (by decide)) ▸ .endif _ _ _, hb⟩⟩
  | undef => cases h; exact ⟨⟨hpl.inline, .inl hpl.putBack⟩, fun p hb => ⟨_, _, [], Option.some.inj (word_of hk (by decide)) ▸ .undef _ _ _, hb⟩⟩
  | unknown => cases h

theorem extend_complete {p q x : MLine} (hp : p.cont = .none) (hq : q.cont = .none) : extend p x = extend q x := by
  unfold extend; rw [if_pos hp, if_pos hq]

theorem logical_norm {p q : MLine} {ls : List MLine} {t : Str} {rest : List MLine} (h : Logical p ls t rest)
    (hp : p.cont = .none) (hq : q.cont = .none) : Logical q ls t rest := by
  cases h with
  | next x ls hx hc => rw [extend_complete hp hq] at hc ⊢; exact .next _ _ _ hx hc
  | last h => exact absurd hp h

/-- A complete line built before does not matter. -/
theorem bal_norm {w : World} {T : MacroTable} {d : Nat} {p : MLine} {ls : List MLine} (h : Bal w T d p ls) :
    ∀ {q : MLine}, p.cont = .none → q.cont = .none → Bal w T d q ls := by
  induction h with
  | done T p h => intro q hp hq; exact .done _ _ hq
  | directive T T' d d' p x ls rest ins t r h1 h2 h3 h4 _ ih =>
    intro q hp hq; exact .directive _ _ _ _ _ _ _ _ _ _ _ h1 h2 h3 h4 (ih hp hq)
  | continued T d p x ls h1 h2 h3 _ =>
    intro q hp hq
    rw [extend_complete hp hq] at h2 h3
    exact .continued _ _ _ _ _ h1 h2 h3
  | definition T T' d p ls rest t n v h1 h2 h3 h4 _ =>
    intro q hp hq; exact .definition _ _ _ _ _ _ _ _ _ (logical_norm h1 hp hq) h2 h3 h4
  | line T T' d d' p ls rest ins t r h1 h2 h3 h4 h5 _ =>
    intro q hp hq; exact .line _ _ _ _ _ _ _ _ _ _ (logical_norm h1 hp hq) h2 h3 h4 h5
  | skipped T d d' p x ls rest t tok h1 h2 h3 h4 h5 _ ih =>
    intro q hp hq; exact .skipped _ _ _ _ _ _ _ _ _ h1 h2 h3 h4 h5 (ih hp hq)
  | forgotten T d k p h => intro q hp; exact absurd hp h

theorem parseDirective_bal {w : World} {t : Str} {s s' : St} (hpl : Plain s) (h : parseDirective w t s = .ok (some s')) :
    ∃ k v, directiveOf s.table.macros t = .ok (some (k, v)) ∧ Sound s' ∧ ∀ p, BalSt w p s' → ∃ T' d' ins,
      Act w s.table T' s.conds.length d' ins (some (k, v)) ∧ Bal w T' d' p (ins ++ pend s) := by
  unfold parseDirective at h
  generalize hd : directiveOf s.table.macros t = x at h
  rcases x with e | (_ | ⟨k, v⟩)
  · cases h
  · cases h
  · simp only at h
    generalize ho : onDirective w k v s = y at h
    cases y with
    | error e => cases h
    | ok y =>
      cases h
      obtain ⟨a, b⟩ := directive_bal hpl ho
      exact ⟨k, v, rfl, a, b⟩

theorem parseDirective_none {w : World} {t : Str} {s : St} (h : parseDirective w t s = .ok none) :
    directiveOf s.table.macros t = .ok none := by
  unfold parseDirective at h
  generalize directiveOf s.table.macros t = x at h
  rcases x with e | (_ | ⟨k, v⟩)
  · cases h
  · rfl
  · simp only at h
    generalize onDirective w k v s = y at h
    cases y <;> cases h

/-- The result of a round, backwards. -/
def RoundBal (w : World) (p : MLine) (s : St) (r : (MLine × St) ⊕ (Option Str × St)) : Prop :=
  match r with
  | .inl (p', s') => Sound s' ∧ (BalSt w p' s' → BalSt w p s)
  | .inr (none, s') => s'.conds = [] → BalSt w p s
  | .inr (some _, s') => Sound s' ∧ (BalSt w {} s' → BalSt w p s)

theorem act_else {w : World} {T T' : MacroTable} {d d' : Nat} {ins : List MLine} {k v : Str}
    (hk : dirOf k = .else ∨ isElseIf (dirOf k)) (h : Act w T T' d d' ins (some (k, v))) : T' = T ∧ d' = d ∧ ins = [] := by
  cases h with
  | «if» _ _ _ x h1 h => rw [(keyword_dirOf h1).1] at hk; unfold isElseIf at hk; rcases h with h | h | h <;> rw [h] at hk <;> simp at hk
  | «else» => exact ⟨rfl, rfl, rfl⟩
  | endif => exact absurd hk (by unfold isElseIf; decide)
  | «include» => exact absurd hk (by unfold isElseIf; decide)
  | undef => exact absurd hk (by unfold isElseIf; decide)
  | message => exact absurd hk (by unfold isElseIf; decide)
  | cmdswitches => exact absurd hk (by unfold isElseIf; decide)

theorem round_bal {w : World} {p : MLine} {s : St} (hs : Sound s) {r : (MLine × St) ⊕ (Option Str × St)}
    (h : round w p s = .ok r) : RoundBal w p s r := by
  obtain ⟨hin, hpb | ⟨e, hpb, hel, hcs⟩⟩ := hs
  all_goals
    have hif : ∀ y : Except MacroErr (Option MacroTable), (if s.inline = true then .ok none else y) = y := by
      intro y; simp [hin]
  · have hpl : Plain s := ⟨hin, hpb⟩
    cases hp : pend s with
    | nil =>
      have hr := read_nil hpl hp
      have h0 : startsWith [] ['!'] = false := rfl
      unfold round at h
      rw [hr] at h
      simp only [Option.getD_none, h0, Bool.false_eq_true, if_false, hif] at h
      by_cases hpc : p.cont = .none
      · have hd : directiveOf s.table.macros [] = .ok none := by
          unfold directiveOf expandMacros
          rw [expandU_nil]; rfl
        have hm : parseMacro s.table [] = .ok none := rfl
        have hic : isComplete p = true := by simp [isComplete, hpc]
        have h0 : isComplete ({} : MLine) = true := rfl
        unfold parseDirective at h
        simp only [hic, if_true, h0, Bool.not_true, Bool.false_eq_true, if_false, Option.getD_none, hm, hd] at h
        cases h
        intro hc
        have hc : s.conds = [] := hc
        unfold BalSt
        rw [hp, hc]
        exact .done _ _ hpc
      · have hic : isComplete p = false := by simp [isComplete, hpc]
        have hjc : isComplete (joinLines p {}) = true := rfl
        simp only [hic, Bool.false_eq_true, if_false, hjc, Bool.not_true] at h
        have hlog : Logical p (pend s) ((joinLines p {}).content.getD []) [] := by rw [hp, joinLines_eq]; exact .last _ hpc
        generalize hpm : parseMacro s.table ((joinLines p {}).content.getD []) = x at h
        unfold parseMacro at hpm
        rcases x with e | (_ | T)
        · cases h
        · have hmd : macroDefinition ((joinLines p {}).content.getD []) = none := by
            generalize macroDefinition ((joinLines p {}).content.getD []) = y at hpm ⊢
            rcases y with _ | ⟨n, v⟩
            · rfl
            · simp only at hpm
              generalize setMacroValue s.table n v = z at hpm
              cases z <;> cases hpm
          simp only at h
          generalize hpd : parseDirective w ((joinLines p {}).content.getD []) _ = y at h
          rcases y with e | (_ | s1)
          · cases h
          · cases h
            refine ⟨⟨hin, .inl hpb⟩, fun hb => ?_⟩
            exact .line _ _ _ _ _ _ _ [] _ _ hlog (noDefinition_iff.2 hmd) (directive_iff.2 (parseDirective_none (s := { s with files := [] }) hpd)) (.none _ _) hb
          · cases h
            obtain ⟨k, v, h1, h2, h3⟩ := parseDirective_bal (s := { s with files := [] }) ⟨hin, hpb⟩ hpd
            refine ⟨h2, fun hb => ?_⟩
            obtain ⟨T', d', ins, h4, h5⟩ := h3 {} (bal_norm hb rfl rfl)
            exact .line _ _ _ _ _ _ _ ins _ _ hlog (noDefinition_iff.2 hmd) (directive_iff.2 h1) h4 h5
        · cases h
          generalize hmd : macroDefinition ((joinLines p {}).content.getD []) = y at hpm
          rcases y with _ | ⟨n, v⟩
          · cases hpm
          · simp only at hpm
            generalize hz : setMacroValue s.table n v = z at hpm
            cases z with
            | error _ => cases hpm
            | ok z =>
              cases hpm
              refine ⟨⟨hin, .inl hpb⟩, fun hb => ?_⟩
              exact .definition _ _ _ _ _ _ _ _ _ hlog (defines_iff.2 hmd) hz (bal_norm hb rfl rfl)
    | cons x ls =>
      obtain ⟨g, h1, h2, h3⟩ := read_cons hpl hp
      unfold round at h
      rw [h1] at h
      simp only at h
      unfold RoundBal BalSt
      rw [hp]
      by_cases hb : IsBang x
      · rw [if_pos ((bang_iff x).2 hb)] at h
        obtain ⟨g', h4, h5, h6⟩ := complete_pend (x := x) (s := { s with files := g }) ⟨hpl.inline, hpl.putBack⟩
          (t := (joinUnit x ls).1) (rest := (joinUnit x ls).2) (by rw [h2])
        simp only [h4, h5] at h
        generalize hpd : parseDirective w (joinUnit x ls).1 _ = y at h
        rcases y with e | (_ | s1)
        · cases h
        · cases h
          refine ⟨⟨hin, .inl hpb⟩, fun hbal => ?_⟩
          refine .directive _ _ _ _ _ _ _ _ [] _ _ hb rfl (directive_iff.2 (parseDirective_none (s := { s with files := g' }) hpd)) (.none _ _) ?_
          rw [← h6]; exact hbal
        · cases h
          obtain ⟨k, v, a1, a2, a3⟩ := parseDirective_bal (s := { s with files := g' }) ⟨hin, hpb⟩ hpd
          refine ⟨a2, fun hbal => ?_⟩
          obtain ⟨T', d', ins, a4, a5⟩ := a3 p hbal
          rw [h6] at a5
          exact .directive _ _ _ _ _ _ _ _ ins _ _ hb rfl (directive_iff.2 a1) a4 a5
      · rw [if_neg (fun h => hb ((bang_iff x).1 h))] at h
        have hex : (if isComplete p = true then x else joinLines p x) = extend p x := by
          unfold isComplete extend
          by_cases hp : p.cont = .none <;> simp [hp, joinLines_eq]
        simp only [hex, hif] at h
        by_cases hc : (extend p x).cont = .none
        · have hic : isComplete (extend p x) = true := by simp [isComplete, hc]
          simp only [hic, Bool.not_true, Bool.false_eq_true, if_false] at h
          have hlog : Logical p (x :: ls) ((extend p x).content.getD []) ls := .next _ _ _ hb hc
          obtain ⟨tx, htx⟩ := extend_content (p := p) h3
          generalize hpm : parseMacro s.table ((extend p x).content.getD []) = y at h
          unfold parseMacro at hpm
          rcases y with e | (_ | T)
          · cases h
          · have hmd : macroDefinition ((extend p x).content.getD []) = none := by
              generalize macroDefinition ((extend p x).content.getD []) = y at hpm ⊢
              rcases y with _ | ⟨n, v⟩
              · rfl
              · simp only at hpm
                generalize setMacroValue s.table n v = z at hpm
                cases z <;> cases hpm
            simp only at h
            generalize hpd : parseDirective w ((extend p x).content.getD []) _ = y at h
            rcases y with e | (_ | s1)
            · cases h
            · rw [htx] at h
              cases h
              refine ⟨⟨hin, .inl hpb⟩, fun hbal => ?_⟩
              refine .line _ _ _ _ _ _ _ [] _ _ hlog (noDefinition_iff.2 hmd) (directive_iff.2 (parseDirective_none (s := { s with files := g }) hpd)) (.none _ _) ?_
              rw [← h2]; exact hbal
            · cases h
              obtain ⟨k, v, a1, a2, a3⟩ := parseDirective_bal (s := { s with files := g }) ⟨hin, hpb⟩ hpd
              refine ⟨a2, fun hbal => ?_⟩
              obtain ⟨T', d', ins, a4, a5⟩ := a3 {} (bal_norm hbal hc rfl)
              rw [h2] at a5
              exact .line _ _ _ _ _ _ _ ins _ _ hlog (noDefinition_iff.2 hmd) (directive_iff.2 a1) a4 a5
          · cases h
            generalize hmd : macroDefinition ((extend p x).content.getD []) = y at hpm
            rcases y with _ | ⟨n, v⟩
            · cases hpm
            · simp only at hpm
              generalize hz : setMacroValue s.table n v = z at hpm
              cases z with
              | error _ => cases hpm
              | ok z =>
                cases hpm
                refine ⟨⟨hin, .inl hpb⟩, fun hbal => ?_⟩
                refine .definition _ _ _ _ _ _ _ _ _ hlog (defines_iff.2 hmd) hz ?_
                have hbal : Bal w T s.conds.length (extend p x) (pend { s with files := g }) := hbal
                rw [← h2]; exact bal_norm hbal hc rfl
        · have hic : isComplete (extend p x) = false := by simp [isComplete, hc]
          simp only [hic, Bool.not_false, if_true] at h
          cases h
          refine ⟨⟨hin, .inl hpb⟩, fun hbal => ?_⟩
          refine .continued _ _ _ _ _ hb hc ?_
          rw [← h2]; exact hbal
  · have hst : startsWith e ['!'] = true := by
      obtain ⟨bl, a, r, rfl, _⟩ := hel
      rfl
    rw [round_putBack hpb hst] at h
    generalize hpd : parseDirective w e _ = y at h
    rcases y with e' | (_ | s1)
    · cases h
    · cases h
      exact ⟨⟨hin, .inl rfl⟩, fun hbal => hbal⟩
    · cases h
      obtain ⟨k, v, a1, a2, a3⟩ := parseDirective_bal (s := { s with putBack := [] }) ⟨hin, rfl⟩ hpd
      refine ⟨a2, fun hbal => ?_⟩
      obtain ⟨T', d', ins, a4, a5⟩ := a3 p hbal
      have hk := hel.dir a1
      have hk : dirOf k = .else ∨ isElseIf (dirOf k) := by
        rcases hk with hk | hk | hk
        · exact .inl hk
        · exact .inr hk
        · unfold parseDirective at hpd
          simp only [a1] at hpd
          unfold onDirective at hpd
          rw [hk] at hpd
          cases hpd
      obtain ⟨rfl, rfl, rfl⟩ := act_else hk a4
      exact a5

theorem readLine_bal {w : World} (n : Nat) : ∀ (p : MLine) (s : St) (t : Option Str) (s' : St), Sound s →
    readLineF w n p s = .ok (t, s') →
    match t with
    | none => BalSt w p s
    | some _ => Sound s' ∧ (BalSt w {} s' → BalSt w p s) := by
  induction n with
  | zero => intro p s t s' _ h; cases h
  | succ n ih =>
    intro p s t s' hs h
    rw [readLineF] at h
    generalize hr : round w p s = x at h
    rcases x with e | (⟨p1, s1⟩ | ⟨t1, s1⟩)
    · cases h
    · have hb : Sound s1 ∧ (BalSt w p1 s1 → BalSt w p s) := round_bal hs hr
      have := ih p1 s1 t s' hb.1 h
      cases t with
      | none => exact hb.2 this
      | some t => exact ⟨this.1, fun h => hb.2 (this.2 h)⟩
    · have hb := round_bal hs hr
      simp only at h
      by_cases hc : t1.isNone = true ∧ s1.conds ≠ []
      · rw [if_pos hc] at h; cases h
      · rw [if_neg hc] at h
        cases h
        cases t with
        | none =>
          refine hb ?_
          by_cases he : s'.conds = []
          · exact he
          · exact absurd ⟨rfl, he⟩ hc
        | some t => exact hb

theorem readAll_bal {w : World} (f n : Nat) : ∀ (s : St) (r : List Str × St), Sound s → readAllF w f n s = .ok r →
    BalSt w {} s := by
  induction n with
  | zero => intro s r _ h; cases h
  | succ n ih =>
    intro s r hs h
    rw [readAllF] at h
    unfold readLine at h
    generalize hr : readLineF w f {} s = x at h
    rcases x with e | ⟨_ | t, s1⟩
    · cases h
    · exact readLine_bal f {} s none s1 hs hr
    · obtain ⟨a, b⟩ := readLine_bal f {} s (some t) s1 hs hr
      simp only at h
      generalize hra : readAllF w f n s1 = y at h
      cases y with
      | error _ => cases h
      | ok y => exact b (ih s1 y a hra)

end Jom.PP
