import Verif.Proofs.PPBal

/-! The preprocessor comes to an end (C19). -/

namespace Jom.PP
open Jom.Spec

/-! ### Lines that include nothing -/

theorem matchDirective_cons {c : Char} {t : Str} (h : c ≠ '!') : matchDirective (c :: t) = none := by
  unfold matchDirective
  split
  · rename_i h1; cases h1; exact absurd rfl h
  · rfl

theorem takeWhile_not_mem (t : Str) : '$' ∉ t.takeWhile (· ≠ '$') := by
  intro h
  have h1 : (t.takeWhile (· ≠ '$')).all (· ≠ '$') = true := List.all_takeWhile
  simpa using List.all_eq_true.1 h1 _ h

/-- `q` decides that the line is no directive. -/
def Decisive (q : Str) : Prop :=
  q.head? ≠ some '!' ∧ ((q.head?.map isSpaceOrTab).getD false = true ∨ ¬ (toLower (q.take 7) <+: c!"include") ∨
    (q[7]?.map fun c => !isSpaceOrTab c).getD false = true)

theorem raw_decisive {q r : Str} (h : Decisive q) : rawDirective (q ++ r) = none := by
  obtain ⟨hb, hd⟩ := h
  match q, hb, hd with
  | [], _, hd => simp [toLower] at hd
  | c :: p, hb', hd =>
    have hc : c ≠ '!' := fun h => hb' (by simp [h])
    rw [List.cons_append]
    unfold rawDirective
    simp only
    by_cases h1 : isSpaceOrTab c = true
    · rw [if_pos h1]
    · rw [if_neg h1]
      by_cases h2 : c ≠ '!' ∧ 8 < (c :: (p ++ r)).length
      · rw [if_pos h2]
        by_cases hP : ((c :: (p ++ r))[7]?.map isSpaceOrTab).getD false = true ∧
          toLower ((c :: (p ++ r)).take 7) = ['i', 'n', 'c', 'l', 'u', 'd', 'e']
        · exfalso
          rw [← List.cons_append] at hP
          rcases hd with hd | hd | hd
          · simp [h1] at hd
          · apply hd
            rw [← hP.2]
            unfold toLower
            rw [List.take_append, List.map_append]
            exact List.prefix_append _ _
          · cases hp : (c :: p)[7]? with
            | none => rw [hp] at hd; simp at hd
            | some x =>
              have := hP.1
              rw [List.getElem?_append_left (List.getElem?_eq_some_iff.1 hp).1, hp] at this
              rw [hp] at hd
              simp at hd this
              rw [this] at hd
              cases hd
        · rw [if_neg hP]
      · rw [if_neg h2, matchDirective_cons hc]

/-- The line starts with a decisive text without macros. -/
def Harmless (t : Str) : Prop := ∃ q r, t = q ++ r ∧ '$' ∉ q ∧ Decisive q

theorem harmless_of {t : Str} (h : NotInclude t) : Harmless t :=
  ⟨_, _, (List.takeWhile_append_dropWhile (p := (· ≠ '$'))).symm, takeWhile_not_mem t, h⟩

theorem Harmless.append {t : Str} (h : Harmless t) (u : Str) : Harmless (t ++ u) := by
  obtain ⟨q, r, rfl, h1, h2⟩ := h
  exact ⟨q, r ++ u, by simp, h1, h2⟩

theorem Harmless.directive {m : Macros} {t : Str} {r : Option (Str × Str)} (h : Harmless t)
    (hd : directiveOf m t = .ok r) : r = none := by
  obtain ⟨q, u, rfl, h1, h2⟩ := h
  unfold directiveOf at hd
  generalize hx : expandMacros m (q ++ u) = x at hd
  cases x with
  | error _ => cases hd
  | ok e =>
    obtain ⟨e', rfl, _⟩ := expand_prefix _ _ h1 hx
    simp only at hd
    unfold isDirective at hd
    rw [raw_decisive h2] at hd
    cases hd
    rfl

/-! ### Weights -/

/-- Lines still to come, those of a file weigh `K` times as much as those of a file it includes. -/
def weight (n K : Nat) : List TextFile → Nat
  | [] => 0
  | f :: fs => (linesOf f.rest).length * K ^ (n - fs.length) + weight n K fs

theorem closed_start {ls : List MLine} : Closed .include ls → Closed .start ls := by
  induction ls with
  | nil => intro h; trivial
  | cons x ls ih =>
    intro h
    unfold Closed at h ⊢
    obtain ⟨h1, h2⟩ := h
    rw [if_neg h1]
    by_cases hc : x.cont = .none
    · rw [if_pos hc] at h2; rw [if_pos (.inl hc)]; exact h2
    · rw [if_neg hc] at h2
      by_cases hn : x.cont = .none ∨ NotInclude (x.content.getD [])
      · rw [if_pos hn]; exact ih h2
      · rw [if_neg hn]; exact h2

/-- The files that are open. -/
structure Opened (F : List Str) (fs : List TextFile) : Prop where
  nodup : (fs.map (·.name)).Nodup
  known : ∀ f ∈ fs, f.name ∈ F
  closed : ∀ f ∈ fs, Closed .start (linesOf f.rest)

theorem Opened.tail {F : List Str} {f : TextFile} {fs : List TextFile} (h : Opened F (f :: fs)) : Opened F fs :=
  ⟨(List.nodup_cons.1 h.nodup).2, fun g hg => h.known g (by simp [hg]), fun g hg => h.closed g (by simp [hg])⟩

theorem Opened.rest {F : List Str} {f : TextFile} {fs : List TextFile} (h : Opened F (f :: fs)) {r : Str}
    (hr : Closed .start (linesOf r)) : Opened F ({ f with rest := r } :: fs) := by
  refine ⟨h.nodup, fun g hg => ?_, fun g hg => ?_⟩
  · rcases List.mem_cons.1 hg with rfl | hg
    · exact h.known f (by simp)
    · exact h.known g (by simp [hg])
  · rcases List.mem_cons.1 hg with rfl | hg
    · exact hr
    · exact h.closed g (by simp [hg])

theorem Opened.length {F : List Str} {fs : List TextFile} (h : Opened F fs) : fs.length ≤ F.length := by
  have := List.Nodup.length_le_of_subset h.nodup (l₂ := F) (by
    intro a ha
    obtain ⟨f, hf, rfl⟩ := List.mem_map.1 ha
    exact h.known f hf)
  simpa using this

/-- A line is read from the topmost file that is not at its end. -/
theorem readFiles_top {F : List Str} (n K : Nat) (fs : List TextFile) (h : Opened F fs) :
    readFiles false fs = ({}, []) ∨ ∃ x f fs', readFiles false fs = (x, f :: fs') ∧ x.content.isNone = false ∧
      weight n K (f :: fs') + K ^ (n - fs'.length) ≤ weight n K fs ∧
      (∀ r, Closed .start (linesOf r) → Opened F ({ f with rest := r } :: fs')) ∧
      Closed .start (x :: linesOf f.rest) := by
  induction fs with
  | nil => exact .inl rfl
  | cons f fs ih =>
    cases hl : linesOf f.rest with
    | nil =>
      have hr : (readerLine false f.rest).1.content.isNone = true := linesOf_nil hl
      have : readFiles false (f :: fs) = readFiles false fs := by rw [readFiles]; simp only [hr, if_true]
      rw [this]
      rcases ih h.tail with h1 | ⟨x, g, fs', h1, h2, h3, h4⟩
      · exact .inl h1
      · exact .inr ⟨x, g, fs', h1, h2, Nat.le_trans h3 (by rw [weight.eq_2 n K f]; omega), h4⟩
    | cons l ls =>
      obtain ⟨a, b, c, _⟩ := linesOf_cons hl
      have hr : readerLine false f.rest = readLineU f.rest := rfl
      refine .inr ⟨l, { f with rest := (readLineU f.rest).2 }, fs, ?_, c, ?_, fun r hr => h.rest hr, ?_⟩
      · rw [readFiles]; simp only [hr, a, c, Bool.false_eq_true, if_false]
      · rw [weight, weight, hl, b, List.length_cons, Nat.succ_mul]; omega
      · have := h.closed f (by simp)
        rw [hl] at this
        rw [b]; exact this

/-- Completing a directive stays in its file. -/
theorem complete_top {F : List Str} (ls : List MLine) : ∀ (x : MLine) (s : St) (f : TextFile) (fs : List TextFile),
    s.inline = false → s.putBack = [] → s.files = f :: fs → linesOf f.rest = ls →
    (∀ r, Closed .start (linesOf r) → Opened F ({ f with rest := r } :: fs)) →
    (if x.cont = .none then Closed .start ls else Closed .directive ls) →
    ∃ r, (complete x s).2 = { s with files := { f with rest := r } :: fs } ∧ Opened F ({ f with rest := r } :: fs) ∧
      (linesOf r).length ≤ ls.length := by
  induction ls with
  | nil =>
    intro x s f fs h1 h2 h3 h4 h5 h6
    by_cases hc : x.cont = .none
    · rw [if_pos hc] at h6
      rw [complete_eq, if_pos (by simp [isComplete, hc])]
      exact ⟨f.rest, by rw [← h3], h5 _ (by rw [h4]; trivial), by rw [h4]; exact Nat.le_refl _⟩
    · rw [if_neg hc] at h6; exact absurd h6 id
  | cons y ls ih =>
    intro x s f fs h1 h2 h3 h4 h5 h6
    by_cases hc : x.cont = .none
    · rw [if_pos hc] at h6
      rw [complete_eq, if_pos (by simp [isComplete, hc])]
      exact ⟨f.rest, by rw [← h3], h5 _ (by rw [h4]; exact h6), by rw [h4]; exact Nat.le_refl _⟩
    · rw [if_neg hc] at h6
      rw [complete_eq, if_neg (by simp [isComplete, hc])]
      obtain ⟨a, b, c, _⟩ := linesOf_cons h4
      have hr : basicReadLine s = (y, { s with files := { f with rest := (readLineU f.rest).2 } :: fs }) := by
        unfold basicReadLine
        rw [h2, h3, h1, readFiles]
        have hr : readerLine false f.rest = readLineU f.rest := rfl
        simp only [hr, a, c, Bool.false_eq_true, if_false]
      rw [hr]
      simp only [c, Bool.false_eq_true, if_false]
      obtain ⟨r, h7, h8, h9⟩ := ih (joinDirective x y) { s with files := { f with rest := (readLineU f.rest).2 } :: fs }
        { f with rest := (readLineU f.rest).2 } fs h1 h2 rfl b h5 h6
      exact ⟨r, h7, h8, Nat.le_succ_of_le h9⟩

theorem weight_le {n K : Nat} {f : TextFile} {fs : List TextFile} {r : Str} (h : (linesOf r).length ≤ (linesOf f.rest).length) :
    weight n K ({ f with rest := r } :: fs) ≤ weight n K (f :: fs) := by
  rw [weight, weight]
  exact Nat.add_le_add_right (Nat.mul_le_mul_right _ h) _

/-! ### Skipping -/

/-- What is left to be done, apart from an unfinished line. -/
def cost (n K : Nat) (s : St) : Nat := 4 * weight n K s.files + 2 * s.putBack.length

/-- `s'` has not more to do than `s` and its files are fine. -/
def Less (F : List Str) (n K : Nat) (s s' : St) : Prop := Sound s' ∧ Opened F s'.files ∧ cost n K s' ≤ cost n K s

theorem Less.trans {F : List Str} {n K : Nat} {a b c : St} (h : cost n K b ≤ cost n K a) (h2 : Less F n K b c) : Less F n K a c :=
  ⟨h2.1, h2.2.1, Nat.le_trans h2.2.2 h⟩

theorem exit_ok {s s' : St} (h : exitConditional s = .ok s') : ∃ cs, s' = { s with conds := cs } := by
  unfold exitConditional at h
  cases hc : s.conds with
  | nil => rw [hc] at h; cases h
  | cons b cs => rw [hc] at h; cases h; exact ⟨cs, rfl⟩

theorem exit_fuel {s : St} : exitConditional s ≠ .error .fuel := by
  unfold exitConditional
  cases s.conds <;> simp

/-- The next unit, completed. -/
theorem unit_top {F : List Str} {n K : Nat} {s : St} (hpl : Plain s) (ho : Opened F s.files) :
    basicReadLine s = ({}, { s with files := [] }) ∨
    ∃ x f fs r, basicReadLine s = (x, { s with files := f :: fs }) ∧ x.content.isNone = false ∧
      Closed .start (x :: linesOf f.rest) ∧
      weight n K (f :: fs) + K ^ (n - fs.length) ≤ weight n K s.files ∧
      (∀ r, Closed .start (linesOf r) → Opened F ({ f with rest := r } :: fs)) ∧
      (completeDirective x { s with files := f :: fs }).2 = { s with files := { f with rest := r } :: fs } ∧
      Opened F ({ f with rest := r } :: fs) ∧ (linesOf r).length ≤ (linesOf f.rest).length ∧
      (¬ IsBang x → r = f.rest) := by
  have hb : basicReadLine s = ((readFiles false s.files).1, { s with files := (readFiles false s.files).2 }) := by
    unfold basicReadLine; rw [hpl.putBack, hpl.inline]
  rcases readFiles_top n K s.files ho with h | ⟨x, f, fs, h1, h2, h3, h4, h5⟩
  · rw [h] at hb; exact .inl hb
  · rw [h1] at hb
    right
    have hcd : ∀ t, completeDirective x t = if startsWith (x.content.getD []) ['!'] then complete x t else (x, t) := fun _ => rfl
    by_cases hx : IsBang x
    · have hcd : ∀ t, completeDirective x t = complete x t := fun t => by rw [hcd, if_pos ((bang_iff x).2 hx)]
      have h5' := h5
      unfold Closed at h5
      rw [if_pos hx] at h5
      obtain ⟨r, h6, h7, h8⟩ := complete_top (linesOf f.rest) x { s with files := f :: fs } f fs hpl.inline hpl.putBack rfl rfl h4 h5
      exact ⟨x, f, fs, r, hb, h2, h5', h3, h4, by rw [hcd]; exact h6, h7, h8, fun h => absurd hx h⟩
    · have hcd : ∀ t, completeDirective x t = (x, t) := fun t => by rw [hcd, if_neg (fun h => hx ((bang_iff x).1 h))]
      have h5' := h5
      unfold Closed at h5
      rw [if_neg hx] at h5
      have : Closed .start (linesOf f.rest) := by
        by_cases hc : x.cont = .none ∨ NotInclude (x.content.getD [])
        · rw [if_pos hc] at h5; exact h5
        · rw [if_neg hc] at h5; exact closed_start h5
      exact ⟨x, f, fs, f.rest, hb, h2, h5', h3, h4, by rw [hcd], h4 _ this, Nat.le_refl _, fun _ => rfl⟩

theorem pow_pos' {K : Nat} (h : 1 ≤ K) (a : Nat) : 1 ≤ K ^ a := Nat.one_le_pow _ _ h

theorem skip_less {F : List Str} {n K : Nat} (hK : 1 ≤ K) (c : Nat) : ∀ (k : Nat) (s : St), weight n K s.files ≤ c → Plain s →
    Opened F s.files → s.conds ≠ [] → skipAt k s ≠ .error .fuel ∧ ∀ s', skipAt k s = .ok s' → Less F n K s s' := by
  induction c with
  | zero =>
    intro k s hc hpl ho hcs
    rcases unit_top (n := n) (K := K) hpl ho with h | ⟨x, f, fs, r, _, _, _, h, _⟩
    · rw [skipAt_eq, h]
      simp only [Option.isNone_none, if_true]
      refine ⟨by simp, fun s' hs => ?_⟩
      cases hs
      exact ⟨⟨hpl.inline, .inl hpl.putBack⟩, ⟨by simp, by simp, by simp⟩, by simp [cost, weight]⟩
    · have := pow_pos' hK (n - fs.length)
      omega
  | succ c ih =>
    intro k s hc hpl ho hcs
    rcases unit_top (n := n) (K := K) hpl ho with h | ⟨x, f, fs, r, h1, h2, _, h3, _, h4, h5, h6, _⟩
    · rw [skipAt_eq, h]
      simp only [Option.isNone_none, if_true]
      refine ⟨by simp, fun s' hs => ?_⟩
      cases hs
      exact ⟨⟨hpl.inline, .inl hpl.putBack⟩, ⟨by simp, by simp, by simp⟩, by simp [cost, weight]⟩
    · have hp := pow_pos' hK (n - fs.length)
      have hw := weight_le (n := n) (K := K) (fs := fs) h6
      rw [skipAt_eq, h1]
      simp only [h2, Bool.false_eq_true, if_false, h4]
      have hcost : cost n K { s with files := { f with rest := r } :: fs } + 2 ≤ cost n K s := by
        unfold cost; simp only; omega
      have ih' := fun k => ih k { s with files := { f with rest := r } :: fs } (by simp only; omega) ⟨hpl.inline, hpl.putBack⟩ h5 hcs
      have ih2 : ∀ k, skipAt k { s with files := { f with rest := r } :: fs } ≠ .error .fuel ∧
          ∀ s', skipAt k { s with files := { f with rest := r } :: fs } = .ok s' → Less F n K s s' :=
        fun k => ⟨(ih' k).1, fun s' hs => Less.trans (by omega) ((ih' k).2 s' hs)⟩
      generalize htk : skippedTok s.table.macros _ = tk
      rcases tk with e | ⟨tok, e⟩
      · exact ⟨by simp, fun s' h => by cases h⟩
      · cases tok with
        | uninteresting => exact ih2 k
        | «if» => exact ih2 (k + 1)
        | «else» =>
          simp only
          by_cases hk : k = 0
          · rw [if_pos hk]
            refine ⟨by simp, fun s' hs => ?_⟩
            cases hs
            refine ⟨⟨hpl.inline, .inr ⟨e, by simp [hpl.putBack], skippedTok_else htk, hcs⟩⟩, h5, ?_⟩
            unfold cost at hcost ⊢
            simp only [List.length_append, List.length_cons, List.length_nil]
            simp only at hcost
            omega
          · rw [if_neg hk]; exact ih2 k
        | endif =>
          simp only
          by_cases hk : k = 0
          · rw [if_pos hk]
            refine ⟨exit_fuel, fun s' hs => ?_⟩
            obtain ⟨cs, rfl⟩ := exit_ok hs
            exact ⟨⟨hpl.inline, .inl hpl.putBack⟩, h5, Nat.le_trans (Nat.le_of_eq rfl) (Nat.le_trans (Nat.le_add_right _ 2) hcost)⟩
          · rw [if_neg hk]; exact ih2 (k - 1)

/-! ### Directives -/

theorem skip_less' {F : List Str} {n K : Nat} (hK : 1 ≤ K) {s : St} (hpl : Plain s) (ho : Opened F s.files) (hc : s.conds ≠ []) :
    skip s ≠ .error .fuel ∧ ∀ s', skip s = .ok s' → Less F n K s s' :=
  skip_less hK _ 0 s (Nat.le_refl _) hpl ho hc

theorem condition_fuel {w : World} {t : MacroTable} {d : Dir} {v : Str} : condition w t d v ≠ .error .fuel := by
  have : ∀ y : Except Err Int, y ≠ .error .fuel → (match y with | .ok v => .ok (decide (v ≠ 0)) | .error e => .error e : Except Err Bool) ≠ .error .fuel := by
    intro y hy
    cases y with
    | ok v => simp
    | error e => simpa using hy
  have he : evaluateExpression w t v ≠ .error .fuel := by
    unfold evaluateExpression
    generalize expandMacros t.macros v = x
    cases x with
    | error e => simp
    | ok e => simp only; cases w.eval t e <;> simp
  unfold condition
  split
  · simp
  · simp
  · simp
  · simp
  · exact this _ he

theorem plain_less {F : List Str} {n K : Nat} {s s' : St} (hpl : Plain s) (ho : Opened F s.files) (h1 : s'.inline = s.inline)
    (h2 : s'.putBack = s.putBack) (h3 : s'.files = s.files) : Less F n K s s' :=
  ⟨⟨h1.trans hpl.inline, .inl (h2.trans hpl.putBack)⟩, by rw [h3]; exact ho, by unfold cost; rw [h2, h3]; exact Nat.le_refl _⟩

/-- The outcome of a directive. -/
def DirTerm (w : World) (F : List Str) (n K : Nat) (k : Str) (s : St) (r : Except Err St) : Prop :=
  r ≠ .error .fuel ∧ ∀ s', r = .ok s' →
    Less F n K s s' ∨ dirOf k = .include ∧ ∃ g, s' = { s with files := g :: s.files } ∧ (∃ p, w.find p = some g.name) ∧
      w.content g.name = some g.rest ∧ g.name ∉ s.files.map (·.name)

theorem directive_less {w : World} {F : List Str} {n K : Nat} (hK : 1 ≤ K) {k v : Str} {s : St} (hpl : Plain s)
    (ho : Opened F s.files) : DirTerm w F n K k s (onDirective w k v s) := by
  have hok : ∀ s0 : St, Less F n K s s0 → DirTerm w F n K k s (.ok s0) :=
    fun s0 h => ⟨by simp, fun s' hs => by cases hs; exact .inl h⟩
  have herr : ∀ e : Err, e ≠ .fuel → DirTerm w F n K k s (.error e) :=
    fun e h => ⟨by simpa using h, fun s' hs => by cases hs⟩
  have hskip : ∀ s0 : St, s0.inline = s.inline → s0.putBack = s.putBack → s0.files = s.files → s0.conds ≠ [] →
      DirTerm w F n K k s (skip s0) := by
    intro s0 h1 h2 h3 h4
    have := skip_less' (n := n) hK (s := s0) ⟨h1.trans hpl.inline, h2.trans hpl.putBack⟩ (by rw [h3]; exact ho) h4
    refine ⟨this.1, fun s' hs => .inl (Less.trans ?_ (this.2 s' hs))⟩
    unfold cost; rw [h2, h3]; exact Nat.le_refl _
  have hif : ∀ d, DirTerm w F n K k s (onIf w d v s) := by
    intro d
    unfold onIf
    generalize hc : condition w s.table d v = x
    cases x with
    | error e => exact herr e (fun h => condition_fuel (hc.trans (by rw [h])))
    | ok b =>
      cases b with
      | true => exact hok _ (plain_less hpl ho rfl rfl rfl)
      | false => exact hskip _ rfl rfl rfl (by simp)
  have helseif : ∀ d, DirTerm w F n K k s (onElseIf w d v s) := by
    intro d
    unfold onElseIf
    cases hcs : s.conds with
    | nil => exact herr _ (by simp)
    | cons b cs =>
      have hne : s.conds ≠ [] := by rw [hcs]; simp
      cases b with
      | false => exact hskip _ rfl rfl rfl hne
      | true =>
        simp only
        generalize hc : condition w s.table d v = x
        cases x with
        | error e => exact herr e (fun h => condition_fuel (hc.trans (by rw [h])))
        | ok b =>
          cases b with
          | true => exact hok _ (plain_less hpl ho rfl rfl rfl)
          | false => exact hskip _ rfl rfl rfl hne
  unfold onDirective
  generalize hk : dirOf k = dk
  cases dk with
  | cmdswitches => exact hok _ (plain_less hpl ho rfl rfl rfl)
  | error => exact herr _ (by simp)
  | message => exact hok _ (plain_less hpl ho rfl rfl rfl)
  | «include» =>
    simp only
    cases hf : findIncludeFile w s v with
    | error e =>
      refine herr e ?_
      intro he
      subst he
      unfold findIncludeFile at hf
      simp only at hf
      split at hf <;> simp at hf
    | ok path =>
      simp only
      unfold openFile
      cases hw : w.find path with
      | none => exact herr _ (by simp)
      | some abs =>
        simp only
        by_cases hm : abs ∈ s.files.map (·.name)
        · rw [if_pos hm]; exact herr _ (by simp)
        · rw [if_neg hm]
          cases hct : w.content abs with
          | none => exact herr _ (by simp)
          | some text =>
            exact ⟨by simp, fun s' hs => by
              cases hs
              exact .inr ⟨hk, _, rfl, ⟨path, hw⟩, hct, hm⟩⟩
  | «if» => exact hif _
  | ifdef => exact hif _
  | ifndef => exact hif _
  | «else» =>
    simp only
    unfold onElse
    cases hcs : s.conds with
    | nil => exact herr _ (by simp)
    | cons b cs =>
      have hne : s.conds ≠ [] := by rw [hcs]; simp
      cases b with
      | false => exact hskip _ rfl rfl rfl hne
      | true => exact hok _ (plain_less hpl ho rfl rfl rfl)
  | elseif => exact helseif _
  | elseifdef => exact helseif _
  | elseifndef => exact helseif _
  | endif =>
    simp only
    refine ⟨exit_fuel, fun s' hs => ?_⟩
    obtain ⟨cs, rfl⟩ := exit_ok hs
    exact .inl (plain_less hpl ho rfl rfl rfl)
  | undef => exact hok _ (plain_less hpl ho rfl rfl rfl)
  | unknown => exact herr _ (by simp)

/-- The files that can be included: finitely many, of bounded length, closed. -/
def Finite (w : World) (F : List Str) (B : Nat) : Prop :=
  ∀ p abs text, w.find p = some abs → w.content abs = some text →
    abs ∈ F ∧ Closed .start (linesOf text) ∧ (linesOf text).length ≤ B

/-- A directive that was read from a file costs less than its line. -/
theorem parse_less {w : World} {F : List Str} {B : Nat} (hw : Finite w F B) {t : Str} {s : St} {f : TextFile}
    {fs : List TextFile} {W : Nat} (hpl : Plain s) (ho : Opened F s.files) (hf : s.files = f :: fs)
    (hW : weight F.length (B + 1) s.files + (B + 1) ^ (F.length - fs.length) ≤ W) :
    parseDirective w t s ≠ .error .fuel ∧ ∀ s', parseDirective w t s = .ok (some s') →
      Sound s' ∧ Opened F s'.files ∧ cost F.length (B + 1) s' + 4 ≤ 4 * W := by
  unfold parseDirective
  generalize directiveOf s.table.macros t = x
  rcases x with e | (_ | ⟨k, v⟩)
  · exact ⟨by simp, fun s' h => by cases h⟩
  · exact ⟨by simp, fun s' h => by cases h⟩
  · simp only
    obtain ⟨h1, h2⟩ := directive_less (w := w) (F := F) (n := F.length) (K := B + 1) (by omega) (k := k) (v := v) hpl ho
    generalize hy : onDirective w k v s = y at h1 h2
    cases y with
    | error e => exact ⟨by simpa using h1, fun s' h => by cases h⟩
    | ok s1 =>
      refine ⟨by simp, fun s' h => ?_⟩
      cases h
      have hp := pow_pos' (K := B + 1) (by omega) (F.length - fs.length)
      rcases h2 _ rfl with ⟨a, b, c⟩ | ⟨_, g, rfl, ⟨p, a⟩, b, c⟩
      · refine ⟨a, b, ?_⟩
        have : cost F.length (B + 1) s = 4 * weight F.length (B + 1) s.files := by unfold cost; rw [hpl.putBack]; simp
        omega
      · obtain ⟨d1, d2, d3⟩ := hw p g.name g.rest a b
        have ho' : Opened F (g :: s.files) := by
          refine ⟨?_, ?_, ?_⟩
          · rw [List.map_cons, List.nodup_cons]; exact ⟨c, ho.nodup⟩
          · intro f hf
            rcases List.mem_cons.1 hf with rfl | hf
            · exact d1
            · exact ho.known f hf
          · intro f hf
            rcases List.mem_cons.1 hf with rfl | hf
            · exact d2
            · exact ho.closed f hf
        refine ⟨⟨hpl.inline, .inl hpl.putBack⟩, ho', ?_⟩
        unfold cost
        simp only [hpl.putBack, List.length_nil, Nat.mul_zero, Nat.add_zero]
        rw [weight]
        have hl := ho'.length
        rw [hf] at hl ⊢
        rw [hf] at hW
        simp only [List.length_cons] at hl ⊢
        have hpw : (B + 1) ^ (F.length - fs.length) = (B + 1) * (B + 1) ^ (F.length - (fs.length + 1)) := by
          rw [show F.length - fs.length = (F.length - (fs.length + 1)) + 1 by omega, Nat.pow_succ, Nat.mul_comm]
        have hq := pow_pos' (K := B + 1) (by omega) (F.length - (fs.length + 1))
        have hm : (linesOf g.rest).length * (B + 1) ^ (F.length - (fs.length + 1)) ≤ B * (B + 1) ^ (F.length - (fs.length + 1)) :=
          Nat.mul_le_mul_right _ d3
        rw [hpw, Nat.succ_mul] at hW
        omega

/-! ### Rounds -/

/-- An unfinished line cannot become an include at a place where its file is no longer open. -/
def PartOk (p : MLine) (s : St) : Prop :=
  p.cont = .none ∨ Harmless (p.content.getD []) ∨
    s.putBack = [] ∧ ∃ f fs, s.files = f :: fs ∧ Closed .include (linesOf f.rest)

def TermSt (F : List Str) (p : MLine) (s : St) : Prop := Sound s ∧ Opened F s.files ∧ PartOk p s

def cost' (n K : Nat) (p : MLine) (s : St) : Nat := cost n K s + if p.cont = .none then 0 else 1

def RoundTerm (F : List Str) (n K : Nat) (p : MLine) (s : St) (r : Except Err ((MLine × St) ⊕ (Option Str × St))) : Prop :=
  match r with
  | .error e => e ≠ .fuel
  | .ok (.inl (p', s')) => TermSt F p' s' ∧ cost' n K p' s' < cost' n K p s
  | .ok (.inr (none, _)) => True
  | .ok (.inr (some _, s')) => TermSt F {} s' ∧ cost' n K {} s' < cost' n K p s

theorem extend_harmless {p x : MLine} (hp : p.cont ≠ .none) (h : Harmless (p.content.getD [])) :
    Harmless ((extend p x).content.getD []) := by
  unfold extend
  rw [if_neg hp]
  unfold follow
  rw [Option.getD_some, List.append_assoc]
  exact h.append _

theorem extend_eq (p x : MLine) : (if isComplete p = true then x else joinLines p x) = extend p x := by
  unfold isComplete extend
  by_cases hp : p.cont = .none <;> simp [hp, joinLines_eq]

/-- A line of text was read. -/
theorem round_text {w : World} {F : List Str} {B : Nat} (hw : Finite w F B) {p x : MLine} {s s1 : St} {f : TextFile}
    {fs : List TextFile} (hr : basicReadLine s = (x, s1)) (hx : ¬ IsBang x) (hn : x.content.isNone = false)
    (hpl : Plain s1) (ho : Opened F s1.files) (hf : s1.files = f :: fs)
    (hW : weight F.length (B + 1) s1.files + (B + 1) ^ (F.length - fs.length) ≤ weight F.length (B + 1) s.files)
    (hp : PartOk (extend p x) s1) : RoundTerm F F.length (B + 1) p s (round w p s) := by
  have hpow := pow_pos' (K := B + 1) (by omega) (F.length - fs.length)
  have hcost : ∀ q : MLine, cost' F.length (B + 1) q s1 < cost' F.length (B + 1) p s := by
    intro q
    unfold cost' cost
    rw [hpl.putBack]
    simp only [List.length_nil]
    split <;> omega
  have hterm : ∀ q : MLine, PartOk q s1 → TermSt F q s1 := fun q h => ⟨⟨hpl.inline, .inl hpl.putBack⟩, ho, h⟩
  unfold round
  rw [hr]
  simp only
  rw [if_neg (fun h => hx ((bang_iff x).1 h)), extend_eq]
  by_cases hc : (extend p x).cont = .none
  · have hic : isComplete (extend p x) = true := by simp [isComplete, hc]
    have hif : ∀ y : Except MacroErr (Option MacroTable), (if s1.inline = true then .ok none else y) = y := by
      intro y; simp [hpl.inline]
    simp only [hic, Bool.not_true, Bool.false_eq_true, if_false, hif]
    generalize parseMacro s1.table ((extend p x).content.getD []) = y
    rcases y with e | (_ | T)
    · simp [RoundTerm]
    · simp only
      obtain ⟨h1, h2⟩ := parse_less hw (t := (extend p x).content.getD []) hpl ho hf hW
      generalize parseDirective w ((extend p x).content.getD []) s1 = z at h1 h2
      rcases z with e | (_ | s2)
      · exact fun h => h1 (by rw [h])
      · obtain ⟨tx, htx⟩ := extend_content (p := p) hn
        simp only [htx]
        exact ⟨hterm _ (.inl rfl), hcost _⟩
      · obtain ⟨a, b, c⟩ := h2 _ rfl
        refine ⟨⟨a, b, .inl hc⟩, ?_⟩
        unfold cost'
        rw [if_pos hc]
        unfold cost at c ⊢
        omega
    · exact ⟨⟨⟨hpl.inline, .inl hpl.putBack⟩, ho, .inl hc⟩, hcost _⟩
  · have hic : isComplete (extend p x) = false := by simp [isComplete, hc]
    simp only [hic, Bool.not_false, if_true]
    exact ⟨hterm _ hp, hcost _⟩

theorem round_term {w : World} {F : List Str} {B : Nat} (hw : Finite w F B) {p : MLine} {s : St} (h : TermSt F p s) :
    RoundTerm F F.length (B + 1) p s (round w p s) := by
  obtain ⟨⟨hin, hpb | ⟨e, hpb, hel, hcs⟩⟩, ho, hp⟩ := h
  · have hpl : Plain s := ⟨hin, hpb⟩
    by_cases hinc : ∃ f fs, s.files = f :: fs ∧ Closed .include (linesOf f.rest)
    · obtain ⟨f, fs, hf, hcl⟩ := hinc
      cases hl : linesOf f.rest with
      | nil => rw [hl] at hcl; exact absurd hcl id
      | cons y ls =>
        rw [hl] at hcl
        unfold Closed at hcl
        obtain ⟨a, b, c, _⟩ := linesOf_cons hl
        have hr : basicReadLine s = (y, { s with files := { f with rest := (readLineU f.rest).2 } :: fs }) := by
          unfold basicReadLine
          rw [hpb, hf, hin, readFiles]
          have hr : readerLine false f.rest = readLineU f.rest := rfl
          simp only [hr, a, c, Bool.false_eq_true, if_false]
        have hst : Closed .start ls := by
          have := hcl.2
          by_cases hc : y.cont = .none
          · rw [if_pos hc] at this; exact this
          · rw [if_neg hc] at this; exact closed_start this
        rw [hf] at ho
        refine round_text hw hr hcl.1 c ⟨hin, hpb⟩ (ho.rest (by rw [b]; exact hst)) rfl ?_ ?_
        · rw [hf, weight, weight, hl, b, List.length_cons, Nat.succ_mul]; omega
        · by_cases hc : y.cont = .none
          · left; unfold extend follow; split <;> exact hc
          · have := hcl.2
            rw [if_neg hc] at this
            exact .inr (.inr ⟨hpb, _, _, rfl, by rw [b]; exact this⟩)
    · have hp : p.cont = .none ∨ Harmless (p.content.getD []) := by
        rcases hp with hp | hp | hp
        · exact .inl hp
        · exact .inr hp
        · exact absurd hp.2 hinc
      rcases unit_top (n := F.length) (K := B + 1) hpl ho with hr | ⟨x, f, fs, r, h1, h2, h3, h4, h5, h6, h7, h8, h9⟩
      · by_cases hpc : p.cont = .none
        · have hd : directiveOf s.table.macros [] = .ok none := by
            unfold directiveOf expandMacros
            rw [expandU_nil]; rfl
          have hm : parseMacro s.table [] = .ok none := rfl
          have h0 : startsWith [] ['!'] = false := rfl
          have hic : isComplete p = true := by simp [isComplete, hpc]
          have h1 : isComplete ({} : MLine) = true := rfl
          unfold round
          rw [hr]
          unfold parseDirective
          simp only [Option.getD_none, h0, Bool.false_eq_true, if_false, hic, if_true, h1, Bool.not_true, hm, hd, hin]
          trivial
        · have hh : Harmless ((extend p {}).content.getD []) := extend_harmless hpc (hp.resolve_left hpc)
          have hc : (extend p {}).cont = .none := by unfold extend; rw [if_neg hpc]; rfl
          have h0 : startsWith [] ['!'] = false := rfl
          have hic : isComplete (extend p {}) = true := by simp [isComplete, hc]
          have hcost : ∀ T q, q.cont = .none →
              cost' F.length (B + 1) q { s with files := [], table := T } < cost' F.length (B + 1) p s := by
            intro T q hq
            unfold cost' cost
            rw [if_neg hpc, if_pos hq]
            simp only [weight]
            omega
          have hterm : ∀ T q, q.cont = .none → TermSt F q { s with files := [], table := T } :=
            fun T q hq => ⟨⟨hin, .inl hpb⟩, ⟨by simp, by simp, by simp⟩, .inl hq⟩
          unfold round
          rw [hr]
          have hif : ∀ y : Except MacroErr (Option MacroTable), (if s.inline = true then .ok none else y) = y := by
            intro y; simp [hin]
          simp only [Option.getD_none, h0, Bool.false_eq_true, if_false, extend_eq, hic, Bool.not_true, hif]
          generalize parseMacro s.table ((extend p {}).content.getD []) = y
          rcases y with e | (_ | T)
          · simp [RoundTerm]
          · simp only
            generalize hpd : parseDirective w ((extend p {}).content.getD []) _ = z
            unfold parseDirective at hpd
            generalize hd : directiveOf _ ((extend p {}).content.getD []) = y at hpd
            rcases y with e | y
            · subst hpd; simp [RoundTerm]
            · have := hh.directive hd
              subst this
              subst hpd
              have : ∃ tx, (extend p {}).content = some tx := by unfold extend follow; rw [if_neg hpc]; exact ⟨_, rfl⟩
              obtain ⟨tx, htx⟩ := this
              simp only [htx]
              exact ⟨hterm s.table _ rfl, hcost s.table _ rfl⟩
          · exact ⟨hterm T _ hc, hcost T _ hc⟩
      · by_cases hx : IsBang x
        · have hcd : completeDirective x { s with files := f :: fs } = complete x { s with files := f :: fs } := by
            unfold completeDirective
            rw [if_pos ((bang_iff x).2 hx)]
          rw [hcd] at h6
          unfold round
          rw [h1]
          simp only
          rw [if_pos ((bang_iff x).2 hx)]
          simp only [h6]
          have hwl := weight_le (n := F.length) (K := B + 1) (fs := fs) h8
          have hpow := pow_pos' (K := B + 1) (by omega) (F.length - fs.length)
          obtain ⟨a1, a2⟩ := parse_less (W := weight F.length (B + 1) s.files) hw
            (t := (complete x { s with files := f :: fs }).1.content.getD [])
            (s := { s with files := { f with rest := r } :: fs }) ⟨hin, hpb⟩ h7 rfl (by simp only; omega)
          have hpart : ∀ s2, PartOk p s2 := fun s2 => hp.elim .inl fun h => .inr (.inl h)
          generalize parseDirective w _ _ = z at a1 a2
          rcases z with e | (_ | s2)
          · exact fun h => a1 (by rw [h])
          · refine ⟨⟨⟨hin, .inl hpb⟩, h7, hpart _⟩, ?_⟩
            unfold cost' cost
            simp only
            omega
          · obtain ⟨b1, b2, b3⟩ := a2 _ rfl
            refine ⟨⟨b1, b2, hpart _⟩, ?_⟩
            unfold cost' 
            unfold cost at b3 ⊢
            omega
        · rw [h9 hx] at h7
          refine round_text hw h1 hx h2 ⟨hin, hpb⟩ h7 rfl h4 ?_
          by_cases hpc : p.cont = .none
          · have he : extend p x = x := by unfold extend; rw [if_pos hpc]
            rw [he]
            unfold Closed at h3
            rw [if_neg hx] at h3
            by_cases hc : x.cont = .none ∨ NotInclude (x.content.getD [])
            · exact hc.elim .inl fun h => .inr (.inl (harmless_of h))
            · rw [if_neg hc] at h3
              exact .inr (.inr ⟨hpb, _, _, rfl, h3⟩)
          · exact .inr (.inl (extend_harmless hpc (hp.resolve_left hpc)))
  · have hp : p.cont = .none ∨ Harmless (p.content.getD []) := by
      rcases hp with hp | hp | hp
      · exact .inl hp
      · exact .inr hp
      · rw [hpb] at hp; cases hp.1
    have hpart : ∀ s2, PartOk p s2 := fun s2 => hp.elim .inl fun h => .inr (.inl h)
    have hst : startsWith e ['!'] = true := by
      obtain ⟨bl, a, r, rfl, _⟩ := hel
      rfl
    rw [round_putBack hpb hst]
    have hcost : cost F.length (B + 1) { s with putBack := [] } + 2 = cost F.length (B + 1) s := by
      unfold cost; rw [hpb]; simp
    generalize hpd : parseDirective w e _ = z
    unfold parseDirective at hpd
    generalize hd : directiveOf _ e = y at hpd
    rcases y with e' | (_ | ⟨k, v⟩)
    · subst hpd; simp [RoundTerm]
    · subst hpd
      refine ⟨⟨⟨hin, .inl rfl⟩, ho, hpart _⟩, ?_⟩
      unfold cost'
      omega
    · simp only at hpd
      have hk := hel.dir hd
      obtain ⟨a1, a2⟩ := directive_less (w := w) (F := F) (n := F.length) (K := B + 1) (by omega) (k := k) (v := v)
        (s := { s with putBack := [] }) ⟨hin, rfl⟩ ho
      generalize onDirective w k v _ = u at hpd a1 a2
      cases u with
      | error e => subst hpd; exact fun h => a1 (by rw [h])
      | ok s2 =>
        subst hpd
        rcases a2 _ rfl with ⟨b1, b2, b3⟩ | ⟨hi, _⟩
        · refine ⟨⟨b1, b2, hpart _⟩, ?_⟩
          unfold cost'
          omega
        · rw [hi] at hk
          simp [isElseIf] at hk

theorem readLine_term {w : World} {F : List Str} {B : Nat} (hw : Finite w F B) (m : Nat) : ∀ (p : MLine) (s : St) (fuel : Nat),
    TermSt F p s → cost' F.length (B + 1) p s < fuel → cost' F.length (B + 1) p s ≤ m →
    readLineF w fuel p s ≠ .error .fuel ∧ ∀ t s', readLineF w fuel p s = .ok (some t, s') →
      TermSt F {} s' ∧ cost' F.length (B + 1) {} s' < cost' F.length (B + 1) p s := by
  induction m with
  | zero =>
    intro p s fuel ht hf hm
    cases fuel with
    | zero => omega
    | succ fuel =>
      rw [readLineF]
      have hr := round_term hw ht
      generalize round w p s = x at hr
      rcases x with e | (⟨p1, s1⟩ | ⟨t1, s1⟩)
      · exact ⟨fun h => hr (by cases h; rfl), fun _ _ h => by cases h⟩
      · have := hr.2; omega
      · simp only
        by_cases hc : t1.isNone = true ∧ s1.conds ≠ []
        · rw [if_pos hc]; exact ⟨by simp, fun _ _ h => by cases h⟩
        · rw [if_neg hc]
          refine ⟨by simp, fun t s' h => ?_⟩
          cases h
          exact hr
  | succ m ih =>
    intro p s fuel ht hf hm
    cases fuel with
    | zero => omega
    | succ fuel =>
      rw [readLineF]
      have hr := round_term hw ht
      generalize round w p s = x at hr
      rcases x with e | (⟨p1, s1⟩ | ⟨t1, s1⟩)
      · exact ⟨fun h => hr (by cases h; rfl), fun _ _ h => by cases h⟩
      · obtain ⟨a, b⟩ := hr
        obtain ⟨c, d⟩ := ih p1 s1 fuel a (by omega) (by omega)
        exact ⟨c, fun t s' h => ⟨(d t s' h).1, Nat.lt_trans (d t s' h).2 b⟩⟩
      · simp only
        by_cases hc : t1.isNone = true ∧ s1.conds ≠ []
        · rw [if_pos hc]; exact ⟨by simp, fun _ _ h => by cases h⟩
        · rw [if_neg hc]
          refine ⟨by simp, fun t s' h => ?_⟩
          cases h
          exact hr

theorem readAll_term {w : World} {F : List Str} {B : Nat} (hw : Finite w F B) (n : Nat) : ∀ (s : St) (fuel : Nat),
    TermSt F {} s → cost' F.length (B + 1) {} s < fuel → cost' F.length (B + 1) {} s < n →
    readAllF w fuel n s ≠ .error .fuel := by
  induction n with
  | zero => intro s fuel _ _ h; omega
  | succ n ih =>
    intro s fuel ht hf hn
    rw [readAllF]
    obtain ⟨a, b⟩ := readLine_term hw _ {} s fuel ht hf (Nat.le_refl _)
    unfold readLine
    generalize readLineF w fuel {} s = x at a b
    rcases x with e | ⟨_ | t, s1⟩
    · simpa using a
    · simp
    · obtain ⟨c, d⟩ := b t s1 rfl
      have := ih s1 fuel c (by omega) (by omega)
      simp only
      generalize readAllF w fuel n s1 = y at this
      cases y with
      | error e => simpa using this
      | ok r => simp

end Jom.PP
