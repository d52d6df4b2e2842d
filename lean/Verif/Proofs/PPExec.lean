import Verif.Proofs.PPSim
import Verif.Proofs.PPLine

/-! Simulation of `Spec.Exec` by the main loop. -/

namespace Jom.PP
open Jom.Spec

theorem expand_bang {m : Macros} {t e : Str} (h : expandMacros m t = .ok e) (ht : startsWith t ['!'] = true) :
    startsWith e ['!'] = true := by
  cases t with
  | nil => simp [startsWith] at ht
  | cons c s =>
    have hc : c = '!' := by simp [startsWith, List.isPrefixOf] at ht; exact ht.symm
    subst hc
    unfold expandMacros at h
    rw [expandU_lit _ _ _ _ _ (by decide)] at h
    generalize expandU m false [] s = x at h
    cases x with
    | error _ => cases h
    | ok r => cases h; rfl

/-- The word of a directive. -/
def wordOf : Dir → Str
  | .cmdswitches => ['C', 'M', 'D', 'S', 'W', 'I', 'T', 'C', 'H', 'E', 'S']
  | .error => ['E', 'R', 'R', 'O', 'R']
  | .message => ['M', 'E', 'S', 'S', 'A', 'G', 'E']
  | .include => wINCLUDE
  | .if => wIF
  | .ifdef => wIFDEF
  | .ifndef => wIFNDEF
  | .else => wELSE
  | .elseif => wELSE ++ wIF
  | .elseifdef => wELSE ++ wIFDEF
  | .elseifndef => wELSE ++ wIFNDEF
  | .endif => wENDIF
  | .undef => ['U', 'N', 'D', 'E', 'F']
  | .unknown => []

theorem dirOf_word {d : Str} {x : Dir} (h : dirOf d = x) (hx : x ≠ .unknown) : d = wordOf x := by
  unfold dirOf at h
  by_cases h1 : d = ['C', 'M', 'D', 'S', 'W', 'I', 'T', 'C', 'H', 'E', 'S']
  · rw [if_pos h1] at h; rw [← h]; exact h1
  rw [if_neg h1] at h
  by_cases h1 : d = ['E', 'R', 'R', 'O', 'R']
  · rw [if_pos h1] at h; rw [← h]; exact h1
  rw [if_neg h1] at h
  by_cases h1 : d = ['M', 'E', 'S', 'S', 'A', 'G', 'E']
  · rw [if_pos h1] at h; rw [← h]; exact h1
  rw [if_neg h1] at h
  by_cases h1 : d = wINCLUDE
  · rw [if_pos h1] at h; rw [← h]; exact h1
  rw [if_neg h1] at h
  by_cases h1 : d = wIF
  · rw [if_pos h1] at h; rw [← h]; exact h1
  rw [if_neg h1] at h
  by_cases h1 : d = wIFDEF
  · rw [if_pos h1] at h; rw [← h]; exact h1
  rw [if_neg h1] at h
  by_cases h1 : d = wIFNDEF
  · rw [if_pos h1] at h; rw [← h]; exact h1
  rw [if_neg h1] at h
  by_cases h1 : d = wELSE
  · rw [if_pos h1] at h; rw [← h]; exact h1
  rw [if_neg h1] at h
  by_cases h1 : d = wELSE ++ wIF
  · rw [if_pos h1] at h; rw [← h]; exact h1
  rw [if_neg h1] at h
  by_cases h1 : d = wELSE ++ wIFDEF
  · rw [if_pos h1] at h; rw [← h]; exact h1
  rw [if_neg h1] at h
  by_cases h1 : d = wELSE ++ wIFNDEF
  · rw [if_pos h1] at h; rw [← h]; exact h1
  rw [if_neg h1] at h
  by_cases h1 : d = wENDIF
  · rw [if_pos h1] at h; rw [← h]; exact h1
  rw [if_neg h1] at h
  by_cases h1 : d = ['U', 'N', 'D', 'E', 'F']
  · rw [if_pos h1] at h; rw [← h]; exact h1
  rw [if_neg h1] at h
  exact (hx h.symm).elim

theorem tokOf_endif {d : Str} (h : dirOf d = .endif) : tokOf d = .endif := by
  rw [dirOf_word h (by decide)]; decide

theorem tokOf_else {d : Str} (h : dirOf d = .else ∨ isElseIf (dirOf d)) : tokOf d = .else := by
  rcases h with h | h | h | h <;> (rw [dirOf_word h (by decide)]; decide)

theorem directiveOf_expand {m : Macros} {t d v : Str} (h : directiveOf m t = .ok (some (d, v))) :
    ∃ e, expandMacros m t = .ok e ∧ skippedTok m t = .ok (tokOf d, e) := by
  unfold directiveOf at h
  unfold skippedTok
  generalize hx : expandMacros m t = x at h
  cases x with
  | error e => simp at h
  | ok e => simp only at h; exact ⟨e, rfl, by simp only [h]⟩

theorem directive_head {u : List MLine} {t : Str} (h : DirectiveLines u t) : startsWith t ['!'] = true := by
  obtain ⟨hj, x, xs, rfl, hx⟩ := h
  generalize hu : x :: xs = u at hj
  induction hj generalizing x xs with
  | last y _ => cases hu; exact (bang_iff _).2 hx
  | more y z ys t hy hj ih =>
    cases hu
    refine ih _ _ ?_ rfl
    unfold IsBang proceed at *
    simp only [Option.getD_some, List.append_assoc]
    cases hc : y.content.getD [] with
    | nil => rw [hc] at hx; simp at hx
    | cons a b => rw [hc] at hx; simpa using hx

/-- A directive that is processed. -/
theorem reads_step {w : World} {u : List MLine} {tail : List TLine} {d : Dir} {v : Str} {p : MLine} {s : St} {f : TextFile}
    {fs : List TextFile} (hr : Reads s.table.macros u d v) (h : Ahead s f fs (ordinary u ++ tail)) :
    ∃ g wd, On { s with files := g } f fs tail ∧ dirOf wd = d ∧
      round w p s = (match onDirective w wd v { s with files := g } with
        | .error e => .error e
        | .ok s' => .ok (.inl (p, s'))) := by
  obtain ⟨t, wd, h1, h2, h3⟩ := hr
  rw [directive_iff] at h2
  replace h3 := (keyword_dirOf h3).1
  obtain ⟨g, ho, hround⟩ := round_bang (w := w) (p := p) h h1
  refine ⟨g, wd, ho, h3, ?_⟩
  rw [hround]
  unfold parseDirective
  simp only [h2]
  generalize onDirective w wd v _ = x
  cases x <;> rfl

/-- A directive that is reached by skipping. -/
theorem reads_skip {u : List MLine} {tail : List TLine} {d : Dir} {v : Str} {s : St} {f : TextFile} {fs : List TextFile}
    (hr : Reads s.table.macros u d v) (h : Ahead s f fs (ordinary u ++ tail)) :
    ∃ g wd e, On { s with files := g } f fs tail ∧ dirOf wd = d ∧ startsWith e ['!'] = true ∧
      (∀ depth, skipAt depth s = skipStep depth (tokOf wd) e { s with files := g }) ∧
      (Stable s.table.macros u → directiveOf s.table.macros e = .ok (some (wd, v))) := by
  obtain ⟨t, wd, h1, h2, h3⟩ := hr
  rw [directive_iff] at h2
  replace h3 := (keyword_dirOf h3).1
  obtain ⟨e, he, ht⟩ := directiveOf_expand h2
  obtain ⟨g, ho, hk⟩ := skip_unit h (.inr h1) ht
  exact ⟨g, wd, e, ho, h3, expand_bang he (directive_head h1), hk, fun hs => directive_iff.1 (hs t e _ h1 (expanded_iff.2 he) (directive_iff.2 h2))⟩

/-- The line put back by skipping is processed. -/
theorem putBack_step {w : World} {p : MLine} {s : St} {e wd v : Str} (he : startsWith e ['!'] = true)
    (hp : s.putBack = []) (hd : directiveOf s.table.macros e = .ok (some (wd, v))) :
    round w p { s with putBack := [e] } = (match onDirective w wd v s with
        | .error e => .error e
        | .ok s' => .ok (.inl (p, s'))) := by
  rw [round_putBack (e := e) rfl he]
  have : ({ s with putBack := [] } : St) = s := by rw [← hp]
  show (match parseDirective w e { s with putBack := [] } with | .error e => _ | .ok none => _ | .ok (some s') => _) = _
  rw [this]
  unfold parseDirective
  simp only [hd]
  generalize onDirective w wd v _ = x
  cases x <;> rfl

theorem exit_eq {s : St} {b : Bool} {cs : List Bool} (h : s.conds = b :: cs) : exitConditional s = .ok { s with conds := cs } := by
  unfold exitConditional; rw [h]

theorem onElse_false {s : St} {cs : List Bool} (h : s.conds = false :: cs) : onElse s = skip s := by
  unfold onElse; rw [h]; rfl

theorem onElse_true {s : St} {cs : List Bool} (h : s.conds = true :: cs) : onElse s = .ok s := by
  unfold onElse; rw [h]; rfl

theorem onElseIf_false {w : World} {d : Dir} {v : Str} {s : St} {cs : List Bool} (h : s.conds = false :: cs) :
    onElseIf w d v s = skip s := by
  unfold onElseIf; rw [h]

theorem onElseIf_true {w : World} {d : Dir} {v : Str} {s : St} {cs : List Bool} {b : Bool} (h : s.conds = true :: cs)
    (hb : condition w s.table d v = .ok b) :
    onElseIf w d v s = if b then .ok { s with conds := false :: cs } else skip s := by
  unfold onElseIf; rw [h, hb]

theorem else_false {w : World} {wd v : Str} {s : St} {cs : List Bool} (h : s.conds = false :: cs)
    (hd : dirOf wd = .else ∨ isElseIf (dirOf wd)) : onDirective w wd v s = skip s := by
  rcases hd with hd | hd | hd | hd
  · simp only [onDirective, hd]; exact onElse_false h
  · simp only [onDirective, hd]; exact onElseIf_false h
  · simp only [onDirective, hd]; exact onElseIf_false h
  · simp only [onDirective, hd]; exact onElseIf_false h

/-- Alternatives behind the branch taken are passed over, first skipped to. -/
theorem passed_skip {w : World} {m : Macros} {p : MLine} (hn : norm p = p) {f : TextFile} {fs : List TextFile}
    {tail : List TLine} {cs : List Bool} : (a : Tree .alts) → Passed m a → (s : St) → s.table.macros = m →
    Ahead s f fs (a.lines ++ tail) → s.conds = false :: cs →
    ∃ s1 g, skipAt 0 s = .ok s1 ∧ Steps w p s1 [] p { s with files := g, conds := cs } ∧
      Ahead { s with files := g, conds := cs } f fs tail
  | .endif u, ⟨v, hv⟩, s, hm, ha, hc => by
    subst hm
    obtain ⟨g, wd, e, ho, hd, _, hk, _⟩ := reads_skip hv ha
    refine ⟨{ s with files := g, conds := cs }, g, ?_, .refl _ _, On.ahead ho⟩
    rw [hk 0, tokOf_endif hd]
    simp only [skipStep, if_true]
    exact exit_eq (s := { s with files := g }) hc
  | .alt u b a, ⟨⟨d, v, hv, hd⟩, hst, hb, hp⟩, s, hm, ha, hc => by
    subst hm
    rw [Tree.lines, List.append_assoc, List.append_assoc] at ha
    obtain ⟨g, wd, e, ho, hwd, he, hk, hag⟩ := reads_skip hv ha
    have hdir := hag hst
    obtain ⟨g1, ha1, hk1⟩ := skips_sim b hb { s with files := g } f fs _ rfl ho.ahead
    obtain ⟨s1, g2, h1, h2, h3⟩ := passed_skip hn a hp { s with files := g1 } rfl ha1 hc
    refine ⟨{ s with files := g, putBack := [e] }, g2, ?_, ?_, h3⟩
    · rw [hk 0, tokOf_else (by rw [hwd]; exact hd)]
      simp only [skipStep, if_true]
    · refine .go _ p _ _ s1 _ _ ?_ (by rw [hn]; exact h2)
      refine (putBack_step (s := { s with files := g }) he ha.2.1 hdir).trans ?_
      have hs : skip { s with files := g } = .ok s1 := by rw [skip_eq_skipAt, hk1 0, h1]
      rw [else_false (s := { s with files := g }) hc (by rw [hwd]; exact hd), hs]

/-- Alternatives behind the branch taken are passed over. -/
theorem passed_sim {w : World} {p : MLine} (hn : norm p = p) {f : TextFile} {fs : List TextFile} {tail : List TLine}
    {cs : List Bool} (a : Tree .alts) (s : St) (hp : Passed s.table.macros a) (ha : Ahead s f fs (a.lines ++ tail))
    (hc : s.conds = false :: cs ∨ (s.conds = true :: cs ∧ ∃ u, a = .endif u)) :
    ∃ g, Steps w p s [] p { s with files := g, conds := cs } ∧ Ahead { s with files := g, conds := cs } f fs tail := by
  cases a with
  | endif u =>
    obtain ⟨v, hv⟩ := hp
    obtain ⟨g, wd, ho, hd, hr⟩ := reads_step (w := w) (p := p) hv ha
    refine ⟨g, ?_, On.ahead ho⟩
    have hx : exitConditional { s with files := g } = .ok { s with files := g, conds := cs } := by
      rcases hc with hc | ⟨hc, _⟩ <;> exact exit_eq (s := { s with files := g }) hc
    simp only [onDirective, hd, hx] at hr
    have := Steps.one hr
    rwa [hn] at this
  | alt u b a =>
    have hc : s.conds = false :: cs := by
      rcases hc with hc | ⟨_, u', hu⟩
      · exact hc
      · cases hu
    obtain ⟨⟨d, v, hv, hd⟩, hst, hb, hp⟩ := hp
    rw [Tree.lines, List.append_assoc, List.append_assoc] at ha
    obtain ⟨g, wd, ho, hwd, hr⟩ := reads_step (w := w) (p := p) hv ha
    obtain ⟨g1, ha1, hk1⟩ := skips_sim b hb { s with files := g } f fs _ rfl ho.ahead
    obtain ⟨s1, g2, h1, h2, h3⟩ := passed_skip (w := w) hn a hp { s with files := g1 } rfl ha1 hc
    refine ⟨g2, .go _ p _ _ s1 _ _ ?_ (by rw [hn]; exact h2), h3⟩
    rw [hr]
    have hs : skip { s with files := g } = .ok s1 := by rw [skip_eq_skipAt, hk1 0, h1]
    rw [else_false (s := { s with files := g }) hc (by rw [hwd]; exact hd), hs]

/-! ### Includes -/

/-- Name and directory of a file. -/
def key (f : TextFile) : Str × Str := (f.name, f.dir)

theorem findIncludeFile_congr (w : World) (s s' : St) (v : Str) (h1 : s.files.map key = s'.files.map key)
    (h2 : s.table = s'.table) : findIncludeFile w s v = findIncludeFile w s' v := by
  have hd : ∀ p : Str, (s.files.map fun f => f.dir ++ ['/'] ++ p) = s'.files.map fun f => f.dir ++ ['/'] ++ p := by
    intro p
    have := congrArg (List.map fun k : Str × Str => k.2 ++ ['/'] ++ p) h1
    rw [List.map_map, List.map_map] at this
    exact this
  unfold findIncludeFile
  simp only [hd, h2]

theorem names_congr {fs fs' : List TextFile} (h : fs.map key = fs'.map key) : fs.map (·.name) = fs'.map (·.name) := by
  have := congrArg (List.map Prod.fst) h
  rw [List.map_map, List.map_map] at this
  exact this

/-! ### The simulation -/

theorem onDirective_if {w : World} {wd v : Str} {s : St} {d : Dir} (h : isIf d) (hd : dirOf wd = d) :
    onDirective w wd v s = onIf w d v s := by
  rcases h with rfl | rfl | rfl <;> simp only [onDirective, hd]

theorem onDirective_elseif {w : World} {wd v : Str} {s : St} {d : Dir} (h : isElseIf d) (hd : dirOf wd = d) :
    onDirective w wd v s = onElseIf w d v s := by
  rcases h with rfl | rfl | rfl <;> simp only [onDirective, hd]

theorem exec_sim {w : World} {k : Kind} {stk : List TextFile} {c c' : Cfg} {t : Tree k} {o : List Makefile.Line}
    (h : Exec w stk c t o c') : ∀ (f : TextFile) (fs : List TextFile) (s : St) (tail : List TLine),
    stk.map key = (f :: fs).map key → Agrees c s → Ahead s f fs (t.lines ++ tail) →
    match k with
    | .block => ∃ s', Steps w c.part s o c'.part s' ∧ Agrees c' s' ∧ Ahead s' f fs tail ∧ s'.conds = s.conds
    | .alts => ∀ cs, s.conds = true :: cs →
      ∃ s1 s', skipAt 0 s = .ok s1 ∧ Steps w c.part s1 o c'.part s' ∧ Agrees c' s' ∧ Ahead s' f fs tail ∧ s'.conds = cs := by
  induction h with
  | nil stk c =>
    intro f fs s tail _ hag ha
    exact ⟨s, .refl _ _, hag, ha, rfl⟩
  | leaf stk c c1 c2 u r o o' hl _ ih =>
    intro f fs s tail hk hag ha
    rw [Tree.lines, List.append_assoc] at ha
    obtain ⟨s1, h1, h2, h3, h4⟩ := leaf_sim hl hag ha
    obtain ⟨s2, h5, h6, h7, h8⟩ := ih f fs s1 tail hk h2 h3
    exact ⟨s2, h1.trans h5, h6, h7, h8.trans h4⟩
  | incl stk c c1 c2 u r b o o' v path abs text hr hfi hfind hns hct hbl _ _ ihb ihr =>
    intro f fs s tail hk hag ha
    rw [Tree.lines, List.append_assoc] at ha
    rw [← hag.table] at hr
    obtain ⟨g, wd, ho, hwd, hround⟩ := reads_step (w := w) (p := c.part) hr ha
    obtain ⟨rr, hg, hrr⟩ := ho.2.2
    have hg : g = { f with rest := rr } :: fs := hg
    have hk' : stk.map key = g.map key := by rw [hg]; exact hk
    have hfi' : findIncludeFile w { s with files := g } v = .ok path := by
      rw [← findInclude_iff.2 hfi]; exact findIncludeFile_congr _ _ _ _ hk'.symm hag.table
    have hop : openFile w path { s with files := g } =
        .ok { s with files := { name := abs, dir := w.dir abs, rest := text } :: g } := by
      unfold openFile
      have hns' : abs ∉ g.map (·.name) := by rw [← names_congr hk']; exact hns
      simp only [hfind, hns', if_false, hct]
    simp only [onDirective, hwd, hfi', hop] at hround
    obtain ⟨s2, h1, h2, h3, h4⟩ := ihb { name := abs, dir := w.dir abs, rest := [] } g
      { s with files := { name := abs, dir := w.dir abs, rest := text } :: g } [] (by simp [hk', key]) ⟨hag.table, hag.messages, hag.part⟩
      ⟨ho.1, ho.2.1, [], text, rfl, by simp, by simpa using hbl⟩
    obtain ⟨a1, a2, E, r2, a3, a4, a5⟩ := h3
    obtain ⟨s3, h5, h6, h7, h8⟩ := ihr f fs s2 tail hk h2 ⟨a1, a2, E ++ [{ name := abs, dir := w.dir abs, rest := r2 }], rr,
      by rw [a3, hg]; simp, by
        intro x hx
        rcases List.mem_append.1 hx with hx | hx
        · exact a4 x hx
        · rw [List.mem_singleton.1 hx]; exact a5, hrr⟩
    refine ⟨s3, .go _ _ _ _ _ _ _ hround ?_, h6, h7, h8.trans h4⟩
    rw [hag.part]
    exact h1.trans h5
  | condTrue stk c c1 c2 u b r a o o' d v hr hif hcond _ hpas _ ihb ihr =>
    intro f fs s tail hk hag ha
    rw [Tree.lines, List.append_assoc, List.append_assoc, List.append_assoc] at ha
    rw [← hag.table] at hr
    obtain ⟨g, wd, ho, hwd, hround⟩ := reads_step (w := w) (p := c.part) hr ha
    rw [onDirective_if hif hwd] at hround
    have hcond' : condition w s.table d v = .ok true := by rw [hag.table]; exact hcond.condition
    simp only [onIf, hcond', Bool.not_true, if_true] at hround
    obtain ⟨s2, h1, h2, h3, h4⟩ := ihb f fs { s with files := g, conds := false :: s.conds } _ hk
      ⟨hag.table, hag.messages, hag.part⟩ (On.ahead ho)
    obtain ⟨g3, h5, h6⟩ := passed_sim (w := w) h2.part a s2 (by rw [h2.table]; exact hpas) h3 (.inl h4)
    obtain ⟨s4, h7, h8, h9, h10⟩ := ihr f fs { s2 with files := g3, conds := s.conds } tail hk ⟨h2.table, h2.messages, h2.part⟩ h6
    refine ⟨s4, .go _ _ _ _ _ _ _ hround ?_, h8, h9, h10⟩
    rw [hag.part]
    exact h1.trans (h5.trans h7)
  | condFalse stk c c1 c2 u b r a o o' d v hr hif hcond hsk _ _ iha ihr =>
    intro f fs s tail hk hag ha
    rw [Tree.lines, List.append_assoc, List.append_assoc, List.append_assoc] at ha
    rw [← hag.table] at hr hsk
    obtain ⟨g, wd, ho, hwd, hround⟩ := reads_step (w := w) (p := c.part) hr ha
    rw [onDirective_if hif hwd] at hround
    have hcond' : condition w s.table d v = .ok false := by rw [hag.table]; exact hcond.condition
    simp only [onIf, hcond', Bool.not_false, Bool.false_eq_true, if_false] at hround
    obtain ⟨g1, ha1, hk1⟩ := skips_sim b hsk { s with files := g, conds := true :: s.conds } f fs _ rfl (On.ahead ho)
    obtain ⟨s1, s2, h1, h2, h3, h4, h5⟩ := iha f fs { s with files := g1, conds := true :: s.conds } _ hk
      ⟨hag.table, hag.messages, hag.part⟩ ha1 s.conds rfl
    obtain ⟨s4, h7, h8, h9, h10⟩ := ihr f fs s2 tail hk h3 h4
    have hs : skip { s with files := g, conds := true :: s.conds } = .ok s1 := by rw [skip_eq_skipAt, hk1 0, h1]
    simp only [hs] at hround
    refine ⟨s4, .go _ _ _ _ _ _ _ hround ?_, h8, h9, h10.trans h5⟩
    rw [hag.part]
    exact h2.trans h7
  | endif stk c u v hr =>
    intro f fs s tail hk hag ha cs hc
    rw [← hag.table] at hr
    obtain ⟨g, wd, e, ho, hd, _, hsk, _⟩ := reads_skip hr ha
    refine ⟨_, { s with files := g, conds := cs }, ?_, .refl _ _, ⟨hag.table, hag.messages, hag.part⟩, On.ahead ho, rfl⟩
    rw [hsk 0, tokOf_endif hd]
    simp only [skipStep, if_true]
    exact exit_eq (s := { s with files := g }) hc
  | «else» stk c c1 u u' b o v v' hr hst _ hr' ihb =>
    intro f fs s tail hk hag ha cs hc
    rw [Tree.lines, List.append_assoc, List.append_assoc] at ha
    rw [← hag.table] at hr hst
    obtain ⟨g, wd, e, ho, hd, he, hsk, hag'⟩ := reads_skip hr ha
    have hdir := hag' hst
    obtain ⟨s2, h1, h2, h3, h4⟩ := ihb f fs { s with files := g } _ hk ⟨hag.table, hag.messages, hag.part⟩ (On.ahead ho)
    obtain ⟨g3, h5, h6⟩ := passed_sim (w := w) h2.part (.endif u') s2 ⟨v', by rw [h2.table]; exact hr'⟩ h3
      (.inr ⟨h4.trans hc, u', rfl⟩)
    refine ⟨{ s with files := g, putBack := [e] }, { s2 with files := g3, conds := cs }, ?_, ?_, ⟨h2.table, h2.messages, h2.part⟩, h6, rfl⟩
    · rw [hsk 0, tokOf_else (.inl hd)]
      simp only [skipStep, if_true]
    · have hround : round w c.part { s with files := g, putBack := [e] } = .ok (.inl (c.part, { s with files := g })) := by
        refine (putBack_step (s := { s with files := g }) he ha.2.1 hdir).trans ?_
        simp only [onDirective, hd]
        rw [onElse_true (s := { s with files := g }) hc]
      refine .go _ _ _ _ _ _ _ hround ?_
      rw [hag.part]
      have := h1.trans h5
      rwa [List.append_nil] at this
  | elseTrue stk c c1 u b a o d v hr hei hst hcond _ hpas ihb =>
    intro f fs s tail hk hag ha cs hc
    rw [Tree.lines, List.append_assoc, List.append_assoc] at ha
    rw [← hag.table] at hr hst
    obtain ⟨g, wd, e, ho, hd, he, hsk, hag'⟩ := reads_skip hr ha
    have hdir := hag' hst
    have hcond' : condition w s.table d v = .ok true := by rw [hag.table]; exact hcond.condition
    obtain ⟨s2, h1, h2, h3, h4⟩ := ihb f fs { s with files := g, conds := false :: cs } _ hk
      ⟨hag.table, hag.messages, hag.part⟩ (On.ahead ho)
    obtain ⟨g3, h5, h6⟩ := passed_sim (w := w) h2.part a s2 (by rw [h2.table]; exact hpas) h3 (.inl h4)
    refine ⟨{ s with files := g, putBack := [e] }, { s2 with files := g3, conds := cs }, ?_, ?_, ⟨h2.table, h2.messages, h2.part⟩, h6, rfl⟩
    · rw [hsk 0, tokOf_else (.inr (by rw [hd]; exact hei))]
      simp only [skipStep, if_true]
    · have hround : round w c.part { s with files := g, putBack := [e] } =
          .ok (.inl (c.part, { s with files := g, conds := false :: cs })) := by
        refine (putBack_step (s := { s with files := g }) he ha.2.1 hdir).trans ?_
        rw [onDirective_elseif hei hd]
        rw [onElseIf_true (s := { s with files := g }) hc hcond']
        rfl
      refine .go _ _ _ _ _ _ _ hround ?_
      rw [hag.part]
      have := h1.trans h5
      rwa [List.append_nil] at this
  | elseFalse stk c c1 u b a o d v hr hei hst hcond hskb _ iha =>
    intro f fs s tail hk hag ha cs hc
    rw [Tree.lines, List.append_assoc, List.append_assoc] at ha
    rw [← hag.table] at hr hst hskb
    obtain ⟨g, wd, e, ho, hd, he, hsk, hag'⟩ := reads_skip hr ha
    have hdir := hag' hst
    have hcond' : condition w s.table d v = .ok false := by rw [hag.table]; exact hcond.condition
    obtain ⟨g1, ha1, hk1⟩ := skips_sim b hskb { s with files := g } f fs _ rfl (On.ahead ho)
    obtain ⟨s1, s2, h1, h2, h3, h4, h5⟩ := iha f fs { s with files := g1 } _ hk ⟨hag.table, hag.messages, hag.part⟩ ha1 cs hc
    have hs : skip { s with files := g } = .ok s1 := by rw [skip_eq_skipAt, hk1 0, h1]
    refine ⟨{ s with files := g, putBack := [e] }, s2, ?_, ?_, h3, h4, h5⟩
    · rw [hsk 0, tokOf_else (.inr (by rw [hd]; exact hei))]
      simp only [skipStep, if_true]
    · have hround : round w c.part { s with files := g, putBack := [e] } = .ok (.inl (c.part, s1)) := by
        refine (putBack_step (s := { s with files := g }) he ha.2.1 hdir).trans ?_
        rw [onDirective_elseif hei hd]
        rw [onElseIf_true (s := { s with files := g }) hc hcond']
        simp only [Bool.false_eq_true, if_false, hs]
      refine .go _ _ _ _ _ _ _ hround ?_
      rw [hag.part]
      exact h2

/-! ### From rounds to `readLine` -/

theorem readLineF_mono (w : World) (n : Nat) : ∀ (p : MLine) (s : St) (k : Nat), readLineF w n p s ≠ .error .fuel →
    readLineF w (n + k) p s = readLineF w n p s := by
  induction n with
  | zero => intro p s k h; exact absurd rfl h
  | succ n ih =>
    intro p s k h
    rw [Nat.succ_add, readLineF, readLineF]
    rw [readLineF] at h
    generalize round w p s = x at h ⊢
    rcases x with e | (⟨l, s'⟩ | ⟨t, s'⟩)
    · rfl
    · exact ih l s' k h
    · rfl

theorem readAllF_mono (w : World) (f k n : Nat) : ∀ (j : Nat) (s : St), readAllF w f n s ≠ .error .fuel →
    readAllF w (f + k) (n + j) s = readAllF w f n s := by
  induction n with
  | zero => intro j s h; exact absurd rfl h
  | succ n ih =>
    intro j s h
    rw [Nat.succ_add, readAllF, readAllF]
    rw [readAllF] at h
    unfold readLine at h ⊢
    have hx : readLineF w f {} s ≠ .error .fuel := by
      intro hx; rw [hx] at h; exact h rfl
    rw [readLineF_mono w f {} s k hx]
    generalize readLineF w f {} s = x at h ⊢
    rcases x with e | ⟨_ | t, s'⟩
    · rfl
    · rfl
    · simp only at h ⊢
      have h2 : readAllF w f n s' ≠ .error .fuel := by
        intro h2; rw [h2] at h; exact h rfl
      rw [ih j s' h2]

/-- The lines returned, and then the rest. -/
theorem Steps.readAll {w : World} {p p' : MLine} {s s' : St} {o : List Makefile.Line} (h : Steps w p s o p' s')
    (hraw : ∀ l ∈ o, l.inl = false) {f n : Nat}
    {l : Option Str} {sl : St} (hl : readLineF w f p' s' = .ok (l, sl))
    {os : List Str} {se : St} (hrest : (match l with | none => (.ok ([], sl) : Except Err (List Str × St)) | some t => (match readAllF w f n sl with
      | .ok (ls, s) => .ok (t :: ls, s) | .error e => .error e)) = .ok (os, se)) :
    ∃ f' n' l' sl', readLineF w f' p s = .ok (l', sl') ∧
      (match l' with | none => (.ok ([], sl') : Except Err (List Str × St)) | some t => (match readAllF w f' n' sl' with
      | .ok (ls, s) => .ok (t :: ls, s) | .error e => .error e)) = .ok (o.map (·.text) ++ os, se) := by
  induction h with
  | refl => exact ⟨f, n, l, sl, hl, hrest⟩
  | go p p1 p2 s s1 s2 o hr _ ih =>
    obtain ⟨f', n', l', sl', h1, h2⟩ := ih hraw hl
    refine ⟨f' + 1, n', l', sl', ?_, ?_⟩
    · rw [readLineF, hr]
      simp only
      rw [← readLineF_norm]; exact h1
    · rcases l' with _ | t
      · exact h2
      · simp only at h2 ⊢
        generalize hx : readAllF w f' n' sl' = x at h2
        have hne : readAllF w f' n' sl' ≠ .error .fuel := by
          intro he
          rw [hx] at he
          subst he
          cases h2
        have : readAllF w (f' + 1) n' sl' = _ := readAllF_mono w f' 1 n' 0 sl' hne
        rw [this, hx]
        exact h2
  | out p p2 s s1 s2 s3 t o o' hr hw _ ih =>
    cases hw with
    | cons _ _ _ t' o2 => exact absurd (hraw _ (.tail _ (.head _))) (by simp)
    | nil =>
      obtain ⟨f', n', l', sl', h1, h2⟩ := ih (fun l h => hraw l (by simp [h])) hl
      have hcore : readAllF w f' (n' + 1) s1 = .ok (o'.map (·.text) ++ os, se) := by
        rw [readAllF, readLine, h1]
        rcases l' with _ | t'
        · exact h2
        · exact h2
      refine ⟨f' + 1, n' + 1, some t, s1, ?_, ?_⟩
      · rw [readLineF, hr]
        simp
      · have : readAllF w (f' + 1) (n' + 1) s1 = _ := readAllF_mono w f' 1 (n' + 1) 0 s1 (by rw [hcore]; simp)
        simp only
        rw [this, hcore]
        rfl

/-- Without inline files a text consists of the lines it delivers. -/
theorem consists_plain (r : Str) : Consists (ordinary (linesOf r)) r := by
  generalize hl : linesOf r = ls
  induction ls generalizing r with
  | nil => exact hl
  | cons l ls ih =>
    obtain ⟨h1, h2, h3, _⟩ := linesOf_cons hl
    exact ⟨(readLineU r).2, by rw [← h1], h3, ih _ h2⟩

end Jom.PP
