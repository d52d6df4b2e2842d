import Verif.Spec.Preprocessor
import Verif.Proofs.PPLine
import Verif.Proofs.MacroSem
import Verif.Proofs.StrLemmas

/-! The preprocessor does what `Spec.Exec` says. -/

namespace Jom.PP
open Jom.Spec

theorem bang_iff (x : MLine) : startsWith (x.content.getD []) ['!'] = true ↔ IsBang x := by
  unfold IsBang startsWith
  cases x.content.getD [] with
  | nil => simp
  | cons c s =>
    simp only [List.head?_cons, Option.some.injEq, List.isPrefixOf, Bool.and_true, beq_iff_eq]
    exact eq_comm

/-- The lines `ls` of file `f` come next, then those of `fs`; the top file is `f`. -/
def On (s : St) (f : TextFile) (fs : List TextFile) (ls : List TLine) : Prop :=
  s.inline = false ∧ s.putBack = [] ∧ ∃ r, s.files = { f with rest := r } :: fs ∧ Consists ls r

/-- The same, with exhausted files on top. -/
def Ahead (s : St) (f : TextFile) (fs : List TextFile) (ls : List TLine) : Prop :=
  s.inline = false ∧ s.putBack = [] ∧
  ∃ E r, s.files = E ++ { f with rest := r } :: fs ∧ (∀ g ∈ E, linesOf g.rest = []) ∧ Consists ls r

theorem On.ahead {s : St} {f : TextFile} {fs : List TextFile} {ls : List TLine} (h : On s f fs ls) : Ahead s f fs ls := by
  obtain ⟨h1, h2, r, h3, h4⟩ := h
  exact ⟨h1, h2, [], r, h3, by simp, h4⟩

theorem readFiles_skip (E : List TextFile) (fs : List TextFile) (h : ∀ g ∈ E, linesOf g.rest = []) :
    readFiles false (E ++ fs) = readFiles false fs := by
  induction E with
  | nil => rfl
  | cons g E ih =>
    rw [List.cons_append, readFiles]
    have := linesOf_nil (h g (by simp))
    have hr : (readerLine false g.rest).1.content.isNone = true := this
    simp only [hr, if_true]
    exact ih fun g hg => h g (by simp [hg])

theorem Ahead.read {s : St} {f : TextFile} {fs : List TextFile} {l : MLine} {ls : List TLine}
    (h : Ahead s f fs (.inl l :: ls)) : ∃ g, basicReadLine s = (l, { s with files := g }) ∧ On { s with files := g } f fs ls ∧
      l.content.isNone = false := by
  obtain ⟨h1, h2, E, r, h3, h4, h5⟩ := h
  obtain ⟨r', a, c, b⟩ := h5
  refine ⟨{ f with rest := r' } :: fs, ?_, ⟨h1, h2, _, rfl, b⟩, c⟩
  unfold basicReadLine
  rw [h2, h1, h3, readFiles_skip _ _ h4, readFiles]
  have hr : readerLine false r = readLineU r := rfl
  simp only [hr, a, c, Bool.false_eq_true, if_false]

theorem complete_on {u : List MLine} {t : Str} (hj : Joined u t) : ∀ {x : MLine} {xs : List MLine} {s : St} {f : TextFile}
    {fs : List TextFile} {tail : List TLine}, u = x :: xs → On s f fs (ordinary xs ++ tail) →
    ∃ g y, complete x s = (y, { s with files := g }) ∧ y.content.getD [] = t ∧ On { s with files := g } f fs tail := by
  induction hj with
  | last x hx =>
    intro x' xs s f fs tail hu ho
    cases hu
    refine ⟨s.files, x, ?_, rfl, ho⟩
    rw [complete_eq, if_pos (by simp [isComplete, hx])]
  | more x y ys t hx hj ih =>
    intro x' xs s f fs tail hu ho
    cases hu
    obtain ⟨g, h1, h2, h3⟩ := ho.ahead.read
    obtain ⟨g', y', h4, h5, h6⟩ := ih rfl h2
    refine ⟨g', y', ?_, h5, h6⟩
    rw [complete_eq, if_neg (by simp [isComplete, hx]), h1]
    simp only [h3, Bool.false_eq_true, if_false]
    exact h4

/-- The lines `u` are one line or one directive with text `t`. -/
def UnitText (u : List MLine) (t : Str) : Prop :=
  (∃ x, u = [x] ∧ ¬ IsBang x ∧ t = x.content.getD []) ∨ DirectiveLines u t

/-- The next unit is read and completed. -/
theorem Ahead.unit {s : St} {f : TextFile} {fs : List TextFile} {u : List MLine} {tail : List TLine} {t : Str}
    (h : Ahead s f fs (ordinary u ++ tail)) (hu : UnitText u t) : ∃ g y, (basicReadLine s).1.content.isNone = false ∧
      completeDirective (basicReadLine s).1 (basicReadLine s).2 = (y, { s with files := g }) ∧ y.content.getD [] = t ∧
      On { s with files := g } f fs tail := by
  rcases hu with ⟨x, rfl, hx, rfl⟩ | ⟨hj, x, xs, rfl, hx⟩
  · obtain ⟨g, h1, h2, h3⟩ := h.read
    refine ⟨g, x, ?_, ?_, rfl, h2⟩
    · rw [h1]; exact h3
    · rw [h1]
      unfold completeDirective
      rw [if_neg (fun hb => hx ((bang_iff x).1 hb))]
  · obtain ⟨g, h1, h2, h3⟩ := Ahead.read (ls := ordinary xs ++ tail) h
    obtain ⟨g', y, h4, h5, h6⟩ := complete_on hj rfl h2
    refine ⟨g', y, ?_, ?_, h5, h6⟩
    · rw [h1]; exact h3
    · rw [h1]
      unfold completeDirective
      rw [if_pos ((bang_iff x).2 hx)]
      exact h4

/-- What the skipping loop does after a unit. -/
def skipStep (depth : Nat) (tok : Tok) (e : Str) (s : St) : Except Err St :=
  match tok with
  | .uninteresting => skipAt depth s
  | .if => skipAt (depth + 1) s
  | .else => if depth = 0 then .ok { s with putBack := [e] } else skipAt depth s
  | .endif => if depth = 0 then exitConditional s else skipAt (depth - 1) s

theorem skip_unit {s : St} {f : TextFile} {fs : List TextFile} {u : List MLine} {tail : List TLine} {t : Str} {tok : Tok} {e : Str}
    (h : Ahead s f fs (ordinary u ++ tail)) (hu : UnitText u t) (ht : skippedTok s.table.macros t = .ok (tok, e)) :
    ∃ g, On { s with files := g } f fs tail ∧ ∀ depth, skipAt depth s = skipStep depth tok e { s with files := g } := by
  obtain ⟨g, y, h1, h2, h3, h4⟩ := h.unit hu
  refine ⟨g, h4, fun depth => ?_⟩
  rw [skipAt_eq, h1, h2]
  simp only [h3, ht, Bool.false_eq_true, if_false]
  have hp : s.putBack = [] := h.2.1
  cases tok <;> simp only [skipStep, hp, List.nil_append]

theorem looks_unit {m : Macros} {u : List MLine} {tok : Tok} (h : Looks m u tok) :
    ∃ t e, UnitText u t ∧ skippedTok m t = .ok (tok, e) := by
  rcases h with ⟨x, h1, h2, h3⟩ | ⟨t, h1, h2⟩
  · obtain ⟨e, h3⟩ := role_iff.1 h3
    exact ⟨_, e, .inl ⟨x, h1, h2, rfl⟩, h3⟩
  · obtain ⟨e, h2⟩ := role_iff.1 h2
    exact ⟨t, e, .inr h1, h2⟩

/-- Skipping passes over a well-nested part as a whole. -/
theorem skips_sim {m : Macros} {k : Kind} (t : Tree k) : Skips m t → ∀ (s : St) (f : TextFile) (fs : List TextFile)
    (tail : List TLine), s.table.macros = m → Ahead s f fs (t.lines ++ tail) →
    ∃ g, Ahead { s with files := g } f fs tail ∧ ∀ depth,
      match k with
      | .block => skipAt depth s = skipAt depth { s with files := g }
      | .alts => skipAt (depth + 1) s = skipAt depth { s with files := g } := by
  induction t with
  | nil => intro _ s f fs tail _ ha; exact ⟨s.files, ha, fun _ => rfl⟩
  | leaf u r ih =>
    intro hs s f fs tail hm ha
    obtain ⟨⟨u, rfl, h1⟩, h2⟩ := hs
    obtain ⟨t, e, hu, ht⟩ := looks_unit h1
    rw [Tree.lines, List.append_assoc] at ha
    obtain ⟨g, ho, hk⟩ := skip_unit ha hu (hm ▸ ht)
    obtain ⟨g', ha', hk'⟩ := ih h2 { s with files := g } f fs tail hm ho.ahead
    exact ⟨g', ha', fun d => (hk d).trans (hk' d)⟩
  | incl u r ih =>
    intro hs s f fs tail hm ha
    obtain ⟨h1, h2⟩ := hs
    obtain ⟨t, e, hu, ht⟩ := looks_unit h1
    rw [Tree.lines, List.append_assoc] at ha
    obtain ⟨g, ho, hk⟩ := skip_unit ha hu (hm ▸ ht)
    obtain ⟨g', ha', hk'⟩ := ih h2 { s with files := g } f fs tail hm ho.ahead
    exact ⟨g', ha', fun d => (hk d).trans (hk' d)⟩
  | cond u b a r ihb iha ihr =>
    intro hs s f fs tail hm ha
    obtain ⟨h1, h2, h3, h4⟩ := hs
    obtain ⟨t, e, hu, ht⟩ := looks_unit h1
    rw [Tree.lines, List.append_assoc, List.append_assoc, List.append_assoc] at ha
    obtain ⟨g, ho, hk⟩ := skip_unit ha hu (hm ▸ ht)
    obtain ⟨g1, ha1, hk1⟩ := ihb h2 { s with files := g } f fs _ hm ho.ahead
    obtain ⟨g2, ha2, hk2⟩ := iha h3 { s with files := g1 } f fs _ hm ha1
    obtain ⟨g3, ha3, hk3⟩ := ihr h4 { s with files := g2 } f fs _ hm ha2
    exact ⟨g3, ha3, fun d => (hk d).trans ((hk1 (d + 1)).trans ((hk2 d).trans (hk3 d)))⟩
  | endif u =>
    intro hs s f fs tail hm ha
    obtain ⟨t, e, hu, ht⟩ := looks_unit hs
    obtain ⟨g, ho, hk⟩ := skip_unit ha hu (hm ▸ ht)
    exact ⟨g, ho.ahead, fun d => (hk (d + 1)).trans (by simp [skipStep])⟩
  | alt u b a ihb iha =>
    intro hs s f fs tail hm ha
    obtain ⟨h1, h2, h3⟩ := hs
    obtain ⟨t, e, hu, ht⟩ := looks_unit h1
    rw [Tree.lines, List.append_assoc, List.append_assoc] at ha
    obtain ⟨g, ho, hk⟩ := skip_unit ha hu (hm ▸ ht)
    obtain ⟨g1, ha1, hk1⟩ := ihb h2 { s with files := g } f fs _ hm ho.ahead
    obtain ⟨g2, ha2, hk2⟩ := iha h3 { s with files := g1 } f fs _ hm ha1
    exact ⟨g2, ha2, fun d => (hk (d + 1)).trans (Eq.trans (by simp [skipStep]) ((hk1 (d + 1)).trans (hk2 d)))⟩

/-! ### Rounds of the main loop -/

/-- A complete line is forgotten when the next one is read. -/
def norm (l : MLine) : MLine := if isComplete l then {} else l

theorem round_norm (w : World) (l : MLine) (s : St) :
    round w (norm l) s = (match round w l s with
      | .ok (.inl (l', s')) => if startsWith ((basicReadLine s).1.content.getD []) ['!'] then .ok (.inl (norm l, s')) else .ok (.inl (l', s'))
      | x => x) := by
  unfold norm
  by_cases hc : isComplete l = true
  · rw [if_pos hc]
    unfold round
    have h0 : isComplete ({} : MLine) = true := rfl
    by_cases hb : startsWith ((basicReadLine s).1.content.getD []) ['!'] = true
    · simp only [hb, if_true]
      generalize parseDirective w _ _ = x
      rcases x with e | (_ | s') <;> rfl
    · simp only [hb, Bool.false_eq_true, if_false, hc, h0, if_true]
      generalize isComplete (basicReadLine s).1 = y
      cases y
      · rfl
      · simp only [Bool.not_true, Bool.false_eq_true, if_false]
        generalize (if (basicReadLine s).2.inline = true then Except.ok none else _) = x
        rcases x with e | (_ | t)
        · rfl
        · simp only
          generalize parseDirective w _ _ = z
          rcases z with e | (_ | s') <;> rfl
        · rfl
  · rw [if_neg hc]
    unfold round
    by_cases hb : startsWith ((basicReadLine s).1.content.getD []) ['!'] = true
    · simp only [hb, if_true]
      generalize parseDirective w _ _ = x
      rcases x with e | (_ | s') <;> rfl
    · simp only [hb, Bool.false_eq_true, if_false]
      generalize (round w l s) = x
      generalize (if isComplete l = true then (basicReadLine s).1 else joinLines l (basicReadLine s).1) = l2
      generalize isComplete l2 = y
      cases y
      · rfl
      · simp only [Bool.not_true, Bool.false_eq_true, if_false]
        generalize (if (basicReadLine s).2.inline = true then Except.ok none else _) = x
        rcases x with e | (_ | t)
        · rfl
        · simp only
          generalize parseDirective w _ _ = z
          rcases z with e | (_ | s') <;> rfl
        · rfl

theorem norm_norm (l : MLine) : norm (norm l) = norm l := by
  unfold norm
  by_cases hc : isComplete l = true
  · rw [if_pos hc]; rfl
  · rw [if_neg hc, if_neg hc]

theorem readLineF_norm (w : World) (n : Nat) : ∀ (l : MLine) (s : St), readLineF w n (norm l) s = readLineF w n l s := by
  induction n with
  | zero => intro l s; rfl
  | succ n ih =>
    intro l s
    rw [readLineF, readLineF, round_norm]
    by_cases hb : startsWith ((basicReadLine s).1.content.getD []) ['!'] = true
    · have : (∃ e, round w l s = .error e) ∨ ∃ s', round w l s = .ok (.inl (l, s')) := by
        unfold round
        simp only [hb, if_true]
        generalize parseDirective w _ _ = x
        rcases x with e | (_ | s')
        · exact .inl ⟨e, rfl⟩
        · exact .inr ⟨_, rfl⟩
        · exact .inr ⟨_, rfl⟩
      rcases this with ⟨e, he⟩ | ⟨s', he⟩
      · rw [he]
      · rw [he]
        simp only [hb, if_true]
        exact ih l s'
    · simp only [hb, Bool.false_eq_true, if_false]
      generalize round w l s = x
      rcases x with e | (⟨l', s'⟩ | ⟨t, s'⟩) <;> rfl

/-- Lines taken as they are, one after the other. -/
inductive Raws (w : World) : St → List Makefile.Line → St → Prop
  | nil (s : St) : s.inline = false → Raws w s [] s
  | cons (s s1 s2 : St) (t : Str) (o : List Makefile.Line) :
    round w {} { s with inline := true } = .ok (.inr (some t, { s1 with inline := true })) →
    s.inline = false → Raws w s1 o s2 → Raws w s ({ inl := true, text := t, macros := s1.table.macros } :: o) s2

/-- Rounds of the main loop over several calls of `readLine`, with the lines returned. -/
inductive Steps (w : World) : MLine → St → List Makefile.Line → MLine → St → Prop
  | refl (p : MLine) (s : St) : Steps w p s [] p s
  | go (p p1 p2 : MLine) (s s1 s2 : St) (o : List Makefile.Line) : round w p s = .ok (.inl (p1, s1)) → Steps w (norm p1) s1 o p2 s2 →
    Steps w p s o p2 s2
  | out (p p2 : MLine) (s s1 s2 s3 : St) (t : Str) (o o' : List Makefile.Line) : round w p s = .ok (.inr (some t, s1)) →
    Raws w s1 o s2 → Steps w {} s2 o' p2 s3 → Steps w p s ({ text := t, macros := s1.table.macros } :: (o ++ o')) p2 s3

theorem Steps.trans {w : World} {p1 p2 p3 : MLine} {s1 s2 s3 : St} {o o' : List Makefile.Line} (h : Steps w p1 s1 o p2 s2)
    (h' : Steps w p2 s2 o' p3 s3) : Steps w p1 s1 (o ++ o') p3 s3 := by
  induction h with
  | refl => exact h'
  | go _ _ _ _ _ _ _ hr _ ih => exact .go _ _ _ _ _ _ _ hr (ih h')
  | out _ _ _ _ _ _ _ _ _ hr hi _ ih =>
    rw [List.cons_append, List.append_assoc]
    exact .out _ _ _ _ _ _ _ _ _ hr hi (ih h')

theorem Steps.one {w : World} {p p1 : MLine} {s s1 : St} (h : round w p s = .ok (.inl (p1, s1))) :
    Steps w p s [] (norm p1) s1 := .go _ _ _ _ _ _ _ h (.refl _ _)

theorem round_bang {w : World} {p : MLine} {s : St} {f : TextFile} {fs : List TextFile} {u : List MLine} {tail : List TLine} {t : Str}
    (h : Ahead s f fs (ordinary u ++ tail)) (hu : DirectiveLines u t) : ∃ g, On { s with files := g } f fs tail ∧
      round w p s = (match parseDirective w t { s with files := g } with
        | .error e => .error e
        | .ok none => .ok (.inl (p, { s with files := g }))
        | .ok (some s') => .ok (.inl (p, s'))) := by
  have hx : startsWith ((basicReadLine s).1.content.getD []) ['!'] = true := by
    obtain ⟨hj, x, xs, rfl, hx⟩ := hu
    obtain ⟨g, h1, _⟩ := Ahead.read (ls := ordinary xs ++ tail) h
    rw [h1]
    exact (bang_iff x).2 hx
  obtain ⟨g, y, _, h2, h3, h4⟩ := h.unit (.inr hu)
  refine ⟨g, h4, ?_⟩
  unfold completeDirective at h2
  rw [if_pos hx] at h2
  unfold round
  simp only [hx, if_true, h2, h3]
  generalize parseDirective w _ _ = x
  rcases x with e | (_ | s') <;> rfl

theorem round_putBack {w : World} {p : MLine} {s : St} {e : Str} (h : s.putBack = [e]) (he : startsWith e ['!'] = true) :
    round w p s = (match parseDirective w e { s with putBack := [] } with
        | .error e => .error e
        | .ok none => .ok (.inl (p, { s with putBack := [] }))
        | .ok (some s') => .ok (.inl (p, s'))) := by
  have h1 : basicReadLine s = ({ content := some e }, { s with putBack := [] }) := by
    unfold basicReadLine; rw [h]
  have h2 : complete { content := some e } { s with putBack := [] } = ({ content := some e }, { s with putBack := [] }) := by
    rw [complete_eq]; rfl
  unfold round
  rw [h1]
  simp only [Option.getD_some, he, if_true, h2]
  generalize parseDirective w _ _ = x
  rcases x with e | (_ | s') <;> rfl

theorem round_line {w : World} {p x : MLine} {s : St} {f : TextFile} {fs : List TextFile} {tail : List TLine}
    (h : Ahead s f fs (.inl x :: tail)) (hx : ¬ IsBang x) : ∃ g, On { s with files := g } f fs tail ∧
      round w p s = (if (extend p x).cont ≠ .none then .ok (.inl (extend p x, { s with files := g }))
        else match parseMacro s.table ((extend p x).content.getD []) with
          | .error e => .error (.macro e)
          | .ok (some t) => .ok (.inl (extend p x, { s with files := g, table := t }))
          | .ok none =>
            match parseDirective w ((extend p x).content.getD []) { s with files := g } with
            | .error e => .error e
            | .ok (some s') => .ok (.inl (extend p x, s'))
            | .ok none => .ok (.inr ((extend p x).content, { s with files := g }))) := by
  obtain ⟨g, h1, h2, h3⟩ := h.read
  refine ⟨g, h2, ?_⟩
  have hb : ¬ startsWith (x.content.getD []) ['!'] = true := fun hb => hx ((bang_iff x).1 hb)
  have hin : s.inline = false := h.1
  have hex : (if isComplete p = true then x else joinLines p x) = extend p x := by
    unfold isComplete extend
    by_cases hp : p.cont = .none <;> simp [hp, joinLines_eq]
  unfold round
  simp only [h1, hb, Bool.false_eq_true, if_false, hex, hin]
  by_cases hc : (extend p x).cont = .none
  · simp only [isComplete, hc, decide_true, Bool.not_true, Bool.false_eq_true, if_false, ne_eq, not_true]
    generalize parseMacro _ _ = y
    rcases y with e | (_ | t)
    · rfl
    · simp only
      generalize parseDirective w _ _ = z
      rcases z with e | (_ | s') <;> rfl
    · rfl
  · simp [isComplete, hc]

theorem extend_content {p x : MLine} (hx : x.content.isNone = false) : ∃ t, (extend p x).content = some t := by
  unfold extend
  by_cases h : p.cont = .none
  · rw [if_pos h]
    cases hc : x.content with
    | none => rw [hc] at hx; cases hx
    | some t => exact ⟨t, rfl⟩
  · rw [if_neg h]; exact ⟨_, rfl⟩

/-! ### Relating configurations and states -/

structure Agrees (c : Cfg) (s : St) : Prop where
  table : s.table = c.table
  messages : s.messages = c.messages
  part : norm c.part = c.part

theorem simple_sim {w : World} {d v : Str} {c c' : Cfg} {s : St} (h : Simple (dirOf d) v c c') (ha : Agrees c s) :
    ∃ s', onDirective w d v s = .ok s' ∧ Agrees c' s' ∧ s' = { s with table := s'.table, messages := s'.messages } ∧
      c'.part = c.part := by
  generalize hd : dirOf d = dd at h
  cases h with
  | cmdswitches => exact ⟨s, by simp [onDirective, hd], ha, rfl, rfl⟩
  | message =>
    refine ⟨{ s with messages := s.messages ++ [v] }, by simp only [onDirective, hd], ⟨ha.table, ?_, ha.part⟩, rfl, rfl⟩
    show s.messages ++ [v] = _
    rw [ha.messages]
  | undef =>
    refine ⟨{ s with table := undefineMacro s.table v }, by simp only [onDirective, hd], ⟨?_, ha.messages, ha.part⟩, rfl, rfl⟩
    show undefineMacro s.table v = _
    rw [ha.table]

theorem On.same {s s' : St} {f : TextFile} {fs : List TextFile} {ls : List TLine} (h : On s f fs ls)
    (e : s' = { s with table := s'.table, messages := s'.messages }) : On s' f fs ls := by
  rw [e]; exact h

theorem devReadLine_first {t r : Str} (h : FirstLine t r) : ∀ n, (t ++ r).length ≤ n → devReadLine n (t ++ r) = (t, r) := by
  obtain ⟨b, hb, h⟩ := h
  have key : ∀ (b : Str), '\n' ∉ b → ∀ n, (b ++ ('\n' :: r)).length ≤ n → devReadLine n (b ++ '\n' :: r) = (b ++ ['\n'], r) := by
    intro b
    induction b with
    | nil =>
      intro _ n hn
      cases n with
      | zero => simp at hn
      | succ n => rfl
    | cons c b ih =>
      intro hb n hn
      cases n with
      | zero => simp at hn
      | succ n =>
        have hc : ¬ (c == '\n') = true := by intro hc; apply hb; rw [beq_iff_eq.1 hc]; simp
        rw [List.cons_append, devReadLine, if_neg hc, ih (fun h => hb (by simp [h])) n (by simp at hn ⊢; omega)]
        rfl
  have key' : ∀ (b : Str), '\n' ∉ b → ∀ n, b.length ≤ n → devReadLine n b = (b, []) := by
    intro b
    induction b with
    | nil => intro _ n _; cases n <;> rfl
    | cons c b ih =>
      intro hb n hn
      cases n with
      | zero => simp at hn
      | succ n =>
        have hc : ¬ (c == '\n') = true := by intro hc; apply hb; rw [beq_iff_eq.1 hc]; simp
        rw [devReadLine, if_neg hc, ih (fun h => hb (by simp [h])) n (by simp at hn ⊢; omega)]
  intro n hn
  rcases h with rfl | ⟨rfl, _, rfl⟩
  · have := key b hb n (by simpa using hn)
    simpa using this
  · have := key' t hb n (by simpa using hn)
    simpa using this

/-- A line of an inline file. -/
theorem raw_sim {w : World} {s : St} {f : TextFile} {fs : List TextFile} {t : Str} {tail : List TLine} (h : On s f fs (.inr t :: tail))
    (ht : t.head? ≠ some '!' ∧ directiveOf s.table.macros t = .ok none) :
    ∃ g, round w {} { s with inline := true } = .ok (.inr (some t, { s with files := g, inline := true })) ∧
      On { s with files := g } f fs tail := by
  obtain ⟨h1, h2, r, h3, r', rfl, h4, h5⟩ := h
  refine ⟨{ f with rest := r' } :: fs, ?_, h1, h2, r', rfl, h5⟩
  have hr : readerLine true (t ++ r') = ({ content := some t }, r') := by
    have hd := devReadLine_first h4 _ (Nat.le_refl _)
    cases hc : t ++ r' with
    | nil =>
      obtain ⟨b, _, h⟩ := h4
      obtain ⟨rfl, rfl⟩ := List.append_eq_nil_iff.1 hc
      rcases h with h | ⟨h, h', _⟩
      · simp at h
      · exact absurd h.symm h'
    | cons a u =>
      rw [hc] at hd
      simp only [readerLine, if_true, hd]
  have hb : basicReadLine { s with inline := true } = ({ content := some t }, { s with files := { f with rest := r' } :: fs, inline := true }) := by
    unfold basicReadLine
    simp only [h2, h3, readFiles, hr]
    rfl
  have hn : ¬ startsWith t ['!'] = true := by
    intro hs
    cases t with
    | nil => simp [startsWith] at hs
    | cons c t =>
      refine ht.1 ?_
      simp only [startsWith, List.isPrefixOf, Bool.and_true, beq_iff_eq] at hs
      rw [← hs]; rfl
  unfold round
  rw [hb]
  simp only [Option.getD_some, hn, isComplete, decide_true, if_true, Bool.not_true, Bool.false_eq_true, if_false, parseDirective, ht.2]

theorem raws_sim {w : World} (ts : List Str) : ∀ {s : St} {f : TextFile} {fs : List TextFile} {tail : List TLine},
    On s f fs (ts.map Sum.inr ++ tail) → (∀ t ∈ ts, t.head? ≠ some '!' ∧ directiveOf s.table.macros t = .ok none) →
    ∃ g, Raws w s (ts.map fun t => { inl := true, text := t, macros := s.table.macros }) { s with files := g } ∧
      On { s with files := g } f fs tail := by
  induction ts with
  | nil => intro s f fs tail h _; exact ⟨s.files, .nil _ h.1, h⟩
  | cons t ts ih =>
    intro s f fs tail h ht
    obtain ⟨g, h1, h2⟩ := raw_sim (w := w) h (ht t (by simp))
    obtain ⟨g', h3, h4⟩ := ih h2 (fun t' h' => ht t' (by simp [h']))
    exact ⟨g', .cons _ { s with files := g } _ _ _ h1 h.1 h3, h4⟩

/-- A plain line. -/
theorem leaf_sim {w : World} {c c' : Cfg} {u : List TLine} {o : List Makefile.Line} (h : Leaf c u o c') {s : St} {f : TextFile}
    {fs : List TextFile} {tail : List TLine} (ha : Agrees c s) (hs : Ahead s f fs (u ++ tail)) :
    ∃ s', Steps w c.part s o c'.part s' ∧ Agrees c' s' ∧ Ahead s' f fs tail ∧ s'.conds = s.conds := by
  cases h with
  | directive _ _ t k v d hu hd hk hsim =>
    rw [← ha.table, directive_iff] at hd
    rw [← (keyword_dirOf hk).1] at hsim
    obtain ⟨g, ho, hr⟩ := round_bang (w := w) (p := c.part) hs hu
    obtain ⟨s', h1, h2, h3, h4⟩ := simple_sim (w := w) hsim (s := { s with files := g }) ⟨ha.table, ha.messages, ha.part⟩
    refine ⟨s', ?_, h2, (ho.same h3).ahead, by rw [h3]⟩
    have : round w c.part s = .ok (.inl (c.part, s')) := by
      rw [hr]; unfold parseDirective; simp only [hd, h1]
    rw [h4]
    have := Steps.one this
    rwa [ha.part] at this
  | lone _ t hu hd =>
    rw [← ha.table, directive_iff] at hd
    obtain ⟨g, ho, hr⟩ := round_bang (w := w) (p := c.part) hs hu
    refine ⟨{ s with files := g }, ?_, ⟨ha.table, ha.messages, ha.part⟩, ho.ahead, rfl⟩
    have : round w c.part s = .ok (.inl (c.part, { s with files := g })) := by
      rw [hr]; unfold parseDirective; simp only [hd]
    have := Steps.one this
    rwa [ha.part] at this
  | continued x hx hc =>
    obtain ⟨g, ho, hr⟩ := round_line (w := w) (p := c.part) hs hx
    rw [if_pos hc] at hr
    have hn : norm (extend c.part x) = extend c.part x := by unfold norm isComplete; simp [hc]
    refine ⟨{ s with files := g }, ?_, ⟨ha.table, ha.messages, hn⟩, ho.ahead, rfl⟩
    have := Steps.one hr
    rwa [hn] at this
  | definition x n v t hx hc hm hv =>
    rw [← ha.table] at hv
    rw [defines_iff] at hm
    obtain ⟨g, ho, hr⟩ := round_line (w := w) (p := c.part) hs hx
    rw [if_neg (by simp [hc])] at hr
    have hn : norm (extend c.part x) = {} := by unfold norm isComplete; simp [hc]
    unfold parseMacro at hr
    simp only [hm, hv] at hr
    refine ⟨{ s with files := g, table := t }, ?_, ⟨rfl, ha.messages, rfl⟩, On.ahead ho, rfl⟩
    have := Steps.one hr
    rwa [hn] at this
  | oldStyle _ x k v d hx hc hm hd hk hsim =>
    rw [← ha.table, directive_iff] at hd
    rw [noDefinition_iff] at hm
    rw [← (keyword_dirOf hk).1] at hsim
    obtain ⟨g, ho, hr⟩ := round_line (w := w) (p := c.part) hs hx
    rw [if_neg (by simp [hc])] at hr
    have hn : norm (extend c.part x) = {} := by unfold norm isComplete; simp [hc]
    obtain ⟨s', h1, h2, h3, h4⟩ := simple_sim (w := w) hsim (s := { s with files := g }) ⟨ha.table, ha.messages, rfl⟩
    unfold parseMacro at hr
    unfold parseDirective at hr
    simp only [hm, hd, h1] at hr
    refine ⟨s', ?_, h2, (ho.same h3).ahead, by rw [h3]⟩
    rw [h4]
    have := Steps.one hr
    rwa [hn] at this
  | text x ts hx hc hm hd hts =>
    rw [← ha.table] at hd hts ⊢
    rw [directive_iff] at hd
    rw [noDefinition_iff] at hm
    simp only [directive_iff] at hts
    have hcont := Ahead.read (ls := ts.map Sum.inr ++ tail) hs
    obtain ⟨_, _, _, hcont⟩ := hcont
    obtain ⟨tx, htx⟩ := extend_content (p := c.part) hcont
    obtain ⟨g, ho, hr⟩ := round_line (w := w) (p := c.part) (tail := ts.map Sum.inr ++ tail) hs hx
    rw [if_neg (by simp [hc])] at hr
    unfold parseMacro at hr
    unfold parseDirective at hr
    simp only [hm, hd] at hr
    rw [htx] at hr ⊢
    obtain ⟨g', h1, h2⟩ := raws_sim (w := w) ts ho hts
    have := Steps.out _ _ _ { s with files := g } { s with files := g' } _ _ _ _ hr h1 (.refl _ _)
    rw [List.append_nil] at this
    exact ⟨{ s with files := g' }, this, ⟨rfl, ha.messages, rfl⟩, On.ahead h2, rfl⟩

end Jom.PP
