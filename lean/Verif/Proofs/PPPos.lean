/- The functions of `Model/PPPos.lean` are those of `Model/Preprocessor.lean`, and what their exceptions are about (C104). -/
import Verif.Model.PPPos
import Verif.Spec.PPPos
import Verif.Proofs.PPLine
import Verif.Props.Positions

namespace Jom.PP.Pos

open Jom.Spec
open Jom.Rdr (Reader)
open Jom.Props (Moves Synced Shows PutBackOk)

/-- The exception without the state. -/
def forget {α : Type} : Except Thrown α → Except Err α
  | .ok a => .ok a
  | .error (e, _) => .error e

theorem forget_inState {α : Type} (s : St) (x : Except Err α) : forget (inState s x) = x := by cases x <;> rfl

theorem forget_skipF (f d : Nat) (s : St) : forget (skipF f d s) = PP.skipF f d s := by
  induction f generalizing d s with
  | zero => rfl
  | succ f ih =>
    unfold skipF PP.skipF
    simp only
    by_cases h : (basicReadLine s).1.content.isNone = true
    · simp only [h, if_true]; rfl
    · simp only [h]
      generalize completeDirective (basicReadLine s).1 (basicReadLine s).2 = r
      generalize skippedTok r.2.table.macros (r.1.content.getD []) = x
      rcases x with e | ⟨t, e⟩
      · rfl
      · cases t <;> simp only [Bool.false_eq_true, if_false, ih]
        · by_cases hd : d = 0
          · simp only [hd, if_true, forget_inState]
          · simp only [hd, if_false, ih]
        · by_cases hd : d = 0
          · simp only [hd, if_true]; rfl
          · simp only [hd, if_false, ih]

theorem forget_skip (s : St) : forget (skip s) = PP.skip s := forget_skipF _ _ _

theorem forget_onIf (w : World) (d : Dir) (v : Str) (s : St) : forget (onIf w d v s) = PP.onIf w d v s := by
  unfold onIf PP.onIf
  rcases condition w s.table d v with e | b
  · rfl
  · cases b
    · exact forget_skip _
    · rfl

theorem forget_onElse (s : St) : forget (onElse s) = PP.onElse s := by
  unfold onElse PP.onElse
  rcases s.conds with _ | ⟨b, cs⟩
  · rfl
  · cases b
    · exact forget_skip _
    · rfl

theorem forget_onElseIf (w : World) (d : Dir) (v : Str) (s : St) : forget (onElseIf w d v s) = PP.onElseIf w d v s := by
  unfold onElseIf PP.onElseIf
  rcases s.conds with _ | ⟨b, cs⟩
  · rfl
  · cases b
    · exact forget_skip _
    · simp only
      rcases condition w s.table d v with e | b
      · rfl
      · cases b
        · exact forget_skip _
        · rfl

theorem forget_onDirective (w : World) (d v : Str) (s : St) : forget (onDirective w d v s) = PP.onDirective w d v s := by
  unfold onDirective PP.onDirective
  cases dirOf d <;> simp only [forget_onIf, forget_onElse, forget_onElseIf, forget_inState] <;> try rfl
  rcases findIncludeFile w s v with e | p
  · rfl
  · exact forget_inState _ _

theorem forget_parseDirective (w : World) (line : Str) (s : St) : forget (parseDirective w line s) = PP.parseDirective w line s := by
  unfold parseDirective PP.parseDirective
  rcases directiveOf s.table.macros line with e | _ | ⟨d, v⟩
  · rfl
  · rfl
  · simp only [← forget_onDirective]
    rcases onDirective w d v s with ⟨e, s'⟩ | s' <;> rfl

theorem forget_round (w : World) (line : MLine) (s : St) : forget (round w line s) = PP.round w line s := by
  unfold round PP.round
  simp only
  by_cases h : startsWith ((basicReadLine s).1.content.getD []) ['!'] = true
  · simp only [h, if_true, ← forget_parseDirective]
    rcases parseDirective w _ _ with ⟨e, s'⟩ | _ | s' <;> rfl
  · simp only [h, Bool.false_eq_true, if_false, ← forget_parseDirective]
    generalize (if PP.isComplete line = true then (PP.basicReadLine s).1 else PP.joinLines line (PP.basicReadLine s).1) = ln
    by_cases hc : (!isComplete ln) = true
    · simp only [hc, if_true]; rfl
    · simp only [hc, Bool.false_eq_true, if_false]
      generalize (if (basicReadLine s).2.inline = true then (.ok none : Except MacroErr (Option MacroTable)) else
        parseMacro (basicReadLine s).2.table (ln.content.getD [])) = x
      rcases x with e | _ | t
      · rfl
      · simp only
        rcases parseDirective w _ _ with ⟨e, s'⟩ | _ | s' <;> rfl
      · rfl

theorem forget_readLineF (w : World) (f : Nat) (line : MLine) (s : St) : forget (readLineF w f line s) = PP.readLineF w f line s := by
  induction f generalizing line s with
  | zero => rfl
  | succ f ih =>
    unfold readLineF PP.readLineF
    rw [← forget_round]
    rcases round w line s with ⟨e, s'⟩ | ⟨line', s'⟩ | ⟨x, s'⟩
    · rfl
    · exact ih _ _
    · simp only [forget]
      by_cases h : x.isNone = true ∧ s'.conds ≠ []
      · rw [if_pos h, if_pos h]
      · rw [if_neg h, if_neg h]

theorem forget_readLine (w : World) (fuel : Nat) (s : St) : forget (readLine w fuel s) = PP.readLine w fuel s := forget_readLineF _ _ _ _

/-! ### Which line is reported -/

/-- The readers show the place of a line with this text. The text of an alternative at which skipping ends is its expansion. -/
def Shown (w : World) (rs : List Reader) (inline : Bool) (m : Macros) (text : Str) : Prop :=
  Shows w rs inline text ∨ ∃ t, Shows w rs inline t ∧ Expanded m t text

variable {w : World} {uni : Str → Bool} {k : Str → Nat} {fs0 : List TextFile} {rs0 : List Reader}

/-- In the state `s` the readers show the place of `text`, unless all files are read. -/
def At (w : World) (uni : Str → Bool) (k : Str → Nat) (fs0 : List TextFile) (rs0 : List Reader) (s : St) (text : Str) : Prop :=
  ∃ rs, Moves w uni k fs0 rs0 s.files rs ∧ Synced w uni s rs ∧ (rs = [] ∨ Shown w rs s.inline s.table.macros text)

/-- The same for a line that is not put back. -/
def Here (w : World) (uni : Str → Bool) (k : Str → Nat) (fs0 : List TextFile) (rs0 : List Reader) (s : St) (text : Str) : Prop :=
  ∃ rs, Moves w uni k fs0 rs0 s.files rs ∧ Synced w uni s rs ∧ (rs = [] ∨ Shows w rs s.inline text)

theorem Here.at {s : St} {text : Str} (h : Here w uni k fs0 rs0 s text) : At w uni k fs0 rs0 s text := by
  obtain ⟨rs, a, b, c⟩ := h
  exact ⟨rs, a, b, c.imp id .inl⟩

/-- The readers are those of the files, and at most one line, whose place they show, is put back. -/
def Fine (w : World) (uni : Str → Bool) (k : Str → Nat) (fs0 : List TextFile) (rs0 : List Reader) (s : St) : Prop :=
  ∃ rs, Moves w uni k fs0 rs0 s.files rs ∧ Synced w uni s rs ∧
    (s.putBack = [] ∨ ∃ l, s.putBack = [l] ∧ startsWith l ['!'] = true ∧ (rs = [] ∨ Shown w rs s.inline s.table.macros l))

/-- The error is about the line whose place is shown. -/
def Blamed (w : World) (uni : Str → Bool) (k : Str → Nat) (fs0 : List TextFile) (rs0 : List Reader) (x : Thrown) : Prop :=
  x.1 = .fuel ∨ x.1 = .missingEndif ∨ ∃ text, At w uni k fs0 rs0 x.2 text ∧ Faulty w x.2.table text x.1

def Told (w : World) (uni : Str → Bool) (k : Str → Nat) (fs0 : List TextFile) (rs0 : List Reader) : Except Thrown St → Prop
  | .ok s => Fine w uni k fs0 rs0 s
  | .error x => Blamed w uni k fs0 rs0 x

theorem At.fine {s : St} {text : Str} (h : At w uni k fs0 rs0 s text) (hp : s.putBack = []) : Fine w uni k fs0 rs0 s := by
  obtain ⟨rs, a, b, _⟩ := h
  exact ⟨rs, a, b, .inl hp⟩

theorem basic_empty {s : St} (h : s.putBack = []) :
    basicReadLine s = ((readFiles s.inline s.files).1, { s with files := (readFiles s.inline s.files).2 }) := by
  unfold basicReadLine
  rw [h]

theorem completeF_same (f : Nat) (line : MLine) (s : St) (h : s.putBack = []) :
    (completeF f line s).2.putBack = [] ∧ (completeF f line s).2.inline = s.inline ∧ (completeF f line s).2.table = s.table ∧
      (completeF f line s).2.conds = s.conds := by
  induction f generalizing line s with
  | zero => exact ⟨h, rfl, rfl, rfl⟩
  | succ f ih =>
    unfold completeF
    split
    · exact ⟨h, rfl, rfl, rfl⟩
    · simp only [basic_empty h]
      split
      · exact ⟨h, rfl, rfl, rfl⟩
      · exact ih _ _ h

/-- A directive and its continuations have been read. -/
theorem complete_at (hk : ∀ d, d ≠ [] → 0 < k d) {s : St} (hp : s.putBack = []) {rs : List Reader} (hm : Moves w uni k fs0 rs0 s.files rs)
    (hs : Synced w uni s rs) :
    Here w uni k fs0 rs0 (complete (basicReadLine s).1 (basicReadLine s).2).2 ((complete (basicReadLine s).1 (basicReadLine s).2).1.content.getD []) ∧
      (complete (basicReadLine s).1 (basicReadLine s).2).2.putBack = [] := by
  obtain ⟨rs', a, b, c⟩ := Props.C89_directive (w := w) (uni := uni) hk s hp rs hs
  have hb := basic_empty hp
  have hp' : (basicReadLine s).2.putBack = [] := by rw [hb]; exact hp
  obtain ⟨h1, h2, _⟩ := completeF_same (size (basicReadLine s).2 + 1) (basicReadLine s).1 _ hp'
  refine ⟨⟨rs', hm.trans a, b, ?_⟩, h1⟩
  rcases c with c | c
  · exact .inl c
  · refine .inr ?_
    have h2' : (complete (basicReadLine s).1 (basicReadLine s).2).2.inline = s.inline := by
      rw [show (complete (basicReadLine s).1 (basicReadLine s).2).2.inline = (basicReadLine s).2.inline from h2, hb]
    rw [h2']
    exact c

/-- A line has been read; `join` is what is put before it. -/
theorem basic_at (hk : ∀ d, d ≠ [] → 0 < k d) {s : St} (hp : s.putBack = []) {rs : List Reader} (hm : Moves w uni k fs0 rs0 s.files rs)
    (hs : Synced w uni s rs) (line : MLine) :
    Here w uni k fs0 rs0 (basicReadLine s).2
      ((if isComplete line = true then (basicReadLine s).1 else joinLines line (basicReadLine s).1).content.getD []) ∧
      (basicReadLine s).2.putBack = [] := by
  obtain ⟨rs', a, b, c⟩ := Props.readStack_sync k hk w uni s.inline hs.2 s.files rs hs.1
  rw [basic_empty hp]
  refine ⟨⟨rs', .read _ hm a, ⟨b, hs.2⟩, ?_⟩, hp⟩
  rcases c with ⟨_, c, _⟩ | ⟨text, l, c1, c2, c3⟩
  · exact .inl c
  · refine .inr ?_
    by_cases hc : isComplete line = true
    · rw [if_pos hc]
      exact ⟨text, l, _, [], c1, c2, c3, .inl rfl⟩
    · rw [if_neg hc]
      exact ⟨text, l, _, _, c1, c2, c3, .inr rfl⟩

theorem no_directive {m : Macros} {t : Str} {e : MacroErr} (h : directiveOf m t = .error e) (r : Option (Str × Str)) : ¬ Directive m t r := by
  rw [directive_iff, h]
  intro h; cases h

theorem skippedTok_error {m : Macros} {t : Str} {e : MacroErr} (h : skippedTok m t = .error e) : directiveOf m t = .error e := by
  unfold skippedTok at h
  unfold directiveOf
  generalize expandMacros m t = z at h ⊢
  rcases z with x | y
  · cases h; rfl
  · simp only at h ⊢
    generalize isDirective m y = z at h ⊢
    rcases z with x | _ | ⟨d, v⟩
    · simpa using h
    · cases h
    · cases h

theorem skippedTok_ok {m : Macros} {t x : Str} {tok : Tok} (h : skippedTok m t = .ok (tok, x)) :
    Expanded m t x ∧ (tok = .uninteresting ∨ ∃ d v, directiveOf m t = .ok (some (d, v)) ∧ tokOf d = tok) := by
  rw [expanded_iff]
  unfold skippedTok at h
  unfold directiveOf
  generalize expandMacros m t = z at h ⊢
  rcases z with e | y
  · cases h
  · simp only at h ⊢
    rcases hd : isDirective m y with e | _ | ⟨d, v⟩
    · simp [hd] at h
    · simp only [hd, Except.ok.injEq, Prod.mk.injEq] at h
      exact ⟨by rw [h.2], .inl h.1.symm⟩
    · simp only [hd, Except.ok.injEq, Prod.mk.injEq] at h
      exact ⟨by rw [h.2], .inr ⟨d, v, rfl, h.1⟩⟩

theorem tokOf_endif {d : Str} (h : tokOf d = .endif) : d = c!"ENDIF" := by
  have := roleOf_iff.2 h
  cases this
  rfl

theorem exit_told {s : St} {text v : Str} (h : At w uni k fs0 rs0 s text) (hp : s.putBack = [])
    (hd : directiveOf s.table.macros text = .ok (some (c!"ENDIF", v))) : Told w uni k fs0 rs0 (inState s (exitConditional s)) := by
  unfold exitConditional
  rcases hc : s.conds with _ | ⟨b, cs⟩
  · exact .inr (.inr ⟨text, h, .endif v (directive_iff.2 hd)⟩)
  · obtain ⟨rs, a, b, _⟩ := h
    exact ⟨rs, a, b, .inl hp⟩

theorem skipF_told (hk : ∀ d, d ≠ [] → 0 < k d) (f d : Nat) {s : St} (hp : s.putBack = []) {rs : List Reader}
    (hm : Moves w uni k fs0 rs0 s.files rs) (hs : Synced w uni s rs) : Told w uni k fs0 rs0 (skipF f d s) := by
  induction f generalizing d s rs with
  | zero => exact .inl rfl
  | succ f ih =>
    have hb := basic_at hk hp hm hs {}
    have hc := complete_at hk hp hm hs
    unfold skipF
    simp only
    by_cases hn : (basicReadLine s).1.content.isNone = true
    · rw [if_pos hn]
      exact hb.1.at.fine hb.2
    · rw [if_neg hn]
      have hr : Here w uni k fs0 rs0 (completeDirective (basicReadLine s).1 (basicReadLine s).2).2
          ((completeDirective (basicReadLine s).1 (basicReadLine s).2).1.content.getD []) ∧
          (completeDirective (basicReadLine s).1 (basicReadLine s).2).2.putBack = [] := by
        unfold completeDirective
        split
        · exact hc
        · exact hb
      generalize completeDirective (basicReadLine s).1 (basicReadLine s).2 = r at hr
      obtain ⟨hat, hp'⟩ := hr
      have hat' := hat
      obtain ⟨rs', hm', hs', hsh⟩ := hat'
      rcases ht : skippedTok r.2.table.macros (r.1.content.getD []) with e | ⟨tok, x⟩
      · exact .inr (.inr ⟨_, hat.at, .invocation e (no_directive (skippedTok_error ht))⟩)
      · have hx := skippedTok_ok ht
        cases tok
        · exact ih _ hp' hm' hs'
        · simp only
          by_cases hd : d = 0
          · rw [if_pos hd]
            rcases hx.2 with hx | ⟨d, v, h1, h2⟩
            · cases hx
            · rw [tokOf_endif h2] at h1
              exact exit_told hat.at hp' h1
          · rw [if_neg hd]
            exact ih _ hp' hm' hs'
        · simp only
          by_cases hd : d = 0
          · rw [if_pos hd]
            refine ⟨rs', hm', hs', .inr ⟨x, by simp [hp'], Props.skippedTok_else ht, ?_⟩⟩
            exact hsh.imp id fun hsh => .inr ⟨_, hsh, hx.1⟩
          · rw [if_neg hd]
            exact ih _ hp' hm' hs'
        · exact ih _ hp' hm' hs'

theorem skip_told (hk : ∀ d, d ≠ [] → 0 < k d) {s : St} {text : Str} (h : At w uni k fs0 rs0 s text) (hp : s.putBack = []) :
    Told w uni k fs0 rs0 (skip s) := by
  obtain ⟨rs, a, b, _⟩ := h
  exact skipF_told hk _ _ hp a b

theorem condition_blamed {s : St} {text d v : Str} {dir : Dir} {e : Err} (h : At w uni k fs0 rs0 s text)
    (hd : directiveOf s.table.macros text = .ok (some (d, v))) (hdir : keyword dir = some d) (hcd : hasCondition dir = true)
    (he : condition w s.table dir v = .error e) : Blamed w uni k fs0 rs0 (e, s) := by
  have key : (d = c!"IF" ∨ d = c!"ELSEIF") → (match evaluateExpression w s.table v with
      | .ok v => .ok (decide (v ≠ 0)) | .error e => .error e : Except Err Bool) = .error e → Blamed w uni k fs0 rs0 (e, s) := by
    intro hdd he
    unfold evaluateExpression at he
    rcases hx : expandMacros s.table.macros v with e' | x
    · simp only [hx] at he
      cases he
      refine .inr (.inr ⟨text, h, .condition e' d v hdd (directive_iff.2 hd) fun x => ?_⟩)
      rw [expanded_iff, hx]
      intro h; cases h
    · simp only [hx] at he
      rcases hv : w.eval s.table x with _ | n
      · simp only [hv] at he
        cases he
        exact .inr (.inr ⟨text, h, .expression d v x hdd (directive_iff.2 hd) (expanded_iff.2 hx) hv⟩)
      · simp only [hv] at he
        cases he
  cases dir <;> first
    | (cases hcd; done)
    | (cases he; done)
    | exact key (.inl (Option.some.inj hdir).symm) he
    | exact key (.inr (Option.some.inj hdir).symm) he

theorem onIf_told (hk : ∀ d, d ≠ [] → 0 < k d) {s : St} {text d v : Str} {dir : Dir} (h : At w uni k fs0 rs0 s text) (hp : s.putBack = [])
    (hd : directiveOf s.table.macros text = .ok (some (d, v))) (hdir : keyword dir = some d) (hcd : hasCondition dir = true) :
    Told w uni k fs0 rs0 (onIf w dir v s) := by
  unfold onIf
  rcases hc : condition w s.table dir v with e | b
  · exact condition_blamed h hd hdir hcd hc
  · obtain ⟨rs, a, b', c⟩ := h
    cases b
    · exact skip_told hk (text := text) ⟨rs, a, b', c⟩ hp
    · exact ⟨rs, a, b', .inl hp⟩

theorem onElse_told (hk : ∀ d, d ≠ [] → 0 < k d) {s : St} {text v : Str} (h : At w uni k fs0 rs0 s text) (hp : s.putBack = [])
    (hd : directiveOf s.table.macros text = .ok (some (c!"ELSE", v))) : Told w uni k fs0 rs0 (onElse s) := by
  unfold onElse
  rcases s.conds with _ | ⟨b, cs⟩
  · exact .inr (.inr ⟨text, h, .alternative _ v (directive_iff.2 hd) (.else [])⟩)
  · cases b
    · exact skip_told hk h hp
    · exact h.fine hp

theorem onElseIf_told (hk : ∀ d, d ≠ [] → 0 < k d) {s : St} {text r v : Str} {dir : Dir} (h : At w uni k fs0 rs0 s text) (hp : s.putBack = [])
    (hd : directiveOf s.table.macros text = .ok (some (c!"ELSE" ++ r, v))) (hdir : keyword dir = some (c!"ELSE" ++ r))
    (hcd : hasCondition dir = true) : Told w uni k fs0 rs0 (onElseIf w dir v s) := by
  unfold onElseIf
  rcases s.conds with _ | ⟨b, cs⟩
  · exact .inr (.inr ⟨text, h, .alternative _ v (directive_iff.2 hd) (.else r)⟩)
  · cases b
    · exact skip_told hk h hp
    · simp only
      rcases hc : condition w s.table dir v with e | b
      · exact condition_blamed h hd hdir hcd hc
      · cases b
        · exact skip_told hk h hp
        · obtain ⟨rs, a, b', c⟩ := h
          exact ⟨rs, a, b', .inl hp⟩

theorem open_told {s : St} {text v name : Str} (h : At w uni k fs0 rs0 s text) (hp : s.putBack = [])
    (hd : directiveOf s.table.macros text = .ok (some (c!"INCLUDE", v))) : Told w uni k fs0 rs0 (inState s (openFile w name s)) := by
  rcases ho : openFile w name s with e | s'
  · refine .inr (.inr ⟨text, h, .include e v (directive_iff.2 hd) ?_⟩)
    unfold openFile at ho
    split at ho
    · cases ho; exact .inl rfl
    · split at ho
      · cases ho; exact .inr (.inl rfl)
      · split at ho
        · cases ho; exact .inr (.inr rfl)
        · cases ho
  · obtain ⟨rs, a, b, _⟩ := h
    obtain ⟨rs', a', b'⟩ := Props.follows_open (w := w) (uni := uni) (k := k) ho rs b
    refine ⟨rs', a.trans a', b', .inl ?_⟩
    unfold openFile at ho
    split at ho
    · cases ho
    · split at ho
      · cases ho
      · split at ho
        · cases ho
        · cases ho; exact hp

theorem onDirective_told (hk : ∀ d, d ≠ [] → 0 < k d) {s : St} {text d v : Str} (h : At w uni k fs0 rs0 s text) (hp : s.putBack = [])
    (hd : directiveOf s.table.macros text = .ok (some (d, v))) : Told w uni k fs0 rs0 (onDirective w d v s) := by
  have hw := dirOf_keyword (k := d) rfl
  unfold onDirective
  rcases hx : dirOf d <;> rw [hx] at hw
  · exact h.fine hp
  · cases hw (by decide)
    exact .inr (.inr ⟨text, h, .error v (directive_iff.2 hd)⟩)
  · obtain ⟨rs, a, b, _⟩ := h
    exact ⟨rs, a, b, .inl hp⟩
  · cases hw (by decide)
    simp only
    rcases hf : findIncludeFile w s v with e | p
    · refine .inr (.inr ⟨text, h, .include e v (directive_iff.2 hd) (.inl ?_)⟩)
      unfold findIncludeFile at hf
      simp only at hf
      split at hf
      · cases hf
      · cases hf; rfl
    · exact open_told h hp hd
  · exact onIf_told hk h hp hd (hw (by decide)) rfl
  · exact onIf_told hk h hp hd (hw (by decide)) rfl
  · exact onIf_told hk h hp hd (hw (by decide)) rfl
  · cases hw (by decide)
    exact onElse_told hk h hp hd
  · cases hw (by decide)
    exact onElseIf_told hk (r := c!"IF") h hp hd rfl rfl
  · cases hw (by decide)
    exact onElseIf_told hk (r := c!"IFDEF") h hp hd rfl rfl
  · cases hw (by decide)
    exact onElseIf_told hk (r := c!"IFNDEF") h hp hd rfl rfl
  · cases hw (by decide)
    exact exit_told h hp hd
  · obtain ⟨rs, a, b, _⟩ := h
    exact ⟨rs, a, b, .inl hp⟩
  · refine .inr (.inr ⟨text, h, .unknown d v (directive_iff.2 hd) fun x h => ?_⟩)
    have := (keyword_dirOf h).1
    rw [hx] at this
    rw [← this] at h
    cases h

/-- What becomes of a line: the next state, or an error about it or a line skipped because of it. -/
def ToldLine (w : World) (uni : Str → Bool) (k : Str → Nat) (fs0 : List TextFile) (rs0 : List Reader) : Except Thrown (Option St) → Prop
  | .ok none => True
  | .ok (some s) => Fine w uni k fs0 rs0 s
  | .error x => Blamed w uni k fs0 rs0 x

theorem parseDirective_told (hk : ∀ d, d ≠ [] → 0 < k d) {s : St} {text : Str} (h : At w uni k fs0 rs0 s text) (hp : s.putBack = []) :
    ToldLine w uni k fs0 rs0 (parseDirective w text s) := by
  unfold parseDirective
  rcases hd : directiveOf s.table.macros text with e | _ | ⟨d, v⟩
  · exact .inr (.inr ⟨text, h, .invocation e (no_directive hd)⟩)
  · trivial
  · have := onDirective_told hk h hp hd
    simp only
    generalize onDirective w d v s = z at this ⊢
    rcases z with x | s'
    · exact this
    · exact this

/-- What becomes of a round. -/
def ToldRound (w : World) (uni : Str → Bool) (k : Str → Nat) (fs0 : List TextFile) (rs0 : List Reader) : Except Thrown ((MLine × St) ⊕ (Option Str × St)) → Prop
  | .ok x => Fine w uni k fs0 rs0 (Props.roundState x) ∧ ∀ y, x = .inr y → y.2.putBack = []
  | .error x => Blamed w uni k fs0 rs0 x

theorem round_told (hk : ∀ d, d ≠ [] → 0 < k d) (line : MLine) {s : St} (h : Fine w uni k fs0 rs0 s) : ToldRound w uni k fs0 rs0 (round w line s) := by
  have hf := h
  obtain ⟨rs, hm, hs, hp⟩ := h
  have dir : ∀ (r : MLine × St), At w uni k fs0 rs0 r.2 (r.1.content.getD []) → r.2.putBack = [] →
      ToldRound w uni k fs0 rs0 (match parseDirective w (r.1.content.getD []) r.2 with
        | .error e => .error e
        | .ok none => .ok (.inl (line, r.2))
        | .ok (some s) => .ok (.inl (line, s))) := by
    intro r hr hp
    have := parseDirective_told hk hr hp
    generalize parseDirective w (r.1.content.getD []) r.2 = z at this ⊢
    rcases z with x | _ | s'
    · exact this
    · exact ⟨hr.fine hp, by simp⟩
    · exact ⟨this, by simp⟩
  unfold round
  simp only
  by_cases hb : startsWith ((basicReadLine s).1.content.getD []) ['!'] = true
  · rw [if_pos hb]
    have hr : At w uni k fs0 rs0 (complete (basicReadLine s).1 (basicReadLine s).2).2
        ((complete (basicReadLine s).1 (basicReadLine s).2).1.content.getD []) ∧
        (complete (basicReadLine s).1 (basicReadLine s).2).2.putBack = [] := by
      rcases hp with hp | ⟨l, hp, _, hl⟩
      · have := complete_at hk hp hm hs
        exact ⟨this.1.at, this.2⟩
      · have hbs : basicReadLine s = ({ content := some l }, { s with putBack := [] }) := by
          unfold basicReadLine
          rw [hp]
        have hc : complete (basicReadLine s).1 (basicReadLine s).2 = ({ content := some l }, { s with putBack := [] }) := by
          rw [hbs]
          simp [complete, completeF, isComplete]
        rw [hc]
        exact ⟨⟨rs, hm, hs, hl⟩, rfl⟩
    exact dir _ hr.1 hr.2
  · rw [if_neg hb]
    have hp : s.putBack = [] := by
      rcases hp with hp | ⟨l, hp, hl, _⟩
      · exact hp
      · exfalso
        apply hb
        unfold basicReadLine
        rw [hp]
        exact hl
    obtain ⟨hat, hp'⟩ := basic_at hk hp hm hs line
    have hat := hat.at
    generalize (if PP.isComplete line = true then (PP.basicReadLine s).1 else PP.joinLines line (PP.basicReadLine s).1) = ln at hat ⊢
    by_cases hc : (!isComplete ln) = true
    · rw [if_pos hc]
      exact ⟨hat.fine hp', by simp⟩
    · rw [if_neg hc]
      have hdef : ∀ e, (if (basicReadLine s).2.inline = true then (.ok none : Except MacroErr (Option MacroTable)) else
          parseMacro (basicReadLine s).2.table (ln.content.getD [])) = .error e →
          Faulty w (basicReadLine s).2.table (ln.content.getD []) (.macro e) := by
        intro e he
        split at he
        · cases he
        · unfold parseMacro at he
          rcases hdd : macroDefinition (ln.content.getD []) with _ | ⟨n, v⟩
          · rw [hdd] at he; cases he
          · simp only [hdd] at he
            rcases ht : setMacroValue (basicReadLine s).2.table n v with x | t
            · simp only [ht] at he
              cases he
              exact .definition _ n v (defines_iff.2 hdd) ht
            · simp only [ht] at he
              cases he
      generalize (if (basicReadLine s).2.inline = true then (.ok none : Except MacroErr (Option MacroTable)) else
        parseMacro (basicReadLine s).2.table (ln.content.getD [])) = x at hdef ⊢
      rcases x with e | _ | t
      · exact .inr (.inr ⟨_, hat, hdef e rfl⟩)
      · have := parseDirective_told hk hat hp'
        simp only
        generalize parseDirective w (ln.content.getD []) (basicReadLine s).2 = z at this ⊢
        rcases z with x | _ | s'
        · exact this
        · refine ⟨hat.fine hp', fun y hy => ?_⟩
          cases hy
          exact hp'
        · exact ⟨this, by simp⟩
      · obtain ⟨rs', a, b, _⟩ := hat
        exact ⟨⟨rs', a, b, .inl hp'⟩, by simp⟩

/-- What becomes of `readLine`. -/
def ToldRead (w : World) (uni : Str → Bool) (k : Str → Nat) (fs0 : List TextFile) (rs0 : List Reader) : Except Thrown (Option Str × St) → Prop
  | .ok x => Fine w uni k fs0 rs0 x.2 ∧ x.2.putBack = []
  | .error x => Blamed w uni k fs0 rs0 x

theorem readLineF_told (hk : ∀ d, d ≠ [] → 0 < k d) (f : Nat) (line : MLine) {s : St} (h : Fine w uni k fs0 rs0 s) :
    ToldRead w uni k fs0 rs0 (readLineF w f line s) := by
  induction f generalizing line s with
  | zero => exact .inl rfl
  | succ f ih =>
    have := round_told hk line h
    unfold readLineF
    generalize round w line s = z at this ⊢
    rcases z with x | ⟨line', s'⟩ | ⟨x, s'⟩
    · exact this
    · exact ih _ this.1
    · simp only
      split
      · exact .inr (.inl rfl)
      · exact ⟨this.1, this.2 _ rfl⟩

end Jom.PP.Pos
