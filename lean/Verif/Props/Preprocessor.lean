import Verif.Proofs.PPExec
import Verif.Proofs.PPTerm
import Verif.Proofs.MacroOps

/-! C17, C18: conditionals; C19: includes. -/

namespace Jom.Props
open Jom.PP Jom.Spec

/-- At the end of the input `readLine` returns the null string. -/
theorem readLine_end {w : World} {s : St} {f : TextFile} (h : Ahead s f [] []) (hc : s.conds = []) :
    ∃ g, readLineF w 1 {} s = .ok (none, { s with files := g }) := by
  obtain ⟨h1, h2, E, r, h3, h4, h5⟩ := h
  have hb : basicReadLine s = ({}, { s with files := [] }) := by
    unfold basicReadLine
    have hr : (readerLine false r).1.content.isNone = true := linesOf_nil h5
    rw [h2, h1, h3, readFiles_skip _ _ h4, readFiles]
    simp only [hr, if_true, readFiles]
  refine ⟨[], ?_⟩
  have hround : round w {} s = .ok (.inr (none, { s with files := [] })) := by
    have hd : directiveOf s.table.macros [] = .ok none := by
      unfold directiveOf expandMacros
      rw [expandU_nil]; rfl
    have hm : parseMacro s.table [] = .ok none := rfl
    have h0 : isComplete ({} : MLine) = true := rfl
    have hs : startsWith [] ['!'] = false := rfl
    unfold round parseDirective
    rw [hb]
    simp only [h1, Option.getD_none, hs, Bool.false_eq_true, if_false, h0, if_true, Bool.not_true, hm, hd]
  rw [readLineF, hround]
  simp [hc]

/-- **C17.** A makefile with the structure `tree` whose meaning is `Exec w [f] c tree o c'` (of every conditional
exactly the first branch whose condition holds is processed, in order, the other branches have no effect on macros,
messages and output): the preprocessor delivers exactly the lines `o` and ends with the macros and messages of `c'`.
For makefiles with inline files, whose lines the parser asks for, see C82. -/
theorem C17_branches_partial {w : World} {f : TextFile} {c c' : Cfg} {tree : Tree .block} {o : List Makefile.Line}
    (h : Exec w [f] c tree o c') (htext : Consists tree.lines f.rest) (hraw : ∀ l ∈ o, l.inl = false)
    (hp : c.part = {}) (hp' : c'.part = {}) :
    ∃ s' N, s'.table = c'.table ∧ s'.messages = c'.messages ∧ s'.conds = [] ∧ ∀ fuel n, N ≤ fuel → N ≤ n →
      readAllF w fuel n { table := c.table, messages := c.messages, files := [f] } = .ok (o.map (·.text), s') := by
  obtain ⟨s1, h1, h2, h3, h4⟩ := exec_sim h f [] { table := c.table, messages := c.messages, files := [f] } [] rfl
    ⟨rfl, rfl, by rw [hp]; rfl⟩ ⟨rfl, rfl, [], f.rest, rfl, by simp, by simpa using htext⟩
  obtain ⟨g, hend⟩ := readLine_end (w := w) h3 h4
  rw [hp, hp'] at h1
  obtain ⟨f', n', l', sl', h5, h6⟩ := h1.readAll hraw (n := 0) (os := []) (se := { s1 with files := g }) hend rfl
  rw [List.append_nil] at h6
  have hall : readAllF w f' (n' + 1) { table := c.table, messages := c.messages, files := [f] } =
      .ok (o.map (·.text), { s1 with files := g }) := by
    rw [readAllF, readLine, h5]
    rcases l' with _ | t <;> exact h6
  refine ⟨{ s1 with files := g }, f' + n' + 1, h2.table, h2.messages, h4, fun fuel n hf hn => ?_⟩
  have := readAllF_mono w f' (fuel - f') (n' + 1) (n - (n' + 1)) _ (by rw [hall]; simp)
  rw [hall, show f' + (fuel - f') = fuel by omega, show n' + 1 + (n - (n' + 1)) = n by omega] at this
  exact this

/-- The condition `Stable` holds if no `$` is left after the expansion. -/
theorem C17_stable {m : Macros} {u : List MLine}
    (h : ∀ t e, DirectiveLines u t → Expanded m t e → '$' ∉ e) : Stable m u := by
  intro t e r ht he hr
  have hp := expandMacros_plain m false e (h t e ht he)
  rw [directive_iff] at hr ⊢
  rw [expanded_iff] at he
  unfold directiveOf at hr ⊢
  rwa [hp, ← he]

/-- What single lines mean: the program reads a directive with its argument from a line exactly if the line says so. -/
theorem C17_directive {line : Str} {d : Dir} {v : Str} (hd : d ≠ .unknown) :
    (∃ k, rawDirective line = some (k, v) ∧ dirOf k = d) ↔ Says line d v := (says_iff hd).symm

example : Says c!"!\t Else  ifNdef  X Y  " .elseifndef c!"X Y" := by
  refine (C17_directive (by decide)).1 ⟨c!"ELSEIFNDEF", by decide +kernel, by decide⟩

/-- A condition holds as specified exactly if the program takes it to hold. -/
theorem C17_condition {w : World} {t : MacroTable} {d : Dir} {v : Str} {b : Bool} (hd : isIf d ∨ isElseIf d) :
    condition w t d v = .ok b ↔ Holds w t d v b := by
  refine ⟨condition_holds ?_, Holds.condition⟩
  rcases hd with (rfl | rfl | rfl) | (rfl | rfl | rfl) <;> rfl

/-! A nested example: with `A` undefined and `B` defined, only the second branch counts. -/

def ppWorld : World := { find := fun _ => none, content := fun _ => none, dir := fun _ => [], eval := fun _ _ => none }

def ppText : Str := c!"!IFDEF A\nX=1\n!IFDEF B\ny\n!ELSE\n!ENDIF\n!ELSEIFDEF B\nX=2\n!IFNDEF A\nz: $(X)\n!ENDIF\n!ELSE\n!ERROR no\n!ENDIF\nlast\n"

def ln (t : Str) : MLine := { content := some t }

def ppTree : Tree .block :=
  .cond [ln c!"!IFDEF A"] (.leaf [.inl <| ln c!"X=1"] (.cond [ln c!"!IFDEF B"] (.leaf [.inl <| ln c!"y"] .nil) (.alt [ln c!"!ELSE"] .nil (.endif [ln c!"!ENDIF"])) .nil))
    (.alt [ln c!"!ELSEIFDEF B"] (.leaf [.inl <| ln c!"X=2"] (.cond [ln c!"!IFNDEF A"] (.leaf [.inl <| ln c!"z: $(X)"] .nil) (.endif [ln c!"!ENDIF"]) .nil))
      (.alt [ln c!"!ELSE"] (.leaf [.inl <| ln c!"!ERROR no"] .nil) (.endif [ln c!"!ENDIF"]))) (.leaf [.inl <| ln c!"last"] .nil)

example : Consists ppTree.lines ppText := by
  have : ppTree.lines = ordinary (linesOf ppText) := by decide +kernel
  rw [this]
  exact consists_plain ppText

def ppTab : MacroTable := { macros := [(c!"B", { value := c!"1" })] }

theorem directive_one {t : Str} (h : t.head? = some '!') : DirectiveLines [ln t] t :=
  ⟨.last (ln t) rfl, ln t, [], rfl, h⟩

theorem directive_one_inv {t t' : Str} (h : DirectiveLines [ln t] t') : t' = t := by
  obtain ⟨hj, _⟩ := h
  cases hj with
  | last => rfl

theorem stable_one {m : Macros} {t : Str} (h : (match expandMacros m t with | .ok e => !e.contains '$' | .error _ => true) = true) :
    Stable m [ln t] := by
  refine C17_stable fun t' e ht he hd => ?_
  rw [directive_one_inv ht, expanded_iff] at he
  rw [he] at h
  simp [hd] at h

theorem reads_one {m : Macros} {t w v : Str} {d : Dir} (h : t.head? = some '!') (h1 : directiveOf m t = .ok (some (w, v)))
    (h2 : keyword d = some w) : Reads m [ln t] d v := ⟨t, w, directive_one h, directive_iff.2 h1, h2⟩

theorem looks_one {m : Macros} {t e : Str} {tok : Tok} (h : skippedTok m t = .ok (tok, e)) : Looks m [ln t] tok := by
  by_cases hb : IsBang (ln t)
  · exact .inr ⟨t, directive_one hb, role_iff.2 ⟨e, h⟩⟩
  · exact .inl ⟨ln t, rfl, hb, role_iff.2 ⟨e, h⟩⟩

/-- A line behind the definition of `X`. -/
def ppOut (t : Str) : Makefile.Line := { text := t, macros := ppTab.macros ++ [(c!"X", { value := c!"2", source := .makeFile })] }

example : ∃ c', Exec ppWorld [{ name := [], dir := [], rest := ppText }] { table := ppTab } ppTree [ppOut c!"z: $(X)", ppOut c!"last"] c' ∧ c'.part = {} := by
  refine ⟨_, .condFalse (o := [ppOut c!"z: $(X)"]) (o' := [ppOut c!"last"]) _ _ _ _ _ _ _ _ .ifdef c!"A"
    (reads_one rfl (w := c!"IFDEF") (by decide +kernel) rfl)
    (.inr (.inl rfl)) (condition_holds (by decide) (by decide +kernel)) ?_ (.elseTrue _ _ _ _ _ _ _ .elseifdef c!"B" (reads_one rfl (w := c!"ELSEIFDEF") (by decide +kernel) rfl)
      (.inr (.inl rfl)) (stable_one (by decide +kernel)) (condition_holds (by decide) (by decide +kernel))
      (.leaf (o := []) (o' := [ppOut c!"z: $(X)"]) _ _ _ _ _ _
        (.definition _ _ c!"X" c!"2" { ppTab with macros := ppTab.macros ++ [(c!"X", { value := c!"2", source := .makeFile })] } (by decide +kernel) rfl (defines_iff.2 (by decide +kernel)) (by decide +kernel))
        (.condTrue (o := [ppOut c!"z: $(X)"]) (o' := []) _ _ _ _ _ _ _ _ .ifndef c!"A" (reads_one rfl (w := c!"IFNDEF") (by decide +kernel) rfl) (.inr (.inr rfl)) (condition_holds (by decide) (by decide +kernel))
          (.leaf (o := [ppOut c!"z: $(X)"]) (o' := []) _ _ _ _ _ _ (.text _ (ln c!"z: $(X)") [] (by decide +kernel) rfl (noDefinition_iff.2 (by decide +kernel)) (directive_iff.2 (by decide +kernel)) (by simp)) (.nil _ _))
          ⟨[], reads_one rfl (w := c!"ENDIF") (by decide +kernel) rfl⟩ (.nil _ _)))
      ⟨⟨.else, [], reads_one rfl (w := c!"ELSE") (by decide +kernel) rfl, .inl rfl⟩, stable_one (by decide +kernel), ⟨⟨[ln c!"!ERROR no"], rfl, looks_one (e := c!"!ERROR no") (by decide +kernel)⟩, trivial⟩,
        ⟨[], reads_one rfl (w := c!"ENDIF") (by decide +kernel) rfl⟩⟩)
    (.leaf (o := [ppOut c!"last"]) (o' := []) _ _ _ _ _ _ (.text _ (ln c!"last") [] (by decide +kernel) rfl (noDefinition_iff.2 (by decide +kernel)) (directive_iff.2 (by decide +kernel)) (by simp)) (.nil _ _)), rfl⟩
  exact ⟨⟨[ln c!"X=1"], rfl, looks_one (e := c!"X=1") (by decide +kernel)⟩, looks_one (e := c!"!IFDEF B") (by decide +kernel),
    ⟨⟨[ln c!"y"], rfl, looks_one (e := c!"y") (by decide +kernel)⟩, trivial⟩,
    ⟨looks_one (e := c!"!ELSE") (by decide +kernel), trivial, looks_one (e := c!"!ENDIF") (by decide +kernel)⟩, trivial⟩

/-- Lines delivered for a makefile text. -/
def ppRun (w : World) (t : MacroTable) (text : Str) : Except Err (List Str) :=
  match readAllF w 100 100 { table := t, files := [{ name := [], dir := [], rest := text }] } with
  | .ok (o, _) => .ok o
  | .error e => .error e

example : ppRun ppWorld ppTab ppText = .ok [c!"z: $(X)", c!"last"] := by decide +kernel

/-- Outside well-nested structures in the sense of the specification the claim fails: `!ELSE IF(...)` without a blank
behind `IF` is taken for a plain `!ELSE`, its condition is not looked at. -/
theorem C17_elseif_paren_refuted : ppRun ppWorld ppTab c!"!IFDEF A\n!ELSE IF(0)\nx\n!ENDIF\n" = .ok [c!"x"] := by decide +kernel

/-- A second `!ELSE` is accepted and both are followed. -/
theorem C17_second_else_refuted : ppRun ppWorld ppTab c!"!IFDEF A\n!ELSE\nx\n!ELSE\ny\n!ENDIF\n" = .ok [c!"x", c!"y"] := by decide +kernel

/-- Lines of a branch that is not taken are macro-expanded: a malformed one ends the program. -/
theorem C17_skipped_expanded_refuted : ppRun ppWorld ppTab c!"!IFDEF A\n$(\n!ENDIF\n" = .error (.macro .noClosing) := by decide +kernel

/-! ### C18 -/

/-- **C18**, any makefile: one that is accepted is balanced. The full claim is false because of `Bal.forgotten`, see
`C18_refuted`. -/
theorem C18_balanced_partial {w : World} {T : MacroTable} {f : TextFile} {fuel n : Nat} {o : List Str} {s' : St}
    (h : readAllF w fuel n { table := T, files := [f] } = .ok (o, s')) : Bal w T 0 {} (linesOf f.rest) := by
  have := readAll_bal fuel n _ _ ⟨rfl, .inl rfl⟩ h
  have h2 : pend { table := T, files := [f] } = linesOf f.rest := by simp [pend]
  unfold BalSt at this
  rw [h2] at this
  exact this

/-- Visibly no old-style include. -/
def NoInclude (t : Str) : Prop := NotInclude t ∨ '$' ∉ t ∧ ∀ k v, ¬ SaysWord t k v

theorem saysNothing_iff {t : Str} : (∀ k v, ¬ SaysWord t k v) ↔ rawDirective t = none := by
  simp only [saysWord_iff]
  cases rawDirective t with
  | none => simp
  | some y => simp only [reduceCtorEq, iff_false]; exact fun h => h y.1 y.2 rfl

instance (t : Str) : Decidable (NoInclude t) :=
  decidable_of_iff (NotInclude t ∨ '$' ∉ t ∧ rawDirective t = none) (by unfold NoInclude; rw [saysNothing_iff])

/-- The role of the line does not depend on macros: a directive contains none and includes nothing, another line is
no old-style include. No line is continued. -/
def Fixed (x : MLine) : Prop :=
  x.cont = .none ∧
  (IsBang x → '$' ∉ x.content.getD [] ∧ ∀ d v, SaysWord (x.content.getD []) d v → d ≠ c!"INCLUDE") ∧
  (¬ IsBang x → NoInclude (x.content.getD []))

theorem raw_expand {m : Macros} {t e : Str} (hd : NoInclude t) (he : expandMacros m t = .ok e) : rawDirective e = none := by
  rcases hd with hd | ⟨h1, h2⟩
  · obtain ⟨q, u, rfl, h1, h2⟩ := harmless_of hd
    obtain ⟨e', rfl, _⟩ := expand_prefix _ _ h1 he
    exact raw_decisive h2
  · have := expandMacros_plain m false _ h1
    rw [this] at he
    cases he
    exact saysNothing_iff.1 h2

theorem raw_self {t : Str} (hd : NoInclude t) : rawDirective t = none := by
  rcases hd with hd | ⟨_, h2⟩
  · obtain ⟨q, u, rfl, h1, h2⟩ := harmless_of hd
    exact raw_decisive h2
  · exact saysNothing_iff.1 h2

theorem Fixed.plain {x : MLine} {m : Macros} {e : Str} (h : Fixed x) (hb : ¬ IsBang x)
    (he : expandMacros m (x.content.getD []) = .ok e) : rawDirective e = none :=
  raw_expand (h.2.2 hb) he

/-- The role of a line that is free of macros, computed. -/
def roleOf (line : Str) : Tok :=
  match rawDirective line with
  | some (d, _) => tokOf d
  | none => .uninteresting

theorem plainRole_iff {line : Str} {tok : Tok} : PlainRole line tok ↔ roleOf line = tok := by
  unfold PlainRole roleOf
  rw [saysNothing_iff]
  simp only [saysWord_iff, roleOf_iff]
  rcases rawDirective line with _ | ⟨k, v⟩
  · simp [eq_comm]
  · simp

theorem roles_map {α : Type} (f : α → Str) (ls : List α) : Roles (ls.map f) (ls.map fun x => roleOf (f x)) := by
  induction ls with
  | nil => exact .nil
  | cons x ls ih => exact .cons (plainRole_iff.2 rfl) ih

theorem Fixed.role_plain {x : MLine} (h : Fixed x) (hb : ¬ IsBang x) : roleOf (x.content.getD []) = .uninteresting := by
  unfold roleOf
  rw [raw_self (h.2.2 hb)]

theorem Fixed.bang {x : MLine} {m : Macros} {r : Option (Str × Str)} (h : Fixed x) (hb : IsBang x)
    (hd : directiveOf m (x.content.getD []) = .ok r) :
    (r = none ∧ roleOf (x.content.getD []) = .uninteresting) ∨
    ∃ k v, r = some (k, v) ∧ roleOf (x.content.getD []) = tokOf k ∧ k ≠ c!"INCLUDE" := by
  unfold directiveOf at hd
  rw [expandMacros_plain m false _ (h.2.1 hb).1] at hd
  simp only at hd
  have hr := (h.2.1 hb).2
  simp only [saysWord_iff] at hr
  unfold isDirective at hd
  unfold roleOf
  generalize rawDirective (x.content.getD []) = y at hd hr
  rcases y with _ | ⟨k, v⟩
  · cases hd; exact .inl ⟨rfl, rfl⟩
  · simp only at hd
    generalize expandMacros m v = z at hd
    cases z with
    | error _ => cases hd
    | ok z => cases hd; exact .inr ⟨k, _, rfl, rfl, hr k v rfl⟩

theorem joinUnit_complete {x : MLine} {ls : List MLine} (h : x.cont = .none) : joinUnit x ls = (x.content.getD [], ls) := by
  cases ls with
  | nil => rfl
  | cons y ls => rw [joinUnit, if_pos h]

theorem nested_of_bal {w : World} {T : MacroTable} {d : Nat} {p : MLine} {ls : List MLine} (h : Bal w T d p ls) :
    p.cont = .none → (∀ x ∈ ls, Fixed x) → Nested d (ls.map fun x => roleOf (x.content.getD [])) := by
  have hlog : ∀ {p : MLine} {ls : List MLine} {t : Str} {rest : List MLine}, Logical p ls t rest → p.cont = .none →
      (∀ x ∈ ls, Fixed x) → ∃ x, ls = x :: rest ∧ ¬ IsBang x ∧ t = x.content.getD [] := by
    intro p ls t rest h hp hf
    cases h with
    | next x ls hx hc => exact ⟨x, rfl, hx, by unfold extend; rw [if_pos hp]⟩
    | last h => exact absurd hp h
  induction h with
  | done => intro _ _; rfl
  | directive T T' d d' p x ls rest ins t r h1 h2 h3 h4 _ ih =>
    intro hp hf
    have hx := hf x (by simp)
    rw [joinUnit_complete hx.1] at h2
    cases h2
    have hf' : ∀ y ∈ ls, Fixed y := fun y hy => hf y (by simp [hy])
    rw [List.map_cons]
    rcases hx.bang h1 (directive_iff.1 h3) with ⟨rfl, hr⟩ | ⟨k, v, rfl, hr, hni⟩
    · rw [hr]
      cases h4 with
      | none => exact ih hp hf'
    · rw [hr]
      cases h4 with
      | «if» _ _ _ x h1 h =>
        have : tokOf k = .if := by rcases h with rfl | rfl | rfl <;> (cases h1; decide)
        rw [this]; exact ih hp hf'
      | «else» _ _ _ x h1 h =>
        have : tokOf k = .else := by rcases h with rfl | rfl | rfl | rfl <;> (cases h1; decide)
        rw [this]; exact ⟨by omega, ih hp hf'⟩
      | endif => exact ⟨_, rfl, ih hp hf'⟩
      | «include» => exact absurd rfl hni
      | undef => exact ih hp hf'
      | message => exact ih hp hf'
      | cmdswitches => exact ih hp hf'
  | continued T d p x ls h1 h2 _ _ =>
    intro hp hf
    unfold extend at h2
    rw [if_pos hp] at h2
    exact absurd (hf x (by simp)).1 h2
  | definition T T' d p ls rest t n v h1 h2 h3 _ ih =>
    intro hp hf
    obtain ⟨x, rfl, hx, rfl⟩ := hlog h1 hp hf
    rw [List.map_cons, (hf x (by simp)).role_plain hx]
    exact ih rfl fun y hy => hf y (by simp [hy])
  | line T T' d d' p ls rest ins t r h1 h2 h3 h4 _ ih =>
    intro hp hf
    obtain ⟨x, rfl, hx, rfl⟩ := hlog h1 hp hf
    have hfx := hf x (by simp)
    have hr : r = none := by
      rw [directive_iff] at h3
      unfold directiveOf at h3
      generalize he : expandMacros T.macros (x.content.getD []) = y at h3
      cases y with
      | error _ => cases h3
      | ok e =>
        simp only at h3
        unfold isDirective at h3
        rw [hfx.plain hx he] at h3
        cases h3
        rfl
    subst hr
    cases h4
    rw [List.map_cons, hfx.role_plain hx]
    exact ih rfl fun y hy => hf y (List.mem_cons_of_mem _ hy)
  | skipped T d d' p x ls rest t tok h1 h2 h3 h4 h5 _ ih =>
    intro hp hf
    obtain ⟨e, h4⟩ := role_iff.1 h4
    have hfx := hf x (by simp)
    have ht : t = x.content.getD [] ∧ rest = ls := by
      by_cases hb : IsBang x
      · have := h2 hb
        rw [joinUnit_complete hfx.1] at this
        cases this
        exact ⟨rfl, rfl⟩
      · exact h3 hb
    obtain ⟨rfl, rfl⟩ := ht
    have hf' : ∀ y ∈ rest, Fixed y := fun y hy => hf y (by simp [hy])
    have htok : roleOf (x.content.getD []) = tok := by
      unfold skippedTok at h4
      generalize he : expandMacros T.macros (x.content.getD []) = y at h4
      cases y with
      | error _ => cases h4
      | ok e' =>
        simp only at h4
        by_cases hb : IsBang x
        · generalize hdd : isDirective T.macros e' = z at h4
          have hd : directiveOf T.macros (x.content.getD []) = z := by
            unfold directiveOf
            rw [he]; exact hdd
          rcases z with _ | z
          · cases h4
          · rcases hfx.bang hb hd with ⟨rfl, hr⟩ | ⟨k, v, rfl, hr, _⟩
            · cases h4; exact hr
            · cases h4; exact hr
        · unfold isDirective at h4
          rw [hfx.plain hb he] at h4
          cases h4
          exact hfx.role_plain hb
    rw [List.map_cons, htok]
    cases h5 with
    | uninteresting => exact ih hp hf'
    | «if» => exact ih hp hf'
    | «else» => exact ⟨h1, ih hp hf'⟩
    | endif => exact ⟨_, rfl, ih hp hf'⟩
  | forgotten T d k p h => intro hp; exact absurd hp h

/-- **C18** for makefiles in which the role of every line is fixed: accepted only if every `!IF` has its `!ENDIF` and no
`!ELSE` or `!ENDIF` is outside a conditional. -/
theorem C18_fixed {w : World} {T : MacroTable} {f : TextFile} {fuel n : Nat} {o : List Str} {s' : St}
    (hf : ∀ x ∈ linesOf f.rest, Fixed x) (h : readAllF w fuel n { table := T, files := [f] } = .ok (o, s')) :
    ∃ roles, Roles ((linesOf f.rest).map fun x => x.content.getD []) roles ∧ Nested 0 roles :=
  ⟨_, roles_map _ _, nested_of_bal (C18_balanced_partial h) rfl hf⟩

instance (x : MLine) : Decidable (Fixed x) :=
  decidable_of_iff (x.cont = .none ∧
    (IsBang x → '$' ∉ x.content.getD [] ∧ ((rawDirective (x.content.getD [])).map fun r => decide (r.1 ≠ c!"INCLUDE")).getD true = true) ∧
    (¬ IsBang x → NoInclude (x.content.getD []))) (by
      unfold Fixed
      simp only [saysWord_iff]
      cases hr : rawDirective (x.content.getD []) with
      | none => simp
      | some r => obtain ⟨k, v⟩ := r; simp)

/-- The file read at the end of the input closes one conditional of two. -/
def forgetWorld : World :=
  { find := some, content := fun _ => some c!"!ENDIF\n", dir := fun _ => [], eval := fun _ _ => some 0 }

/-- Nested conditionals with every branch kind. -/
def exFixed : Str :=
  c!"A = 1\n!IFDEF A\nx : y\n\tcmd $@\n! IF 0\nz :\n! ELSEIF 1\nu :\n! ENDIF\n!ELSE\n!IFNDEF B\n!ENDIF\n!ENDIF\nB = $(A)\n"

example : (∀ x ∈ linesOf exFixed, Fixed x) ∧ (linesOf exFixed).length = 14 ∧
    (ppRun forgetWorld ppTab exFixed).isOk = true := by decide +kernel
example : ppRun ppWorld ppTab c!"!IFDEF A\nx\n" = .error .missingEndif := by decide +kernel
example : ppRun ppWorld ppTab c!"!IFDEF A\n!ENDIF\n!ELSE\n" = .error .unexpectedElse := by decide +kernel
example : ppRun ppWorld ppTab c!"!IFDEF A\n!ELSE\n!ENDIF\n!ENDIF\n" = .error .unexpectedEndif := by decide +kernel

/-- The claim is false in this case: two `!IF`, one `!ENDIF`, accepted. -/
theorem C18_refuted : ppRun forgetWorld {} c!"include x \\\n!IF 0\n!IF 0\n" = .ok [] ∧
    ∀ roles, Roles [c!"include x ", c!"!IF 0", c!"!IF 0", c!"!ENDIF"] roles → ¬ Nested 0 roles := by
  refine ⟨by decide +kernel, fun roles h => ?_⟩
  rcases h with _ | ⟨h1, _ | ⟨h2, _ | ⟨h3, _ | ⟨h4, _ | _⟩⟩⟩⟩
  rw [plainRole_iff] at h1 h2 h3 h4
  rw [show roleOf c!"include x " = .uninteresting by decide +kernel] at h1
  rw [show roleOf c!"!IF 0" = .if by decide +kernel] at h2 h3
  rw [show roleOf c!"!ENDIF" = .endif by decide +kernel] at h4
  subst h1 h2 h3 h4
  rintro ⟨d, h, h1⟩
  cases h
  cases h1

/-! ### C19 -/

/-- Longest of the files. -/
def maxLines (w : World) : List Str → Nat
  | [] => 0
  | a :: F => max ((w.content a).elim 0 fun t => (linesOf t).length) (maxLines w F)

theorem maxLines_le {w : World} {F : List Str} {a t : Str} (ha : a ∈ F) (ht : w.content a = some t) :
    (linesOf t).length ≤ maxLines w F := by
  induction F with
  | nil => cases ha
  | cons b F ih =>
    unfold maxLines
    rcases List.mem_cons.1 ha with rfl | ha
    · rw [ht]; exact Nat.le_max_left _ _
    · exact Nat.le_trans (ih ha) (Nat.le_max_right _ _)

/-- **C19**, termination: if finitely many files can be included, and no file ends within a directive or an
old-style include, preprocessing ends, with the lines or an error. The claim is false for other files, see `C19_refuted`. -/
theorem C19_terminates_partial {w : World} {T : MacroTable} {f : TextFile} (F : List Str)
    (hF : ∀ p abs text, w.find p = some abs → w.content abs = some text → abs ∈ F ∧ Closed .start (linesOf text))
    (hf : Closed .start (linesOf f.rest)) :
    ∃ N, ∀ fuel n, N ≤ fuel → N ≤ n → readAllF w fuel n { table := T, files := [f] } ≠ .error .fuel := by
  have hw : PP.Finite w (f.name :: F) (maxLines w F) := by
    intro p abs text h1 h2
    obtain ⟨h3, h4⟩ := hF p abs text h1 h2
    exact ⟨by simp [h3], h4, maxLines_le h3 h2⟩
  have hs : TermSt (f.name :: F) {} { table := T, files := [f] } :=
    ⟨⟨rfl, .inl rfl⟩, ⟨by simp, by simp, by simpa using hf⟩, .inl rfl⟩
  refine ⟨cost' (f.name :: F).length (maxLines w F + 1) {} { table := T, files := [f] } + 1, fun fuel n h1 h2 => ?_⟩
  exact readAll_term hw n _ fuel hs h1 h2

/-- **C19**: whatever has been read before, including a file that is being read is an error. -/
theorem C19_cycle {w : World} {p x : MLine} {s : St} {f : TextFile} {ls : List MLine} {v path abs : Str}
    (hs : s.inline = false ∧ s.putBack = []) (hf : s.files.head? = some f) (hl : linesOf f.rest = x :: ls)
    (hx : IsBang x) (hc : x.cont = .none) (hd : Directive s.table.macros (x.content.getD []) (some (c!"INCLUDE", v)))
    (hp : Included w s.files s.table v path) (ha : w.find path = some abs)
    (hm : abs ∈ s.files.map (·.name)) : ∀ fuel, 0 < fuel → readLineF w fuel p s = .error .includeCycle := by
  intro fuel hfuel
  rw [directive_iff] at hd
  have hk : dirOf c!"INCLUDE" = .include := by decide
  have hp : findIncludeFile w s v = .ok path := by
    rw [← findInclude_iff] at hp
    rw [← hp]
    exact findIncludeFile_congr w s { files := s.files, table := s.table } v rfl rfl
  cases fuel with
  | zero => omega
  | succ fuel =>
    cases hfs : s.files with
    | nil => rw [hfs] at hf; cases hf
    | cons g fs =>
      rw [hfs] at hf
      cases hf
      obtain ⟨a, b, c, _⟩ := linesOf_cons hl
      have hr : basicReadLine s = (x, { s with files := { f with rest := (readLineU f.rest).2 } :: fs }) := by
        unfold basicReadLine
        rw [hs.2, hfs, hs.1, readFiles]
        have hr : readerLine false f.rest = readLineU f.rest := rfl
        simp only [hr, a, c, Bool.false_eq_true, if_false]
      have hfi : findIncludeFile w { s with files := { f with rest := (readLineU f.rest).2 } :: fs } v = .ok path := by
        unfold findIncludeFile at hp ⊢
        rw [hfs] at hp
        exact hp
      rw [hfs] at hm
      have ho : openFile w path { s with files := { f with rest := (readLineU f.rest).2 } :: fs } = .error .includeCycle := by
        unfold openFile
        rw [ha]
        simp only
        rw [if_pos (by simpa using hm)]
      have hcm : ∀ s', complete x s' = (x, s') := fun s' => by
        rw [complete_eq, if_pos (by simp [isComplete, hc])]
      unfold readLineF round
      rw [hr]
      simp only [(bang_iff x).2 hx, if_true, hcm]
      unfold parseDirective
      simp only [hd]
      unfold onDirective
      rw [hk]
      simp only [hfi, ho]

/-- **C19**: which file an include refers to. -/
theorem C19_lookup {w : World} {s : St} {v p : Str} :
    findIncludeFile w s v = .ok p ↔ Included w s.files s.table v p := by
  rw [← findInclude_iff]
  rw [findIncludeFile_congr w { files := s.files, table := s.table } s v rfl rfl]

/-- Of two directories in `INCLUDE` only the second one has the file. -/
def angleWorld : World :=
  { find := fun p => if p = c!"i/x" ∨ p = c!"p/x" then some p else none,
    content := fun _ => none, dir := fun _ => [], eval := fun _ _ => none }

def angleState : St :=
  { files := [{ name := [], dir := c!"d", rest := [] }, { name := [], dir := c!"e", rest := [] }],
    table := { macros := [(c!"INCLUDE", { value := c!"h;;i" })] } }

example : findIncludeFile angleWorld angleState c!"<x>" = .ok c!"i/x" := by decide +kernel
example : findIncludeFile angleWorld angleState c!"x" = .error .fileNotFound := by decide +kernel

/-- Files `a` and `b` besides the makefile `m`; `a` includes `b`. -/
def incWorld (b : Str) : World :=
  { find := fun p => if p = c!"a" ∨ p = c!"b" ∨ p = c!"m" then some p else none,
    content := fun p => if p = c!"a" then some c!"1\n!INCLUDE b\n2\n" else if p = c!"b" then some b else none,
    dir := fun _ => c!"d", eval := fun _ _ => none }

def ppRunFile (w : World) (name text : Str) : Except Err (List Str) :=
  (readAllF w 30 30 { files := [{ name := name, dir := c!"d", rest := text }] }).map (·.1)

example : Closed .start (linesOf c!"0\nOBJS = x \\\n!IFDEF A\n y \\\n!ENDIF\n z\n$(X) : \\\n u\n!INCLUDE \\\n a\n3\n") := by decide +kernel
example : ppRunFile (incWorld c!"in b\n") c!"m" c!"0\n!INCLUDE \\\n a\n3\n" = .ok [c!"0", c!"1", c!"in b", c!"2", c!"3"] := by decide +kernel
example : ppRunFile (incWorld c!"!INCLUDE a\n") c!"m" c!"0\n!INCLUDE a\n3\n" = .error .includeCycle := by decide +kernel
example : ppRunFile (incWorld c!"!INCLUDE m\n") c!"m" c!"0\n!INCLUDE a\n3\n" = .error .includeCycle := by decide +kernel

/-- The theorem applies to `b`, included by `a`, included by `m`, when it includes `a`. -/
example : readLineF (incWorld []) 1 {} { files := [{ name := c!"b", dir := c!"d", rest := c!"!include <a>\nx" }, { name := c!"a", dir := c!"d", rest := c!"2\n" },
    { name := c!"m", dir := c!"d", rest := c!"3\n" }] } = .error .includeCycle := by
  refine C19_cycle (x := { content := some c!"!include <a>", cont := .none }) (ls := [{ content := some c!"x", cont := .none }]) (v := c!"<a>") (path := c!"a") (abs := c!"a") ⟨rfl, rfl⟩ rfl (by decide +kernel) rfl rfl ?_ (C19_lookup.1 (by decide +kernel)) (by decide +kernel) (by decide) 1 (by decide)
  rw [directive_iff]
  decide +kernel

/-- A makefile whose only line includes the makefile itself and ends with a backslash. -/
def loopWorld : World :=
  { find := some, content := fun _ => some c!"!INCLUDE m\\", dir := fun _ => [], eval := fun _ _ => none }

def loopState : St := { files := [{ name := c!"m", dir := [], rest := c!"!INCLUDE m\\" }] }

theorem loop_round : round loopWorld {} loopState = .ok (.inl ({}, loopState)) := by decide +kernel

/-- The claim is false in general: this makefile is read forever. At the end of the file the directive is completed,
for which the file is taken off the stack; so the cycle is not noticed. -/
theorem C19_refuted (fuel n : Nat) : readAllF loopWorld fuel (n + 1) loopState = .error .fuel := by
  have : ∀ fuel, readLineF loopWorld fuel {} loopState = .error .fuel := by
    intro fuel
    induction fuel with
    | zero => rfl
    | succ fuel ih => rw [readLineF, loop_round]; exact ih
  rw [readAllF]
  unfold readLine
  rw [this]

end Jom.Props
