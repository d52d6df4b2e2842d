/-
C85: logical lines. Lines that are continued, comment lines in between, directives on several lines.
C86: which lines define macros, and the argument of a directive.
-/
import Verif.Props.Preprocessor
import Verif.Props.LineReader
import Verif.Props.Comments

namespace Jom.Spec

open PP

/-- The text of a logical line that is not a directive: blanks at the beginning of continuations do not count. -/
def whole : List MLine → Str
  | [] => []
  | [x] => x.content.getD []
  | x :: y :: r => x.content.getD [] ++ glue x.cont ++ whole ({ y with content := some (trimLeft (y.content.getD [])) } :: r)
termination_by l => l.length

/-- The text of a directive on several lines: a backslash leaves nothing behind, a caret stays. -/
def wholeDirective : List MLine → Str
  | [] => []
  | [x] => x.content.getD []
  | x :: y :: r => x.content.getD [] ++ (if x.cont = .caret then ['^'] else []) ++ wholeDirective (y :: r)

/-- The text begins with a logical line in these parts; `rest` is what follows. Comment lines in between do not count. `bang` says whether
the lines may begin with an exclamation mark. -/
inductive Written (bang : Prop) : Str → List MLine → Str → Prop
  | comment (c r rest : Str) (ms : List MLine) : '\n' ∉ c → Written bang r ms rest → Written bang ('#' :: (c ++ '\n' :: r)) ms rest
  | last (p r : Str) (m : MLine) : '\n' ∉ p → p.head? ≠ some '#' → (p.head? = some '!' → bang) → LineMeaning p m → m.cont = .none →
    Written bang (p ++ '\n' :: r) [m] r
  | eof (p : Str) (m : MLine) : '\n' ∉ p → p ≠ [] → p.head? ≠ some '#' → (p.head? = some '!' → bang) → LineMeaning p m →
    m.cont = .none → Written bang p [m] []
  | more (p r rest : Str) (m : MLine) (ms : List MLine) : '\n' ∉ p → p.head? ≠ some '#' → (p.head? = some '!' → bang) →
    LineMeaning p m → m.cont ≠ .none → Written bang r ms rest → Written bang (p ++ '\n' :: r) (m :: ms) rest

end Jom.Spec

namespace Jom.Props

open PP Spec

/-! ### C86 -/

/-- C86: a line is taken for the definition of the macro `n` with the value `v` exactly if it is one. -/
theorem C86_definition (line n v : Str) : macroDefinition line = some (n, v) ↔ LineDefines line n v := defines_iff.symm

/-- C86: a line is a directive with this argument exactly if it says so after macro expansion; macros in the argument are expanded once more, and
a comment behind it does not count. -/
theorem C86_directive {m : Macros} {t v : Str} {d : Dir} (hd : d ≠ .unknown) :
    (∃ k, directiveOf m t = .ok (some (k, v)) ∧ dirOf k = d) ↔
      ∃ e v0 v1, Expanded m t e ∧ Says e d v0 ∧ Expanded m v0 v1 ∧ Uncommented v1 v := by
  simp only [expanded_iff]
  unfold directiveOf isDirective
  constructor
  · rintro ⟨k, h, hk⟩
    cases he : expandMacros m t with
    | error x => simp [he] at h
    | ok e =>
      simp only [he] at h
      cases hr : rawDirective e with
      | none => simp [hr] at h
      | some kv =>
        obtain ⟨k', v0⟩ := kv
        simp only [hr] at h
        cases hv : expandMacros m v0 with
        | error x => simp [hv] at h
        | ok v1 =>
          simp only [hv, Except.ok.injEq, Option.some.injEq, Prod.mk.injEq] at h
          obtain ⟨rfl, h⟩ := h
          exact ⟨e, v0, v1, rfl, (C17_directive hd).1 ⟨k', hr, hk⟩, hv, uncommented_iff.1 h⟩
  · rintro ⟨e, v0, v1, h1, h2, h3, h4⟩
    obtain ⟨k, h5, h6⟩ := (C17_directive hd).2 h2
    exact ⟨k, by simp [h1, h5, h3, uncommented_iff.2 h4], h6⟩

example : LineDefines c!"$(A:x=y) = a ^# b # c" c!"$(A:x=y)" c!"a # b" := (C86_definition _ _ _).1 (by decide +kernel)

/-- A description block with an equals sign, and a line that begins with a blank, define nothing. -/
example : (∀ n v, ¬ LineDefines c!"all: A=b" n v) ∧ ∀ n v, ¬ LineDefines c!" A=b" n v := by
  constructor <;> intro n v h <;> rw [← C86_definition] at h
  · exact absurd ((show macroDefinition c!"all: A=b" = none by decide +kernel).symm.trans h) (by simp)
  · exact absurd ((show macroDefinition c!" A=b" = none by decide +kernel).symm.trans h) (by simp)

/-! ### C85 -/

theorem readLineUF_more (f : Nat) : ∀ (g : Nat) (s : Str), s.length < f → s.length < g → readLineUF f s = readLineUF g s := by
  induction f with
  | zero => intro g s h; omega
  | succ f ih =>
    intro g s h1 h2
    cases g with
    | zero => omega
    | succ g =>
      unfold readLineUF
      generalize ht : tsReadLine s = x
      obtain ⟨_ | l, r⟩ := x
      · rfl
      · simp only
        have := tsReadLine_some ht
        split
        · exact ih g r (by omega) (by omega)
        · rfl

theorem readLineU_comment {c r : Str} (hc : '\n' ∉ c) : readLineU ('#' :: (c ++ '\n' :: r)) = readLineU r := by
  have ht : tsReadLine ('#' :: (c ++ '\n' :: r)) = (some ('#' :: c), r) := tsReadLine_line ('#' :: c) r (by simp [hc])
  unfold readLineU
  rw [readLineUF, ht]
  simp only [startsWith, List.isPrefixOf, beq_self_eq_true, Bool.true_and, if_true]
  exact readLineUF_more _ _ _ (by simp; omega) (by omega)

theorem readLineU_line {p r : Str} {m : MLine} (hp : '\n' ∉ p) (hc : p.head? ≠ some '#') (hm : LineMeaning p m) :
    readLineU (p ++ '\n' :: r) = (m, r) := by
  unfold readLineU
  rw [readLineUF, tsReadLine_line p r hp]
  simp only [startsWith_hash, isCommentLine, beq_iff_eq, hc, if_false]
  rw [C11_line_meaning_unique hm (decodeU_meaning p)]

theorem readLineU_eof {p : Str} {m : MLine} (hp : '\n' ∉ p) (hne : p ≠ []) (hc : p.head? ≠ some '#') (hm : LineMeaning p m) :
    readLineU p = (m, []) := by
  unfold readLineU
  rw [readLineUF, tsReadLine_last p hp hne]
  simp only [startsWith_hash, isCommentLine, beq_iff_eq, hc, if_false]
  rw [C11_line_meaning_unique hm (decodeU_meaning p)]

theorem meaning_bang {p : Str} {m : MLine} (hm : LineMeaning p m) (h : startsWith (m.content.getD []) ['!'] = true) :
    p.head? = some '!' := by
  obtain ⟨r, hr⟩ := startsWith_cons.1 h
  cases hm with
  | escapedBackslash a =>
    cases a with
    | nil => simp at hr
    | cons c a => simp at hr ⊢; exact hr.1
  | doubleBackslash a =>
    cases a with
    | nil => simp at hr
    | cons c a => simp at hr ⊢; exact hr.1
  | backslash a => simp at hr; simp [hr]
  | caret a => simp at hr; simp [hr]
  | plain => simp at hr; simp [hr]

/-- The first part of a logical line, as the preprocessor reads it. -/
theorem written_first {bang : Prop} {text rest : Str} {ms : List MLine} (h : Written bang text ms rest) :
    ∃ m ms' r, ms = m :: ms' ∧ readLineU text = (m, r) ∧ m.content.isNone = false ∧
      (startsWith (m.content.getD []) ['!'] = true → bang) ∧
      ((ms' = [] ∧ r = rest ∧ m.cont = .none) ∨ (m.cont ≠ .none ∧ Written bang r ms' rest)) := by
  induction h with
  | comment c r rest ms hc _ ih =>
    obtain ⟨m, ms', r', h1, h2, h3⟩ := ih
    exact ⟨m, ms', r', h1, by rw [readLineU_comment hc, h2], h3⟩
  | last p r m h1 h2 h3 h4 h5 =>
    exact ⟨m, [], r, rfl, readLineU_line h1 h2 h4, meaning_some h4, fun h => h3 (meaning_bang h4 h), .inl ⟨rfl, rfl, h5⟩⟩
  | eof p m h1 h2 h3 h4 h5 h6 =>
    exact ⟨m, [], [], rfl, readLineU_eof h1 h2 h3 h5, meaning_some h5, fun h => h4 (meaning_bang h5 h), .inl ⟨rfl, rfl, h6⟩⟩
  | more p r rest m ms h1 h2 h3 h4 h5 h6 =>
    exact ⟨m, ms, r, rfl, readLineU_line h1 h2 h4, meaning_some h4, fun h => h3 (meaning_bang h4 h), .inr ⟨h5, h6⟩⟩

/-- Reading goes on behind the given text. -/
def behind (s : PP.St) (f : TextFile) (fs : List TextFile) (rest : Str) : PP.St := { s with files := { f with rest := rest } :: fs }

theorem basic_written {s : PP.St} {f : TextFile} {fs : List TextFile} {m : MLine} {r : Str} (hp : s.putBack = []) (hi : s.inline = false)
    (hf : s.files = f :: fs) (hr : readLineU f.rest = (m, r)) (hm : m.content.isNone = false) :
    basicReadLine s = (m, behind s f fs r) := by
  simp [basicReadLine, hp, hf, hi, readFiles, readerLine, hr, hm, behind]

/-- The parts are joined from the left. -/
theorem foldl_whole (p : MLine) (ms : List MLine) (hp : p.cont ≠ .none) (hc : ∀ m ∈ ms.dropLast, m.cont ≠ .none) (hne : ms ≠ []) :
    ((ms.foldl extend p).content.getD []) = whole (p :: ms) ∧ (ms.foldl extend p).cont = (ms.getLast hne).cont := by
  induction ms generalizing p with
  | nil => exact absurd rfl hne
  | cons m ms ih =>
    have he : extend p m = { content := some (p.content.getD [] ++ glue p.cont ++ trimLeft (m.content.getD [])), cont := m.cont } := by
      unfold extend follow
      rw [if_neg hp]
    simp only [List.foldl_cons]
    cases ms with
    | nil => simp [he, whole]
    | cons m' ms =>
      have hm : m.cont ≠ .none := hc m (by simp)
      obtain ⟨h1, h2⟩ := ih (extend p m) (by rw [he]; exact hm) (fun x hx => hc x (by simp [hx])) (by simp)
      refine ⟨?_, ?_⟩
      · rw [h1, he]
        simp [whole]
      · rw [h2]; simp

/-- What happens to a complete logical line (the end of a round of `readLine`). -/
def onLine (w : World) (k : Nat) (t : Str) (s : PP.St) : Except PP.Err (Option Str × PP.St) :=
  match parseMacro s.table t with
  | .error e => .error (.macro e)
  | .ok (some T) => readLineF w k {} { s with table := T }
  | .ok none =>
    match parseDirective w t s with
    | .error e => .error e
    | .ok (some s) => readLineF w k {} s
    | .ok none => .ok (some t, s)

theorem readLineF_done (w : World) (k : Nat) (l : MLine) (s : PP.St) (h : l.cont = .none) : readLineF w k l s = readLineF w k {} s := by
  rw [← readLineF_norm w k l]
  simp [norm, isComplete, h]

theorem readLineF_written (w : World) (text rest : Str) (ms : List MLine) (hw : Written False text ms rest) :
    ∀ (k : Nat) (p : MLine) (s : PP.St) (f : TextFile) (fs : List TextFile), s.putBack = [] → s.inline = false → s.files = f :: fs →
      f.rest = text →
      readLineF w (k + ms.length) p s = onLine w k ((ms.foldl extend p).content.getD []) (behind s f fs rest) ∧
      (∀ m ∈ ms.dropLast, m.cont ≠ .none) := by
  obtain ⟨n, hn⟩ : ∃ n, ms.length = n := ⟨_, rfl⟩
  induction n generalizing text ms with
  | zero =>
    obtain ⟨m, ms', r, h1, -⟩ := written_first hw
    rw [h1] at hn; simp at hn
  | succ n ih =>
    intro k p s f fs h1 h2 h3 h4
    obtain ⟨m, ms', r, e1, e2, e3, e4, e5⟩ := written_first hw
    subst e1
    have hb := basic_written (s := s) (f := f) (fs := fs) h1 h2 h3 (by rw [h4]; exact e2) e3
    have hbang : startsWith (m.content.getD []) ['!'] = false := by
      cases hx : startsWith (m.content.getD []) ['!']
      · rfl
      · exact absurd (e4 hx) id
    have hext : (if isComplete p = true then m else joinLines p m) = extend p m := by
      unfold extend isComplete
      simp only [decide_eq_true_eq, joinLines_eq]
    have hcont : (extend p m).cont = m.cont := by
      unfold extend follow
      split <;> rfl
    simp only [List.length_cons] at hn ⊢
    rw [show k + (ms'.length + 1) = (k + ms'.length) + 1 by omega, readLineF]
    unfold round
    simp only [hb, hbang, Bool.false_eq_true, if_false, hext]
    rcases e5 with ⟨rfl, rfl, e7⟩ | ⟨e7, e8⟩
    · have hnone : (extend p m).content.isNone = false := by
        unfold extend follow
        split
        · exact e3
        · rfl
      simp only [isComplete, hcont, e7, decide_true, Bool.not_true, Bool.false_eq_true, if_false, behind, h2, List.length_nil, Nat.add_zero,
        List.foldl_cons, List.foldl_nil, List.dropLast_singleton, List.not_mem_nil, false_implies, implies_true, and_true]
      unfold onLine
      cases hpm : parseMacro s.table ((extend p m).content.getD []) with
      | error e => simp
      | ok o =>
        cases o with
        | some T => simp only []; exact readLineF_done w k _ _ (by rw [hcont, e7])
        | none =>
          simp only []
          obtain ⟨t, ht⟩ : ∃ t, (extend p m).content = some t := by
            cases hx : (extend p m).content with
            | none => rw [hx] at hnone; cases hnone
            | some t => exact ⟨t, rfl⟩
          generalize parseDirective w ((extend p m).content.getD []) _ = x
          rcases x with e | (_ | s')
          · rfl
          · simp [ht]
          · exact readLineF_done w k _ _ (by rw [hcont, e7])
    · have hnc : isComplete (extend p m) = false := by simp [isComplete, hcont, e7]
      simp only [hnc, Bool.not_false, if_true]
      obtain ⟨i1, i2⟩ := ih r ms' e8 (by omega) k (extend p m) (behind s f fs r) { f with rest := r } fs h1 h2 rfl rfl
      refine ⟨i1, ?_⟩
      intro x hx
      cases ms' with
      | nil => simp at hx
      | cons y ys =>
        simp only [List.dropLast_cons_cons, List.mem_cons] at hx
        rcases hx with rfl | hx
        · exact e7
        · exact i2 x hx

theorem foldl_whole_start {ms : List MLine} (hne : ms ≠ []) (hc : ∀ m ∈ ms.dropLast, m.cont ≠ .none) :
    (ms.foldl extend {}).content.getD [] = whole ms := by
  cases ms with
  | nil => exact absurd rfl hne
  | cons m ms =>
    have he : extend {} m = m := rfl
    simp only [List.foldl_cons, he]
    cases ms with
    | nil => simp [whole]
    | cons m' ms => exact (foldl_whole m (m' :: ms) (hc m (by simp)) (fun x hx => hc x (by simp [hx])) (by simp)).1

theorem readLine_written (w : World) {rest : Str} {ms : List MLine} {s : PP.St} {f : TextFile} {fs : List TextFile} (h1 : s.putBack = [])
    (h2 : s.inline = false) (h3 : s.files = f :: fs) (hw : Written False f.rest ms rest) (k : Nat) :
    PP.readLine w (k + ms.length) s = onLine w k (whole ms) (behind s f fs rest) := by
  obtain ⟨a, b⟩ := readLineF_written w _ _ _ hw k {} s f fs h1 h2 h3 rfl
  have hne : ms ≠ [] := by
    obtain ⟨m, ms', r, e, -⟩ := written_first hw
    simp [e]
  unfold PP.readLine
  rw [a, foldl_whole_start hne b]

/-- C85: a logical line that is neither a definition nor a directive is handed to the parser as a whole: its parts are joined by a blank
(backslash) or a line feed (caret), blanks at the beginning of continuations and comment lines in between do not count. -/
theorem C85_text (w : World) {rest : Str} {ms : List MLine} {s : PP.St} {f : TextFile} {fs : List TextFile} (h1 : s.putBack = [])
    (h2 : s.inline = false) (h3 : s.files = f :: fs) (hw : Written False f.rest ms rest)
    (hm : ∀ n v, ¬ LineDefines (whole ms) n v) (hd : Directive s.table.macros (whole ms) none) (k : Nat) :
    PP.readLine w (k + ms.length) s = .ok (some (whole ms), { s with files := { f with rest := rest } :: fs }) := by
  have hp : parseMacro (behind s f fs rest).table (whole ms) = .ok none := by
    unfold parseMacro
    cases hx : macroDefinition (whole ms) with
    | none => rfl
    | some nv => exact absurd ((C86_definition _ _ _).1 hx) (hm _ _)
  rw [readLine_written w h1 h2 h3 hw k]
  unfold onLine
  rw [hp]
  simp [parseDirective, behind, directive_iff.1 hd]

/-- C85: a logical line that defines a macro does just that. -/
theorem C85_definition (w : World) {rest n v : Str} {T : MacroTable} {ms : List MLine} {s : PP.St} {f : TextFile} {fs : List TextFile}
    (h1 : s.putBack = []) (h2 : s.inline = false) (h3 : s.files = f :: fs) (hw : Written False f.rest ms rest)
    (hm : LineDefines (whole ms) n v) (ht : setMacroValue s.table n v = .ok T) (k : Nat) :
    PP.readLine w (k + ms.length) s = PP.readLine w k { s with table := T, files := { f with rest := rest } :: fs } := by
  have hp : parseMacro (behind s f fs rest).table (whole ms) = .ok (some T) := by
    unfold parseMacro
    rw [(C86_definition _ _ _).2 hm]
    simp only [behind, ht]
  rw [readLine_written w h1 h2 h3 hw k]
  unfold onLine
  rw [hp]
  rfl

theorem complete_written {text rest : Str} {ms : List MLine} (hw : Written True text ms rest) :
    ∀ (acc : MLine) (s : PP.St) (f : TextFile) (fs : List TextFile), acc.cont ≠ .none → s.putBack = [] → s.inline = false →
      s.files = f :: fs → f.rest = text →
      complete acc s = ({ content := some (wholeDirective (acc :: ms)), cont := .none }, behind s f fs rest) := by
  obtain ⟨n, hn⟩ : ∃ n, ms.length = n := ⟨_, rfl⟩
  induction n generalizing text ms with
  | zero =>
    obtain ⟨m, ms', r, h1, -⟩ := written_first hw
    rw [h1] at hn; simp at hn
  | succ n ih =>
    intro acc s f fs hacc h1 h2 h3 h4
    obtain ⟨m, ms', r, e1, e2, e3, e4, e5⟩ := written_first hw
    subst e1
    have hb := basic_written (s := s) (f := f) (fs := fs) h1 h2 h3 (by rw [h4]; exact e2) e3
    rw [complete_eq, if_neg (by simp [isComplete, hacc])]
    simp only [hb, e3, Bool.false_eq_true, if_false]
    rcases e5 with ⟨rfl, rfl, e7⟩ | ⟨e7, e8⟩
    · rw [complete_eq, if_pos (by simp [isComplete, joinDirective, e7])]
      simp [joinDirective, wholeDirective, e7]
    · rw [ih e8 (by simpa using hn) (joinDirective acc m) (behind s f fs r) { f with rest := r } fs (by simpa [joinDirective] using e7) h1 h2 rfl rfl]
      cases ms' with
      | nil =>
        obtain ⟨_, _, _, h, -⟩ := written_first e8
        simp at h
      | cons y ys => simp [behind, wholeDirective, joinDirective]

/-- C85: a directive may be continued on further lines; its text is that of its parts, in which a backslash at the end leaves nothing behind
and a caret stays. -/
theorem C85_directive (w : World) {rest : Str} {m : MLine} {ms : List MLine} {s s' : PP.St} {f : TextFile} {fs : List TextFile}
    (h1 : s.putBack = []) (h2 : s.inline = false) (h3 : s.files = f :: fs) (hw : Written True f.rest (m :: ms) rest)
    (hb : IsBang m)
    (hd : parseDirective w (wholeDirective (m :: ms)) { s with files := { f with rest := rest } :: fs } = .ok (some s')) (k : Nat) :
    PP.readLine w (k + 1) s = PP.readLine w k s' := by
  obtain ⟨m', ms', r, e1, e2, e3, e4, e5⟩ := written_first hw
  simp only [List.cons.injEq] at e1
  obtain ⟨rfl, rfl⟩ := e1
  have hbr := basic_written (s := s) (f := f) (fs := fs) h1 h2 h3 e2 e3
  have hbang : startsWith (m.content.getD []) ['!'] = true := by
    unfold IsBang at hb
    cases hx : m.content.getD [] with
    | nil => rw [hx] at hb; cases hb
    | cons c t => rw [hx] at hb; simp at hb; exact startsWith_cons.2 ⟨t, by rw [hb]⟩
  have hc : complete m (behind s f fs r) = ({ content := some (wholeDirective (m :: ms)), cont := .none }, behind s f fs rest) := by
    rcases e5 with ⟨rfl, rfl, e7⟩ | ⟨e7, e8⟩
    · rw [complete_eq, if_pos (by simp [isComplete, e7])]
      obtain ⟨c, k⟩ := m
      cases c with
      | none => cases e3
      | some c => simp only at e7; subst e7; rfl
    · exact complete_written e8 m (behind s f fs r) { f with rest := r } fs e7 h1 h2 rfl rfl
  unfold PP.readLine
  rw [readLineF]
  unfold round
  simp only [hbr, hbang, if_true, hc, Option.getD_some]
  simp only [behind] at hd ⊢
  rw [hd]

/-- Lines that end with a backslash, a caret, or neither. -/
theorem notEnds {a : Str} {c : Char} (h : a.getLast? ≠ some c) : ¬ ∃ b, a = b ++ [c] := by
  rintro ⟨b, rfl⟩
  simp at h

/-- A definition on three lines with a comment line in between. -/
theorem threeLines : Written False c!"A = a \\\n# no\n  b^\n c \nrest" [⟨some c!"A = a ", .backslash⟩, ⟨some c!"  b", .caret⟩, ⟨some c!" c ", .none⟩] c!"rest" := by
  refine .more c!"A = a \\" _ _ _ _ (by decide) (by decide) (by decide) (.backslash c!"A = a " (notEnds (by decide)) (notEnds (by decide))) (by decide) ?_
  refine .comment c!" no" _ _ _ (by decide) ?_
  refine .more c!"  b^" _ _ _ _ (by decide) (by decide) (by decide) (.caret c!"  b") (by decide) ?_
  exact .last c!" c " _ _ (by decide) (by decide) (by decide) (.plain _ (notEnds (by decide)) (notEnds (by decide))) rfl

/-- It defines `A`, and reading goes on behind it. -/
example (w : World) (fs : List TextFile) (k : Nat) :
    PP.readLine w (k + 3) { files := { name := c!"m", dir := [], rest := c!"A = a \\\n# no\n  b^\n c \nrest" } :: fs } =
      PP.readLine w k { table := { macros := [(c!"A", { value := c!"a  b\nc" })] }, files := { name := c!"m", dir := [], rest := c!"rest" } :: fs } := by
  have e : whole [⟨some c!"A = a ", .backslash⟩, ⟨some c!"  b", .caret⟩, ⟨some c!" c ", .none⟩] = c!"A = a  b\nc " := by decide +kernel
  exact C85_definition w (s := { files := { name := c!"m", dir := [], rest := c!"A = a \\\n# no\n  b^\n c \nrest" } :: fs }) rfl rfl rfl threeLines
    (by rw [e]; exact (C86_definition _ c!"A" c!"a  b\nc").1 (by decide +kernel))
    (show setMacroValue {} c!"A" c!"a  b\nc" = .ok { macros := [(c!"A", { value := c!"a  b\nc" })] } by decide +kernel) k

/-- A description on two lines is handed over as one. -/
example (w : World) (fs : List TextFile) (k : Nat) :
    PP.readLine w (k + 2) { files := { name := c!"m", dir := [], rest := c!"all: a \\\n   b\nrest" } :: fs } =
      .ok (some c!"all: a  b", { files := { name := c!"m", dir := [], rest := c!"rest" } :: fs }) := by
  have hw : Written False c!"all: a \\\n   b\nrest" [⟨some c!"all: a ", .backslash⟩, ⟨some c!"   b", .none⟩] c!"rest" := by
    refine .more c!"all: a \\" _ _ _ _ (by decide) (by decide) (by decide) (.backslash c!"all: a " (notEnds (by decide)) (notEnds (by decide))) (by decide) ?_
    exact .last c!"   b" _ _ (by decide) (by decide) (by decide) (.plain _ (notEnds (by decide)) (notEnds (by decide))) rfl
  have e : whole [⟨some c!"all: a ", .backslash⟩, ⟨some c!"   b", .none⟩] = c!"all: a  b" := by decide +kernel
  have := C85_text w (s := { files := { name := c!"m", dir := [], rest := c!"all: a \\\n   b\nrest" } :: fs }) rfl rfl rfl hw
    (fun n v h => by rw [e, ← C86_definition] at h; revert h; exact (by decide +kernel : macroDefinition c!"all: a  b" = none) ▸ fun h => by cases h)
    (by rw [e, directive_iff]; exact (by decide +kernel : directiveOf [] c!"all: a  b" = .ok none)) k
  rwa [e] at this

/-- A directive on two lines takes effect as one. -/
example (w : World) (fs : List TextFile) (k : Nat) :
    PP.readLine w (k + 1) { table := { macros := [(c!"A", { value := c!"1" })] }, files := { name := c!"m", dir := [], rest := c!"!UNDEF \\\n A\nrest" } :: fs } =
      PP.readLine w k { files := { name := c!"m", dir := [], rest := c!"rest" } :: fs } := by
  have hw : Written True c!"!UNDEF \\\n A\nrest" [⟨some c!"!UNDEF ", .backslash⟩, ⟨some c!" A", .none⟩] c!"rest" := by
    refine .more c!"!UNDEF \\" _ _ _ _ (by decide) (by decide) (by decide) (.backslash c!"!UNDEF " (notEnds (by decide)) (notEnds (by decide))) (by decide) ?_
    exact .last c!" A" _ _ (by decide) (by decide) (by decide) (.plain _ (notEnds (by decide)) (notEnds (by decide))) rfl
  refine C85_directive w (s := { table := { macros := [(c!"A", { value := c!"1" })] }, files := { name := c!"m", dir := [], rest := c!"!UNDEF \\\n A\nrest" } :: fs })
    (m := ⟨some c!"!UNDEF ", .backslash⟩) rfl rfl rfl hw rfl ?_ k
  have e : wholeDirective [⟨some c!"!UNDEF ", .backslash⟩, ⟨some c!" A", .none⟩] = c!"!UNDEF  A" := by decide +kernel
  have e2 : directiveOf [(c!"A", { value := c!"1" })] c!"!UNDEF  A" = .ok (some (c!"UNDEF", c!"A")) := by decide +kernel
  rw [e]
  simp only [parseDirective, e2]
  rfl

end Jom.Props
