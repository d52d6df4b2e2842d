import Verif.Model.Report
import Verif.Props.Text
import Verif.Props.Lines

/-! C102: what `/P` prints about macros and inference rules is a makefile with these macros and rules. -/

namespace Jom.Spec.Report
open Jom.Spec Jom.Spec.Makefile

/-- The text fits on one line of a makefile and does not look like one that is continued. -/
structure OneLine (s : Str) : Prop where
  line : '\n' ∉ s
  backslash : ¬ EndsIn s '\\'
  caret : ¬ EndsIn s '^'

/-- A macro that can be defined in one line. `m` are all macros. -/
structure Definable (n v : Str) : Prop where
  name : isMacroNameValid n = true
  dot : n.head? ≠ some '.'
  line : OneLine v
  outer : NoOuter v
  hash : '#' ∉ v
  self : ∀ x y, v ≠ x ++ instantiated n ++ y

/-- A directory that can stand in the head of a rule. -/
structure Dir (p : Str) : Prop where
  filled : p ≠ []
  open_ : '{' ∉ p
  close : '}' ∉ p
  dollar : '$' ∉ p
  line : '\n' ∉ p
  slash : ¬ EndsIn p '/'
  backslash : ¬ EndsIn p '\\'

/-- A command of a rule without inline files and with the modes of the options `fl`. -/
structure Plain (m : Macros) (fl : Flags) (c : Inference.Command) : Prop where
  filled : c.cmd.line ≠ []
  outer : NoOuter c.cmd.line
  line : OneLine c.cmd.line
  angles : NoAngles c.cmd.line
  means : ∃ e, Expanded m c.cmd.line e
  files : c.files = []
  limit : c.cmd.maxExitCode = limit fl []
  silent : c.cmd.silent = fl.silent
  single : c.cmd.singleExecution = false

/-- A rule that can be written with its head on one line. -/
structure Printable (m : Macros) (fl : Flags) (r : Inference.Rule) : Prop where
  fromPath : Dir r.fromPath
  toPath : Dir r.toPath
  fromExt : ∃ e, Ext e ∧ r.fromExt = '.' :: e
  toExt : ∃ e, Ext e ∧ r.toExt = '.' :: e
  priority : r.priority = none
  commands : ∀ c ∈ r.commands, Plain m fl c

end Jom.Spec.Report

namespace Jom.Props
open Jom.PP Jom.Spec Jom.Spec.Report

namespace ReportProof

open Jom.Parse Jom.Spec.Makefile

/-- Lines of their own. -/
def flatTree : List Str → Tree .block → Tree .block
  | [], t => t
  | l :: ls, t => .leaf [.inl { content := some l }] (flatTree ls t)

/-- The text of the lines. -/
def textOfLines (ls : List Str) : Str := ls.flatMap (· ++ ['\n'])

/-- A line that is read as it is. -/
structure Physical (l : Str) : Prop where
  one : OneLine l
  hash : l.head? ≠ some '#'
  bang : l.head? ≠ some '!'

theorem Physical.read {l : Str} (h : Physical l) (r : Str) : readLineU (l ++ '\n' :: r) = ({ content := some l }, r) :=
  readLineU_line h.one.line h.hash (.plain l (fun ⟨b, e⟩ => h.one.caret ⟨b, e⟩) fun ⟨b, e⟩ => h.one.backslash ⟨b, e⟩)

theorem consists_flat {ls : List Str} (h : ∀ l ∈ ls, Physical l) {t : Tree .block} {r : Str} (ht : Consists t.lines r) :
    Consists (flatTree ls t).lines (textOfLines ls ++ r) := by
  induction ls with
  | nil => simpa [flatTree, textOfLines] using ht
  | cons l ls ih =>
    have he : textOfLines (l :: ls) ++ r = l ++ '\n' :: (textOfLines ls ++ r) := by simp [textOfLines]
    rw [he]
    simp only [flatTree, Tree.lines, List.singleton_append]
    exact ⟨_, (h l (by simp)).read _, rfl, ih fun x hx => h x (by simp [hx])⟩

/-- Lines that are handed to the parser. -/
theorem exec_text {w : World} {stk : List TextFile} {c c' : Cfg} (hp : c.part = {}) {ls : List Str} (h : ∀ l ∈ ls, Physical l)
    (hd : ∀ l ∈ ls, NoDefinition l ∧ Directive c.table.macros l none) {t : Tree .block} {o : List Makefile.Line} (ht : Exec w stk c t o c') :
    Exec w stk c (flatTree ls t) (ls.map (fun l => { text := l, macros := c.table.macros }) ++ o) c' := by
  induction ls with
  | nil => simpa [flatTree] using ht
  | cons l ls ih =>
    have hc : { c with part := {} } = c := by cases c; simp_all
    have hx : extend c.part { content := some l } = { content := some l } := by rw [hp]; rfl
    have hl := Leaf.text c { content := some l } [] (fun hb => (h l (by simp)).bang hb) (by rw [hx]) (by rw [hx]; exact (hd l (by simp)).1)
      (by rw [hx]; exact (hd l (by simp)).2) (fun _ h => by cases h)
    rw [hx, hc] at hl
    exact .leaf stk c c c' _ _ [{ text := l, macros := c.table.macros }] _ hl (ih (fun x hx => h x (by simp [hx])) fun x hx => hd x (by simp [hx]))

/-! ### Macros -/

def macroLine (m : Str × MacroData) : Str := m.1 ++ c!" = " ++ m.2.value

theorem macros_text (ms : Macros) : Report.macros ms = textOfLines (ms.map macroLine) := by
  simp [Report.macros, textOfLines, macroLine, List.flatMap_map]

theorem endsIn_append {a b : Str} {c : Char} (hb : b ≠ []) (h : EndsIn (a ++ b) c) : EndsIn b c := by
  obtain ⟨r, h⟩ := h
  have h1 := congrArg List.getLast? h
  rw [List.getLast?_append_of_ne_nil _ hb, List.getLast?_concat] at h1
  exact ⟨b.dropLast, (List.dropLast_append_getLast? c h1).symm⟩

theorem oneLine_append {a b : Str} (ha : '\n' ∉ a) (hl : ∀ r c, a = r ++ [c] → c ≠ '\\' ∧ c ≠ '^') (hb : OneLine b) : OneLine (a ++ b) := by
  have key : ∀ c, (c = '\\' ∨ c = '^') → EndsIn (a ++ b) c → EndsIn b c := by
    intro c hc h
    by_cases hne : b = []
    · subst hne
      obtain ⟨r, h⟩ := h
      have := hl r c (by simpa using h)
      rcases hc with rfl | rfl
      · exact absurd rfl this.1
      · exact absurd rfl this.2
    · exact endsIn_append hne h
  exact ⟨fun h => (List.mem_append.1 h).elim ha hb.line, fun h => hb.backslash (key _ (.inl rfl) h), fun h => hb.caret (key _ (.inr rfl) h)⟩

theorem word_char {n : Str} (h : isMacroNameValid n = true) : ∀ c ∈ n, isLetterOrNumber c = true ∨ c = '_' ∨ c = '.' := by
  intro c hc
  simp only [isMacroNameValid, Bool.and_eq_true, List.all_eq_true] at h
  have := h.2 _ hc
  simp only [isWordChar, Bool.or_eq_true, beq_iff_eq] at this
  rcases this with (h | h) | h
  · exact .inl h
  · exact .inr (.inl h)
  · exact .inr (.inr h)

theorem name_no {n : Str} (h : isMacroNameValid n = true) {x : Char} (hx : isLetterOrNumber x = false) (h1 : x ≠ '_') (h2 : x ≠ '.') : x ∉ n := by
  intro hm
  rcases word_char h x hm with h | h | h
  · rw [hx] at h; cases h
  · exact h1 h
  · exact h2 h

theorem alnum_space {c : Char} (h : isLetterOrNumber c = true) : isSpace c = false := by
  simp only [isLetterOrNumber, isLetter, isDigit, isSpace, Bool.or_eq_true, Bool.and_eq_true, decide_eq_true_eq, Bool.or_eq_false_iff, beq_eq_false_iff_ne,
    Bool.and_eq_false_iff, decide_eq_false_iff_not] at *
  refine ⟨fun e => ?_, by omega⟩
  subst e
  revert h
  decide

theorem name_space {n : Str} (h : isMacroNameValid n = true) : ∀ c ∈ n, isSpace c = false := by
  intro c hc
  rcases word_char h c hc with h | rfl | rfl
  · exact alnum_space h
  · decide
  · decide

theorem alnum_begins {c : Char} (h : isLetterOrNumber c = true) : BeginsName c := by
  simp only [isLetterOrNumber, isLetter, isDigit, Bool.or_eq_true, Bool.and_eq_true, decide_eq_true_eq] at h
  have key : ∀ a b : Char, a.toNat ≤ b.toNat → a ≤ b := fun a b h => h
  rcases h with (h | h) | h
  · exact .inr (.inl ⟨key _ _ h.1, key _ _ h.2⟩)
  · exact .inl ⟨key _ _ h.1, key _ _ h.2⟩
  · exact .inr (.inr (.inl ⟨key _ _ h.1, key _ _ h.2⟩))

theorem noHash {v : Str} (h : '#' ∉ v) : NoComment v := fun a b he _ => h (by rw [he]; simp)

theorem unescHash_id : ∀ v : Str, '#' ∉ v → unescHash v = v
  | [], _ => rfl
  | [_], _ => rfl
  | c :: d :: s, h => by
    have hd : ¬ (c = '^' ∧ d = '#') := fun e => h (by simp [e.2])
    rw [unescHash, if_neg hd, unescHash_id (d :: s) fun hm => h (List.mem_cons_of_mem _ hm)]

theorem line_defines {n v : Str} (h : Definable n v) : LineDefines (macroLine (n, { value := v })) n v := by
  obtain ⟨c, r, rfl⟩ : ∃ c r, n = c :: r := by
    cases n with
    | nil => exact absurd h.name (by decide)
    | cons c r => exact ⟨c, r, rfl⟩
  have hno := fun x h1 h2 h3 => name_no (x := x) h.name h1 h2 h3
  have hmem : ∀ x ∈ r ++ [' '], x ≠ '=' ∧ x ≠ ':' ∧ x ≠ '(' ∧ x ≠ ')' := by
    intro x hx
    rcases List.mem_append.1 hx with hx | hx
    · refine ⟨?_, ?_, ?_, ?_⟩ <;> rintro rfl <;> exact hno _ (by decide) (by decide) (by decide) (List.mem_cons_of_mem _ hx)
    · simp only [List.mem_singleton] at hx
      subst hx
      decide
  have hsp : Spaces [' '] := fun x hx => by
    rw [List.mem_singleton.1 hx]; decide
  refine ⟨c, r ++ [' '], ' ' :: v, v, by simp [macroLine], ?_, ?_, ?_, ⟨[], [' '], by simp, fun _ h => (by cases h), hsp, ?_⟩,
    ⟨[' '], [], by simp, hsp, fun _ h => (by cases h), h.outer⟩, ?_⟩
  · rcases word_char h.name c (by simp) with hc | rfl | rfl
    · exact alnum_begins hc
    · exact .inr (.inr (.inr (.inl rfl)))
    · exact absurd rfl h.dot
  · unfold Level
    rw [List.count_eq_zero.2 fun hm => (hmem _ hm).2.2.1 rfl, List.count_eq_zero.2 fun hm => (hmem _ hm).2.2.2 rfl]
  · intro p x q he hx
    have := hmem x (by rw [he]; simp)
    exact absurd hx (by simp [this.1, this.2.1])
  · exact ⟨fun x s he => name_space h.name x (by rw [he]; simp), fun x s he => name_space h.name x (by rw [he]; simp)⟩
  · have := Spec.Uncommented.none v (noHash h.hash)
    rwa [unescHash_id v h.hash] at this

theorem macroLine_physical {n v : Str} (h : Definable n v) : Physical (macroLine (n, { value := v })) := by
  have hne : n ≠ [] := by rintro rfl; exact absurd h.name (by decide)
  have hhead : ∀ x, isLetterOrNumber x = false → x ≠ '_' → x ≠ '.' → (macroLine (n, { value := v })).head? ≠ some x := by
    intro x h1 h2 h3 he
    cases n with
    | nil => exact hne rfl
    | cons c r =>
      have : c = x := by simpa [macroLine] using he
      exact name_no h.name h1 h2 h3 (by simp [this])
  refine ⟨?_, hhead _ (by decide) (by decide) (by decide), hhead _ (by decide) (by decide) (by decide)⟩
  refine oneLine_append (a := n ++ c!" = ") ?_ ?_ h.line
  · intro hm
    rcases List.mem_append.1 hm with hm | hm
    · exact name_no h.name (by decide) (by decide) (by decide) hm
    · revert hm; decide
  · intro r c he
    have : c = ' ' := by
      have h1 := congrArg List.getLast? he
      rw [List.getLast?_append_of_ne_nil _ (by decide), List.getLast?_concat] at h1
      simpa using h1.symm
    subst this
    decide

/-- What an assignment does. -/
theorem set_plain (t : MacroTable) {n v : Str} (h : Definable n v)
    (hro : ∀ d, alookup n t.macros = some d → d.isReadOnly = true → d.value = v) :
    ∃ t', setMacroValue t n v = .ok t' ∧ macroValue t'.macros n = v ∧ ((alookup n t'.macros).map (·.isReadOnly) = some true → ∃ d, alookup n t.macros = some d ∧ d.isReadOnly = true) ∧
      ∀ k, k ≠ n → alookup k t'.macros = alookup k t.macros := by
  have hex := expandMacros_plain t.macros false n (valid_noDollar h.name)
  have hok : ∃ t', setMacroValue t n v = .ok t' := by
    unfold setMacroValue setMacroValueImpl internalSet
    rw [hex]
    simp only [bind, Except.bind, h.name, Bool.not_true, Bool.false_eq_true, if_false]
    exact ⟨_, rfl⟩
  obtain ⟨t', ht'⟩ := hok
  refine ⟨t', ht', ?_⟩
  obtain ⟨n', h1, _, _, h3, h4⟩ := setImpl_ok (by simp) ht'
  rw [hex] at h1
  cases h1
  have hrep : replaceAll (instantiated n) (macroValue t.macros n) v = v :=
    replaces_det (replaceAll_spec _ _ _ (by simp [instantiated])) (.none h.self)
  refine ⟨?_, ?_, h3⟩
  · unfold macroValue
    rw [h4]
    simp only
    split
    · rename_i hr
      cases hl : alookup n t.macros with
      | none => rw [hl] at hr; cases hr
      | some d => rw [hl] at hr; exact hro d hl hr
    · exact hrep
  · rw [h4]
    intro hr
    cases hl : alookup n t.macros with
    | none => simp [hl] at hr
    | some d =>
      refine ⟨d, rfl, ?_⟩
      cases hd : d.isReadOnly with
      | true => rfl
      | false => simp [hl, hd] at hr

theorem alookup_nodup {β : Type} : ∀ {l : List (Str × β)}, (l.map (·.1)).Nodup → ∀ {x}, x ∈ l → alookup x.1 l = some x.2
  | (a, b) :: l, hn, x, hx => by
    have hn' := List.nodup_cons.1 hn
    rcases List.mem_cons.1 hx with rfl | hx
    · simp [alookup]
    · have : a ≠ x.1 := fun e => hn'.1 (List.mem_map.2 ⟨x, hx, e.symm⟩)
      simp only [alookup, this, if_false]
      exact alookup_nodup hn'.2 hx

theorem alookup_none {β : Type} {n : Str} : ∀ {l : List (Str × β)}, n ∉ l.map (·.1) → alookup n l = none
  | [], _ => rfl
  | (a, b) :: l, h => by
    simp only [List.map_cons, List.mem_cons, not_or] at h
    have : a ≠ n := fun e => h.1 e.symm
    simp only [alookup, this, if_false]
    exact alookup_none h.2

/-- The lines that define the macros `ms`. -/
theorem exec_macros {w : World} {stk : List TextFile} : ∀ (ms : Macros) (c : Cfg), c.part = {} → (∀ x ∈ ms, Definable x.1 x.2.value) →
    (ms.map (·.1)).Nodup → (∀ x ∈ ms, ∀ d, alookup x.1 c.table.macros = some d → d.isReadOnly = true → d.value = x.2.value) →
    ∃ T : MacroTable, (∀ x ∈ ms, macroValue T.macros x.1 = x.2.value) ∧ (∀ k, k ∉ ms.map (·.1) → alookup k T.macros = alookup k c.table.macros) ∧
      ∀ {t : Tree .block} {o : List Makefile.Line} {c' : Cfg}, Exec w stk { c with table := T } t o c' →
        Exec w stk c (flatTree (ms.map macroLine) t) o c'
  | [], c, _, _, _, _ => ⟨c.table, fun _ h => (by cases h), fun _ _ => rfl, fun h => h⟩
  | x :: ms, c, hp, hd, hn, hro => by
    obtain ⟨n, d⟩ := x
    have hx := hd _ (List.mem_cons_self ..)
    obtain ⟨t1, h1, h2, _, h3⟩ := set_plain c.table hx (hro _ (List.mem_cons_self ..))
    have hn' := List.nodup_cons.1 hn
    have hne : ∀ y ∈ ms, y.1 ≠ n := fun y hy e => hn'.1 (List.mem_map.2 ⟨y, hy, e⟩)
    obtain ⟨T, h4, h5, h6⟩ := exec_macros (w := w) (stk := stk) ms { c with table := t1 } hp (fun y hy => hd y (List.mem_cons_of_mem _ hy)) hn'.2
      (fun y hy d' hl hr => hro y (List.mem_cons_of_mem _ hy) d' (by rw [← h3 _ (hne y hy)]; exact hl) hr)
    refine ⟨T, ?_, ?_, fun {t o c'} hE => ?_⟩
    · intro y hy
      rcases List.mem_cons.1 hy with rfl | hy
      · unfold macroValue
        rw [h5 n hn'.1]
        exact h2
      · exact h4 y hy
    · intro k hk
      simp only [List.map_cons, List.mem_cons, not_or] at hk
      rw [h5 k hk.2]
      exact h3 k hk.1
    · have hl : Leaf c [.inl { content := some (macroLine (n, d)) }] [] { c with part := {}, table := t1 } := by
        have hxx : extend c.part { content := some (macroLine (n, d)) } = { content := some (macroLine (n, d)) } := by rw [hp]; rfl
        refine .definition c { content := some (macroLine (n, d)) } n d.value t1 (fun hb => (macroLine_physical hx).bang hb) (by rw [hxx]) ?_ h1
        rw [hxx]
        exact line_defines hx
      have hc : ({ c with part := {}, table := t1 } : Cfg) = { c with table := t1 } := by cases c; simp_all
      rw [hc] at hl
      exact .leaf _ _ _ _ _ _ [] _ hl (h6 hE)

/-! ### Rules -/

/-- The path of a head. -/
def pathOf (p : Str) : Option Str := if p = ['.'] then none else some p

/-- The head of a rule. -/
def headOf (r : Inference.Rule) : RuleHead :=
  { fromPath := pathOf r.fromPath, fromExt := r.fromExt.tail, toPath := pathOf r.toPath, toExt := r.toExt.tail, batch := r.batch }

def ruleLines (r : Inference.Rule) : List Str := (headOf r).render :: (r.commands.map (fun c => '\t' :: c.cmd.line) ++ [[]])

theorem path_braces (p : Str) : Report.path p = braces (pathOf p) := by
  unfold Report.path pathOf
  split <;> rfl

theorem rule_text {m : Macros} {fl : Flags} {r : Inference.Rule} (h : Printable m fl r) : Report.rule r = textOfLines (ruleLines r) := by
  obtain ⟨e, _, he⟩ := h.fromExt
  obtain ⟨e', _, he'⟩ := h.toExt
  unfold Report.rule ruleLines RuleHead.render headOf textOfLines
  simp only [he, he', path_braces, List.tail_cons, List.flatMap_cons, List.flatMap_append, List.flatMap_nil, List.flatMap_map, List.nil_append,
    List.append_nil]
  cases r.batch <;> simp

theorem rules_text {m : Macros} {fl : Flags} {rs : List Inference.Rule} (h : ∀ r ∈ rs, Printable m fl r) :
    Report.rules rs = textOfLines (rs.flatMap ruleLines) := by
  induction rs with
  | nil => rfl
  | cons r rs ih =>
    have h1 := rule_text (h r (by simp))
    have h2 := ih fun x hx => h x (by simp [hx])
    unfold Report.rules textOfLines at *
    rw [List.flatMap_cons, List.flatMap_cons, List.flatMap_append, h1, h2]

theorem directory_path {p : Str} (h : Report.Dir p) : directory (pathOf p) = p := by
  unfold pathOf
  split
  · rename_i hp; rw [hp]; rfl
  · cases p with
    | nil => exact absurd rfl h.filled
    | cons c p =>
      show (if _ then _ else _) = _
      rw [if_neg]
      rintro (he | he)
      · exact h.slash ⟨_, (List.dropLast_append_getLast? _ he).symm⟩
      · exact h.backslash ⟨_, (List.dropLast_append_getLast? _ he).symm⟩

theorem pathOf_some {p q : Str} (h : pathOf p = some q) : q = p := by
  unfold pathOf at h
  split at h
  · cases h
  · cases h; rfl

theorem head_clear {m : Macros} {fl : Flags} {r : Inference.Rule} (h : Printable m fl r) : (headOf r).Clear := by
  obtain ⟨e, h1, he⟩ := h.fromExt
  obtain ⟨e', h1', he'⟩ := h.toExt
  refine ⟨by simpa [headOf, he] using h1, by simpa [headOf, he'] using h1', ?_⟩
  rintro p (hp | hp)
  · rw [pathOf_some hp]; exact ⟨h.fromPath.open_, h.fromPath.close⟩
  · rw [pathOf_some hp]; exact ⟨h.toPath.open_, h.toPath.close⟩

theorem rule_of_head {m : Macros} {fl : Flags} {r : Inference.Rule} (h : Printable m fl r) :
    ({ batch := (headOf r).batch, fromPath := directory (headOf r).fromPath, fromExt := '.' :: (headOf r).fromExt
       toPath := directory (headOf r).toPath, toExt := '.' :: (headOf r).toExt, commands := r.commands } : Inference.Rule) = r := by
  obtain ⟨e, _, he⟩ := h.fromExt
  obtain ⟨e', _, he'⟩ := h.toExt
  have h1 := directory_path h.fromPath
  have h2 := directory_path h.toPath
  have h3 := h.priority
  cases r
  simp_all [headOf]

/-- No character of the head is `x`, if `x` is neither in the paths nor one of the others. -/
theorem head_no {m : Macros} {fl : Flags} {r : Inference.Rule} (h : Printable m fl r) {x : Char} (h1 : x ∉ r.fromPath) (h2 : x ∉ r.toPath)
    (h3 : isLetterOrNumber x = false) (h4 : x ≠ '_') (h5 : x ≠ '.') (h6 : x ≠ ':') (h7 : x ≠ '{') (h8 : x ≠ '}') : x ∉ (headOf r).render := by
  have hext : ∀ e, Ext e → x ∉ e := by
    intro e he hx
    rcases he.2 x hx with h | h
    · rw [h3] at h; cases h
    · exact h4 h
  have hbr : ∀ p : Str, x ∉ p → x ∉ braces (pathOf p) := by
    intro p hp hx
    unfold pathOf at hx
    split at hx
    · cases hx
    · simp [braces, h7, h8, hp] at hx
  obtain ⟨e1, e2, _⟩ := head_clear h
  intro hx
  unfold RuleHead.render at hx
  simp only [List.mem_append, List.mem_cons] at hx
  rcases hx with hx | hx | hx | hx | hx | hx | hx
  · exact hbr _ h1 hx
  · exact h5 hx
  · exact hext _ e1 hx
  · exact hbr _ h2 hx
  · exact h5 hx
  · exact hext _ e2 hx
  · cases hb : (headOf r).batch <;> simp [hb, h6] at hx

theorem head_first {r : Inference.Rule} : ∃ c s, (headOf r).render = c :: s ∧ (c = '{' ∨ c = '.') := by
  unfold RuleHead.render braces
  cases (headOf r).fromPath with
  | none => exact ⟨_, _, rfl, .inr rfl⟩
  | some p => exact ⟨_, _, rfl, .inl rfl⟩

theorem head_last {r : Inference.Rule} : ∃ s, (headOf r).render = s ++ [':'] := by
  unfold RuleHead.render
  cases (headOf r).batch with
  | true => exact ⟨braces (headOf r).fromPath ++ '.' :: ((headOf r).fromExt ++ (braces (headOf r).toPath ++ '.' :: ((headOf r).toExt ++ [':']))), by simp⟩
  | false => exact ⟨braces (headOf r).fromPath ++ '.' :: ((headOf r).fromExt ++ (braces (headOf r).toPath ++ '.' :: (headOf r).toExt)), by simp⟩

theorem head_physical {m : Macros} {fl : Flags} {r : Inference.Rule} (h : Printable m fl r) : Physical (headOf r).render := by
  obtain ⟨c, s, he, hc⟩ := head_first (r := r)
  obtain ⟨s', he'⟩ := head_last (r := r)
  refine ⟨⟨head_no h h.fromPath.line h.toPath.line (by decide) (by decide) (by decide) (by decide) (by decide) (by decide), ?_, ?_⟩, ?_, ?_⟩
  · rintro ⟨x, hx⟩
    rw [he'] at hx
    exact absurd (List.append_inj_right' hx rfl) (by decide)
  · rintro ⟨x, hx⟩
    rw [he'] at hx
    exact absurd (List.append_inj_right' hx rfl) (by decide)
  · rw [he]; rcases hc with rfl | rfl <;> simp
  · rw [he]; rcases hc with rfl | rfl <;> simp

theorem no_definition {l : Str} (h : ∀ c r, l = c :: r → ¬ BeginsName c) : NoDefinition l := by
  rintro n v ⟨c, a, b, u, he, hb, _⟩
  exact h _ _ he hb

theorem no_word {e : Str} (h : ∀ c r, e = c :: r → c ≠ '!' ∧ toUpperC c ≠ 'I') (k v : Str) : ¬ SaysWord e k v := by
  intro hs
  cases hs with
  | word => exact (h _ _ rfl).1 rfl
  | «else» => exact (h _ _ rfl).1 rfl
  | elseIf => exact (h _ _ rfl).1 rfl
  | oldStyle w c v hw =>
    cases w with
    | nil => cases hw
    | cons x w =>
      have : toUpperC x = 'I' := by
        have := congrArg List.head? hw
        simpa [toUpper] using this
      exact (h _ _ rfl).2 this

theorem head_text {m : Macros} {fl : Flags} {r : Inference.Rule} (h : Printable m fl r) (m' : Macros) :
    Expanded m' (headOf r).render (headOf r).render ∧ NoDefinition (headOf r).render ∧ Spec.Directive m' (headOf r).render none := by
  obtain ⟨c, s, he, hc⟩ := head_first (r := r)
  have hx : Expanded m' (headOf r).render (headOf r).render := expanded_iff.2 (expandMacros_plain _ _ _
    (head_no h h.fromPath.dollar h.toPath.dollar (by decide) (by decide) (by decide) (by decide) (by decide) (by decide)))
  refine ⟨hx, no_definition ?_, .none _ hx (no_word ?_)⟩
  · intro c' r' h'
    rw [he] at h'
    cases h'
    rcases hc with rfl | rfl <;> (unfold BeginsName; decide)
  · intro c' r' h'
    rw [he] at h'
    cases h'
    rcases hc with rfl | rfl <;> decide

theorem tab_expands {m : Macros} {s e : Str} (h : Expanded m s e) : Expanded m ('\t' :: s) ('\t' :: e) := by
  rw [expanded_iff] at *
  unfold expandMacros at *
  rw [expandU_lit _ _ _ _ _ (by decide), h]
  rfl

theorem command_physical {m : Macros} {fl : Flags} {c : Inference.Command} (h : Plain m fl c) : Physical ('\t' :: c.cmd.line) := by
  refine ⟨oneLine_append (a := ['\t']) (by decide) ?_ h.line, by simp, by simp⟩
  intro r x he
  have := congrArg List.getLast? he
  rw [List.getLast?_concat] at this
  have : x = '\t' := by simpa using this.symm
  subst this
  decide

theorem command_text {m : Macros} {fl : Flags} {c : Inference.Command} (h : Plain m fl c) :
    NoDefinition ('\t' :: c.cmd.line) ∧ Spec.Directive m ('\t' :: c.cmd.line) none := by
  obtain ⟨e, he⟩ := h.means
  refine ⟨no_definition ?_, .none _ (tab_expands he) (no_word ?_)⟩
  · intro c' r' h'
    cases h'
    unfold BeginsName; decide
  · intro c' r' h'
    cases h'
    decide

theorem trimmed_tab {s : Str} (h : NoOuter s) : trimmed ('\t' :: s) = s := by
  have h1 : Spaces ['\t'] := fun x hx => by
    rw [List.mem_singleton.1 hx]; decide
  simpa using trimmed_pad (b' := []) h1 (fun _ h => by cases h) h

theorem commands_read {m : Macros} {fl : Flags} : ∀ {cs : List Inference.Command}, (∀ c ∈ cs, Plain m fl c) →
    Commands true fl false ((cs.map (fun c : Inference.Command => '\t' :: c.cmd.line) ++ [[]]).map fun l : Str => { text := l, macros := m }) cs
  | [], _ => .blank rfl (fun _ h => by cases h) .nil
  | c :: cs, h => by
    have hc := h c (by simp)
    have ih := commands_read (cs := cs) fun x hx => h x (by simp [hx])
    have hb : ¬ Blank ('\t' :: c.cmd.line) := by
      intro hb
      cases hl : c.cmd.line with
      | nil => exact hc.filled hl
      | cons x r =>
        have h1 := hb x (by rw [hl]; simp)
        rw [hc.outer.1 x r hl] at h1
        cases h1
    refine .cmd (files := []) rfl ⟨_, _, rfl, .inr rfl⟩ hb ?_ ih
    have hat := CommandAt.later (rule := true) (fl := fl) (m := m) (text := '\t' :: c.cmd.line) (cut := false) (lines := []) rfl
      (by rw [trimmed_tab hc.outer]; exact .done hc.angles) .nil
    have he : ({ cmd := { line := c.cmd.line, maxExitCode := limit fl [], silent := fl.silent, singleExecution := false }, files := [] } : Inference.Command) = c := by
      have h1 := hc.files
      have h2 := hc.limit
      have h3 := hc.silent
      have h4 := hc.single
      obtain ⟨⟨l, mx, si, se⟩, fs⟩ := c
      simp_all
    rw [he] at hat
    exact hat

theorem reads_rules {glob : Str → List Str} {m : Macros} {fl : Flags} : ∀ {rs : List Inference.Rule}, (∀ r ∈ rs, Printable m fl r) →
    Makefile.Reads glob fl false ((rs.flatMap ruleLines).map fun l => { text := l, macros := m }) (rs.map fun r => .rule (headOf r) r.commands)
  | [], _ => .nil
  | r :: rs, h => by
    have hr := h r (by simp)
    have ih := reads_rules (glob := glob) (rs := rs) fun x hx => h x (by simp [hx])
    rw [List.flatMap_cons, List.map_append]
    refine .rule (c1 := false) (c2 := false) rfl (head_text hr m).1 (C65_clear (head_clear hr)) (commands_read hr.commands) ?_ (fun h => by cases h) ih rfl
    intro l ls he
    cases rs with
    | nil => cases he
    | cons r' rs =>
      obtain ⟨c, s, hh, hc⟩ := head_first (r := r')
      have : l.text = c :: s := by
        have := congrArg (fun x => x.head?.map (·.text)) he
        simpa [ruleLines, hh] using this.symm
      rw [this]
      refine ⟨fun hb => ?_, ?_⟩
      · have := hb c (by simp)
        rcases hc with rfl | rfl <;> revert this <;> decide
      · rintro ⟨c', r', h1, h2⟩
        cases h1
        rcases hc with rfl | rfl <;> rcases h2 with h2 | h2 <;> revert h2 <;> decide

theorem rules_items {m : Macros} {fl : Flags} : ∀ {rs : List Inference.Rule}, (∀ r ∈ rs, Printable m fl r) →
    Makefile.rules (rs.map fun r => .rule (headOf r) r.commands) = rs
  | [], _ => rfl
  | r :: rs, h => by
    rw [List.map_cons, Makefile.rules, rules_items fun x hx => h x (by simp [hx]), rule_of_head (h r (by simp))]

theorem blocks_items (rs : List Inference.Rule) : Makefile.blocks (rs.map fun r => .rule (headOf r) r.commands) = [] := by
  induction rs with
  | nil => rfl
  | cons r rs ih => rw [List.map_cons, Makefile.blocks]; exact ih; simp

theorem lines_ok {m : Macros} {fl : Flags} {rs : List Inference.Rule} (h : ∀ r ∈ rs, Printable m fl r) :
    ∀ l ∈ rs.flatMap ruleLines, Physical l ∧ NoDefinition l ∧ Spec.Directive m l none := by
  intro l hl
  obtain ⟨r, hr, hl⟩ := List.mem_flatMap.1 hl
  have hp := h r hr
  unfold ruleLines at hl
  rcases List.mem_cons.1 hl with rfl | hl
  · exact ⟨head_physical hp, (head_text hp m).2⟩
  · rcases List.mem_append.1 hl with hl | hl
    · obtain ⟨c, hc, rfl⟩ := List.mem_map.1 hl
      exact ⟨command_physical (hp.commands c hc), command_text (hp.commands c hc)⟩
    · rw [List.mem_singleton.1 hl]
      have hx : Expanded m [] [] := expanded_iff.2 (expandMacros_plain _ _ _ (by simp))
      exact ⟨⟨⟨by simp, (fun ⟨r, h⟩ => by simp at h), (fun ⟨r, h⟩ => by simp at h)⟩, by simp, by simp⟩,
        no_definition (fun _ _ h => by cases h), .none _ hx (no_word fun _ _ h => by cases h)⟩

end ReportProof

open Jom.Parse Jom.Spec.Makefile ReportProof

/-- **C102.** `ms` are the macros and `rs` the inference rules printed by `/P`. A makefile that consists of what is printed about them has the same
inference rules in the same order and no targets, and the macros have the same values, if every macro and every rule can be written on lines of its own.
The macros that are defined before the makefile is read (`T`) must be among those that were printed; those that cannot be changed by a makefile must have the
printed value. -/
theorem C102_read_back_partial {w : World} {ms : Macros} {rs : List Inference.Rule} {fl : Flags} {T : MacroTable} {name dir : Str}
    (hms : ∀ x ∈ ms, Definable x.1 x.2.value) (hnd : (ms.map (·.1)).Nodup) (hrs : ∀ r ∈ rs, Printable ms fl r)
    (hknown : ∀ n d, alookup n T.macros = some d → n ∈ ms.map (·.1))
    (hfixed : ∀ x ∈ ms, ∀ d, alookup x.1 T.macros = some d → d.isReadOnly = true → d.value = x.2.value)
    (entries : Str → Str → List Str) (folder : Str) :
    ∃ N, ∀ fuel ≥ N, ∃ p,
      Whole.read w fuel entries folder fl.silent (!fl.ignore)
        { table := T, files := [{ name := name, dir := dir, rest := Report.macros ms ++ Report.rules rs }] } = .ok p ∧
      p.rules = rs ∧ p.table.targets = [] ∧ ∀ n, macroValue p.src.table.macros n = macroValue ms n := by
  obtain ⟨T', h1, h2, h3⟩ := exec_macros (w := w) (stk := [{ name := name, dir := dir, rest := Report.macros ms ++ Report.rules rs }]) ms
    { table := T } rfl hms hnd hfixed
  have hval : ∀ n, macroValue T'.macros n = macroValue ms n := by
    intro n
    by_cases hn : n ∈ ms.map (·.1)
    · obtain ⟨x, hx, rfl⟩ := List.mem_map.1 hn
      rw [h1 x hx]
      unfold macroValue
      rw [alookup_nodup hnd hx]
    · unfold macroValue
      rw [h2 n hn]
      have h4 : alookup n ms = none := alookup_none hn
      rw [h4]
      cases hl : alookup n T.macros with
      | none => rfl
      | some d => exact absurd (hknown n d hl) hn
  have hrs' : ∀ r ∈ rs, Printable T'.macros fl r := by
    intro r hr
    have h := hrs r hr
    refine { h with commands := fun c hc => { h.commands c hc with means := ?_ } }
    obtain ⟨e, he⟩ := (h.commands c hc).means
    refine ⟨e, ?_⟩
    unfold Expanded at *
    rwa [show macroValue T'.macros = macroValue ms from funext hval]
  have hok := lines_ok hrs'
  have hE := h3 (exec_text (w := w) (c := { table := T' }) rfl (fun l hl => (hok l hl).1) (fun l hl => (hok l hl).2) (.nil _ _))
  have hC : Consists (flatTree (ms.map macroLine) (flatTree (rs.flatMap ruleLines) .nil)).lines (Report.macros ms ++ Report.rules rs) := by
    rw [macros_text, rules_text hrs]
    refine consists_flat ?_ ?_
    · intro l hl
      obtain ⟨x, hx, rfl⟩ := List.mem_map.1 hl
      exact macroLine_physical (hms x hx)
    · have := consists_flat (t := .nil) (r := []) (fun l hl => (hok l hl).1) rfl
      rwa [List.append_nil] at this
  obtain ⟨N, e, h5, _, h6⟩ := C82_text hE hC rfl rfl (entries := entries) (dir := folder) (fl := fl)
    (by rw [List.append_nil]; exact reads_rules hrs')
  refine ⟨N, fun fuel hf => ?_⟩
  obtain ⟨p, h7, h8, h9⟩ := (h6 fuel hf).2 {} (by rw [blocks_items]; cases fuel <;> rfl)
  refine ⟨p, h7, ?_, by rw [h8], fun n => ?_⟩
  · rw [h9.rules, rules_items hrs']
  · rw [h9.src, h5]
    exact hval n

/-! ### An example -/

namespace ReportCase

def ms : Macros := [(c!"CC", { value := c!"cl /c" }), (c!"OBJS", { value := c!"a.obj $(EXTRA)" }), (c!"EXTRA", {})]

def compile : Inference.Rule :=
  { batch := true, fromPath := c!"src", fromExt := c!".c", toPath := c!"out", toExt := c!".obj"
    commands := [{ cmd := { line := c!"-$(CC) $<" } }, { cmd := { line := c!"@echo $(OBJS)" } }] }

def link : Inference.Rule := { fromPath := c!".", fromExt := c!".obj", toPath := c!".", toExt := c!".exe", commands := [] }

example : Report.macros ms ++ Report.rules [compile, link] =
    c!"CC = cl /c\nOBJS = a.obj $(EXTRA)\nEXTRA = \n{src}.c{out}.obj::\n\t-$(CC) $<\n\t@echo $(OBJS)\n\n.obj.exe:\n\n" := by decide +kernel

theorem noEnd {s : Str} {c : Char} (h : s.getLast? ≠ some c) : ¬ EndsIn s c := by
  rintro ⟨r, rfl⟩
  exact h (by simp)

theorem outer {s : Str} (h : trimmed s = s) : NoOuter s := h ▸ trimmed_noOuter s

theorem noInfix {v i : Str} (h : ∀ k < v.length + 1, i.isPrefixOf (v.drop k) = false) (x y : Str) : v ≠ x ++ i ++ y := by
  rintro rfl
  have := h x.length (by simp; omega)
  rw [List.append_assoc, List.drop_left] at this
  rw [List.isPrefixOf_iff_prefix.2 (List.prefix_append ..)] at this
  cases this

theorem oneLine {s : Str} (h : '\n' ∉ s ∧ s.getLast? ≠ some '\\' ∧ s.getLast? ≠ some '^') : OneLine s := ⟨h.1, noEnd h.2.1, noEnd h.2.2⟩

theorem dirOk {p : Str} (h : p ≠ [] ∧ '{' ∉ p ∧ '}' ∉ p ∧ '$' ∉ p ∧ '\n' ∉ p ∧ p.getLast? ≠ some '/' ∧ p.getLast? ≠ some '\\') : Report.Dir p :=
  ⟨h.1, h.2.1, h.2.2.1, h.2.2.2.1, h.2.2.2.2.1, noEnd h.2.2.2.2.2.1, noEnd h.2.2.2.2.2.2⟩

theorem definable {n v : Str} (h : isMacroNameValid n = true ∧ n.head? ≠ some '.' ∧ ('\n' ∉ v ∧ v.getLast? ≠ some '\\' ∧ v.getLast? ≠ some '^') ∧
    trimmed v = v ∧ '#' ∉ v ∧ ∀ k < v.length + 1, (instantiated n).isPrefixOf (v.drop k) = false) : Definable n v :=
  ⟨h.1, h.2.1, oneLine h.2.2.1, outer h.2.2.2.1, h.2.2.2.2.1, noInfix h.2.2.2.2.2⟩

theorem plain {m : Macros} {l : Str} (h : l ≠ [] ∧ trimmed l = l ∧ ('\n' ∉ l ∧ l.getLast? ≠ some '\\' ∧ l.getLast? ≠ some '^') ∧
    (∀ k < l.length + 1, ['<', '<'].isPrefixOf (l.drop k) = false) ∧ (expandMacros m l).toOption.isSome = true) : Plain m {} { cmd := { line := l } } :=
  ⟨h.1, outer h.2.1, oneLine h.2.2.1, fun x y he => noInfix h.2.2.2.1 x y (by simpa using he), by
    generalize hx : expandMacros m l = r at h
    cases r with
    | error => exact absurd h.2.2.2.2 (by simp [Except.toOption])
    | ok e => exact ⟨e, expanded_iff.2 hx⟩, rfl, rfl, rfl, rfl⟩

theorem ms_ok : ∀ x ∈ ms, Definable x.1 x.2.value := by
  intro x hx
  simp only [ms, List.mem_cons, List.not_mem_nil, or_false] at hx
  rcases hx with rfl | rfl | rfl <;> exact definable (by decide +kernel)

theorem rs_ok : ∀ r ∈ [compile, link], Printable ms {} r := by
  intro r hr
  simp only [List.mem_cons, List.not_mem_nil, or_false] at hr
  rcases hr with rfl | rfl
  · refine ⟨dirOk (by decide +kernel), dirOk (by decide +kernel), ⟨c!"c", ⟨by decide, by decide +kernel⟩, rfl⟩, ⟨c!"obj", ⟨by decide, by decide +kernel⟩, rfl⟩, rfl, ?_⟩
    intro c hc
    simp only [compile, List.mem_cons, List.not_mem_nil, or_false] at hc
    rcases hc with rfl | rfl
    · exact plain (by decide +kernel)
    · exact plain (by decide +kernel)
  · exact ⟨dirOk (by decide +kernel), dirOk (by decide +kernel), ⟨c!"obj", ⟨by decide, by decide +kernel⟩, rfl⟩, ⟨c!"exe", ⟨by decide, by decide +kernel⟩, rfl⟩, rfl,
      fun _ h => (by cases h)⟩

/-- What is defined before the makefile is read: `OBJS=a.obj $(EXTRA)` on the command line. -/
def T : MacroTable := { macros := [(c!"OBJS", { value := c!"a.obj $(EXTRA)", isReadOnly := true })] }

/-- All hypotheses are met. -/
example : ∃ N, ∀ fuel ≥ N, ∃ p,
      Whole.read ppWorld fuel (fun _ _ => []) [] false true
        { table := T, files := [{ name := c!"m", dir := c!"d", rest := Report.macros ms ++ Report.rules [compile, link] }] } = .ok p ∧
      p.rules = [compile, link] ∧ p.table.targets = [] ∧ ∀ n, macroValue p.src.table.macros n = macroValue ms n := by
  have hT : ∀ n d, alookup n T.macros = some d → n = c!"OBJS" ∧ d.value = c!"a.obj $(EXTRA)" := by
    intro n d h
    simp only [T, alookup] at h
    split at h
    · rename_i hn
      cases h
      exact ⟨hn.symm, rfl⟩
    · cases h
  refine C102_read_back_partial (fl := {}) ms_ok (by decide +kernel) rs_ok ?_ ?_ _ _
  · intro n d h
    rw [(hT n d h).1]
    decide +kernel
  · intro x hx d h _
    obtain ⟨h1, h2⟩ := hT _ _ h
    rw [h2]
    simp only [ms, List.mem_cons, List.not_mem_nil, or_false] at hx
    rcases hx with rfl | rfl | rfl
    · exact absurd h1 (by decide)
    · rfl
    · exact absurd h1 (by decide)

/-- The result of reading what is printed. -/
example : (parsed (Report.macros ms ++ Report.rules [compile, link])).map (·.rules) = some [compile, link] := by decide +kernel

end ReportCase

/-- The full claim: what `/P` prints about the rules of a makefile is a makefile with these rules. -/
def C102_claim : Prop := ∀ (text : Str) (p : PSt PP.St), parsed text = some p → ∃ p', parsed (Report.rules p.rules) = some p' ∧ p'.rules = p.rules

/-- A path that consists of a separator is remembered as an empty one and printed as `{}`, which means the current directory. -/
theorem C102_root_refuted : ¬ C102_claim := by
  intro h
  have h1 : (parsed c!"{\\}.c.obj:\n\tcl $<\n").isSome = true := by decide +kernel
  obtain ⟨p, hp⟩ := Option.isSome_iff_exists.1 h1
  obtain ⟨p', h2, h3⟩ := h _ _ hp
  have h4 : ((parsed c!"{\\}.c.obj:\n\tcl $<\n").bind fun p => (parsed (Report.rules p.rules)).map fun p' => decide (p'.rules = p.rules)) = some false := by
    decide +kernel
  rw [hp] at h4
  simp only [Option.bind_some, h2, h3, Option.map_some] at h4
  simp at h4

/-- What `.SILENT` and `.IGNORE` have done to the commands of a rule and the contents of its inline files are not printed. -/
theorem C102_modes_refuted :
    ((parsed c!".SILENT:\n.c.obj:\n\tcl $<\n").bind fun p => (parsed (Report.rules p.rules)).map fun p' => decide (p'.rules = p.rules)) = some false ∧
    ((parsed c!".c.obj:\n\tlink @<<\nx\n<<\n").bind fun p => (parsed (Report.rules p.rules)).map fun p' => decide (p'.rules = p.rules)) = some false := by
  decide +kernel

/-- The modifiers of the commands of targets are not printed either, and the line `dependents:` is not ended if there are none: these two makefiles give the
same output. -/
theorem C102_targets_refuted :
    (parsed c!"all:\n\t-@del x\n").map (fun p => Report.targets (p.table.targets.map (·.2))) = some c!"all:\n\tdependents:\tcommands:\tdel x\n\n" ∧
    (parsed c!"all:\n\tdel x\n").map (fun p => Report.targets (p.table.targets.map (·.2))) = some c!"all:\n\tdependents:\tcommands:\tdel x\n\n" := by
  decide +kernel

end Jom.Props
