/-
C62: a makefile is read as it is written. C63: inline files. C64: dot directives. C65: inference rules.
-/
import Verif.Proofs.ParserBack
import Verif.Proofs.PPSticky
import Verif.Props.Blocks
import Verif.Props.Preprocessor

namespace Jom.Props

open Jom.Parse
open Jom.Spec.Makefile
open Blocks (addBlocks ofSpec)
open Jom.Spec.Blocks (Described described Mixed Good occurrences)
open Inference (Command)

variable {σ : Type} {S : Source σ}

/-! ### C62 -/

/-- The suffixes before the first `.SUFFIXES`. -/
def defaultSuffixes : List Str :=
  [c!".exe", c!".obj", c!".asm", c!".c", c!".cpp", c!".cxx", c!".bas", c!".cbl", c!".for", c!".pas", c!".res", c!".rc"]

/-- What the parser has collected from the items `is`. -/
structure Collected (fl : Flags) (is : List Item) (e : σ) (p : PSt σ) : Prop where
  line : p.line = none
  src : p.src = e
  rules : p.rules = rules is
  suffixes : p.suffixes = suffixes defaultSuffixes is
  ignore : p.ignore = true ↔ fl.ignore = true ∨ ∃ ws, .dot .ignore ws ∈ is
  silent : p.silent = true ↔ fl.silent = true ∨ ∃ ws, .dot .silent ws ∈ is
  precious : ∀ t, t ∈ p.precious ↔ ∃ ws, .dot .precious ws ∈ is ∧ t ∈ ws

theorem collected_finish {fl : Flags} {is : List Item} {s e : σ} {n : Nat} {p : PSt σ}
    (h : finish n { src := s, suffixes := builtinSuffixes, ignore := fl.ignore, silent := fl.silent } is e = .ok p) :
    addBlocks n {} (blocks is) = .ok p.table ∧ Collected fl is e p := by
  have hhas : ∀ d (is : List Item), has d is = true ↔ ∃ ws, .dot d ws ∈ is := by
    intro d is
    induction is with
    | nil => simp [has]
    | cons i is ih =>
      cases i with
      | dot d' ws => simp only [has, Bool.or_eq_true, decide_eq_true_eq, ih, List.mem_cons, Item.dot.injEq]; grind
      | rule => simp only [has, ih, List.mem_cons, reduceCtorEq, false_or]
      | block => simp only [has, ih, List.mem_cons, reduceCtorEq, false_or]
  have hpre : ∀ t (is : List Item), t ∈ precious is ↔ ∃ ws, .dot .precious ws ∈ is ∧ t ∈ ws := by
    intro t is
    induction is with
    | nil => simp [precious]
    | cons i is ih =>
      cases i with
      | dot d ws =>
        cases d with
        | precious => simp only [precious, List.mem_append, ih, List.mem_cons, Item.dot.injEq, true_and]; grind
        | ignore => simp only [precious, ih, List.mem_cons, Item.dot.injEq, reduceCtorEq, false_and, false_or]
        | silent => simp only [precious, ih, List.mem_cons, Item.dot.injEq, reduceCtorEq, false_and, false_or]
        | suffixes => simp only [precious, ih, List.mem_cons, Item.dot.injEq, reduceCtorEq, false_and, false_or]
      | rule => simp only [precious, ih, List.mem_cons, reduceCtorEq, false_or]
      | block => simp only [precious, ih, List.mem_cons, reduceCtorEq, false_or]
  unfold finish at h
  split at h
  · cases h
  next mk hm =>
    injection h with h
    subst h
    refine ⟨hm, rfl, rfl, by simp, rfl, by simp [hhas], by simp [hhas], fun t => ?_⟩
    simp only
    rw [addPrecious_mem, ← hpre]
    simp

/-- C62: if the lines the preprocessor delivers consist of the items `is`, the parser collects exactly the rules, suffixes and precious
targets of these items, switches ignoring of exit codes and silence on exactly if an option or an item says so, reads to the end of
the file, and its targets are those of the blocks, in their order. It fails exactly if the blocks contradict each other. (`n` bounds the number of lines
and the rounds of macro expansion.) -/
theorem C62_items {glob : Str → List Str} {fl : Flags} {cut : Bool} {ls : List Line} {is : List Item} (h : Reads glob fl cut ls is) {s e : σ}
    (hb : Before S cut s ls e) {n : Nat} (hn : ls.length + 1 < n) :
    (∀ err, addBlocks n {} (blocks is) = .error err → parse S glob n fl.silent (!fl.ignore) s = .error (.block err)) ∧
    ∀ mk, addBlocks n {} (blocks is) = .ok mk → ∃ p, parse S glob n fl.silent (!fl.ignore) s = .ok p ∧ p.table = mk ∧ Collected fl is e p := by
  rw [parse_spec h hb hn]
  constructor
  · intro err he
    unfold finish
    simp only [he]
  · intro mk hm
    cases hf : finish n { src := s, suffixes := builtinSuffixes, ignore := fl.ignore, silent := fl.silent } is e with
    | error err =>
      unfold finish at hf
      simp only [hm] at hf
      cases hf
    | ok p =>
      obtain ⟨h1, h2⟩ := collected_finish hf
      rw [hm] at h1
      injection h1 with h1
      exact ⟨p, rfl, h1.symm, h2⟩

/-- C62: conversely, every makefile that is accepted consists of items, and they are what has been collected. -/
theorem C62_accepted (hS : Sticky S) {glob : Str → List Str} {fl : Flags} {s : σ} {n : Nat} {p : PSt σ}
    (h : parse S glob n fl.silent (!fl.ignore) s = .ok p) :
    ∃ cut ls is e, Before S cut s ls e ∧ Reads glob fl cut ls is ∧ addBlocks n {} (blocks is) = .ok p.table ∧ Collected fl is e p := by
  obtain ⟨cut, ls, is, e, h1, h2, h3⟩ := parse_back hS h
  obtain ⟨h4, h5⟩ := collected_finish h3
  exact ⟨cut, ls, is, e, h1, h2, h4, h5⟩

/-- C62 for the preprocessor of jom. -/
theorem C62_accepted_text {w : PP.World} {fuel : Nat} {glob : Str → List Str} {fl : Flags} {s : PP.St} {n : Nat} {p : PSt PP.St}
    (h : parse (ppSource w fuel) glob n fl.silent (!fl.ignore) s = .ok p) :
    ∃ cut ls is e, Before (ppSource w fuel) cut s ls e ∧ Reads glob fl cut ls is ∧ addBlocks n {} (blocks is) = .ok p.table ∧ Collected fl is e p :=
  C62_accepted (PP.ppSource_sticky w fuel) h

/-- C62 together with C23: what the makefile says about a target is what its description blocks say. -/
theorem C62_targets {glob : Str → List Str} {fl : Flags} {cut : Bool} {ls : List Line} {is : List Item} (h : Reads glob fl cut ls is) {s e : σ}
    (hb : Before S cut s ls e) (bs : List Spec.Blocks.Block) (hbs : blocks is = bs.map ofSpec) (hg : Good magicEscape bs) :
    ∃ N, ∀ n ≥ N,
      (Mixed bs → parse S glob n fl.silent (!fl.ignore) s = .error (.block .mixed)) ∧
      (¬ Mixed bs → ∃ p, parse S glob n fl.silent (!fl.ignore) s = .ok p ∧
        (∀ name, (p.table.target name).map (fun b => { name := b.name, deps := b.deps, cmds := b.cmds : Described }) = described bs name) ∧
        (p.table.first.bind p.table.target).map (·.name) = (occurrences bs).head?.map (·.1)) := by
  obtain ⟨N, hN⟩ := C23_accumulate bs hg
  refine ⟨max N (ls.length + 2), fun n hn => ?_⟩
  obtain ⟨h1, h2⟩ := hN n (by omega)
  obtain ⟨h3, h4⟩ := C62_items h hb (n := n) (by omega)
  rw [hbs] at h3 h4
  refine ⟨fun hm => h3 _ (h1 hm), fun hm => ?_⟩
  obtain ⟨mk, h5, h6, h7⟩ := h2 hm
  obtain ⟨p, h8, h9, _⟩ := h4 mk h5
  subst h9
  exact ⟨p, h8, h6, h7⟩

/-! A makefile with every kind of item. -/

def exLine (s : Str) : Line := { text := s, macros := [] }
def exInline (s : Str) : Line := { inl := true, text := s, macros := [] }

def exText : Str :=
  c!".SUFFIXES: .c\n.c.obj:\n\tcl $<\nall: a.obj\n\techo <<x\nhello\n<<KEEP\n\n.SILENT :\na.obj: ; -@cl\n\n"

def exLines : List Line :=
  [exLine c!".SUFFIXES: .c", exLine c!".c.obj:", exLine c!"\tcl $<", exLine c!"all: a.obj", exLine c!"\techo <<x",
   exInline c!"hello\n", exInline c!"<<KEEP\n", exLine [], exLine c!".SILENT :", exLine c!"a.obj: ; -@cl", exLine []]

def exItems : List Item :=
  [.dot .suffixes [c!".c"],
   .rule { fromExt := c!"c", toExt := c!"obj" } [{ cmd := { line := c!"cl $<" } }],
   .block { targets := [c!"all"], deps := [c!"a.obj"], double := false,
            cmds := [{ cmd := { line := c!"echo <<" }, files := [{ filename := c!"x", content := c!"hello\r\n", keep := true }] }] },
   .dot .silent [],
   .block { targets := [c!"a.obj"], deps := [], double := false, cmds := [{ cmd := { line := c!"cl", maxExitCode := uintMax, silent := true } }] }]

def exStart : PP.St := { files := [{ name := c!"m", dir := c!"d", rest := exText }] }

/-- Reading lines with these modes. -/
def runLines (S : Source σ) : List Bool → σ → Except PErr (List Line × σ)
  | [], s => .ok ([], s)
  | b :: bs, s =>
    match S.next b s with
    | .error e => .error e
    | .ok (none, _) => .error .syntax
    | .ok (some t, s') =>
      match runLines S bs s' with
      | .error e => .error e
      | .ok (ls, z) => .ok ({ inl := b, text := t, macros := S.macros s' } :: ls, z)

theorem runLines_delivers {bs : List Bool} {s z : σ} {ls : List Line} (h : runLines S bs s = .ok (ls, z)) : Delivers S s ls z := by
  induction bs generalizing s ls with
  | nil => simp [runLines] at h; obtain ⟨rfl, rfl⟩ := h; exact .nil
  | cons b bs ih =>
    unfold runLines at h
    split at h
    · cases h
    · cases h
    next t s' h1 =>
      split at h
      · cases h
      next ls' z' h2 =>
        simp at h
        obtain ⟨rfl, rfl⟩ := h
        exact .cons h1 rfl (ih h2)

deriving instance DecidableEq for Line

/-- The preprocessor delivers the lines of the text. -/
theorem exLines_before : ∃ e, Before (ppSource ppWorld 50) false exStart exLines e := by
  have h : (match runLines (ppSource ppWorld 50) (exLines.map (·.inl)) exStart with
    | .error _ => none
    | .ok (ls, z) => match (ppSource ppWorld 50).next false z with
      | .ok (none, _) => some ls
      | _ => none) = some exLines := by decide +kernel
  split at h
  · cases h
  next ls z h1 =>
    split at h
    next e h2 =>
      injection h with h
      subst h
      obtain ⟨E, h3, h4⟩ := PP.ppSource_sticky _ _ _ _ _ h2
      exact ⟨_, z, runLines_delivers h1, E, by rw [h3]; exact h2, h4, rfl⟩
    · cases h

theorem splits_of {s : Str} {c : Char} {P : Str → Prop} (h : ∀ i, i < s.length → s[i]? = some c → P (s.take i)) (a b : Str) (e : s = a ++ c :: b) :
    P a := by
  have := h a.length (by rw [e]; simp) (by rw [e]; simp)
  rw [e] at this
  simpa using this

instance (s : Str) : Decidable (Blank s) := inferInstanceAs (Decidable (∀ c ∈ s, isSpace c = true))

instance (s : Str) : Decidable (Indented s) :=
  decidable_of_iff ((s.head?.map fun c => decide (c = ' ' ∨ c = '\t')).getD false = true) (by
    cases s with
    | nil => simp [Indented]
    | cons c r => simp [Indented, Spec.IsBlank])

instance (s : Str) (c : Char) : Decidable (Spec.EndsIn s c) :=
  decidable_of_iff (s.getLast? = some c) (by
    unfold Spec.EndsIn
    constructor
    · intro h; exact ⟨s.dropLast, (List.dropLast_append_getLast? c h).symm⟩
    · rintro ⟨r, rfl⟩; simp)

instance (a : Str) : Decidable (Spec.BlockComment a) := by unfold Spec.BlockComment; infer_instance

instance (a : Str) : Decidable (Drive a) :=
  decidable_of_iff ((match a.reverse with
    | [] => false
    | [c] => isLetter c
    | c :: d :: _ => isLetter c && (isSpace d || d == '"')) = true) (by
    rcases List.eq_nil_or_concat a with rfl | ⟨r, c, rfl⟩
    · simp [Drive]
    · rw [List.concat_eq_append]
      rcases List.eq_nil_or_concat r with rfl | ⟨r', d, rfl⟩
      · simp only [List.nil_append, List.reverse_cons, List.reverse_nil]
        constructor
        · intro h; exact ⟨[], c, rfl, h, .inl rfl⟩
        · rintro ⟨b, c', e, h, _⟩
          have := List.append_inj_right' (s₁ := []) e rfl
          injection this with this _
          rw [this]; exact h
      · rw [List.concat_eq_append]
        simp only [List.reverse_append, List.reverse_cons, List.reverse_nil, List.nil_append, List.cons_append, Bool.and_eq_true, Bool.or_eq_true,
          beq_iff_eq]
        constructor
        · intro h; exact ⟨r' ++ [d], c, rfl, h.1, .inr ⟨r', d, rfl, h.2⟩⟩
        · rintro ⟨b, c', e, h1, h2⟩
          obtain ⟨rfl, e2⟩ := List.append_inj' e rfl
          injection e2 with e2 _
          subst e2
          refine ⟨h1, ?_⟩
          rcases h2 with h2 | ⟨b', d', e3, h2⟩
          · simp at h2
          · have := List.append_inj_right' e3 rfl
            injection this with this _
            rw [this]; exact h2)

instance (a : Str) : Decidable (Separates a) := by unfold Separates; infer_instance
instance (c : Char) : Decidable (Spec.IsBlank c) := by unfold Spec.IsBlank; infer_instance

/-- The items are those of the lines. -/
theorem exLines_reads : Reads (fun _ => []) {} false exLines exItems := by
  have hA : Header (fun _ => []) [] c!"a.obj: ; -@cl" [c!"a.obj"] [] false (some c!" -@cl") := by
    refine .mk (line := c!"a.obj: ") (a := c!"a.obj") (d := [' ']) (tt := c!"a.obj") (dd := []) (ds := []) (.command (a := c!"a.obj: ") (by decide) ?_ ?_) (by decide) ⟨rfl, ?_, by decide, ?_⟩
      (means_iff.2 (by decide +kernel)) ((C14_every_line _ _).1 (by decide +kernel)) (means_iff.2 (by decide +kernel)) ((C14_every_line _ _).1 (by decide +kernel)) .nil
    · exact fun a b e => splits_of (s := c!"a.obj: ") (P := fun a => Spec.InQuotes a) (by decide) a b e
    · exact fun a b e => splits_of (s := c!"a.obj: ") (P := fun a => ¬ Spec.BlockComment a) (by decide) a b e
    · intro _ r h; injection h with h _; exact absurd h (by decide)
    · intro a b e; exact splits_of (s := c!"a.obj") (P := fun a => ¬ Separates a) (by decide) a b e
  have hB : Header (fun _ => []) [] c!"all: a.obj" [c!"all"] [c!"a.obj"] false none := by
    refine .mk (line := c!"all: a.obj") (a := c!"all") (d := c!" a.obj") (tt := c!"all") (dd := c!"a.obj") (ds := [c!"a.obj"]) (.neither ?_ ?_) (by decide) ⟨rfl, ?_, by decide, ?_⟩
      (means_iff.2 (by decide +kernel)) ((C14_every_line _ _).1 (by decide +kernel)) (means_iff.2 (by decide +kernel)) ((C14_every_line _ _).1 (by decide +kernel)) (.name ?_ .nil)
    · exact fun a b e => splits_of (s := c!"all: a.obj") (P := fun a => ¬ Spec.BlockComment a) (by decide) a b e
    · exact fun a b e => splits_of (s := c!"all: a.obj") (P := fun a => Spec.InQuotes a) (by decide) a b e
    · intro _ r h; injection h with h _; exact absurd h (by decide)
    · intro a b e; exact splits_of (s := c!"all") (P := fun a => ¬ Separates a) (by decide) a b e
    · intro x c y e h
      have : c ∈ c!"a.obj" := by rw [e]; simp
      rcases h with rfl | rfl <;> exact absurd this (by decide)
  have hno : ∀ s : Str, dotDirective s = none → ∀ d v, ¬ DotText d v s := fun s h d v hd => by rw [dot_iff.2 hd] at h; cases h
  have hnr : ∀ s : Str, inferenceRule s = none → ¬ IsRule s := fun s h hr => by have := inferenceRule_some hr; rw [h] at this; cases this
  refine .dot (ls := exLines.tail) (v := c!" .c") (e := c!".SUFFIXES: .c") rfl (means_iff.2 (by decide +kernel)) ⟨[], by simp [Blank], by decide⟩ ?_ ?_
  · exact .cons (b := [' ']) (w := c!".c") (rest := []) (by decide) (by decide) (by decide) (.nil (by decide)) (.inl rfl)
  refine .rule (body := [exLine c!"\tcl $<"]) (rest := exLines.drop 3) rfl (e := c!".c.obj:") (c1 := false) (c2 := false) (means_iff.2 (by decide +kernel)) ?_ ?_ ?_ (by simp) ?_ rfl
  · exact clear_chosen (h := { fromExt := c!"c", toExt := c!"obj" }) ⟨⟨by decide, by decide⟩, ⟨by decide, by decide⟩, by rintro p (h | h) <;> cases h⟩
  · refine .cmd (files := []) rfl (by decide) (by decide) (.later rfl (.done ?_) .nil) .nil
    intro x y e
    rw [show trimmed (exLine c!"\tcl $<").text = c!"cl $<" by decide] at e
    have := splits_of (s := c!"cl $<") (c := '<') (P := fun a => a = c!"cl $") (by decide) x ('<' :: y) e
    subst this
    exact absurd e (by simp)
  · intro l r h; injection h with h _; rw [← h]; decide
  refine .block (files := []) (body := [exLine c!"\techo <<x", exInline c!"hello\n", exInline c!"<<KEEP\n", exLine []]) (rest := exLines.drop 8) rfl (e := c!"all: a.obj")
    (means_iff.2 (by decide +kernel)) (by decide) (hno _ (by decide +kernel)) (hnr _ (by decide +kernel)) hB .none (by simp) (c2 := false) ?_ (by simp) (c3 := false) ?_ rfl
  · refine .commands ?_ ?_ ?_
    · refine .cmd (files := [exInline c!"hello\n", exInline c!"<<KEEP\n"]) rfl (by decide) (by decide) ?_ (.blank rfl (by decide) .nil)
      refine .now (e := c!"echo <<x") (ms := []) (r := c!"echo <<x") (line := c!"echo <<") (names := [c!"x"]) rfl (means_iff.2 (by decide +kernel)) ?_ ?_ ?_
      · exact .done (by intro c r h; injection h with h _; rw [← h]; decide)
      · refine .plain (a := c!"echo ") (n := c!"x") (rest := []) (line := []) ?_ (by decide) (by decide) (by decide) (.inl rfl) (.done (noAngles_of (by decide)))
        intro x y e
        have := splits_of (s := c!"echo <") (c := '<') (P := fun a => a = c!"echo ") (by decide) x ('<' :: y) e
        subst this
        exact absurd e (by simp)
      · refine .cons (ls := [exInline c!"hello\n"]) (opts := c!"KEEP\n") (keep := true) (unicode := false) (.cons (t := c!"hello\n") (u := c!"hello\r\n") (text := []) rfl
          (by intro r h; injection h with h _; exact absurd h (by decide)) (by simp) (fun _ => means_iff.2 (by decide +kernel)) (.lf (a := c!"hello") (by decide)) .nil)
          rfl rfl ?_ ?_ .nil
        · refine ⟨fun _ => ⟨[], ['\n'], rfl, .inl rfl, .inr ⟨'\n', [], rfl, by decide⟩⟩, fun _ => rfl⟩
        · refine ⟨fun h => (by cases h), ?_⟩
          rintro ⟨x, y, e, _⟩
          have : 'U' ∈ c!"KEEP\n" := by rw [e]; simp
          exact absurd this (by decide)
    · intro l r h; injection h with h _; rw [← h]; decide
    · intro l r h; injection h with h _; rw [← h]; decide
  refine .dot (v := []) (e := c!".SILENT :") rfl (means_iff.2 (by decide +kernel)) ⟨[' '], by decide, by decide⟩ (.nil (by decide)) ?_
  refine .block (files := []) (body := [exLine []]) (rest := []) (cs := [_]) (cs' := []) rfl (e := c!"a.obj: ; -@cl")
    (means_iff.2 (by decide +kernel)) (by decide) (hno _ (by decide +kernel)) (hnr _ (by decide +kernel)) hA (c1 := false) (.some ?_) (by simp) (.blank rfl (by decide)) (by simp) .nil rfl
  refine .now (e := c!"-@cl") (ms := [.dash [], .silent]) (r := c!"cl") (line := c!"cl") (names := []) rfl (means_iff.2 (by decide +kernel)) ?_ (.done (noAngles_of (by decide))) .nil
  exact .dash (ds := []) (t := c!"@cl") (by simp) (by intro c r h; injection h with h _; rw [← h]; decide) (.silent (.done (by intro c r h; injection h with h _; rw [← h]; decide)))

/-- What the parser makes of a text. -/
def parsed (text : Str) : Option (PSt PP.St) :=
  match parse (ppSource ppWorld 50) (fun _ => []) 20 false true { files := [{ name := c!"m", dir := c!"d", rest := text }] } with
  | .ok p => some p
  | .error _ => none

example : (parsed exText).map (fun p => (p.suffixes.getLast?, p.silent, p.ignore)) = some (some c!".c", true, false) := by decide +kernel

example : (parsed exText).map (fun p => p.rules.map (fun r => (r.fromExt, r.toExt, r.commands))) =
    some [(c!".c", c!".obj", [{ cmd := { line := c!"cl $<" } }])] := by decide +kernel

example : (parsed exText).map (fun p => ((p.table.target c!"ALL").map (·.cmds), (p.table.target c!"a.obj").map (·.cmds))) =
    some (some [{ cmd := { line := c!"echo <<" }, files := [{ filename := c!"x", content := c!"hello\r\n", keep := true }] }],
      some [{ cmd := { line := c!"cl", maxExitCode := uintMax, silent := true } }]) := by decide +kernel

/-! The theorem about targets applies to this makefile. -/

def exSpec : List Spec.Blocks.Block :=
  [{ targets := [c!"all"], deps := [[.text c!"a.obj"]], double := false,
     cmds := [{ cmd := { line := c!"echo <<" }, files := [{ filename := c!"x", content := c!"hello\r\n", keep := true }] }] },
   { targets := [c!"a.obj"], deps := [], double := false, cmds := [{ cmd := { line := c!"cl", maxExitCode := uintMax, silent := true } }] }]

theorem exSpec_good : Good magicEscape exSpec ∧ ¬ Mixed exSpec := by
  have hocc : ∀ o ∈ occurrences exSpec, '/' ∉ o.1 ∧ o.2.double = false ∧ (o.2.deps = [] ∨ o.2.deps = [[.text c!"a.obj"]]) := by decide +kernel
  refine ⟨⟨fun o ho => (hocc o ho).1, ?_, ?_⟩, ?_⟩
  · intro o ho d hd r hr
    rcases (hocc o ho).2.2 with h | h <;> rw [h] at hd <;> simp only [List.mem_cons, List.not_mem_nil, or_false] at hd
    subst hd; simp at hr
  · intro o ho o' _ _ d hd
    rcases (hocc o ho).2.2 with h | h <;> rw [h] at hd <;> simp only [List.mem_cons, List.not_mem_nil, or_false] at hd
    subst hd
    exact ⟨by decide, trivial⟩
  · rintro ⟨o, ho, o', ho', _, h⟩
    exact h ((hocc o ho).2.1.trans (hocc o' ho').2.1.symm)

example : ∃ N, ∀ n ≥ N, ∃ p, parse (ppSource ppWorld 50) (fun _ => []) n false true exStart = .ok p ∧
    (p.table.target c!"ALL").map (fun b => (b.name, b.deps)) = some (c!"all", [c!"a.obj"]) ∧ p.table.target c!"b.obj" = none := by
  obtain ⟨e, he⟩ := exLines_before
  obtain ⟨N, h⟩ := C62_targets (fl := {}) exLines_reads he exSpec (by decide +kernel) exSpec_good.1
  refine ⟨N, fun n hn => ?_⟩
  obtain ⟨p, h1, h2, _⟩ := (h n hn).2 exSpec_good.2
  refine ⟨p, h1, ?_, ?_⟩
  · have := h2 c!"ALL"
    rw [show described exSpec c!"ALL" = some { name := c!"all", deps := [c!"a.obj"], cmds := (exSpec.head?.map (·.cmds)).getD [] } by decide +kernel] at this
    obtain ⟨b, h3, h4⟩ := Option.map_eq_some_iff.1 this
    rw [h3]
    simp only [Described.mk.injEq] at h4
    simp [h4]
  · have := h2 c!"b.obj"
    rw [show described exSpec c!"b.obj" = none by decide +kernel] at this
    simpa using this

/-! ### C63 -/

/-- C63: a command with inline files gets exactly the content up to the line that starts with `<<`, for each file in turn; reading goes on behind it.
`text` is the command after expansion of macros and without modifiers, `rule` says whether it belongs to an inference rule. `cut`: a file that is
not closed takes all the rest. Missing: that this is rejected (`C63_unterminated_refuted`). -/
theorem C63_files_partial {rule cut more : Bool} {text line : Str} {names : List Str} {ls rest : List Line} {files : List Inference.InlineFile} {s e : σ} {n : Nat}
    (hn : Named text line names) (hf : Files rule cut names ls files) (hcut : cut = true → rest = [] ∧ more = false)
    (hb : Before S (cut || more) s (ls ++ rest) e) (hl : ls.length < n) (p : PSt σ) (hp : p.src = s) :
    (inlineNames (text.length + 1) text 0 []).1 = line ∧
    ∃ l s', readContents S rule n (inlineNames (text.length + 1) text 0 []).2 p = .ok (files, { p with line := l, src := s' }) ∧
      Before S more s' rest e := by
  have h1 := inlineNames_spec hn (text.length + 1) [] [] (by omega)
  simp only [List.nil_append, List.length_nil] at h1
  rw [h1]
  subst hp
  exact ⟨rfl, readContents_spec hf hcut p hl hb⟩

/-- What follows a command with an inline file, with one more line behind it. -/
def exRest : PP.St := { files := [{ name := c!"m", dir := c!"d", rest := c!"hello\n<<KEEP\nall:\n" }] }

theorem exRest_before : ∃ e, Before (ppSource ppWorld 50) false exRest ([exInline c!"hello\n", exInline c!"<<KEEP\n"] ++ [exLine c!"all:"]) e := by
  have h : (match runLines (ppSource ppWorld 50) [true, true, false] exRest with
    | .error _ => none
    | .ok (ls, z) => match (ppSource ppWorld 50).next false z with
      | .ok (none, _) => some ls
      | _ => none) = some [exInline c!"hello\n", exInline c!"<<KEEP\n", exLine c!"all:"] := by decide +kernel
  split at h
  · cases h
  next ls z h1 =>
    split at h
    next e h2 =>
      injection h with h
      subst h
      obtain ⟨E, h3, h4⟩ := PP.ppSource_sticky _ _ _ _ _ h2
      exact ⟨_, z, runLines_delivers h1, E, by rw [h3]; exact h2, h4, rfl⟩
    · cases h

/-- Two lines belong to the file `x`, which is kept; the third is still to be read. -/
example : ∃ l s' e, readContents (ppSource ppWorld 50) false 3 (inlineNames 9 c!"echo <<x" 0 []).2 { src := exRest } =
      .ok ([{ filename := c!"x", content := c!"hello\r\n", keep := true }], { src := s', line := l }) ∧
    Before (ppSource ppWorld 50) false s' [exLine c!"all:"] e := by
  obtain ⟨e, he⟩ := exRest_before
  have hn : Named c!"echo <<x" c!"echo <<" [c!"x"] := by
    refine .plain (a := c!"echo ") (n := c!"x") (rest := []) (line := []) ?_ (by decide) (by decide) (by decide) (.inl rfl) (.done (noAngles_of (by decide)))
    intro x y e
    have := splits_of (s := c!"echo <") (c := '<') (P := fun a => a = c!"echo ") (by decide) x ('<' :: y) e
    subst this
    exact absurd e (by simp)
  have hf : Files false false [c!"x"] [exInline c!"hello\n", exInline c!"<<KEEP\n"] [{ filename := c!"x", content := c!"hello\r\n", keep := true }] := by
    refine .cons (ls := [exInline c!"hello\n"]) (opts := c!"KEEP\n") (keep := true) (unicode := false) (.cons (t := c!"hello\n") (u := c!"hello\r\n") (text := []) rfl
      (by intro r h; injection h with h _; exact absurd h (by decide)) (by simp) (fun _ => means_iff.2 (by decide +kernel)) (.lf (a := c!"hello") (by decide)) .nil)
      rfl rfl ?_ ?_ .nil
    · refine ⟨fun _ => ⟨[], ['\n'], rfl, .inl rfl, .inr ⟨'\n', [], rfl, by decide⟩⟩, fun _ => rfl⟩
    · refine ⟨fun h => (by cases h), ?_⟩
      rintro ⟨x, y, e, _⟩
      have : 'U' ∈ c!"KEEP\n" := by rw [e]; simp
      exact absurd this (by decide)
  obtain ⟨_, l, s', h1, h2⟩ := C63_files_partial (more := false) hn hf (fun h => by cases h) he (n := 3) (by decide) { src := exRest } rfl
  exact ⟨l, s', e, h1, h2⟩

/-- Every command has exactly one reading. -/
theorem C63_names (text : Str) : ∃ line names, Named text line names ∧ ∀ line' names', Named text line' names' → line' = line ∧ names' = names := by
  obtain ⟨line, names, h⟩ := names_exist text
  refine ⟨line, names, h, fun line' names' h' => ?_⟩
  have h1 := inlineNames_spec h (text.length + 1) [] [] (by omega)
  have h2 := inlineNames_spec h' (text.length + 1) [] [] (by omega)
  rw [h1] at h2
  simp only [List.nil_append, Prod.mk.injEq] at h2
  refine ⟨h2.1.symm, ?_⟩
  have := congrArg (List.map (·.filename)) h2.2
  simpa [ofName, List.map_map, Function.comp_def] using this.symm

/-- The claim that every file ends with a line `<<`: what is accepted has all its inline files closed. It is false: without this line the file takes all
the rest of the makefile. -/
theorem C63_unterminated_refuted :
    (parsed c!"all:\n\tcopy <<x\nbb: c\n\techo b\n").map (fun p => ((p.table.target c!"all").map (·.cmds), (p.table.target c!"bb").isSome)) =
      some (some [{ cmd := { line := c!"copy <<" }, files := [{ filename := c!"x", content := c!"bb: c\r\n\techo b\r\n" }] }], false) := by decide +kernel

/-! ### C64 -/

/-- C64: a line is a dot directive exactly if it is written as one: the name, blanks, a colon. -/
theorem C64_directive (d : Directive) (v s : Str) : dotDirective s = some (dotOf d, v) ↔ DotText d v s := dot_iff

/-- The values are the words behind the colon. -/
theorem C64_values {ws : List Str} {v : Str} : words v [] = ws ↔ Words ws v := ⟨fun h => h ▸ words_exist v, words_spec⟩

example : DotText .suffixes c!" .c .d" c!".SUFFIXES \t: .c .d" ∧ Words [c!".c", c!".d"] c!" .c .d" ∧ dotDirective c!".SUFFIXES2:" = none :=
  ⟨⟨c!" \t", by decide, by decide⟩, C64_values.1 (by decide), by decide⟩

/-- Comments are not removed from directives: `#` and the words behind it become suffixes. -/
theorem C64_comment_refuted : (parsed c!".SUFFIXES:\n.SUFFIXES: .c # not .d\n").map (·.suffixes) = some [c!".c", c!"#", c!"not", c!".d"] := by
  decide +kernel

/-! ### C65 -/

/-- C65: a line is taken for an inference rule exactly if it is written as one. -/
theorem C65_rule (s : Str) : (inferenceRule s).isSome = true ↔ IsRule s := by
  refine ⟨fun h => ?_, inferenceRule_some⟩
  by_contra hn
  rw [inferenceRule_none hn] at h
  cases h

/-- The paths, extensions and the mode of a rule are those of its head. -/
theorem C65_parts {s : Str} {h : RuleHead} (hc : h.Chosen s) :
    ∃ g, inferenceRule s = some (g, h.batch) ∧ rulePath g.1 = directory h.fromPath ∧ g.2.1 = '.' :: h.fromExt ∧
      rulePath g.2.2.1 = directory h.toPath ∧ g.2.2.2 = '.' :: h.toExt :=
  ⟨_, inferenceRule_chosen hc, rulePath_spec _, rfl, rulePath_spec _, rfl⟩

/-- Every rule has exactly one head; it is the one that is written if the paths contain no braces. -/
theorem C65_head {s : Str} (hr : IsRule s) : ∃ h : RuleHead, h.Chosen s ∧ ∀ h' : RuleHead, h'.Chosen s → h' = h := by
  obtain ⟨r, hr'⟩ := Option.isSome_iff_exists.1 (inferenceRule_some hr)
  obtain ⟨h, hc, _⟩ := inferenceRule_sound hr'
  refine ⟨h, hc, fun h' hc' => ?_⟩
  have hinj : ∀ a b : Option Str, braces a = braces b → a = b := by
    intro a b e
    cases a <;> cases b <;> simp_all [braces]
  have hu := chosen_unique hc' hc
  obtain ⟨a, b, c, d, f⟩ := h
  obtain ⟨a', b', c', d', f'⟩ := h'
  simp only [parts, Prod.mk.injEq, List.cons.injEq, true_and] at hu
  obtain ⟨⟨h1, rfl, h2, rfl⟩, rfl⟩ := hu
  rw [hinj _ _ h1, hinj _ _ h2]

theorem C65_clear {h : RuleHead} (hc : h.Clear) : h.Chosen h.render := clear_chosen hc

example : inferenceRule c!"{src\\}.c{out}.obj::" = some ((c!"{src\\}", c!".c", c!"{out}", c!".obj"), true) ∧
    rulePath c!"{src\\}" = c!"src" := by decide +kernel

/-- The claim that a rule may be followed by blanks or a comment. -/
def C65_claim : Prop := ∀ text b, isSpace b = true → (parsed (text ++ [b] ++ c!"\n\tcl\n")).map (fun p => p.rules.length) =
  (parsed (text ++ c!"\n\tcl\n")).map (fun p => p.rules.length)

/-- With a blank at its end `.c.obj:` is an ordinary target. -/
theorem C65_blank_refuted : ¬ C65_claim := by
  intro h
  exact absurd (h c!".c.obj:" ' ' (by decide)) (by decide +kernel)

example : (parsed c!".c.obj: # C\n\tcl\n").map (fun p => (p.rules.length, (p.table.target c!".c.obj").isSome)) = some (0, true) := by decide +kernel

/-! ### C66 -/

/-- C66: the first colon that is neither inside parentheses nor part of a drive divides a line into targets and dependents. `tail` is the command with its `;`.
Missing: names of a single letter (`C66_letter_refuted`), and colons only behind the `;` (`C66_command_refuted`). -/
theorem C66_separator_partial {line a d tail : Str} {double : Bool} (h : Separated line a double d) (hi : ¬ Indented line) (ht : ∀ r, tail ≠ ':' :: r) :
    descriptionBlockSeparator (line ++ tail) = some (a.length, if double then 2 else 1) := separator_spec h hi ht

theorem exSeparated : Separated c!"c:\\x $(Y:a=b): d:\\e" c!"c:\\x $(Y:a=b)" false c!" d:\\e" := by
  refine ⟨rfl, ?_, by decide, ?_⟩
  · intro _ r h; injection h with h _; exact absurd h (by decide)
  · intro a b e; exact splits_of (s := c!"c:\\x $(Y:a=b)") (P := fun a => ¬ Separates a) (by decide) a b e

/-- The theorem applies, with a command behind the dependents. -/
example : descriptionBlockSeparator (c!"c:\\x $(Y:a=b): d:\\e" ++ c!"; copy f: g") = some (13, 1) :=
  C66_separator_partial exSeparated (by rintro ⟨c, r, h, hc⟩; injection h with h _; subst h; exact absurd hc (by decide))
    (by intro r h; injection h with h _; exact absurd h (by decide))

/-- A target whose name is a single letter is not recognised: its colon counts as part of a drive. -/
theorem C66_letter_refuted : parsed c!"a: b\n" = none ∧ (parsed c!"a : b\n").isSome = true := by
  refine ⟨?_, by decide +kernel⟩
  have : (parsed c!"a: b\n").isNone = true := by decide +kernel
  simpa using this

/-- The claim that what is behind `;` belongs to the command. A colon there makes everything in front of it targets, the `;` included. -/
theorem C66_command_refuted : (parsed c!"aa ; bb:c\n").map (fun p => p.table.targets.map fun t => (t.1, t.2.cmds.map (·.cmd.line))) =
    some [(c!"aa", [c!"bb:c"]), (c!";", [c!"bb:c"]), (c!"bb", [c!"bb:c"])] := by decide +kernel

end Jom.Props
