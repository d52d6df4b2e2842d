import Verif.Proofs.PPText
import Verif.Props.Parser
import Verif.Props.Expr
import Verif.Model.Whole
import Verif.Model.PPExpr

/-! C82: from the text of a makefile with conditionals, includes and inline files to what the parser collects. -/

namespace Jom.Props
open Jom.PP Jom.Spec

section

open Jom.Parse Jom.Spec.Makefile Jom.Spec.Blocks Jom.Blocks

/-- **C82.** The text of the makefile consists of the lines of `tree`; of every conditional exactly the first branch whose condition holds
counts, and an include stands for the contents of the file (`Exec`). The lines `o` left over consist of the items `is`. Then the
parser collects exactly these items; it fails exactly if the blocks contradict each other. -/
theorem C82_text {w : World} {f : TextFile} {c c' : Cfg} {tree : Tree .block} {o : List Makefile.Line} (h : Exec w [f] c tree o c')
    (htext : Consists tree.lines f.rest) (hp : c.part = {}) (hp' : c'.part = {}) {entries : Str → Str → List Str} {dir : Str} {fl : Flags}
    {is : List Item} (hr : Makefile.Reads (Wildcards.files entries dir) fl false o is) :
    ∃ N e, e.table = c'.table ∧ e.messages = c'.messages ∧ ∀ fuel ≥ N,
      (∀ err, addBlocks fuel {} (blocks is) = .error err →
        Whole.read w fuel entries dir fl.silent (!fl.ignore) { table := c.table, messages := c.messages, files := [f] } = .error (.block err)) ∧
      ∀ mk, addBlocks fuel {} (blocks is) = .ok mk → ∃ p,
        Whole.read w fuel entries dir fl.silent (!fl.ignore) { table := c.table, messages := c.messages, files := [f] } = .ok p ∧
          p.table = mk ∧ Collected fl is e p := by
  obtain ⟨e, N, h1, h2, _, h3⟩ := exec_before h htext hp hp'
  refine ⟨max N (o.length + 2), e, h1, h2, fun fuel hf => ?_⟩
  exact C62_items hr (h3 fuel (by omega)) (by omega)

/-- **C82.** What such a makefile says about a target is what the description blocks in its taken branches and included files say. -/
theorem C82_targets {w : World} {f : TextFile} {c c' : Cfg} {tree : Tree .block} {o : List Makefile.Line} (h : Exec w [f] c tree o c')
    (htext : Consists tree.lines f.rest) (hp : c.part = {}) (hp' : c'.part = {}) {entries : Str → Str → List Str} {dir : Str} {fl : Flags}
    {is : List Item} (hr : Makefile.Reads (Wildcards.files entries dir) fl false o is)
    (bs : List Spec.Blocks.Block) (hbs : blocks is = bs.map ofSpec) (hg : Good magicEscape bs) :
    ∃ N, ∀ fuel ≥ N,
      (Mixed bs →
        Whole.read w fuel entries dir fl.silent (!fl.ignore) { table := c.table, messages := c.messages, files := [f] } = .error (.block .mixed)) ∧
      (¬ Mixed bs → ∃ p,
        Whole.read w fuel entries dir fl.silent (!fl.ignore) { table := c.table, messages := c.messages, files := [f] } = .ok p ∧
        (∀ name, (p.table.target name).map (fun b => { name := b.name, deps := b.deps, cmds := b.cmds : Described }) = described bs name) ∧
        (p.table.first.bind p.table.target).map (·.name) = (occurrences bs).head?.map (·.1)) := by
  obtain ⟨N, e, _, _, h1⟩ := C82_text h htext hp hp' hr
  obtain ⟨M, hM⟩ := C23_accumulate bs hg
  refine ⟨max N M, fun fuel hf => ?_⟩
  obtain ⟨h2, h3⟩ := h1 fuel (by omega)
  obtain ⟨h4, h5⟩ := hM fuel (by omega)
  rw [hbs] at h2 h3
  refine ⟨fun hm => h2 _ (h4 hm), fun hm => ?_⟩
  obtain ⟨mk, h6, h7, h8⟩ := h5 hm
  obtain ⟨p, h9, h10, _⟩ := h3 mk h6
  subst h10
  exact ⟨p, h9, h7, h8⟩

end

/-! ### Conditions -/

/-- Tokens that differ at most in the value attached to an operator. -/
def Alike (i j : Expr.Item) : Prop := i = j ∨ ∃ id v v', id ≠ 1 ∧ id ≠ 2 ∧ i = .tok id v ∧ j = .tok id v'

theorem alike_op {op : Nat} {v : Expr.Value} {j : Expr.Item} (h : Alike (.tok op v) j) : ∃ v', j = .tok op v' := by
  rcases h with rfl | ⟨id, u, u', _, _, h1, h2⟩
  · exact ⟨_, rfl⟩
  · cases h1; exact ⟨_, h2⟩

theorem alike_num {v : Expr.Value} {j : Expr.Item} (h : Alike (.tok 1 v) j) : j = .tok 1 v := by
  rcases h with rfl | ⟨id, u, u', hn, _, h1, h2⟩
  · rfl
  · cases h1; exact absurd rfl hn

theorem alike_str {v : Expr.Value} {j : Expr.Item} (h : Alike (.tok 2 v) j) : j = .tok 2 v := by
  rcases h with rfl | ⟨id, u, u', _, hn, h1, h2⟩
  · rfl
  · cases h1; exact absurd rfl hn

theorem forall₂_append_left {α β : Type} {R : α → β → Prop} {a b : List α} {c : List β} (h : List.Forall₂ R (a ++ b) c) :
    ∃ x y, List.Forall₂ R a x ∧ List.Forall₂ R b y ∧ c = x ++ y := by
  induction a generalizing c with
  | nil => exact ⟨[], c, .nil, h, rfl⟩
  | cons z a ih =>
    obtain ⟨i, r, h1, h2, rfl⟩ := List.forall₂_cons_left_iff.1 h
    obtain ⟨x, y, h3, h4, rfl⟩ := ih h2
    exact ⟨i :: x, y, .cons h1 h3, h4, rfl⟩

theorem parses_alike {X : NT} {w w' : List Expr.Item} {o : Except Expr.Err Int} (h : Parses X w o) (ha : List.Forall₂ Alike w w') :
    Parses X w' o := by
  induction h generalizing w' with
  | sub X Y w o hs _ ih => exact .sub _ _ _ _ hs (ih ha)
  | bin X Y op f l r v a b hb _ _ ih1 ih2 =>
    obtain ⟨l', z, h1, h2, rfl⟩ := forall₂_append_left ha
    obtain ⟨i, r', h3, h4, rfl⟩ := List.forall₂_cons_left_iff.1 h2
    obtain ⟨v', rfl⟩ := alike_op h3
    exact .bin _ _ _ _ _ _ _ _ _ hb (ih1 h1) (ih2 h4)
  | pre op f v w a hp _ ih =>
    obtain ⟨i, r', h3, h4, rfl⟩ := List.forall₂_cons_left_iff.1 ha
    obtain ⟨v', rfl⟩ := alike_op h3
    exact .pre _ _ _ _ _ hp (ih h4)
  | number n =>
    obtain ⟨i, r', h3, h4, rfl⟩ := List.forall₂_cons_left_iff.1 ha
    cases h4
    rw [alike_num h3]
    exact .number n
  | paren u v w o _ ih =>
    obtain ⟨i, r', h3, h4, rfl⟩ := List.forall₂_cons_left_iff.1 ha
    obtain ⟨l', z, h1, h2, rfl⟩ := forall₂_append_left h4
    obtain ⟨j, r', h5, h6, rfl⟩ := List.forall₂_cons_left_iff.1 h2
    cases h6
    obtain ⟨_, rfl⟩ := alike_op h3
    obtain ⟨_, rfl⟩ := alike_op h5
    exact .paren _ _ _ _ (ih h1)
  | strEq s t v =>
    obtain ⟨i, r', h3, h4, rfl⟩ := List.forall₂_cons_left_iff.1 ha
    obtain ⟨i, r', h5, h6, rfl⟩ := List.forall₂_cons_left_iff.1 h4
    obtain ⟨i, r', h7, h8, rfl⟩ := List.forall₂_cons_left_iff.1 h6
    cases h8
    rw [alike_str h3, alike_str h7]
    obtain ⟨_, rfl⟩ := alike_op h5
    exact .strEq _ _ _
  | strNe s t v =>
    obtain ⟨i, r', h3, h4, rfl⟩ := List.forall₂_cons_left_iff.1 ha
    obtain ⟨i, r', h5, h6, rfl⟩ := List.forall₂_cons_left_iff.1 h4
    obtain ⟨i, r', h7, h8, rfl⟩ := List.forall₂_cons_left_iff.1 h6
    cases h8
    rw [alike_str h3, alike_str h7]
    obtain ⟨_, rfl⟩ := alike_op h5
    exact .strNe _ _ _

theorem means_alike {w : Expr.Oracle} {p : Piece} {i j : Expr.Item} {f : Str} (hp : p.Ok f) (hi : Spec.Means w p i) (hj : Spec.Means w p j) :
    Alike i j := by
  cases p with
  | op id =>
    obtain ⟨v, rfl⟩ := hi
    obtain ⟨v', rfl⟩ := hj
    have h3 : 3 ≤ id := hp.1
    exact .inr ⟨id, v, v', by omega, by omega, rfl, rfl⟩
  | number d => exact .inl (hi.trans hj.symm)
  | string d => exact .inl (hi.trans hj.symm)
  | shell d => exact .inl (hi.trans hj.symm)
  | defined a b d => exact .inl (hi.trans hj.symm)
  | exist a b d => exact .inl (hi.trans hj.symm)

theorem means_unique {w : Expr.Oracle} {ps : List (Piece × Str)} (h : PiecesOk ps) {l l' : List Expr.Item}
    (h1 : List.Forall₂ (Spec.Means w) (ps.map Prod.fst) l) (h2 : List.Forall₂ (Spec.Means w) (ps.map Prod.fst) l') : List.Forall₂ Alike l l' := by
  induction ps generalizing l l' with
  | nil => cases h1; cases h2; exact .nil
  | cons p ps ih =>
    obtain ⟨p, b⟩ := p
    cases h1 with
    | cons a1 r1 => cases h2 with
      | cons a2 r2 => exact .cons (means_alike h.1 a1 a2) (ih h.2.2 r1 r2)

/-- The value of an expression in pieces: that of the sentence they form. -/
def PiecesValue (o : Expr.Oracle) (ps : List (Piece × Str)) (n : Int) : Prop :=
  ∃ items, List.Forall₂ (Spec.Means o) (ps.map Prod.fst) items ∧ Parses .expression items (.ok n)

/-- **C82.** Where expressions are evaluated by the parser of expressions: an `!IF` whose argument, after macro expansion, is written in
pieces holds exactly if the value of the sentence is not zero, where `DEFINED` asks for macros defined at this point. -/
theorem C82_condition {w : World} {fileExists : Str → Bool} {system : Str → Int} {t : MacroTable} {d : Dir} (hd : d = .if ∨ d = .elseif) {v : Str}
    {ps : List (Piece × Str)} (hps : PiecesOk ps) (hv : Expanded t.macros v (textOf ps)) (b : Bool) :
    Holds (withExpr w fileExists system) t d v b ↔
      ∃ n, PiecesValue ⟨fun x => t.macros.any (·.1 == x), fileExists, system⟩ ps n ∧ b = decide (n ≠ 0) := by
  have ho : oracle fileExists system t = ⟨fun x => t.macros.any (·.1 == x), fileExists, system⟩ := by
    unfold oracle
    congr 1
    funext x
    rw [Bool.eq_iff_iff]
    rw [defined_iff, List.any_eq_true]
    constructor
    · rintro ⟨m, hm⟩; exact ⟨_, hm, by simp⟩
    · rintro ⟨⟨y, m⟩, hm, he⟩
      obtain rfl : y = x := by simpa using he
      exact ⟨m, hm⟩
  have heval : ∀ n, (withExpr w fileExists system).eval t (textOf ps) = some n ↔
      PiecesValue ⟨fun x => t.macros.any (·.1 == x), fileExists, system⟩ ps n := by
    intro n
    obtain ⟨items, h1, h2, h3⟩ := C22_value_partial (oracle fileExists system t) (.num 0) ps hps
    have hiff : (withExpr w fileExists system).eval t (textOf ps) = some n ↔ Expr.parse items = .ok n := by
      simp only [withExpr, h3]
      cases Expr.parse items <;> simp
    rw [hiff, C20_grammar h2, ← ho]
    refine ⟨fun h => ⟨items, h1, h⟩, ?_⟩
    rintro ⟨l, h4, h5⟩
    exact parses_alike h5 (means_unique hps h4 h1)
  constructor
  · intro h
    cases h with
    | nonzero e n h1 h2 h3 h4 =>
      rw [expanded_iff, expanded_iff.1 hv] at h2; cases h2
      exact ⟨n, (heval n).1 h3, by simp [h4]⟩
    | zero e h1 h2 h3 =>
      rw [expanded_iff, expanded_iff.1 hv] at h2; cases h2
      exact ⟨0, (heval 0).1 h3, by simp⟩
    | defined m h _ => rcases hd with rfl | rfl <;> rcases h with h | h <;> cases h
    | missing h _ => rcases hd with rfl | rfl <;> rcases h with h | h <;> cases h
    | undefined h _ => rcases hd with rfl | rfl <;> rcases h with h | h <;> cases h
    | present m h _ => rcases hd with rfl | rfl <;> rcases h with h | h <;> cases h
  · rintro ⟨n, h, rfl⟩
    by_cases hn : n = 0
    · subst hn
      exact .zero _ _ _ hd hv ((heval 0).2 h)
    · simp only [ne_eq, hn, not_false_eq_true, decide_true]
      exact .nonzero _ _ _ n hd hv ((heval n).2 h) hn

/-! ### A makefile with a conditional and an inline file -/

/-- Do the lines make up the text? -/
def consistsB : List TLine → Str → Bool
  | [], r => decide (linesOf r = [])
  | .inl l :: ls, r => decide ((readLineU r).1 = l) && !l.content.isNone && consistsB ls (readLineU r).2
  | .inr t :: ls, r => decide (t = r.take t.length) && decide (t.getLast? = some '\n') && decide ('\n' ∉ t.dropLast) && consistsB ls (r.drop t.length)

theorem consists_of {ls : List TLine} {r : Str} (h : consistsB ls r = true) : Consists ls r := by
  induction ls generalizing r with
  | nil => exact of_decide_eq_true (p := linesOf r = []) h
  | cons l ls ih =>
    cases l with
    | inl l =>
      simp only [consistsB, Bool.and_eq_true, decide_eq_true_eq, Bool.not_eq_true'] at h
      exact ⟨(readLineU r).2, by rw [← h.1.1], h.1.2, ih h.2⟩
    | inr t =>
      simp only [consistsB, Bool.and_eq_true, decide_eq_true_eq] at h
      obtain ⟨⟨⟨h1, h2⟩, h3⟩, h4⟩ := h
      refine ⟨r.drop t.length, ?_, ⟨t.dropLast, h3, .inl (List.dropLast_append_getLast? _ h2).symm⟩, ih h4⟩
      conv => lhs; rw [← List.take_append_drop t.length r]
      rw [← h1]

def txWorld : World := withExpr ppWorld (fun _ => false) (fun _ => 0)

def txText : Str := c!"!IF \"$(X)\"==\"1\" || DEFINED(Y)\n!ERROR no\n!ELSE\n" ++ exText ++ c!"!ENDIF\n"

def txBody : Tree .block :=
  .leaf [.inl <| ln c!".SUFFIXES: .c"] <| .leaf [.inl <| ln c!".c.obj:"] <| .leaf [.inl <| ln c!"\tcl $<"] <| .leaf [.inl <| ln c!"all: a.obj"] <|
  .leaf [.inl <| ln c!"\techo <<x", .inr c!"hello\n", .inr c!"<<KEEP\n"] <| .leaf [.inl <| ln []] <| .leaf [.inl <| ln c!".SILENT :"] <|
  .leaf [.inl <| ln c!"a.obj: ; -@cl"] <| .leaf [.inl <| ln []] .nil

def txTree : Tree .block :=
  .cond [ln c!"!IF \"$(X)\"==\"1\" || DEFINED(Y)"] (.leaf [.inl <| ln c!"!ERROR no"] .nil) (.alt [ln c!"!ELSE"] txBody (.endif [ln c!"!ENDIF"])) .nil

example : Consists txTree.lines txText := consists_of (by decide +kernel)

theorem leaf_one {t : Str} {r : Tree .block} {w : World} {stk : List TextFile} {o : List Makefile.Line} {c' : Cfg}
    (h1 : t.head? ≠ some '!') (h2 : macroDefinition t = none) (h3 : directiveOf [] t = .ok none) (h : Exec w stk {} r o c') :
    Exec w stk {} (.leaf [.inl <| ln t] r) (exLine t :: o) c' :=
  .leaf (o := [exLine t]) (o' := o) stk {} {} c' _ r (.text {} (ln t) [] h1 rfl (noDefinition_iff.2 h2) (directive_iff.2 h3) (by simp)) h

/-- The second branch counts. -/
theorem txExec : Exec txWorld [{ name := c!"m", dir := c!"d", rest := txText }] {} txTree exLines {} := by
  refine .condFalse (o := exLines) (o' := []) _ _ _ _ _ _ _ _ .if c!"\"\"==\"1\" || DEFINED(Y)" (reads_one rfl (w := c!"IF") (by decide +kernel) rfl) (.inl rfl)
    (condition_holds (by decide) (by decide +kernel)) ⟨⟨[ln c!"!ERROR no"], rfl, looks_one (e := c!"!ERROR no") (by decide +kernel)⟩, trivial⟩ ?_ (.nil _ _)
  refine .else _ _ _ _ _ _ _ [] [] (reads_one rfl (w := c!"ELSE") (by decide +kernel) rfl) (stable_one (by decide +kernel)) ?_
    (reads_one rfl (w := c!"ENDIF") (by decide +kernel) rfl)
  refine leaf_one (by decide) (by decide +kernel) (by decide +kernel) <| leaf_one (by decide) (by decide +kernel) (by decide +kernel) <|
    leaf_one (by decide) (by decide +kernel) (by decide +kernel) <| leaf_one (by decide) (by decide +kernel) (by decide +kernel) ?_
  refine .leaf (o := [exLine c!"\techo <<x", exInline c!"hello\n", exInline c!"<<KEEP\n"]) (o' := exLines.drop 7) _ {} {} {} _ _
    (.text {} (ln c!"\techo <<x") [c!"hello\n", c!"<<KEEP\n"] (by decide +kernel) rfl (noDefinition_iff.2 (by decide +kernel)) (directive_iff.2 (by decide +kernel)) ?_) ?_
  · intro t ht
    rcases List.mem_cons.1 ht with rfl | ht
    · exact ⟨by decide, directive_iff.2 (by decide +kernel)⟩
    · obtain rfl := List.mem_singleton.1 ht
      exact ⟨by decide, directive_iff.2 (by decide +kernel)⟩
  exact leaf_one (by decide) (by decide +kernel) (by decide +kernel) <| leaf_one (by decide) (by decide +kernel) (by decide +kernel) <|
    leaf_one (by decide) (by decide +kernel) (by decide +kernel) <| leaf_one (by decide) (by decide +kernel) (by decide +kernel) (.nil _ _)

/-- What is read from this makefile. -/
example : ∃ N e, ∀ fuel ≥ N, ∀ mk, Blocks.addBlocks fuel {} (Makefile.blocks exItems) = .ok mk → ∃ p,
    Whole.read txWorld fuel (fun _ _ => []) [] false true { files := [{ name := c!"m", dir := c!"d", rest := txText }] } = .ok p ∧
      p.table = mk ∧ Collected {} exItems e p := by
  obtain ⟨N, e, _, _, h⟩ := C82_text txExec (consists_of (by decide +kernel)) rfl rfl (entries := fun _ _ => []) (dir := []) (fl := {}) exLines_reads
  exact ⟨N, e, fun fuel hf => (h fuel hf).2⟩

example : (match Blocks.addBlocks 10 {} (Makefile.blocks exItems) with | .ok mk => (mk.target c!"ALL").map (·.name) | .error _ => none) = some c!"all" := by
  decide +kernel

/-- The targets of this makefile. -/
example : ∃ N, ∀ fuel ≥ N, ∃ p,
    Whole.read txWorld fuel (fun _ _ => []) [] false true { files := [{ name := c!"m", dir := c!"d", rest := txText }] } = .ok p ∧
    (p.table.target c!"A.OBJ").map (·.name) = some c!"a.obj" ∧ (p.table.first.bind p.table.target).map (·.name) = some c!"all" := by
  obtain ⟨N, h⟩ := C82_targets txExec (consists_of (by decide +kernel)) rfl rfl (entries := fun _ _ => []) (dir := []) (fl := {}) exLines_reads
    exSpec (by decide +kernel) exSpec_good.1
  refine ⟨N, fun fuel hf => ?_⟩
  obtain ⟨p, h1, h2, h3⟩ := (h fuel hf).2 exSpec_good.2
  refine ⟨p, h1, ?_, h3.trans (by decide +kernel)⟩
  have := congrArg (Option.map (·.name)) (h2 c!"A.OBJ")
  rw [Option.map_map] at this
  exact this.trans (by decide +kernel)

/-- The condition of this makefile in pieces: neither is `X` the text `1`, nor is `Y` defined. -/
example : ∃ ps, PiecesOk ps ∧ expandMacros [] c!"\"\"==\"1\" || DEFINED(Y)" = .ok (textOf ps) := by
  refine ⟨[(.string [], []), (.op 7, []), (.string c!"1", c!" "), (.op 4, c!" "), (.defined c!"DEFINED" [] ⟨[], false, c!"Y", []⟩, [])], ?_, by decide +kernel⟩
  refine ⟨⟨by decide, ?_⟩, by simp [Blanks], ⟨by decide, by decide, ?_⟩, by simp [Blanks], ⟨by decide, ?_⟩, by simp [Blanks], ⟨by decide, by decide, ?_⟩,
    by simp [Blanks], by simp [Piece.Ok, Arg.Ok, Arg.text, Blanks]; decide +kernel, by simp [Blanks], trivial⟩
  · intro r h; cases h
  · intro c r h; cases h; exact op_apart (by decide +kernel)
  · intro r h; cases h
  · intro c r h; cases h; exact op_apart (by decide +kernel)

/-- What the text of an inline file must not contain: a line that begins with the word `include` is taken for a directive even here.
The first makefile is refused since there is no file `m`; with a colon behind that word it is accepted. -/
theorem C82_inline_refuted :
    (match Parse.parse (Parse.ppSource ppWorld 50) (fun _ => []) 20 false true
        { files := [{ name := c!"m", dir := c!"d", rest := c!"all:\n\ttype <<x\ninclude m\n<<\n" }] } with
      | .error (.pp .fileNotFound) => true
      | _ => false) = true ∧
    (parsed c!"all:\n\ttype <<x\ninclude: m\n<<\n").isSome = true := by
  decide +kernel

end Jom.Props
