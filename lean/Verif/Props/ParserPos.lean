/- C104: an error of the parser names the line it is about. -/
import Verif.Proofs.ParserPos
import Verif.Proofs.PPPos
import Verif.Props.Positions

namespace Jom.Props

open Jom.Parse Jom.Spec.Makefile
open Jom.Rdr (Reader lineNumber openReader errorText)
open Jom.Spec.Rdr (LineOf)

/-- The exceptions of `Model/ParserPos.lean` are those of the parser, with the state in which they are thrown. -/
theorem C104_same {σ : Type} {S : Source σ} (glob : Str → List Str) (n : Nat) (silent stop : Bool) (s : σ) (e : PErr) :
    parse S glob n silent stop s = .error e ↔ ∃ s', Pos.parse S glob n silent stop s = .error (e, s') := by
  rw [← Pos.forget_parse]
  rcases Pos.parse S glob n silent stop s with ⟨e', s'⟩ | p
  · simp [Pos.forget]
  · simp [Pos.forget]

theorem pp_marked (w : PP.World) (fuel : Nat) : Pos.Marked (ppSource w fuel) := by
  intro inline s e h
  unfold ppSource at h
  simp only at h
  split at h
  · cases h
  · cases h; exact ⟨_, rfl⟩

/-- C104, for every way to read lines: a line that is not understood and a wrong macro invocation are reported while the line in question is
the one read last. -/
theorem C104_last_read {w : PP.World} {fuel : Nat} {glob : Str → List Str} {n : Nat} {silent stop : Bool} {s s' : PP.St} {e : PErr}
    (h : Pos.parse (ppSource w fuel) glob n silent stop s = .error (e, s')) (he : e = .syntax ∨ ∃ m, e = .macro m) :
    ∃ l, LastRead (ppSource w fuel) s s' l ∧ About s'.table.macros l e := by
  have := Pos.parse_sound (pp_marked w fuel) glob n silent stop s
  rw [h] at this
  exact this.1 he

theorem reached_in {σ : Type} {S : Source σ} {s s' : σ} (h : Reached S s s') : ∃ modes, ReachedIn S s modes s' := by
  induction h with
  | start => exact ⟨[], .start⟩
  | next _ hn ih =>
    obtain ⟨modes, ih⟩ := ih
    exact ⟨_, .next ih hn⟩

theorem pp_next {w : PP.World} {fuel : Nat} {inline : Bool} {x : Option Str} {s1 s2 : PP.St}
    (hn : (ppSource w fuel).next inline s1 = .ok (x, s2)) : PP.readLine w fuel { s1 with inline := inline } = .ok (x, s2) := by
  unfold ppSource at hn
  simp only at hn
  split at hn
  next r hr => rw [hr, Except.ok.inj hn]
  · cases hn

theorem pp_next_error {w : PP.World} {fuel : Nat} {inline : Bool} {e : PP.Err} {s1 : PP.St}
    (hn : (ppSource w fuel).next inline s1 = .error (.pp e)) : PP.readLine w fuel { s1 with inline := inline } = .error e := by
  unfold ppSource at hn
  simp only at hn
  split at hn
  · cases hn
  next e' he' =>
    rw [he']
    cases hn
    rfl

/-- While a makefile is read, nothing stays put back, and the readers are those of the files. -/
theorem reached_synced {w : PP.World} {uni : Str → Bool} {k : Str → Nat} (hk : ∀ d, d ≠ [] → 0 < k d) {fuel : Nat} {s s' : PP.St}
    (hp : s.putBack = []) {rs : List Reader} (hrs : SyncAll w uni s.files rs) {modes : List Bool} (h : ReachedIn (ppSource w fuel) s modes s')
    (hi : true ∈ modes → ∀ name, uni name = false) :
    s'.putBack = [] ∧ ∃ rs', Moves w uni k s.files rs s'.files rs' ∧ SyncAll w uni s'.files rs' := by
  induction h with
  | start => exact ⟨hp, rs, .refl, hrs⟩
  | @next modes inline x s1 s2 _ hn ih =>
    obtain ⟨h1, rs1, h2, h3⟩ := ih fun hm => hi (List.mem_append_left _ hm)
    have hn := pp_next hn
    have := PP.Pos.readLineF_told (w := w) (uni := uni) (s := { s1 with inline := inline }) hk fuel {} ⟨rs1, h2, ⟨h3, fun e => hi (by rw [← e]; simp)⟩, .inl h1⟩
    rw [← PP.Pos.forget_readLine] at hn
    unfold PP.Pos.readLine at hn
    generalize PP.Pos.readLineF w fuel {} { s1 with inline := inline } = z at hn this
    rcases z with x' | y
    · cases hn
    · cases hn
      obtain ⟨⟨rs', a, b, _⟩, c⟩ := this
      exact ⟨c, rs', a, b.1⟩

/-- C104. The file name and line number shown with a syntax error or a wrong macro invocation are those of the line the error is about (of its last
part if it is continued), also behind included files and inline files; unless the makefile has ended within that line, or lines of inline files
have been read from Unicode makefiles. -/
theorem C104_position {w : PP.World} {uni : Str → Bool} {k : Str → Nat} (hk : ∀ d, d ≠ [] → 0 < k d) {fuel : Nat} {glob : Str → List Str} {n : Nat}
    {silent stop : Bool} {s s' : PP.St} {e : PErr} (hp : s.putBack = []) {rs : List Reader} (hrs : SyncAll w uni s.files rs)
    (h : Pos.parse (ppSource w fuel) glob n silent stop s = .error (e, s')) (he : e = .syntax ∨ ∃ m, e = .macro m) :
    ∃ l modes s0 inline, About s'.table.macros l e ∧ ReachedIn (ppSource w fuel) s modes s0 ∧ (ppSource w fuel).next inline s0 = .ok (some l, s') ∧
      ((true ∈ modes ++ [inline] → ∀ name, uni name = false) →
        ∃ rs', Moves w uni k s.files rs s'.files rs' ∧ SyncAll w uni s'.files rs' ∧ (rs' = [] ∨ Shows w rs' s'.inline l)) := by
  obtain ⟨l, ⟨inline, s0, h1, h2⟩, h3⟩ := C104_last_read h he
  obtain ⟨modes, h1⟩ := reached_in h1
  refine ⟨l, modes, s0, inline, h3, h1, h2, fun hi => ?_⟩
  obtain ⟨g1, rs1, g2, g3⟩ := reached_synced hk hp hrs h1 fun hm => hi (List.mem_append_left _ hm)
  obtain ⟨rs2, k1, k2, _, k3⟩ := C89_line hk fuel { s0 with inline := inline } s' (some l) (pp_next h2) (by simp [PutBackOk, g1]) rs1
    ⟨g3, fun e => hi (by simp [← e])⟩
  refine ⟨rs2, g2.trans k1, k2.1, ?_⟩
  rcases k3 with k3 | ⟨text, e, k3⟩
  · exact .inl k3
  · cases e
    exact .inr k3

/-! ### Errors of the preprocessor -/

/-- The exceptions of `Model/PPPos.lean` are those of the preprocessor, with the state in which they are thrown. -/
theorem C104_same_pp (w : PP.World) (fuel : Nat) (s : PP.St) (e : PP.Err) :
    PP.readLine w fuel s = .error e ↔ ∃ s', PP.Pos.readLine w fuel s = .error (e, s') := by
  rw [← PP.Pos.forget_readLine]
  rcases PP.Pos.readLine w fuel s with ⟨e', s'⟩ | p
  · simp [PP.Pos.forget]
  · simp [PP.Pos.forget]

/-- C104 for one call of the preprocessor: the line shown with an error is one in which, as it is written or once expanded, that is wrong. Only
`Missing !ENDIF` has no line. (`fuel` is no error of the program: C19.) -/
theorem C104_preprocessor {w : PP.World} {uni : Str → Bool} {k : Str → Nat} (hk : ∀ d, d ≠ [] → 0 < k d) {fuel : Nat} {s s' : PP.St} {e : PP.Err}
    (h : PP.Pos.readLine w fuel s = .error (e, s')) (he : e ≠ .missingEndif) (hf : e ≠ .fuel) (hp : s.putBack = []) {rs : List Reader}
    (hrs : Synced w uni s rs) :
    ∃ text rs', Moves w uni k s.files rs s'.files rs' ∧ Synced w uni s' rs' ∧ Jom.Spec.Faulty w s'.table text e ∧
      (rs' = [] ∨ ∃ t, Shows w rs' s'.inline t ∧ (text = t ∨ Jom.Spec.Expanded s'.table.macros t text)) := by
  have := PP.Pos.readLineF_told (w := w) (uni := uni) (fs0 := s.files) (rs0 := rs) hk fuel {} ⟨rs, .refl, hrs, .inl hp⟩
  rw [show PP.Pos.readLineF w fuel {} s = .error (e, s') from h] at this
  rcases this with this | this | ⟨text, ⟨rs', a, b, c⟩, d⟩
  · exact absurd this hf
  · exact absurd this he
  · refine ⟨text, rs', a, b, d, ?_⟩
    rcases c with c | c | ⟨t, c, c'⟩
    · exact .inl c
    · exact .inr ⟨text, c, .inl rfl⟩
    · exact .inr ⟨t, c, .inr c'⟩

/-- C104 for the errors of the preprocessor while a makefile is parsed: a directive that is unknown, not expected or fails, a file that cannot be
included, a condition that is no expression, a wrong definition and a wrong macro invocation are reported with file name and line number of (the last
part of) the line they are in, also if that line is only skipped. -/
theorem C104_directives {w : PP.World} {uni : Str → Bool} {k : Str → Nat} (hk : ∀ d, d ≠ [] → 0 < k d) {fuel : Nat} {glob : Str → List Str} {n : Nat}
    {silent stop : Bool} {s : PP.St} {e : PP.Err} (hp : s.putBack = []) {rs : List Reader} (hrs : SyncAll w uni s.files rs)
    (h : parse (ppSource w fuel) glob n silent stop s = .error (.pp e)) (he : e ≠ .missingEndif) (hf : e ≠ .fuel) :
    ∃ s1 s' modes inline, ReachedIn (ppSource w fuel) s modes s1 ∧ PP.Pos.readLine w fuel { s1 with inline := inline } = .error (e, s') ∧
      ((true ∈ modes ++ [inline] → ∀ name, uni name = false) →
        ∃ text rs', Moves w uni k s.files rs s'.files rs' ∧ SyncAll w uni s'.files rs' ∧ Jom.Spec.Faulty w s'.table text e ∧
          (rs' = [] ∨ ∃ t, Shows w rs' s'.inline t ∧ (text = t ∨ Jom.Spec.Expanded s'.table.macros t text))) := by
  obtain ⟨s1, h1⟩ := (C104_same glob n silent stop s (.pp e)).1 h
  have := Pos.parse_sound (pp_marked w fuel) glob n silent stop s
  rw [h1] at this
  obtain ⟨h2, inline, h3⟩ := this.2 e rfl
  obtain ⟨modes, h2⟩ := reached_in h2
  obtain ⟨s', h4⟩ := (C104_same_pp w fuel _ e).1 (pp_next_error h3)
  refine ⟨s1, s', modes, inline, h2, h4, fun hi => ?_⟩
  obtain ⟨g1, rs1, g2, g3⟩ := reached_synced hk hp hrs h2 fun hm => hi (List.mem_append_left _ hm)
  obtain ⟨text, rs', a, b, c, d⟩ := C104_preprocessor hk h4 he hf g1 ⟨g3, fun e => hi (by simp [← e])⟩
  exact ⟨text, rs', g2.trans a, b.1, c, d⟩

/-! ### Examples: the hypotheses of `C104_position` -/

def wrongWorld (text : Str) : PP.World :=
  { find := fun p => if p = c!"/i" then some p else none,
    content := fun p => if p = c!"/m" then some text else if p = c!"/i" then some c!"A = 1\nno head\n" else none,
    dir := fun _ => [], eval := fun _ _ => none }

def wrongState (text : Str) : PP.St := { files := [{ name := c!"/m", dir := [], rest := text }] }

theorem wrong_sync (text : Str) (u : Bool) : (wrongState text).putBack = [] ∧
    SyncAll (wrongWorld text) (fun _ => u) (wrongState text).files [openReader c!"/m" u text] :=
  ⟨rfl, .cons ⟨rfl, rfl, rfl, text, rfl, openReader_placed _ _ _⟩ .nil⟩

/-- The error of the makefile and what is left to read then. -/
def wrong (text : Str) : Option (PErr × List Str) :=
  match Pos.parse (ppSource (wrongWorld text) 40) (fun _ => []) 40 false true (wrongState text) with
  | .error (e, s) => some (e, s.files.map fun f => f.rest)
  | .ok _ => none

/-- A line that is not understood, in an included file. -/
example : wrong c!"aa: b\n\tx\n!INCLUDE /i\nbb: c\n" = some (.syntax, [[], c!"bb: c\n"]) := by decide +kernel

/-- A wrong macro invocation: the comment takes the closing parenthesis away. -/
example : wrong c!"aa: b\n\tx <<f\none\n<<\nbb: $(A#)\ncc: d\n" = some (.macro .noClosing, [c!"cc: d\n"]) := by decide +kernel

/-- The error of the preprocessor and what is left to read then. -/
def wrongDirective (text : Str) : Option (PP.Err × List Str) :=
  match PP.Pos.readLine (wrongWorld text) 40 (wrongState text) with
  | .error (e, s) => some (e, s.files.map fun f => f.rest)
  | .ok _ => none

/-- `Parser` stops with an error of the preprocessor: the hypotheses of `C104_directives`. -/
example : (match parse (ppSource (wrongWorld c!"aa: b\n\tx\n!FOO\nbb: c\n") 40) (fun _ => []) 40 false true
      (wrongState c!"aa: b\n\tx\n!FOO\nbb: c\n") with
    | .error (.pp (.unknownDirective d)) => decide (d = c!"FOO")
    | _ => false) = true := by decide +kernel

/-- An alternative that ends the skipping and has a wrong condition. -/
example : wrongDirective c!"B = x\n!IFDEF A\nq\n!ELSEIF $(B) +\nr\n!ENDIF\n" = some (.expression, [c!"r\n!ENDIF\n"]) := by decide +kernel

/-- A wrong macro invocation in a line that is skipped. -/
example : wrongDirective c!"!IFDEF A\nq\n$(B\nr\n!ENDIF\n" = some (.macro .noClosing, [c!"r\n!ENDIF\n"]) := by decide +kernel

/-- A directive on two lines whose file is not there. -/
example : wrongDirective c!"!INCLUDE \\\n/j\nr\n" = some (.fileNotFound, [c!"r\n"]) := by decide +kernel

/-! ### `:` and `::` for one target -/

/-- The third line is wrong. -/
def mixedText : Str := c!"aa: b\n\tx\naa:: c\n\ty\n\ndd: e\nff: g\n"

def mixedWorld : PP.World :=
  { find := fun _ => none, content := fun p => if p = c!"/m" then some mixedText else none, dir := fun _ => [], eval := fun _ _ => none }

def mixedState : PP.St := { files := [{ name := c!"/m", dir := [], rest := mixedText }] }

/-- What is left to read when the error is thrown. -/
def mixedRest : List PP.TextFile := [{ name := c!"/m", dir := [], rest := c!"ff: g\n" }]

/-- The outcome is the error `.mixed`, and the files are then `mixedRest`. -/
def isMixed : Except (Pos.Thrown PP.St) (PSt PP.St) → Bool
  | .error (.block .mixed, s) => decide (s.files = mixedRest)
  | _ => false

theorem count_of_rest {text rest p : Str} (h : text = p ++ rest) (p' : Str) (h' : text = p' ++ rest) : p = p' :=
  List.append_cancel_right (h.symm.trans h')

/-- C104, negation for `:` and `::`: the error is thrown when the commands and the line behind them have been read, so the message names the sixth line
instead of the third. -/
theorem C104_mixed_refuted :
    (∃ s', Pos.parse (ppSource mixedWorld 30) (fun _ => []) 30 false true mixedState = .error (.block .mixed, s') ∧
      ∀ uni rs, SyncAll mixedWorld uni s'.files rs → lineNumber rs = 6) ∧
    LineOf mixedText 3 c!"aa:: c" ∧ LineOf mixedText 6 c!"dd: e" := by
  have hm : isMixed (Pos.parse (ppSource mixedWorld 30) (fun _ => []) 30 false true mixedState) = true := by decide +kernel
  refine ⟨?_, ?_, ?_⟩
  · generalize Pos.parse (ppSource mixedWorld 30) (fun _ => []) 30 false true mixedState = x at hm
    unfold isMixed at hm
    split at hm
    case h_2 => cases hm
    next s' =>
    refine ⟨s', rfl, fun uni rs h => ?_⟩
    rw [of_decide_eq_true hm] at h
    cases h with
    | @cons f r fs rs h hrest =>
      obtain ⟨h1, h2, h3, text, h4, h5, h6⟩ := h
      have ht : text = mixedText := by
        have : some mixedText = some text := h4
        exact (Option.some.inj this).symm
      rw [h3] at h6
      rcases h6 with h6 | ⟨p, h6, _, h7⟩
      · exact absurd h6 (by decide)
      · have := count_of_rest (rest := c!"ff: g\n") h6 c!"aa: b\n\tx\naa:: c\n\ty\n\ndd: e\n" (by rw [ht]; decide +kernel)
        show r.line = 6
        rw [h7, this]
        decide +kernel
  · refine ⟨c!"aa: b\n\tx\n", c!"\n\ty\n\ndd: e\nff: g\n", by decide +kernel, by decide +kernel, by decide +kernel, by decide +kernel, by decide +kernel⟩
  · refine ⟨c!"aa: b\n\tx\naa:: c\n\ty\n\n", c!"\nff: g\n", by decide +kernel, by decide +kernel, by decide +kernel, by decide +kernel, by decide +kernel⟩

end Jom.Props
