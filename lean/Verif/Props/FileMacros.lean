/-
Properties of file name macros: C51, C61.
-/
import Verif.Proofs.FileMacros
import Verif.Props.CommandExec

namespace Jom.Props

open Spec.FileMacro FileMacro
open Inference (Command InlineFile)

/-- **C51**, as far as it holds: a text of a command consists of literal pieces and references `$@`, `$*`, `$**`, `$?`, with or
without parentheses, with an optional part (D, B, F, R) and an optional substitution. The expansion of macros and then of
file name macros gives the text with every reference replaced by the names it stands for and everything else unchanged, for
every target, all dependents and all times of files, also for the single dependent of a command with `!`.
Missing (see `Fine`): each of the conditions excludes cases in which the result is wrong: `C51_paren_refuted`,
`C51_stray_refuted`, `C51_adjacent_refuted`, `C51_caret_refuted`, `C51_loop_refuted`. -/
theorem C51_partial (mac : Macros) (t : Target) (dep : Option Nat) (d : Option Str) (hd : DepIs t dep d) (ps : List Piece)
    (hs : ∀ s, .text s ∈ ps → '$' ∉ s) (hr : ∀ r, .ref r ∈ ps → r.Plain) (hf : Fine magicEscape t d [] ps)
    (n : Nat) (hn : refs ps < n) :
    ∃ text, expandMacros mac (render '$' ps) = .ok text ∧ expandText (tgt t) dep false n text = .ok (meaning t d ps) :=
  ⟨_, expand_dollar mac false ps hs hr, loop_eq hd false ps [] 0 n (fun _ _ h => by cases h) hf (by simp) (.inl (by simp)) hn⟩

/-- **C51** for the dependents of a target: `$@` and `$*` (written `$$@` in the makefile) are replaced there. -/
theorem C51_dependents_partial (t : Target) (ps : List Piece) (ha : ∀ r, .ref r ∈ ps → r.kind = .target ∨ r.kind = .stem)
    (hf : Fine magicEscape t none [] ps) (n : Nat) (hn : refs ps < n) :
    expandText (tgt t) none true n (render magicEscape ps) = .ok (meaning t none ps) :=
  loop_eq (.inl ⟨rfl, rfl⟩) true ps [] 0 n (fun r h _ => ha r h) hf (by simp) (.inl (by simp)) hn

/-- The first reference to dependents among the dependents is an error. -/
theorem C51_forbidden (t : Target) (s rest : Str) (hs : magicEscape ∉ s) (hc : s.getLast? ≠ some '^') (n : Nat) :
    expandText (tgt t) none true (n + 1) (s ++ magicEscape :: '*' :: '*' :: rest) = .error .forbidden ∧
    expandText (tgt t) none true (n + 1) (s ++ magicEscape :: '?' :: rest) = .error .forbidden := by
  have key : ∀ x : Str, replaceAt (tgt t) none true (s ++ magicEscape :: x) s.length = .error .forbidden →
      expandText (tgt t) none true (n + 1) (s ++ magicEscape :: x) = .error .forbidden := by
    intro x hx
    unfold expandText
    rw [loop]
    have hidx : indexOfFrom? [magicEscape] (s ++ magicEscape :: x) 0 = some s.length := by
      unfold indexOfFrom?
      rw [if_pos (by simp), List.drop_zero, indexOf?_char hs]; rfl
    rw [hidx]
    have hcar : ¬ (0 < s.length ∧ (s ++ magicEscape :: x)[s.length - 1]? = some '^') := by
      rintro ⟨h0, h⟩
      rw [List.getElem?_append_left (by omega)] at h
      exact hc (by rw [List.getLast?_eq_getElem?]; exact h)
    simp only [hcar, if_false]
    rw [hx]; rfl
  have hd : ∀ x : Str, (s ++ magicEscape :: x).drop (s.length + 1) = x := by
    intro x
    rw [show s ++ magicEscape :: x = (s ++ [magicEscape]) ++ x by simp, List.drop_left' (by simp)]
  refine ⟨key _ ?_, key _ ?_⟩ <;> unfold replaceAt <;> rw [hd] <;> simp [macroValues, bind, Except.bind]

/-! The parts of a name -/

theorem beforeLast_append (c : Char) (a b : Str) (h : c ∉ b) : beforeLast c (a ++ c :: b) = some a := by
  rw [beforeLast_eq, lastIndexOf?_last h]; simp

theorem fileOf_append (a b : Str) (h1 : '/' ∉ b) (h2 : '\\' ∉ b) : fileOf (a ++ '\\' :: b) = b := by
  rw [← fileOf_eq]
  have := fileName_eq (pre := a ++ ['\\']) (file := b) (.inr ⟨a, '\\', rfl, rfl⟩) (by
    intro c hc
    unfold isSep
    simp only [Bool.or_eq_false_iff, beq_eq_false_iff_ne]
    exact ⟨by rintro rfl; exact h1 hc, by rintro rfl; exact h2 hc⟩)
  simpa using this

/-- **C51**, the parts: for a name `dir\base.ext` with one dot behind the directory, D is the directory, B the base name, F the
name of the file and R the name without extension. -/
theorem C51_parts_partial (dir base ext : Str) (hb : ∀ c ∈ base, c ≠ '/' ∧ c ≠ '\\' ∧ c ≠ '.')
    (he : ∀ c ∈ ext, c ≠ '/' ∧ c ≠ '\\' ∧ c ≠ '.') :
    Part.dir.of (dir ++ '\\' :: (base ++ '.' :: ext)) = dir ∧
    Part.base.of (dir ++ '\\' :: (base ++ '.' :: ext)) = base ∧
    Part.file.of (dir ++ '\\' :: (base ++ '.' :: ext)) = base ++ '.' :: ext ∧
    Part.root.of (dir ++ '\\' :: (base ++ '.' :: ext)) = dir ++ '\\' :: base := by
  have h1 : '/' ∉ base ++ '.' :: ext := by
    simp only [List.mem_append, List.mem_cons, not_or]
    exact ⟨fun h => (hb _ h).1 rfl, by decide, fun h => (he _ h).1 rfl⟩
  have h2 : '\\' ∉ base ++ '.' :: ext := by
    simp only [List.mem_append, List.mem_cons, not_or]
    exact ⟨fun h => (hb _ h).2.1 rfl, by decide, fun h => (he _ h).2.1 rfl⟩
  have h3 : fileOf (dir ++ '\\' :: (base ++ '.' :: ext)) = base ++ '.' :: ext := fileOf_append _ _ h1 h2
  refine ⟨?_, ?_, h3, ?_⟩
  · show (beforeLast '\\' _).getD ['.'] = dir
    rw [beforeLast_append _ _ _ h2]; rfl
  · show (fileOf _).takeWhile (· ≠ '.') = base
    rw [h3]
    rw [List.takeWhile_append_of_pos (by intro c hc; simpa using (hb c hc).2.2)]
    simp
  · show (beforeLast '.' _).getD _ = _
    rw [show dir ++ '\\' :: (base ++ '.' :: ext) = (dir ++ '\\' :: base) ++ '.' :: ext by simp,
      beforeLast_append _ _ _ fun h => (he _ h).2.2 rfl]
    rfl

/-- Without a directory, D is the current directory. -/
theorem C51_no_dir (v : Str) (h : '\\' ∉ v) : Part.dir.of v = ['.'] := by
  show (beforeLast '\\' v).getD ['.'] = ['.']
  simp [beforeLast, h]

/-- **C51 refuted**, base names: B ends at the first dot, R at the last one. B of `a.b.c` is not the name of the file without
extension. -/
theorem C51_base_refuted : Part.base.of c!"lib.v1.dll" = c!"lib" ∧ Part.file.of (Part.root.of c!"lib.v1.dll") = c!"lib.v1" := by
  decide +kernel

/-- **C51 refuted**, names without extension in a directory with a dot: `$*` and R cut off the name of the file. -/
theorem C51_stem_refuted (time : Str → Nat) : Kind.names { name := c!"out.d\\prog", deps := [], time := time } none .stem = [c!"out"] ∧
    Part.root.of c!"out.d\\prog" = c!"out" :=
  ⟨rfl, by decide +kernel⟩

/-! Cases -/

/-- A target with two dependents, the first one is newer. -/
def exTgt : Target where
  name := c!"out\\prog.exe"
  deps := [c!"a.obj", c!"my lib\\b.obj"]
  time := fun x => if x = c!"a.obj" then 7 else 3

/-- `link $** /out:$@ $(@D) $(**F:obj=o) $?` -/
def exMacroText : List Piece :=
  [.text c!"link ", .ref (.bare .all), .text c!" /out:", .ref (.bare .target), .text c!" ", .ref (.paren .target (some .dir) none),
    .text c!" ", .ref (.paren .all (some .file) (some (c!"obj", c!"o"))), .text c!" ", .ref (.bare .newer)]

example : render '$' exMacroText = c!"link $** /out:$@ $(@D) $(**F:obj=o) $?" := by decide +kernel
example : meaning exTgt none exMacroText = c!"link a.obj \"my lib\\b.obj\" /out:out\\prog.exe out a.o b.o a.obj \"my lib\\b.obj\"" := by
  decide +kernel
example : (expandMacros [] (render '$' exMacroText)).toOption.map (expandText (tgt exTgt) none false 9) =
    some (.ok (meaning exTgt none exMacroText)) := by decide +kernel

/-- A case for `C51_partial`. -/
example : Fine magicEscape exTgt none [] exMacroText := by
  unfold exMacroText
  repeat' apply And.intro
  all_goals first
    | trivial
    | decide +kernel
    | (intro k h; cases h; done)
    | (intro k p s _ h; exact absurd h (by decide +kernel))
    | (intro h; exact absurd h (by decide +kernel))
    | (show ∀ c ∈ c!"obj" ++ c!"o", c ≠ '=' ∧ c ≠ ')' ∧ c ≠ '^'; decide +kernel)

/-- **C51 refuted**, parentheses without a part: the character behind the `)` is lost. Here it is the blank between the names of
object files and the option. -/
theorem C51_paren_refuted :
    (expandMacros [] c!"link $(**) /out:$(@) $@").toOption.map (expandText { name := c!"p", deps := [c!"a.obj"], time := fun _ => 0 } none false 9) =
      some (.ok c!"link a.obj/out:pp") := by decide +kernel

/-- **C51 refuted**, parts of nothing: if there are no dependents, the `)` stays. -/
theorem C51_stray_refuted :
    (expandMacros [] c!"echo $(**F) $(?D:a=b)").toOption.map (expandText { name := c!"p", deps := [], time := fun _ => 0 } none false 9) =
      some (.ok c!"echo ) :a=b)") := by decide +kernel

/-- **C51 refuted**, references next to each other: if the first one stands for nothing, the second one is not expanded. The
command gets the escape character. -/
theorem C51_adjacent_refuted :
    (expandMacros [] c!"echo $**$@").toOption.map (expandText { name := c!"p", deps := [], time := fun _ => 0 } none false 9) =
      some (.ok (c!"echo " ++ [magicEscape, '@'])) := by decide +kernel

/-- **C51 refuted**, a caret in front: the reference is not expanded and the command gets the escape character. -/
theorem C51_caret_refuted :
    (expandMacros [] c!"echo ^$@").toOption.map (expandText { name := c!"p", deps := [], time := fun _ => 0 } none false 9) =
      some (.ok (c!"echo ^" ++ [magicEscape, '@'])) := by decide +kernel

/-- **C51 refuted**, quotes: a name with blanks in it is quoted, also within quotes. -/
theorem C51_quotes_refuted :
    (expandMacros [] c!"del \"$@\"").toOption.map (expandText { name := c!"my prog", deps := [], time := fun _ => 0 } none false 9) =
      some (.ok c!"del \"\"my prog\"\"") := by decide +kernel

/-- **C51 refuted**, `$<` outside of inference rules is replaced by `<`. -/
theorem C51_lt_refuted :
    (expandMacros [] c!"cl $<").toOption.map (expandText { name := c!"p", deps := [c!"a"], time := fun _ => 0 } none false 9) =
      some (.ok c!"cl <") := by decide +kernel

/-- The name of the target of the rule `x$@: …`. -/
def loopName : Str := ['x', magicEscape, '@']

example : expandMacros [] c!"x$@" = .ok loopName := by decide +kernel

/-- **C51 refuted**, termination: in the commands of the target written `x$@` the expansion of `$@` never ends. -/
theorem C51_loop_refuted (deps : List Str) (time : Str → Nat) (n : Nat) :
    expandText { name := loopName, deps := deps, time := time } none false n [magicEscape, '@'] = .error .fuel := by
  have key : ∀ (n k i : Nat), i ≤ k →
      loop { name := loopName, deps := deps, time := time } none false n (List.replicate k 'x' ++ [magicEscape, '@']) i = .error .fuel := by
    intro n
    induction n with
    | zero => intro k i _; rfl
    | succ n ih =>
      intro k i hi
      rw [loop]
      have hidx : indexOfFrom? [magicEscape] (List.replicate k 'x' ++ [magicEscape, '@']) i = some k := by
        unfold indexOfFrom?
        rw [if_pos (by simp; omega), List.drop_append_of_le_length (by simpa using hi), indexOf?_char]
        · simp; omega
        · intro h
          have := (List.mem_replicate.1 (List.mem_of_mem_drop h)).2
          exact absurd this (by decide)
      rw [hidx]
      have hcar : ¬ (0 < k ∧ (List.replicate k 'x' ++ [magicEscape, '@'])[k - 1]? = some '^') := by
        rintro ⟨h0, h⟩
        rw [List.getElem?_append_left (by simp; omega), List.getElem?_replicate] at h
        rw [if_pos (by omega)] at h
        exact absurd h (by decide)
      simp only [hcar, if_false]
      have hrep : replaceAt { name := loopName, deps := deps, time := time } none false (List.replicate k 'x' ++ [magicEscape, '@']) k =
          .ok (some (List.replicate (k + 1) 'x' ++ [magicEscape, '@'])) := by
        unfold replaceAt
        have e1 : (List.replicate k 'x' ++ [magicEscape, '@']).drop (k + 1) = ['@'] := by
          rw [List.drop_append]; simp
        have e2 : (List.replicate k 'x' ++ [magicEscape, '@']).take k = List.replicate k 'x' := by
          rw [List.take_left' (by simp)]
        rw [e1]
        simp only [macroValues, if_true, bind, Except.bind, show ('@' = '(') = False by simp, if_false]
        simp only [List.isEmpty_cons, Bool.false_eq_true, if_false, e2]
        rw [List.drop_of_length_le (by simp)]
        simp [join, loopName, Exec.quoteName, List.replicate_succ', magicEscape]
      rw [hrep]
      exact ih (k + 1) (k + 1) (Nat.le_refl _)
  exact key n 0 0 (Nat.le_refl _)

/-! ### C61: commands for each dependent -/

/-- A command as it is written: its line and its inline files, with references. -/
structure Written where
  line : List Piece
  files : List (List Piece × List Piece × Bool × Bool)

/-- The inline files before the expansion: name, content, KEEP, UNICODE. -/
def Written.raw (w : Written) : List InlineFile :=
  w.files.map fun f => { filename := render magicEscape f.1, content := render magicEscape f.2.1, keep := f.2.2.1, unicode := f.2.2.2 }

/-- The inline files as they are meant. -/
def Written.meant (w : Written) (t : Target) (d : Option Str) : List InlineFile :=
  w.files.map fun f => { filename := meaning t d f.1, content := meaning t d f.2.1, keep := f.2.2.1, unicode := f.2.2.2 }

/-- All texts of a command. -/
def Written.texts (w : Written) : List (List Piece) := w.line :: w.files.flatMap fun f => [f.1, f.2.1]

theorem expandFiles_eq {t : Target} {dep : Option Nat} {d : Option Str} (hd : DepIs t dep d) (n : Nat) :
    ∀ (l : Str) (fs : List (List Piece × List Piece × Bool × Bool)),
    (∀ ps ∈ fs.flatMap fun f => [f.1, f.2.1], refs ps < n ∧ Fine magicEscape t d [] ps) →
    expandFiles (tgt t) dep n (Written.raw ⟨[.text l], fs⟩) = .ok (Written.meant ⟨[.text l], fs⟩ t d) := by
  intro l fs
  induction fs with
  | nil => intro _; rfl
  | cons f fs ih =>
    intro h
    have h1 := h f.1 (by simp)
    have h2 := h f.2.1 (by simp)
    have e : ∀ ps, refs ps < n ∧ Fine magicEscape t d [] ps → expandText (tgt t) dep false n (render magicEscape ps) = .ok (meaning t d ps) :=
      fun ps hp => loop_eq hd false ps [] 0 n (fun _ _ h => by cases h) hp.2 (by simp) (.inl (by simp)) hp.1
    have ih := ih (fun ps hp => h ps (by rw [List.flatMap_cons]; exact List.mem_append_right _ hp))
    simp only [Written.raw, Written.meant, List.map_cons, expandFiles] at ih ⊢
    rw [e _ h1, e _ h2, ih]
    rfl

theorem expandCommand_eq {t : Target} {dep : Option Nat} {d : Option Str} (hd : DepIs t dep d) (n : Nat) (c : Command) (w : Written)
    (hl : c.cmd.line = render magicEscape w.line) (hfiles : c.files = w.raw) (h : ∀ ps ∈ w.texts, refs ps < n ∧ Fine magicEscape t d [] ps) :
    expandCommand (tgt t) dep n c = .ok { cmd := { c.cmd with line := meaning t d w.line }, files := w.meant t d } := by
  have h1 := h w.line (by simp [Written.texts])
  have : expandText (tgt t) dep false n (render magicEscape w.line) = .ok (meaning t d w.line) :=
    loop_eq hd false w.line [] 0 n (fun _ _ h => by cases h) h1.2 (by simp) (.inl (by simp)) h1.1
  have hf := expandFiles_eq hd n [] w.files (fun ps hp => h ps (List.mem_cons_of_mem _ hp))
  have hf : expandFiles (tgt t) dep n w.raw = .ok (w.meant t d) := hf
  unfold expandCommand
  rw [hl, hfiles, this, hf]
  rfl

theorem expandEach_eq (t : Target) (n : Nat) (c : Command) (w : Written) (hl : c.cmd.line = render magicEscape w.line)
    (hfiles : c.files = w.raw) (hf : ∀ d ∈ t.deps, ∀ ps ∈ w.texts, refs ps < n ∧ Fine magicEscape t (some d) [] ps) :
    ∀ (k i : Nat), k + i = t.deps.length → expandEach (tgt t) n c k i =
      .ok ((t.deps.drop i).map fun d =>
        { cmd := { c.cmd with line := meaning t (some d) w.line, singleExecution := false }, files := w.meant t (some d) }) := by
  intro k
  induction k with
  | zero => intro i hi; simp [expandEach, show t.deps.length ≤ i by omega]
  | succ k ih =>
    intro i hi
    have hlt : i < t.deps.length := by omega
    have hg := List.getElem?_eq_getElem hlt
    rw [expandEach, ih (i + 1) (by omega)]
    rw [expandCommand_eq (t := t) (dep := some i) (d := some t.deps[i]) (.inr ⟨i, _, rfl, rfl, hg⟩) n
      { c with cmd := { c.cmd with singleExecution := false } } w hl hfiles (hf _ (List.getElem_mem hlt))]
    rw [List.drop_eq_getElem_cons hlt]
    rfl

/-- **C61**, as far as it holds: a command with the modifier `!` is executed once for every dependent, in order, with `$**` standing
for this dependent, in its line and in the names and contents of its inline files. Missing: a command that does not refer to the
dependents (`C61_once_refuted`), `$?` (`C61_newer_refuted`). -/
theorem C61_each_partial (t : Target) (n : Nat) (c : Command) (w : Written) (hsingle : c.cmd.singleExecution = true)
    (hl : c.cmd.line = render magicEscape w.line) (hfiles : c.files = w.raw)
    (hf : ∀ d ∈ t.deps, ∀ ps ∈ w.texts, refs ps < n ∧ Fine magicEscape t (some d) [] ps) :
    expandCommands (tgt t) n [c] = .ok (t.deps.map fun d =>
      { cmd := { c.cmd with line := meaning t (some d) w.line, singleExecution := false }, files := w.meant t (some d) }) := by
  simp only [expandCommands, hsingle, if_true, bind, Except.bind]
  rw [show (tgt t).deps.length = t.deps.length from rfl, expandEach_eq t n c w hl hfiles hf _ 0 (by omega)]
  simp

/-- The commands of a list are expanded independently of each other, in order. -/
theorem C61_append (t : Tgt) (n : Nat) : ∀ (a b : List Command), expandCommands t n (a ++ b) =
    (do let x ← expandCommands t n a; let y ← expandCommands t n b; .ok (x ++ y)) := by
  intro a
  induction a with
  | nil =>
    intro b
    simp only [List.nil_append, expandCommands, bind, Except.bind]
    cases expandCommands t n b <;> rfl
  | cons c a ih =>
    intro b
    simp only [List.cons_append, expandCommands]
    rw [ih]
    generalize (if c.cmd.singleExecution = true then expandEach t n c t.deps.length 0
      else (do let c' ← expandCommand t none n c; .ok [c'])) = x
    simp only [bind, Except.bind]
    cases x with
    | error e => rfl
    | ok x =>
      cases expandCommands t n a with
      | error e => rfl
      | ok y =>
        cases expandCommands t n b with
        | error e => rfl
        | ok z => simp

/-- A command without `!` stays one command; its line and its inline files are expanded. -/
theorem C61_other (t : Target) (n : Nat) (c : Command) (w : Written) (hsingle : c.cmd.singleExecution = false)
    (hl : c.cmd.line = render magicEscape w.line) (hfiles : c.files = w.raw) (hf : ∀ ps ∈ w.texts, refs ps < n ∧ Fine magicEscape t none [] ps) :
    expandCommands (tgt t) n [c] = .ok [{ cmd := { c.cmd with line := meaning t none w.line }, files := w.meant t none }] := by
  simp only [expandCommands, hsingle, Bool.false_eq_true, if_false]
  rw [expandCommand_eq (t := t) (.inl ⟨rfl, rfl⟩) n c w hl hfiles hf]
  simp [bind, Except.bind, hsingle]

/-- `copy <<$*.lst d` with the content `x $** y`. -/
example : let w : Written := ⟨[.text c!"copy << d"], [([.ref (.bare .stem), .text c!".lst"], [.text c!"x ", .ref (.bare .all), .text c!" y"], true, false)]⟩
    let t : Target := ⟨c!"p.exe", [c!"a", c!"b c"], fun _ => 0⟩
    (∀ ps ∈ w.texts, refs ps < 3 ∧ Fine magicEscape t none [] ps) ∧
    w.meant t none = [{ filename := c!"p.lst", content := c!"x a \"b c\" y", keep := true }] := by
  refine ⟨?_, by decide +kernel⟩
  intro ps hps
  simp only [Written.texts, List.flatMap_cons, List.flatMap_nil, List.append_nil, List.mem_cons, List.not_mem_nil, or_false] at hps
  rcases hps with rfl | rfl | rfl
  · exact ⟨by decide, by simp [Fine]; decide⟩
  · refine ⟨by decide, ?_⟩
    simp only [Fine, and_true]
    refine ⟨by decide, trivial, by decide, fun _ => by decide, fun k h => (by cases h), fun k p s h => (by cases h), fun h => absurd h (by decide), by decide⟩
  · refine ⟨by decide, ?_⟩
    simp only [Fine, and_true]
    refine ⟨by decide, by decide, trivial, by decide, fun h => (by cases h), fun k h => (by cases h), fun k p s h => (by cases h), fun h => absurd h (by decide), by decide⟩

/-- Two dependents. -/
def exTwoDeps : Tgt where
  name := c!"p"
  deps := [c!"a", c!"b"]
  time := fun x => if x = c!"b" then 1 else 5

/-- The lines after the expansion. -/
def linesOf (t : Tgt) (line : Str) : Option (List Str) :=
  match expandMacros [] line with
  | .ok l => (expandCommands t 9 [{ cmd := { line := l, singleExecution := true } }]).toOption.map fun cs => cs.map fun c => c.cmd.line
  | .error _ => none

/-- `!copy $** d` -/
example : linesOf exTwoDeps c!"copy $** d" = some [c!"copy a d", c!"copy b d"] := by decide +kernel

/-- **C61 refuted**: a command with `!` that does not refer to the dependents is repeated, too (the comment in makefile.h 62 says
that it is executed for each dependent only if it contains `$**` or `$?`); without dependents it is not executed at
all. -/
theorem C61_once_refuted : linesOf exTwoDeps c!"echo done" = some [c!"echo done", c!"echo done"] ∧
    linesOf { exTwoDeps with deps := [] } c!"echo done" = some [] := by decide +kernel

/-- **C61 refuted** for `$?`: the command is executed for dependents that are older than the target, too, without their names. -/
theorem C61_newer_refuted : linesOf exTwoDeps c!"copy $? d" = some [c!"copy a d", c!"copy  d"] := by decide +kernel

/-- **C42 refuted** for a target without dependents whose only command has the modifier `!`: the list of commands is empty after
the expansion, and its first element is executed nevertheless (undefined behaviour). -/
theorem C42_empty_refuted : ∃ cmds : List Command, cmds ≠ [] ∧
    (expandCommands { exTwoDeps with deps := [] } 9 cmds).toOption = some [] ∧
    (Exec.start easy {} (fun _ => true) id (fun _ => []) 1
      (fun cs => (expandCommands { exTwoDeps with deps := [] } 9 cs).toOption.getD cs) cmds (fun _ => none) { env := [] }).toOption.map
        (fun r => r.1.ub) = some true := by
  refine ⟨[{ cmd := { line := c!"echo", singleExecution := true } }], by simp, ?_, ?_⟩ <;> decide +kernel

end Jom.Props
