/-
Properties of the command line: C47, C48, C52, C55, C56.
-/
import Verif.Proofs.OptionsMacros
import Verif.Props.Macro

namespace Jom.Props
open Jom.Cmd Jom.Spec.Cmd

/-- No command files. -/
def noFiles : Str → Option (List Str) := fun _ => none

theorem read_ok {read : Str → Option (List Str)} {cpus : Int} {t : MacroTable} {args : List Str} {l : Line}
    (h : readCommandLine read cpus t args = .ok l) :
    ∃ args' l1, expandCommandFiles read args = .ok args' ∧
      argLoop args'.length { st := { jobs := cpus }, table := t } args' = .ok l1 ∧ finish l1 = .ok l := by
  unfold readCommandLine at h
  obtain ⟨args', h1, h⟩ := ebind_ok h
  obtain ⟨l1, h2, h⟩ := ebind_ok h
  exact ⟨args', l1, h1, h2, h⟩

/-! ### C55: options mean what is written, however they are grouped -/

/-- **C55**: an accepted command line sets exactly what its options ask for: every letter its own switch, in
capital or small letters, in one argument or several; the last `/F`, `/X`, `/J` counts; `/I` overrides `/K`. -/
theorem C55_meaning {read : Str → Option (List Str)} {cpus : Int} {t : MacroTable} {args args' plain : List Str}
    {items : List Item} {l : Line} (he : expandCommandFiles read args = .ok args') (ha : Args items plain args')
    (h : readCommandLine read cpus t args = .ok l) : Means cpus items l.st := by
  obtain ⟨a, l1, h1, h2, h3⟩ := read_ok h
  rw [he] at h1
  cases h1
  have hi := args_run ha _ _ _ (Nat.le_refl _) h2
  have hr := raw_steps (raw_nil cpus) hi
  exact means_of_raw (by simpa using hr) h3

/-- Nothing else is accepted: every accepted command line spells options, macro definitions and targets. -/
theorem C55_only {read : Str → Option (List Str)} {cpus : Int} {t : MacroTable} {args : List Str} {l : Line}
    (h : readCommandLine read cpus t args = .ok l) :
    ∃ (args' plain : List Str) (items : List Item), expandCommandFiles read args = .ok args' ∧
      Args items plain args' := by
  obtain ⟨a, l1, h1, h2, _⟩ := read_ok h
  obtain ⟨items, plain, ha⟩ := run_args _ _ _ _ (Nat.le_refl _) h2
  exact ⟨a, plain, items, h1, ha⟩

/-- Every list of options is accepted exactly if each number of jobs is usable. -/
theorem C55_accepted {read : Str → Option (List Str)} {cpus : Int} {t : MacroTable} {args args' : List Str}
    {items : List Item} (he : expandCommandFiles read args = .ok args') (ha : Args items [] args') :
    (∃ l, readCommandLine read cpus t args = .ok l) ↔ ∀ n ∈ jobNumbers items, ∃ v, JobCount n v := by
  constructor
  · rintro ⟨l, h⟩
    obtain ⟨a, l1, h1, h2, h3⟩ := read_ok h
    rw [he] at h1
    cases h1
    have hi := args_run ha _ _ _ (Nat.le_refl _) h2
    have hr := raw_steps (raw_nil cpus) hi
    simpa using hr.numbers
  · intro hj
    obtain ⟨st, hst⟩ := args_accepted ha hj args'.length { st := { jobs := cpus }, table := t } (Nat.le_refl _)
    obtain ⟨l, hl⟩ := finish_total { st := st, table := t }
    refine ⟨l, ?_⟩
    unfold readCommandLine
    rw [he]
    change (argLoop args'.length { st := { jobs := cpus }, table := t } args' >>= finish) = _
    rw [hst]
    exact hl

/-- The targets to be built are the other arguments without `=`, in their order, each one once. -/
theorem C55_targets {read : Str → Option (List Str)} {cpus : Int} {t : MacroTable} {args args' plain : List Str}
    {items : List Item} {l : Line} (he : expandCommandFiles read args = .ok args') (ha : Args items plain args')
    (h : readCommandLine read cpus t args = .ok l) :
    l.targets = ((plain.filter fun p => decide ('=' ∉ p)).map trimmed).eraseDups := by
  obtain ⟨a, l1, h1, h2, h3⟩ := read_ok h
  rw [he] at h1
  cases h1
  rw [finish_targets h3, args_targets ha _ _ _ (Nat.le_refl _) h2]
  simp only [List.nil_append, List.removeAll, List.elem_nil, Bool.not_false]
  congr 1
  exact List.filter_eq_self.2 (fun _ _ => rfl)

/-- Flags of the environment (`JOMFLAGS`, else `MAKEFLAGS`), with or without `-` in front, count as options in front of
the others. -/
theorem C55_environment {jomflags makeflags f : Str} {items items' : List Item} {args plain : List Str}
    (hf : f ≠ []) (hfm : f.head? ≠ some '-')
    (henv : jomflags = f ∨ jomflags = '-' :: f ∨ (jomflags = [] ∧ (makeflags = f ∨ makeflags = '-' :: f)))
    (hb : Body true items (trimmed f) []) (ha : Args items' plain args) :
    Args (items ++ items') plain (commandLineArguments jomflags makeflags args) ∧
      commandLineArguments [] [] args = args := by
  refine ⟨?_, rfl⟩
  have key : commandLineArguments jomflags makeflags args = ('/' :: f) :: args := by
    obtain ⟨c, r, rfl⟩ := List.exists_cons_of_ne_nil hf
    have hc : c ≠ '-' := by simpa using hfm
    have hs : startsWith (c :: r) ['-'] = false := by
      simp only [startsWith, List.isPrefixOf, Bool.and_true, beq_eq_false_iff_ne, ne_eq]
      exact fun e => hc e.symm
    have hs2 : startsWith ('-' :: c :: r) ['-'] = true := by simp [startsWith]
    unfold commandLineArguments
    rcases henv with rfl | rfl | ⟨rfl, rfl | rfl⟩ <;>
      simp only [List.isEmpty_cons, List.isEmpty_nil, Bool.false_eq_true, if_false, if_true, hs, hs2, List.drop_succ_cons,
        List.drop_zero]
  rw [key]
  simpa using Args.opt (d := '/') (more := []) (.inr rfl) hb ha

example : commandLineArguments [] c!"-kj4" [c!"-j2"] = [c!"/kj4", c!"-j2"] ∧
    commandLineArguments c!"s" c!"-kj4" [c!"-j2"] = [c!"/s", c!"-j2"] := by decide

/-! ### C57: command files -/

theorem commandFiles_args {read : Str → Option (List Str)} : ∀ (args kept new : List Str) (rest : List Str),
    (∀ a ∈ args, a.head? ≠ some '@') →
    commandFiles read (args ++ rest) kept new = commandFiles read rest (kept ++ args) new := by
  intro args
  induction args with
  | nil => intro kept new rest _; simp
  | cons a args ih =>
    intro kept new rest h
    have ha := h a (by simp)
    have step : commandFiles read (a :: (args ++ rest)) kept new = commandFiles read (args ++ rest) (kept ++ [a]) new := by
      cases a with
      | nil => rw [commandFiles]; simp
      | cons c r =>
        have hc : c ≠ '@' := by simpa using ha
        rw [commandFiles]
        intro name e
        simp only [List.cons.injEq] at e
        exact hc e.1
    rw [List.cons_append, step, ih _ _ _ (fun b hb => h b (by simp [hb]))]
    simp

theorem startsWith_at {x : Str} : (!startsWith x ['@']) = (x.head? != some '@') := by
  cases x with
  | nil => rfl
  | cons c r =>
    by_cases h : c = '@'
    · subst h; rfl
    · have h' : ('@' == c) = false := beq_eq_false_iff_ne.2 fun e => h e.symm
      have h'' : (c == '@') = false := beq_eq_false_iff_ne.2 h
      simp [startsWith, List.isPrefixOf, bne, h', h'']

theorem commandFiles_files {read : Str → Option (List Str)} {files out : List Str} (h : InPlace read files out) :
    (∀ a ∈ files, a.head? = some '@') → ∀ (kept new : List Str), (∀ a ∈ new, a.head? ≠ some '@') →
    commandFiles read files kept new = .ok (kept ++ (new ++ out)) := by
  have hw : ∀ lines, (∀ a ∈ fileWords lines, a.head? ≠ some '@') := by
    intro lines a ha
    simp only [fileWords, List.mem_filter, bne_iff_ne, ne_eq] at ha
    exact ha.2
  have hnew : ∀ (lines new : List Str), (∀ a ∈ new, a.head? ≠ some '@') →
      ((new ++ lines.flatMap splitCommandLine).filter fun x => !startsWith x ['@']) = new ++ fileWords lines := by
    intro lines new hn
    simp only [startsWith_at]
    rw [List.filter_append, fileWords]
    congr 1
    rw [List.filter_eq_self]
    intro a ha
    simpa using hn a ha
  induction h with
  | nil => intro _ kept new _; simp [commandFiles]
  | arg ha _ _ => intro hf; exact absurd (hf _ (by simp)) ha
  | @file a words rest out hc _ ih =>
    intro hf kept new hn
    have hf' : ∀ a ∈ rest, a.head? = some '@' := fun b hb => hf b (by simp [hb])
    cases hc with
    | @bare name lines hne hq hr =>
      obtain ⟨q, r, rfl⟩ := List.exists_cons_of_ne_nil hne
      have hif : (q == '"' && endsWith (q :: r) ['"']) = false := by
        cases hx : (q == '"' && endsWith (q :: r) ['"'])
        · rfl
        · exfalso
          simp only [Bool.and_eq_true, beq_iff_eq] at hx
          apply hq
          obtain ⟨x, hxx⟩ := List.isSuffixOf_iff_suffix.1 hx.2
          exact ⟨by simp [hx.1], by rw [← hxx]; simp⟩
      rw [commandFiles]
      simp only [hif, Bool.false_eq_true, if_false, hr, hnew _ _ hn]
      rw [ih hf' kept _ (fun b hb => (List.mem_append.1 hb).elim (hn b) (hw _ b))]
      simp
    | @quoted name lines hr =>
      have hif : (('"' == '"') && endsWith ('"' :: (name ++ ['"'])) ['"']) = true := by
        simp only [BEq.rfl, Bool.true_and]
        exact List.isSuffixOf_iff_suffix.2 ⟨'"' :: name, by simp⟩
      rw [commandFiles]
      simp only [hif, if_true, List.dropLast_concat, hr, hnew _ _ hn]
      rw [ih hf' kept _ (fun b hb => (List.mem_append.1 hb).elim (hn b) (hw _ b))]
      simp

/-- **C57**, as far as it holds: the words of command files that stand behind all other arguments take the place of the
references. Missing: other orders, see `C57_refuted`. -/
theorem C57_partial {read : Str → Option (List Str)} {args files out : List Str}
    (ha : ∀ a ∈ args, a.head? ≠ some '@') (hf : ∀ a ∈ files, a.head? = some '@') (h : InPlace read (args ++ files) out) :
    expandCommandFiles read (args ++ files) = .ok out := by
  have : ∃ o, out = args ++ o ∧ InPlace read files o := by
    induction args generalizing out with
    | nil => exact ⟨out, rfl, h⟩
    | cons a args ih =>
      cases h with
      | arg _ h =>
        obtain ⟨o, rfl, ho⟩ := ih (fun b hb => ha b (by simp [hb])) h
        exact ⟨o, rfl, ho⟩
      | file hc _ =>
        exfalso
        apply ha a (by simp)
        cases hc <;> rfl
  obtain ⟨o, rfl, ho⟩ := this
  unfold expandCommandFiles
  rw [commandFiles_args _ _ _ _ ha, commandFiles_files ho hf _ _ (by simp)]
  simp

/-- A command file `f` that contains `-j4 all`. -/
def oneFile : Str → Option (List Str) := fun n => if n = c!"f" then some [c!"-j4 all\r\n"] else none

theorem oneFile_words : fileWords [c!"-j4 all\r\n"] = [c!"-j4", c!"all"] := by decide +kernel

example : InPlace oneFile [c!"-k", c!"@\"f\""] [c!"-k", c!"-j4", c!"all"] := by
  refine .arg (by decide) ?_
  have := InPlace.file (CommandFile.quoted (read := oneFile) (name := c!"f") (lines := [c!"-j4 all\r\n"]) rfl) .nil
  rw [oneFile_words] at this
  exact this

/-- **C57 refuted**: in `@f -j2` the number of jobs of the command file wins over the later one. -/
theorem C57_refuted : InPlace oneFile [c!"@f", c!"-j2"] [c!"-j4", c!"all", c!"-j2"] ∧
    expandCommandFiles oneFile [c!"@f", c!"-j2"] = .ok [c!"-j2", c!"-j4", c!"all"] ∧
    (readCommandLine oneFile 8 {} [c!"@f", c!"-j2"]).map (·.st.jobs) = .ok 4 ∧
    (readCommandLine oneFile 8 {} [c!"-j4", c!"all", c!"-j2"]).map (·.st.jobs) = .ok 2 := by
  refine ⟨?_, by decide +kernel, by decide +kernel, by decide +kernel⟩
  have := InPlace.file (CommandFile.bare (read := oneFile) (name := c!"f") (lines := [c!"-j4 all\r\n"]) (by decide)
    (by decide) rfl) (.arg (a := c!"-j2") (by decide) .nil)
  rw [oneFile_words] at this
  exact this

/-! ### Example for C55 -/

/-- `-ks /NOLOGOi -f x A=1 all -J 4 /nj2` -/
def mixedArgs : List Str :=
  [c!"-ks", c!"/NOLOGOi", c!"-f", c!"x", c!"A=1", c!"all", c!"-J", c!"4", c!"/nj2"]

/-- Its options. -/
def mixedItems : List Item :=
  [.flag 'k', .flag 's', .long .nologo, .flag 'i', .file 'f' c!"x", .jobs 'J' c!"4", .flag 'n', .jobs 'j' c!"2"]

theorem notLong_of {s : Str} (h : (([.nologo, .dumpgraphdot, .dumpgraph, .debug, .errorreport, .version] : List Long).all
    fun w => !w.name.isPrefixOf (toUpper s)) = true) : ¬ BeginsLong s := by
  rintro ⟨w, hw⟩
  rw [List.all_eq_true] at h
  have := h w (by cases w <;> decide)
  rw [List.isPrefixOf_iff_prefix.2 hw] at this
  cases this

theorem mixed_spelled : Args mixedItems [c!"A=1", c!"all"] mixedArgs := by
  refine .opt (d := '-') (items := [.flag 'k', .flag 's']) (more := []) (.inl rfl) ?_ ?_
  · exact .flag (by decide) (fun _ => notLong_of (by decide)) (.flag (by decide) (fun _ => notLong_of (by decide)) .nil)
  refine .opt (d := '/') (items := [.long .nologo, .flag 'i']) (more := []) (.inr rfl) ?_ ?_
  · exact .long (t := c!"NOLOGO") (text := c!"i") (by decide) (by simp) (.flag (by decide) (by simp) .nil)
  refine .opt (d := '-') (items := [.file 'f' c!"x"]) (more := [c!"x"]) (.inl rfl) (.fileNext (by decide)) ?_
  refine .plain (by decide) (by decide) (.plain (by decide) (by decide) ?_)
  refine .opt (d := '-') (items := [.jobs 'J' c!"4"]) (more := [c!"4"]) (.inl rfl) (.jobsNext (by decide)) ?_
  refine .opt (d := '/') (items := [.flag 'n', .jobs 'j' c!"2"]) (more := []) (.inr rfl) ?_ .nil
  exact .flag (by decide) (fun _ => notLong_of (by decide))
    (.jobs (n := c!"2") (text := []) (by decide) (by decide) (by decide) (by simp) .nil)

example : (readCommandLine noFiles 8 {} mixedArgs).isOk = true ∧
    expandCommandFiles noFiles mixedArgs = .ok mixedArgs := by decide +kernel

example : ((readCommandLine noFiles 8 {} mixedArgs).toOption.map fun l =>
    (l.st.jobs, l.targets, l.st.makeflags)) = some (2, [c!"all"], c!"ksLiJ4nj2") ∧
  ((readCommandLine noFiles 8 {} mixedArgs).toOption.map fun l =>
    (l.st.opts.dryRun, l.st.opts.stopOnErrors, l.st.opts.showLogo)) = some (true, false, false) ∧
  ((readCommandLine noFiles 8 {} mixedArgs).toOption.bind fun l => l.st.makefile) = some c!"x" := by decide +kernel

/-! ### C48: accepted numbers of jobs are usable -/

/-- **C48**: if the command line is accepted, the number of jobs lies between 1 and 2^31 - 1. -/
theorem C48_jobs {read : Str → Option (List Str)} {cpus : Int} {t : MacroTable} {args : List Str} {l : Line}
    (hc : 1 ≤ cpus ∧ cpus < 2147483648) (h : readCommandLine read cpus t args = .ok l) :
    1 ≤ l.st.jobs ∧ l.st.jobs < 2147483648 := by
  obtain ⟨args', plain, items, he, ha⟩ := C55_only h
  have hm := C55_meaning he ha h
  cases hj : (jobNumbers items).getLast? with
  | none =>
    rw [hm.jobsDefault (List.getLast?_eq_none_iff.1 hj)]; exact hc
  | some n =>
    obtain ⟨v, hv, e⟩ := hm.jobs n hj
    obtain ⟨_, _, _, _, _, _, _, _, _, h1, h2⟩ := hv
    rw [e]; omega

/-- A `/J` whose argument is not a usable number — not a number at all, zero, negative or too large — is rejected. -/
theorem C48_rejected {read : Str → Option (List Str)} {cpus : Int} {t : MacroTable} {args args' plain : List Str}
    {items : List Item} (he : expandCommandFiles read args = .ok args') (ha : Args items plain args') {n : Str}
    (hn : n ∈ jobNumbers items) (hbad : ¬ ∃ v, JobCount n v) (l : Line) :
    readCommandLine read cpus t args ≠ .ok l := by
  intro h
  obtain ⟨a, l1, h1, h2, h3⟩ := read_ok h
  rw [he] at h1
  cases h1
  have hi := args_run ha _ _ _ (Nat.le_refl _) h2
  have hr := raw_steps (raw_nil cpus) hi
  exact hbad (hr.numbers n (by simpa using hn))

/-- `-j 0`, `-j -2`, `-j 4x`, `-j 3000000000`, `-j` and `-jx` are rejected, `-j 2147483647` is not. -/
example : readCommandLine noFiles 8 {} [c!"-j", c!"0"] = .error .usage ∧
    readCommandLine noFiles 8 {} [c!"-j", c!"-2"] = .error .usage ∧
    readCommandLine noFiles 8 {} [c!"-j", c!"4x"] = .error .usage ∧
    readCommandLine noFiles 8 {} [c!"-j3000000000"] = .error .usage ∧
    readCommandLine noFiles 8 {} [c!"-j"] = .error .usage ∧
    readCommandLine noFiles 8 {} [c!"-jx"] = .error .usage ∧
    (readCommandLine noFiles 8 {} [c!"-j2147483647"]).isOk = true := by decide +kernel

example : Args [.jobs 'j' c!"4x"] [] [c!"-j", c!"4x"] :=
  .opt (d := '-') (items := [.jobs 'j' c!"4x"]) (items' := []) (more := [c!"4x"]) (.inl rfl) (.jobsNext (by decide)) .nil

/-! ### C47: MAKEFLAGS -/

theorem noDollar_flags {k : List Item} (hk : ∀ i ∈ k, Kept i) : '$' ∉ flagsText k := by
  intro h
  rcases mem_flagsText hk h with h | ⟨n, h⟩ | h
  · have := hk _ h
    simp only [Kept] at this
    revert this; decide
  · have := (hk _ h).1
    revert this; decide
  · revert h; decide

theorem noSpace_flags {k : List Item} (hk : ∀ i ∈ k, Kept i) : ∀ c ∈ flagsText k, isSpace c = false := by
  intro c h
  have key : ∀ c : Char, toUpperC c ∈ c!"ABCDEGH?IKLNPQRSTUWYJ" → isSpace c = false := by
    intro c hc
    cases hs : isSpace c
    · rfl
    · exfalso
      have hu : toUpperC c = c := by
        simp only [isSpace, Bool.or_eq_true, Bool.and_eq_true, decide_eq_true_eq, beq_iff_eq] at hs
        unfold toUpperC
        rw [if_neg]
        rcases hs with rfl | hs
        · decide
        · omega
      rw [hu] at hc
      have hall : ∀ d ∈ c!"ABCDEGH?IKLNPQRSTUWYJ", isSpace d = false := by decide
      rw [hall c hc] at hs
      cases hs
  rcases mem_flagsText hk h with h | ⟨n, h⟩ | h
  · have := hk _ h
    simp only [Kept] at this
    apply key
    have hsub : ∀ u ∈ simpleLetters, u ∈ c!"ABCDEGH?IKLNPQRSTUWYJ" := by decide
    exact hsub _ this
  · have := (hk _ h).1
    exact key _ (by rw [this]; decide)
  · exact digit_not_space h

/-- **C47**, as far as it holds: `/$(MAKEFLAGS)` on the command line of another jom sets the same options and the same
number of jobs, if no long option without short form (DUMPGRAPH, DEBUG, VERSION) is given, `/J` is given with one
number only and without sign or blanks, MAKEFLAGS is not defined on the command line, and the flags happen not to
contain the letters of DEBUG in a row. -/
theorem C47_partial {read : Str → Option (List Str)} {cpus : Int} {t : MacroTable} {args args' plain : List Str}
    {items : List Item} {l : Line} (he : expandCommandFiles read args = .ok args') (ha : Args items plain args')
    (h : readCommandLine read cpus t args = .ok l)
    (hlong : ∀ w, GivenLong items w → w = .nologo ∨ w = .errorreport)
    (hnum : ∀ n ∈ jobNumbers items, n.all isDigit = true) (hone : ∀ n ∈ jobNumbers items, ∀ m ∈ jobNumbers items, n = m)
    (hdebug : ¬ ∃ a b : Str, toUpper l.st.makeflags = a ++ c!"DEBUG" ++ b)
    (ht : alookup c!"MAKEFLAGS" t.macros = none)
    (hmf : ∀ p ∈ plain, ∀ name value, Defines p name value → toUpper name ≠ c!"MAKEFLAGS") :
    ∃ flags, expandMacros l.table.macros c!"$(MAKEFLAGS)" = .ok flags ∧
      ∀ (read' : Str → Option (List Str)) (cpus' : Int) (t' : MacroTable),
        ∃ l', readCommandLine read' cpus' t' ['/' :: flags] = .ok l' ∧
          sameOptions l'.st.opts l.st.opts ∧ l'.st.jobsSet = l.st.jobsSet ∧
          (l.st.jobsSet = true → l'.st.jobs = l.st.jobs) := by
  obtain ⟨a, l1, h1, h2, h3⟩ := read_ok h
  rw [he] at h1
  cases h1
  have hm := C55_meaning he ha h
  have hi := args_run ha _ _ _ (Nat.le_refl _) h2
  have hwl := args_wellLettered ha
  obtain ⟨k, hk⟩ := keeps_steps keeps_nil (fun i hii => ⟨fun c n e =>
    ⟨hnum n (mem_jobNumbers.2 ⟨c, e ▸ hii⟩), (hwl i hii).1 c n e⟩, (hwl i hii).2⟩) hi
  simp only [List.nil_append] at hk
  obtain ⟨_, _, f3, _, _, f6⟩ := finish_ok h3
  rw [← f3] at hk
  have hflags := hk.text
  have hdol : '$' ∉ l.st.makeflags := by rw [hflags]; exact noDollar_flags hk.kept
  -- the value of the macro
  have hnone : alookup c!"MAKEFLAGS" l1.table.macros = none := by
    rw [args_other ha (by decide) hmf _ _ _ (Nat.le_refl _) h2]; exact ht
  have hval : macroValue l.table.macros c!"MAKEFLAGS" = l.st.makeflags := by
    obtain ⟨n, hn, _, _, _, hv⟩ := setImpl_ok (by simp) f6
    rw [expandMacros_plain _ _ _ (by decide)] at hn
    cases hn
    rw [hnone] at hv
    simp only [Option.getD_none, Bool.false_eq_true, if_false] at hv
    unfold macroValue
    rw [hv]
    simp only
    rw [replaceAll_noOcc (by decide), f3]
    intro x y e
    apply hdol
    rw [f3, e]
    simp [instantiated]
  refine ⟨l.st.makeflags, ?_, ?_⟩
  · have := (C02_forms l.table.macros false [] [] (expandMacros_plain _ _ _ (by simp))).2.2.1 c!"MAKEFLAGS"
      l.st.makeflags ⟨⟨'M', c!"AKEFLAGS", rfl, by decide⟩, by decide, by decide⟩
      (by rw [hval]; exact expandMacros_plain _ _ _ hdol)
    simpa using this.2
  · intro read' cpus' t'
    have hbody : Body true k l.st.makeflags [] := by
      rw [hflags] at hdebug ⊢
      exact flags_body hk.kept hdebug
    have htrim : trimmed l.st.makeflags = l.st.makeflags := by
      have hsp := noSpace_flags hk.kept
      rw [← hflags] at hsp
      have := PP.trimmed_pad (b := []) (v := l.st.makeflags) (b' := []) (by simp [Spec.Spaces]) (by simp [Spec.Spaces])
        ⟨fun c r e => hsp c (by rw [e]; simp), fun c r e => hsp c (by rw [e]; simp)⟩
      simpa using this
    have hargs : Args k [] ['/' :: l.st.makeflags] := by
      have := Args.opt (d := '/') (body := l.st.makeflags) (items := k) (more := []) (.inr rfl)
        (by rw [htrim]; exact hbody) Args.nil
      simpa using this
    have hexp : expandCommandFiles read' ['/' :: l.st.makeflags] = .ok ['/' :: l.st.makeflags] := rfl
    have hraw := raw_steps (raw_nil cpus) hi
    simp only [List.nil_append] at hraw
    obtain ⟨l', hl'⟩ := (C55_accepted (cpus := cpus') (t := t') hexp hargs).2
      (fun n hn => hraw.numbers n (hk.sub n hn))
    refine ⟨l', hl', ?_⟩
    have hm' := C55_meaning hexp hargs hl'
    have hnl : ∀ w, ¬ GivenLong k w := by
      intro w hw
      exact hk.kept _ hw
    have gi : ∀ w, w ≠ .nologo → w ≠ .errorreport → ¬ GivenLong items w := by
      intro w w1 w2 hw
      rcases hlong w hw with e | e
      · exact w1 e
      · exact w2 e
    have giv : ∀ u, u ≠ 'L' → (Given k u ↔ Given items u) := by
      intro u hu; rw [hk.given]; simp [hu]
    have hjs : jobNumbers k = [] ↔ jobNumbers items = [] := by
      constructor
      · intro e
        by_cases hne : jobNumbers items = []
        · exact hne
        · exact absurd e (hk.jobs hne)
      · intro e
        cases hkn : jobNumbers k with
        | nil => rfl
        | cons n r =>
          have := hk.sub n (by rw [hkn]; simp)
          rw [e] at this; cases this
    have bt : ∀ {x y : Bool} {P Q : Prop}, (x = true ↔ P) → (y = true ↔ Q) → (P ↔ Q) → x = y := by
      intro x y P Q h1 h2 h3
      cases x <;> cases y <;> simp_all
    have bf : ∀ {x y : Bool} {P Q : Prop}, (x = false ↔ P) → (y = false ↔ Q) → (P ↔ Q) → x = y := by
      intro x y P Q h1 h2 h3
      cases x <;> cases y <;> simp_all
    refine ⟨?_, ?_, ?_⟩
    · unfold sameOptions
      rw [Opts.mk.injEq]
      refine ⟨?_, ?_, ?_, ?_, ?_, ?_, ?_, ?_, ?_, ?_, ?_, ?_, ?_, ?_, ?_, ?_, ?_, ?_, ?_, ?_, ?_, ?_, ?_, rfl⟩
      · exact bt hm'.buildAllTargets hm.buildAllTargets (giv _ (by decide))
      · exact bt hm'.buildIfTimeStampsAreEqual hm.buildIfTimeStampsAreEqual (giv _ (by decide))
      · refine bf hm'.showLogo hm.showLogo ?_
        rw [hk.given]
        simp only [hnl, gi .dumpgraph (by decide) (by decide), gi .dumpgraphdot (by decide) (by decide), or_false,
          true_and]
      · exact bt hm'.suppressOutputMessages hm.suppressOutputMessages (giv _ (by decide))
      · exact bt hm'.overrideEnvVarMacros hm.overrideEnvVarMacros (giv _ (by decide))
      · exact bt hm'.displayIncludeFileNames hm.displayIncludeFileNames (giv _ (by decide))
      · exact bt hm'.dryRun hm.dryRun (giv _ (by decide))
      · exact bf hm'.stopOnErrors hm.stopOnErrors (giv _ (by decide))
      · refine bt hm'.buildUnrelatedTargetsOnError hm.buildUnrelatedTargetsOnError ?_
        rw [giv 'K' (by decide), giv 'I' (by decide)]
      · exact bt hm'.checkTimeStampsButDoNotBuild hm.checkTimeStampsButDoNotBuild (giv _ (by decide))
      · exact bt hm'.changeTimeStampsButDoNotBuild hm.changeTimeStampsButDoNotBuild (giv _ (by decide))
      · exact bt hm'.ignorePredefinedRulesAndMacros hm.ignorePredefinedRulesAndMacros (giv _ (by decide))
      · exact bt hm'.suppressExecutedCommandsDisplay hm.suppressExecutedCommandsDisplay (giv _ (by decide))
      · exact bt hm'.printWorkingDir hm.printWorkingDir (giv _ (by decide))
      · exact bf hm'.batchModeEnabled hm.batchModeEnabled (giv _ (by decide))
      · exact bt hm'.dumpInlineFiles hm.dumpInlineFiles (giv _ (by decide))
      · refine bt hm'.dumpDependencyGraph hm.dumpDependencyGraph ?_
        simp only [hnl, gi .dumpgraph (by decide) (by decide), gi .dumpgraphdot (by decide) (by decide)]
      · refine bt hm'.dumpDependencyGraphDot hm.dumpDependencyGraphDot ?_
        simp only [hnl, gi .dumpgraphdot (by decide) (by decide)]
      · exact bt hm'.displayMakeInformation hm.displayMakeInformation (giv _ (by decide))
      · refine bt hm'.showUsageAndExit hm.showUsageAndExit ?_
        rw [giv 'H' (by decide), giv '?' (by decide)]
      · exact bt hm'.displayBuildInfo hm.displayBuildInfo (giv _ (by decide))
      · refine bt hm'.debugMode hm.debugMode ?_
        simp only [hnl, gi .debug (by decide) (by decide)]
      · refine bt hm'.showVersionAndExit hm.showVersionAndExit ?_
        simp only [hnl, gi .version (by decide) (by decide)]
    · refine bt hm'.jobsSet hm.jobsSet ?_
      rw [ne_eq, ne_eq, hjs]
    · intro hset
      have hne : jobNumbers items ≠ [] := hm.jobsSet.1 hset
      have hnek : jobNumbers k ≠ [] := hk.jobs hne
      cases hg : (jobNumbers items).getLast? with
      | none => exact absurd (List.getLast?_eq_none_iff.1 hg) hne
      | some n =>
        cases hg' : (jobNumbers k).getLast? with
        | none => exact absurd (List.getLast?_eq_none_iff.1 hg') hnek
        | some m =>
          have hmm : m ∈ jobNumbers items := hk.sub m (List.mem_of_getLast? hg')
          have hnm : n ∈ jobNumbers items := List.mem_of_getLast? hg
          have e := hone n hnm m hmm
          subst e
          obtain ⟨v, hv, e1⟩ := hm.jobs n hg
          obtain ⟨v', hv', e2⟩ := hm'.jobs n hg'
          have e3 := (jobCount_iff.1 hv).1
          have e4 := (jobCount_iff.1 hv').1
          rw [e3] at e4
          cases e4
          rw [e1, e2]

/-- A command line that meets the hypotheses: `-ks /NOLOGOi -j 4 A=1 all`; MAKEFLAGS is `ksLij4`. -/
example : ((readCommandLine noFiles 8 {} [c!"-ks", c!"/NOLOGOi", c!"-j", c!"4", c!"A=1", c!"all"]).toOption.map fun l =>
      (l.st.makeflags, expandMacros l.table.macros c!"$(MAKEFLAGS)")) = some (c!"ksLij4", .ok c!"ksLij4") ∧
    ((readCommandLine noFiles 2 {} [c!"/ksLij4"]).toOption.map fun l =>
      (l.st.jobs, l.st.opts.stopOnErrors, l.st.opts.showLogo, l.st.opts.suppressExecutedCommandsDisplay)) =
      some (4, false, false, true) := by decide +kernel

/-- The flags and what another jom makes of them. -/
def passedOn (args : List Str) : Option (St × Except Err St) :=
  match readCommandLine noFiles 8 {} args with
  | .ok l => some (l.st, (readCommandLine noFiles 8 {} ['/' :: l.st.makeflags]).map (·.st))
  | .error _ => none

/-- **C47 refuted**, `/J` twice: `-j4 -j8` uses 8 jobs, MAKEFLAGS says 4. -/
theorem C47_jobs_refuted : (passedOn [c!"-j4", c!"-j8"]).map (fun x => (x.1.jobs, x.1.makeflags, x.2.toOption.map (·.jobs))) =
    some (8, c!"j4", some 4) := by decide +kernel

/-- **C47 refuted**, number with a sign: `-j +4` is accepted, the MAKEFLAGS it produces are not. -/
theorem C47_sign_refuted : (passedOn [c!"-j", c!"+4"]).map (fun x => (x.1.jobs, x.1.makeflags, x.2)) =
    some (4, c!"j+4", .error .usage) := by decide +kernel

/-- **C47 refuted**, letters of a long option: `/D /E /B /U /G` gives the flags `DEBUG`, which switch on the debug mode
and nothing else. -/
theorem C47_debug_refuted : (passedOn [c!"/D", c!"/E", c!"/B", c!"/U", c!"/G"]).map (fun x =>
      ((x.1.makeflags, x.1.opts.overrideEnvVarMacros, x.1.opts.debugMode),
        x.2.toOption.map fun s => (s.opts.overrideEnvVarMacros, s.opts.debugMode))) =
    some ((c!"DEBUG", true, false), some (false, true)) := by decide +kernel

/-- **C47 refuted**, long options without short form: `/DUMPGRAPH` is not passed on. -/
theorem C47_long_refuted : (passedOn [c!"/DUMPGRAPH"]).map (fun x =>
      (x.1.opts.dumpDependencyGraph, x.2.toOption.map (·.opts.dumpDependencyGraph))) = some (true, some false) := by
  decide +kernel

/-! ### C52: the job server -/

/-- **C52**: a jom that is not started by another one starts a job server with one token less than jobs. -/
theorem C52_top (count : Str) (jobs : Int) (jobsSet : Bool) :
    initJobServer false count jobs jobsSet = some (jobs - 1) := rfl

theorem digits_number (n : Nat) : Decimal (Nat.toDigits 10 n) n := by
  have hd : ∀ d, d < 10 → isDigit (Nat.digitChar d) = true ∧ (Nat.digitChar d).toNat - 48 = d := by decide
  induction n using Nat.strongRecOn with
  | _ n ih =>
    by_cases h : n < 10
    · rw [Nat.toDigits_of_lt_base h]
      have := Decimal.one (hd n h).1
      rwa [(hd n h).2] at this
    · rw [Nat.toDigits_of_base_le (by omega) (by omega)]
      have h2 := Decimal.more (ih (n / 10) (by omega)) (hd (n % 10) (by omega)).1
      rw [(hd (n % 10) (by omega)).2] at h2
      have e : 10 * (n / 10) + n % 10 = n := by omega
      rwa [e] at h2

theorem toInt_number {n : Nat} (h : n ≤ 2147483647) : toInt? (Nat.toDigits 10 n) = some (n : Int) := by
  have hd := decimal_iff.1 (digits_number n)
  obtain ⟨hne, hall, hv⟩ := hd
  have htrim : trimmed (Nat.toDigits 10 n) = Nat.toDigits 10 n := by
    have := PP.trimmed_pad (b := []) (v := Nat.toDigits 10 n) (b' := []) (by simp [Spec.Spaces]) (by simp [Spec.Spaces])
      (by simpa using noOuter_number (sign := []) (.inl rfl) hne hall)
    simpa using this
  have hplus : dropPlus (Nat.toDigits 10 n) = Nat.toDigits 10 n := by
    simpa using stripPlus (sign := []) (.inl rfl) hall
  have hminus : startsWith (Nat.toDigits 10 n) ['-'] = false := by
    cases hs : startsWith (Nat.toDigits 10 n) ['-']
    · rfl
    · obtain ⟨r, hr⟩ := startsWith_iff.1 hs
      have := List.all_eq_true.1 hall '-' (by rw [← hr]; simp)
      revert this; decide
  unfold toInt?
  simp only [htrim, hminus, hplus, hall, ← hv, Bool.false_eq_true, if_false, List.isEmpty_eq_false_iff.2 hne,
    Bool.not_false, Bool.and_self, if_true]
  rw [if_pos (by omega)]

/-- **C52**: a jom started by another jom, whose job server was started for `n` jobs (and so has put the number `n` into
the environment, jobserver.cpp 63-64), uses this job server unless it is given a different number with `/J`; then it
starts its own with one token less than jobs. -/
theorem C52_sub (n : Nat) (hn : 1 ≤ n ∧ n ≤ 2147483647) (jobs : Int) (jobsSet : Bool) :
    (initJobServer true (Nat.toDigits 10 n) jobs jobsSet = none ↔ (jobsSet = true → jobs = n)) ∧
    (¬ (jobsSet = true → jobs = n) → initJobServer true (Nat.toDigits 10 n) jobs jobsSet = some (jobs - 1)) := by
  have hne : (Nat.toDigits 10 n).isEmpty = false := List.isEmpty_eq_false_iff.2 (decimal_iff.1 (digits_number n)).1
  have hpos : (n : Int) > 0 := by omega
  have key : initJobServer true (Nat.toDigits 10 n) jobs jobsSet = if jobsSet && jobs != n then some (jobs - 1) else none := by
    unfold initJobServer
    simp only [if_true, hne, Bool.false_eq_true, if_false, toInt_number hn.2, hpos]
  rw [key]
  cases jobsSet with
  | false => simp
  | true => by_cases e : jobs = n <;> simp [e]

example : initJobServer true (Nat.toDigits 10 4) 4 true = none ∧ initJobServer true (Nat.toDigits 10 4) 16 false = none ∧
    initJobServer true (Nat.toDigits 10 4) 8 true = some 7 ∧ initJobServer false [] 8 false = some 7 := by decide +kernel

/-- **C52 with C47**: the jom called with `/$(MAKEFLAGS)` uses the job server of its parent, under the hypotheses of
C47_partial. -/
theorem C52_makeflags {read : Str → Option (List Str)} {cpus : Int} {t : MacroTable} {args args' plain : List Str}
    {items : List Item} {l : Line} (he : expandCommandFiles read args = .ok args') (ha : Args items plain args')
    (h : readCommandLine read cpus t args = .ok l) (hc : 1 ≤ cpus ∧ cpus < 2147483648)
    (hlong : ∀ w, GivenLong items w → w = .nologo ∨ w = .errorreport)
    (hnum : ∀ n ∈ jobNumbers items, n.all isDigit = true) (hone : ∀ n ∈ jobNumbers items, ∀ m ∈ jobNumbers items, n = m)
    (hdebug : ¬ ∃ a b : Str, toUpper l.st.makeflags = a ++ c!"DEBUG" ++ b)
    (ht : alookup c!"MAKEFLAGS" t.macros = none)
    (hmf : ∀ p ∈ plain, ∀ name value, Defines p name value → toUpper name ≠ c!"MAKEFLAGS") :
    ∃ flags, expandMacros l.table.macros c!"$(MAKEFLAGS)" = .ok flags ∧
      ∀ (read' : Str → Option (List Str)) (cpus' : Int) (t' : MacroTable),
        ∃ l', readCommandLine read' cpus' t' ['/' :: flags] = .ok l' ∧
          initJobServer true (Nat.toDigits 10 l.st.jobs.toNat) l'.st.jobs l'.st.jobsSet = none := by
  obtain ⟨flags, hf, hall⟩ := C47_partial he ha h hlong hnum hone hdebug ht hmf
  refine ⟨flags, hf, fun read' cpus' t' => ?_⟩
  obtain ⟨l', h1, _, h3, h4⟩ := hall read' cpus' t'
  have hj := C48_jobs hc h
  refine ⟨l', h1, (C52_sub l.st.jobs.toNat (by omega) _ _).1.2 ?_⟩
  intro hs
  rw [h3] at hs
  rw [h4 hs]
  omega

/-- `-ks /NOLOGOi A=1 all -J 4` -/
def passedArgs : List Str := [c!"-ks", c!"/NOLOGOi", c!"A=1", c!"all", c!"-J", c!"4"]

def passedItems : List Item := [.flag 'k', .flag 's', .long .nologo, .flag 'i', .jobs 'J' c!"4"]

theorem passed_spelled : Args passedItems [c!"A=1", c!"all"] passedArgs := by
  refine .opt (d := '-') (items := [.flag 'k', .flag 's']) (more := []) (.inl rfl) ?_ ?_
  · exact .flag (by decide) (fun _ => notLong_of (by decide)) (.flag (by decide) (fun _ => notLong_of (by decide)) .nil)
  refine .opt (d := '/') (items := [.long .nologo, .flag 'i']) (more := []) (.inr rfl) ?_ ?_
  · exact .long (t := c!"NOLOGO") (text := c!"i") (by decide) (by simp) (.flag (by decide) (by simp) .nil)
  refine .plain (by decide) (by decide) (.plain (by decide) (by decide) ?_)
  exact .opt (d := '-') (items := [.jobs 'J' c!"4"]) (more := [c!"4"]) (.inl rfl) (.jobsNext (by decide)) .nil

/-- The theorems apply to this command line: the options are passed on, and the nested jom uses the job server. -/
example : ∃ l, readCommandLine noFiles 8 {} passedArgs = .ok l ∧ ∃ flags, expandMacros l.table.macros c!"$(MAKEFLAGS)" = .ok flags ∧
    (∃ l', readCommandLine noFiles 2 {} ['/' :: flags] = .ok l' ∧ sameOptions l'.st.opts l.st.opts ∧ l'.st.jobsSet = l.st.jobsSet ∧
      (l.st.jobsSet = true → l'.st.jobs = l.st.jobs)) ∧
    ∃ l', readCommandLine noFiles 2 {} ['/' :: flags] = .ok l' ∧
      initJobServer true (Nat.toDigits 10 l.st.jobs.toNat) l'.st.jobs l'.st.jobsSet = none := by
  have e : ((readCommandLine noFiles 8 {} passedArgs).toOption.map fun l => l.st.makeflags) = some c!"ksLiJ4" := by decide +kernel
  cases h : readCommandLine noFiles 8 {} passedArgs with
  | error x => rw [h] at e; cases e
  | ok l =>
    rw [h] at e
    have hf : l.st.makeflags = c!"ksLiJ4" := Option.some.inj e
    have he : expandCommandFiles noFiles passedArgs = .ok passedArgs := by decide +kernel
    have hlong : ∀ w, GivenLong passedItems w → w = .nologo ∨ w = .errorreport := by
      intro w hw
      simp only [GivenLong, passedItems, List.mem_cons, Item.long.injEq, reduceCtorEq, List.not_mem_nil, false_or, or_false] at hw
      exact .inl hw
    have hnum : ∀ n ∈ jobNumbers passedItems, n = c!"4" := by
      have : jobNumbers passedItems = [c!"4"] := rfl
      rw [this]
      exact fun n hn => List.mem_singleton.1 hn
    have hdebug : ¬ ∃ a b : Str, toUpper l.st.makeflags = a ++ c!"DEBUG" ++ b := by
      rintro ⟨a, b, hab⟩
      have : 'D' ∈ toUpper l.st.makeflags := by rw [hab]; simp
      rw [hf] at this
      revert this; decide +kernel
    have hmf : ∀ p ∈ [c!"A=1", c!"all"], ∀ name value, Defines p name value → toUpper name ≠ c!"MAKEFLAGS" := by
      rintro p hp name value ⟨b1, b2, b3, e, _⟩ hn
      have hl := congrArg List.length e
      have hl2 : name.length = 9 := by
        have := congrArg List.length hn
        simpa [toUpper] using this
      simp only [List.mem_cons, List.not_mem_nil, or_false] at hp
      rcases hp with rfl | rfl <;> simp [hl2] at hl <;> omega
    have hnum' : ∀ n ∈ jobNumbers passedItems, n.all isDigit = true := fun n hn => by rw [hnum n hn]; decide
    have hone : ∀ n ∈ jobNumbers passedItems, ∀ m ∈ jobNumbers passedItems, n = m := fun n hn m hm => by rw [hnum n hn, hnum m hm]
    obtain ⟨flags, h1, h2⟩ := C47_partial he passed_spelled h hlong hnum' hone hdebug rfl hmf
    obtain ⟨flags', h3, h4⟩ := C52_makeflags he passed_spelled h (by decide) hlong hnum' hone hdebug rfl hmf
    rw [h1] at h3
    cases h3
    exact ⟨l, rfl, flags, h1, h2 noFiles 2 {}, h4 noFiles 2 {}⟩

/-- Otherwise it may start another job server although nobody asked for it: `-j4 -j8`. -/
theorem C52_twice_refuted : (passedOn [c!"-j4", c!"-j8"]).bind (fun x => x.2.toOption.map fun s =>
    initJobServer true (Nat.toDigits 10 x.1.jobs.toNat) s.jobs s.jobsSet) = some (some 3) := by decide +kernel

/-! ### C56: macros defined on the command line -/

/-- **C56**: of several definitions of a macro on the command line the first one counts.
Missing: the same for the name in capital letters, see `C56_upper_refuted`. -/
theorem C56_first_partial {read : Str → Option (List Str)} {cpus : Int} {t : MacroTable}
    {args args' pre post : List Str} {p n v : Str} {items : List Item} {l : Line}
    (he : expandCommandFiles read args = .ok args') (ha : Args items (pre ++ p :: post) args')
    (h : readCommandLine read cpus t args = .ok l) (hd : Defines p n v)
    (hpre : ∀ q ∈ pre, ∀ w, ¬ Defines q n w) (hself : ∀ x y, v ≠ x ++ instantiated n ++ y) :
    macroValue l.table.macros n = v := by
  obtain ⟨a, l1, h1, h2, h3⟩ := read_ok h
  rw [he] at h1
  cases h1
  have hf := args_first ha rfl hd hself hpre _ _ _ (Nat.le_refl _) (by rfl) h2
  obtain ⟨_, _, _, _, _, f6⟩ := finish_ok h3
  exact (setImpl_frozen (by simp) f6 hf.2).value

example : Defines c!" A = 1 2" c!"A" c!"1 2" :=
  ⟨c!" ", c!" ", c!" ", rfl, rfl, rfl, rfl, by decide, by decide, by
    intro c r e
    simp only [List.cons.injEq] at e
    rw [← e.1]; decide⟩

example : ((readCommandLine noFiles 8 {} [c!" A = 1 2", c!"A=3", c!"-k"]).toOption.map fun l =>
    macroValue l.table.macros c!"A") = some c!"1 2" := by decide +kernel

/-- The theorem applies to this command line. -/
example {l : Line} (h : readCommandLine noFiles 8 {} [c!" A = 1 2", c!"A=3", c!"-k"] = .ok l) : macroValue l.table.macros c!"A" = c!"1 2" := by
  have ha : Args [.flag 'k'] [c!" A = 1 2", c!"A=3"] [c!" A = 1 2", c!"A=3", c!"-k"] :=
    .plain (by decide) (by decide) (.plain (by decide) (by decide)
      (.opt (d := '-') (items := [.flag 'k']) (more := []) (.inl rfl) (.flag (by decide) (fun _ => notLong_of (by decide)) .nil) .nil))
  refine C56_first_partial (pre := []) (by rfl) ha h ?_ (by simp) ?_
  · exact ⟨c!" ", c!" ", c!" ", rfl, rfl, rfl, rfl, by decide, by decide, by
      intro c r e
      simp only [List.cons.injEq] at e
      rw [← e.1]; decide⟩
  · intro x y e
    have hm : '$' ∈ x ++ instantiated c!"A" ++ y := by simp [instantiated]
    rw [← e] at hm
    revert hm; decide

/-- **C56 refuted** for the name in capital letters, which is defined along: `foo=1 foo=2` gives `foo` the value 1 and
`FOO` the value 2, and the environment of the commands gets 2. -/
theorem C56_upper_refuted : ((readCommandLine noFiles 8 {} [c!"foo=1", c!"foo=2"]).toOption.map fun l =>
    (macroValue l.table.macros c!"foo", macroValue l.table.macros c!"FOO", envLookup c!"foo" l.table.env)) =
    some (c!"1", c!"2", some c!"2") := by decide +kernel

end Jom.Props
