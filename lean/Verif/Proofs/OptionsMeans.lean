/-
Meaning of the items of a command line; the flags kept for `MAKEFLAGS`.
-/
import Verif.Proofs.Options
import Verif.Proofs.MacroOps

namespace Jom.Cmd
open Jom.Spec.Cmd Jom.Spec

/-! ### Numbers -/

theorem digit_not_space {c : Char} (h : isDigit c = true) : isSpace c = false := by
  simp only [isDigit, Bool.and_eq_true, decide_eq_true_eq] at h
  have : c ≠ ' ' := by rintro rfl; revert h; decide
  simp only [isSpace, Bool.or_eq_false_iff, Bool.and_eq_false_iff, beq_eq_false_iff_ne, decide_eq_false_iff_not]
  exact ⟨this, .inr (by omega)⟩

theorem digitsValue_snoc (s : Str) (c : Char) : digitsValue (s ++ [c]) = 10 * digitsValue s + (c.toNat - 48) := by
  simp only [digitsValue, List.foldl_append, List.foldl_cons, List.foldl_nil]

theorem decimal_iff {s : Str} {v : Nat} : Decimal s v ↔ s ≠ [] ∧ s.all isDigit = true ∧ v = digitsValue s := by
  constructor
  · intro h
    induction h with
    | @one c hc => exact ⟨by simp, by simpa using hc, by simp [digitsValue]⟩
    | @more s v c _ hc ih =>
      refine ⟨by simp, ?_, ?_⟩
      · simp only [List.all_append, ih.2.1, List.all_cons, hc, List.all_nil, Bool.and_self]
      · rw [digitsValue_snoc, ih.2.2]
  · revert v
    induction s using snoc_induction with
    | h0 => intro v h; exact absurd rfl h.1
    | h1 s c ih =>
      rintro v ⟨_, ha, rfl⟩
      simp only [List.all_append, List.all_cons, List.all_nil, Bool.and_true, Bool.and_eq_true] at ha
      by_cases hs : s = []
      · subst hs
        have := Decimal.one ha.2
        simpa [digitsValue] using this
      · rw [digitsValue_snoc]
        exact .more (ih ⟨hs, ha.1, rfl⟩) ha.2

theorem noOuter_number {sign d : Str} (hs : sign = [] ∨ sign = ['+']) (hne : d ≠ []) (ha : d.all isDigit = true) :
    NoOuter (sign ++ d) := by
  rw [List.all_eq_true] at ha
  constructor
  · intro c r h
    rcases hs with rfl | rfl
    · exact digit_not_space (ha c (by rw [List.nil_append] at h; rw [h]; simp))
    · simp only [List.cons_append, List.nil_append, List.cons.injEq] at h
      rw [← h.1]; decide
  · intro c r h
    rcases List.eq_nil_or_concat d with rfl | ⟨d', e, rfl⟩
    · exact absurd rfl hne
    · rw [List.concat_eq_append, ← List.append_assoc] at h
      have := List.append_inj_right' h rfl
      simp only [List.cons.injEq, and_true] at this
      rw [← this]
      exact digit_not_space (ha e (by simp))

theorem stripPlus {sign d : Str} (hs : sign = [] ∨ sign = ['+']) (ha : d.all isDigit = true) :
    dropPlus (sign ++ d) = d := by
  rcases hs with rfl | rfl
  · cases d with
    | nil => rfl
    | cons c r =>
      have : (c == '+') = false := by
        cases hc : c == '+'
        · rfl
        · rw [eq_of_beq hc] at ha
          simp at ha
          exact absurd ha.1 (by decide)
      simp only [List.nil_append, dropPlus, this, Bool.false_eq_true, if_false]
  · rfl

theorem dropPlus_split (t : Str) : ∃ sign : Str, (sign = [] ∨ sign = ['+']) ∧ t = sign ++ dropPlus t := by
  cases t with
  | nil => exact ⟨[], .inl rfl, rfl⟩
  | cons c r =>
    cases h : c == '+'
    · exact ⟨[], .inl rfl, by simp only [dropPlus, h, Bool.false_eq_true, if_false, List.nil_append]⟩
    · exact ⟨['+'], .inr rfl, by rw [eq_of_beq h]; rfl⟩

theorem toUInt_iff {s : Str} {v : Nat} : toUInt? s = some v ↔
    ∃ pre sign d post : Str, s = pre ++ sign ++ d ++ post ∧ pre.all isSpace = true ∧ post.all isSpace = true ∧
      (sign = [] ∨ sign = ['+']) ∧ Decimal d v ∧ v < 4294967296 := by
  constructor
  · intro h
    obtain ⟨a, b, hs, ha, hb⟩ := trimmed_split s
    unfold toUInt? at h
    obtain ⟨sign, hsg, hd⟩ := dropPlus_split (trimmed s)
    generalize dropPlus (trimmed s) = d at h hd
    simp only at h
    split at h
    · rename_i hc
      cases h
      simp only [Bool.and_eq_true, decide_eq_true_eq, Bool.not_eq_true', List.isEmpty_eq_false_iff] at hc
      refine ⟨a, sign, d, b, ?_, by simpa using ha, by simpa using hb, hsg, decimal_iff.2 ⟨hc.1.1, hc.1.2, rfl⟩, hc.2⟩
      rw [hd] at hs; rw [hs]; simp only [List.append_assoc]
    · cases h
  · rintro ⟨pre, sign, d, post, rfl, hpre, hpost, hsg, hdec, hv⟩
    rw [decimal_iff] at hdec
    obtain ⟨hne, hall, rfl⟩ := hdec
    have ht : trimmed (pre ++ sign ++ d ++ post) = sign ++ d := by
      have := PP.trimmed_pad (b := pre) (v := sign ++ d) (b' := post) (by simpa [Spaces] using hpre)
        (by simpa [Spaces] using hpost) (noOuter_number hsg hne hall)
      rw [← this]; simp only [List.append_assoc]
    unfold toUInt?
    simp only [ht, stripPlus hsg hall]
    rw [if_pos]
    simp only [Bool.and_eq_true, decide_eq_true_eq, Bool.not_eq_true', List.isEmpty_eq_false_iff]
    exact ⟨⟨hne, hall⟩, hv⟩

/-- Exactly the usable numbers of jobs are accepted. -/
theorem jobCount_iff {s : Str} {v : Nat} : JobCount s v ↔ toUInt? s = some v ∧ ¬ uintToInt v < 1 := by
  rw [toUInt_iff]
  constructor
  · rintro ⟨pre, sign, d, post, h1, h2, h3, h4, h5, h6, h7⟩
    refine ⟨⟨pre, sign, d, post, h1, h2, h3, h4, h5, by omega⟩, ?_⟩
    unfold uintToInt; rw [if_pos h7]; omega
  · rintro ⟨⟨pre, sign, d, post, h1, h2, h3, h4, h5, h6⟩, h7⟩
    refine ⟨pre, sign, d, post, h1, h2, h3, h4, h5, ?_⟩
    unfold uintToInt at h7
    split at h7 <;> omega

theorem jobCount_int {s : Str} {v : Nat} (h : JobCount s v) : uintToInt v = v := by
  obtain ⟨_, _, _, _, _, _, _, _, _, _, h7⟩ := h
  unfold uintToInt; rw [if_pos h7]

theorem setJobs_ok {st st' : St} {n : Str} (h : setJobs st n = .ok st') :
    ∃ v, JobCount n v ∧ st' = { st with
      jobs := v, jobsSet := true,
      makeflags := if (st.makeflags.getLast?.map toUpperC) = some 'J' then st.makeflags ++ n else st.makeflags } := by
  unfold setJobs at h
  cases hn : toUInt? n with
  | none => rw [hn] at h; cases h
  | some v =>
    rw [hn] at h
    simp only at h
    split at h
    · cases h
    · rename_i h1
      have hj : JobCount n v := jobCount_iff.2 ⟨hn, h1⟩
      cases hl : st.makeflags.getLast? with
      | none => rw [hl] at h; cases h
      | some l =>
        rw [hl] at h
        simp only [Except.ok.injEq] at h
        refine ⟨v, hj, ?_⟩
        rw [← h, jobCount_int hj]
        simp only [Option.map_some, Option.some.injEq, beq_iff_eq]

theorem setJobs_accepts {st : St} {n : Str} {v : Nat} (hm : st.makeflags ≠ []) (h : JobCount n v) :
    ∃ st', setJobs st n = .ok st' := by
  obtain ⟨h1, h2⟩ := jobCount_iff.1 h
  unfold setJobs
  rw [h1]
  simp only [h2, if_false]
  cases hl : st.makeflags.getLast? with
  | none => exact absurd (List.getLast?_eq_none_iff.1 hl) hm
  | some l => exact ⟨_, rfl⟩

theorem setJobs_rejects {st : St} {n : Str} (h : ¬ ∃ v, JobCount n v) : setJobs st n = .error .usage := by
  unfold setJobs
  cases hn : toUInt? n with
  | none => rfl
  | some v =>
    simp only
    rw [if_pos]
    by_cases h1 : uintToInt v < 1
    · exact h1
    · exact absurd ⟨v, jobCount_iff.2 ⟨hn, h1⟩⟩ h

theorem addFlag_ne_nil (st : St) (c : Char) : (addFlag st c).makeflags ≠ [] := by
  unfold addFlag
  split
  · rename_i h
    intro e
    rw [e] at h
    cases h
  · simp

/-! ### Settings -/

theorem given_snoc {items : List Item} {i : Item} {u : Char} :
    Given (items ++ [i]) u ↔ Given items u ∨ ∃ c, i = .flag c ∧ toUpperC c = u := by
  simp only [Given, List.mem_append, List.mem_singleton]
  constructor
  · rintro ⟨c, h | h, e⟩
    · exact .inl ⟨c, h, e⟩
    · exact .inr ⟨c, h.symm, e⟩
  · rintro (⟨c, h, e⟩ | ⟨c, h, e⟩)
    · exact ⟨c, .inl h, e⟩
    · exact ⟨c, .inr h.symm, e⟩

theorem given_snoc_flag {items : List Item} {c u : Char} :
    Given (items ++ [.flag c]) u ↔ Given items u ∨ toUpperC c = u := by
  rw [given_snoc]
  simp only [Item.flag.injEq, exists_eq_left']

theorem givenLong_snoc {items : List Item} {i : Item} {w : Long} :
    GivenLong (items ++ [i]) w ↔ GivenLong items w ∨ i = .long w := by
  simp only [GivenLong, List.mem_append, List.mem_singleton]
  constructor
  · rintro (h | h); exact .inl h; exact .inr h.symm
  · rintro (h | h); exact .inl h; exact .inr h.symm

/-- The settings before the end of `readCommandLineArguments`. -/
structure Raw (cpus : Int) (items : List Item) (s : St) : Prop where
  buildAllTargets : s.opts.buildAllTargets = true ↔ Given items 'A'
  buildIfTimeStampsAreEqual : s.opts.buildIfTimeStampsAreEqual = true ↔ Given items 'B'
  showLogo : s.opts.showLogo = false ↔
    Given items 'L' ∨ GivenLong items .nologo ∨ GivenLong items .dumpgraph ∨ GivenLong items .dumpgraphdot
  suppressOutputMessages : s.opts.suppressOutputMessages = true ↔ Given items 'C'
  overrideEnvVarMacros : s.opts.overrideEnvVarMacros = true ↔ Given items 'E'
  displayIncludeFileNames : s.opts.displayIncludeFileNames = true ↔ Given items 'G'
  dryRun : s.opts.dryRun = true ↔ Given items 'N'
  stopOnErrors : s.opts.stopOnErrors = false ↔ Given items 'I'
  buildUnrelatedTargetsOnError : s.opts.buildUnrelatedTargetsOnError = true ↔ Given items 'K'
  checkTimeStampsButDoNotBuild : s.opts.checkTimeStampsButDoNotBuild = true ↔ Given items 'Q'
  changeTimeStampsButDoNotBuild : s.opts.changeTimeStampsButDoNotBuild = true ↔ Given items 'T'
  ignorePredefinedRulesAndMacros : s.opts.ignorePredefinedRulesAndMacros = true ↔ Given items 'R'
  suppressExecutedCommandsDisplay : s.opts.suppressExecutedCommandsDisplay = true ↔ Given items 'S'
  printWorkingDir : s.opts.printWorkingDir = true ↔ Given items 'W'
  batchModeEnabled : s.opts.batchModeEnabled = false ↔ Given items 'Y'
  dumpInlineFiles : s.opts.dumpInlineFiles = true ↔ Given items 'U'
  dumpDependencyGraph : s.opts.dumpDependencyGraph = true ↔
    GivenLong items .dumpgraph ∨ GivenLong items .dumpgraphdot
  dumpDependencyGraphDot : s.opts.dumpDependencyGraphDot = true ↔ GivenLong items .dumpgraphdot
  displayMakeInformation : s.opts.displayMakeInformation = true ↔ Given items 'P'
  showUsageAndExit : s.opts.showUsageAndExit = true ↔ Given items 'H' ∨ Given items '?'
  displayBuildInfo : s.opts.displayBuildInfo = true ↔ Given items 'D'
  debugMode : s.opts.debugMode = true ↔ GivenLong items .debug
  showVersionAndExit : s.opts.showVersionAndExit = true ↔ GivenLong items .version
  stderrFile : s.opts.stderrFile = (errFileNames items).getLast?
  makefile : s.makefile = (fileNames items).getLast?
  jobsSet : s.jobsSet = true ↔ jobNumbers items ≠ []
  jobsDefault : jobNumbers items = [] → s.jobs = cpus
  jobs : ∀ n, (jobNumbers items).getLast? = some n → ∃ v, JobCount n v ∧ s.jobs = v
  /-- every number given is usable -/
  numbers : ∀ n ∈ jobNumbers items, ∃ v, JobCount n v

theorem raw_nil (cpus : Int) : Raw cpus [] { jobs := cpus } := by
  constructor <;> simp [Given, GivenLong, errFileNames, fileNames, jobNumbers]

theorem simpleOption_fields {o o' : Opts} {u : Char} (h : simpleOption o u = some o') :
    (o'.buildAllTargets = true ↔ o.buildAllTargets = true ∨ u = 'A') ∧
    (o'.buildIfTimeStampsAreEqual = true ↔ o.buildIfTimeStampsAreEqual = true ∨ u = 'B') ∧
    (o'.showLogo = false ↔ o.showLogo = false ∨ u = 'L') ∧
    (o'.suppressOutputMessages = true ↔ o.suppressOutputMessages = true ∨ u = 'C') ∧
    (o'.overrideEnvVarMacros = true ↔ o.overrideEnvVarMacros = true ∨ u = 'E') ∧
    (o'.displayIncludeFileNames = true ↔ o.displayIncludeFileNames = true ∨ u = 'G') ∧
    (o'.dryRun = true ↔ o.dryRun = true ∨ u = 'N') ∧
    (o'.stopOnErrors = false ↔ o.stopOnErrors = false ∨ u = 'I') ∧
    (o'.buildUnrelatedTargetsOnError = true ↔ o.buildUnrelatedTargetsOnError = true ∨ u = 'K') ∧
    (o'.checkTimeStampsButDoNotBuild = true ↔ o.checkTimeStampsButDoNotBuild = true ∨ u = 'Q') ∧
    (o'.changeTimeStampsButDoNotBuild = true ↔ o.changeTimeStampsButDoNotBuild = true ∨ u = 'T') ∧
    (o'.ignorePredefinedRulesAndMacros = true ↔ o.ignorePredefinedRulesAndMacros = true ∨ u = 'R') ∧
    (o'.suppressExecutedCommandsDisplay = true ↔ o.suppressExecutedCommandsDisplay = true ∨ u = 'S') ∧
    (o'.printWorkingDir = true ↔ o.printWorkingDir = true ∨ u = 'W') ∧
    (o'.batchModeEnabled = false ↔ o.batchModeEnabled = false ∨ u = 'Y') ∧
    (o'.dumpInlineFiles = true ↔ o.dumpInlineFiles = true ∨ u = 'U') ∧
    (o'.dumpDependencyGraph = o.dumpDependencyGraph) ∧
    (o'.dumpDependencyGraphDot = o.dumpDependencyGraphDot) ∧
    (o'.displayMakeInformation = true ↔ o.displayMakeInformation = true ∨ u = 'P') ∧
    (o'.showUsageAndExit = true ↔ o.showUsageAndExit = true ∨ u = 'H' ∨ u = '?') ∧
    (o'.displayBuildInfo = true ↔ o.displayBuildInfo = true ∨ u = 'D') ∧
    (o'.debugMode = o.debugMode) ∧
    (o'.showVersionAndExit = o.showVersionAndExit) ∧
    (o'.stderrFile = o.stderrFile) := by
  unfold simpleOption at h
  split at h
  all_goals first
    | (cases h; simp; done)
    | cases h

theorem raw_step {cpus : Int} {items : List Item} {st st' : St} {i : Item} (h : Raw cpus items st)
    (ha : applyItem st i = .ok st') : Raw cpus (items ++ [i]) st' := by
  obtain ⟨f1, f2, f3, f4, f5, f6, f7, f8, f9, f10, f11, f12, f13, f14, f15, f16, f17, f18, f19, f20, f21, f22, f23,
    f24, g1, g2, g3, g4, g5⟩ := h
  cases i with
  | flag c =>
    simp only [applyItem] at ha
    cases hs : simpleOption st.opts (toUpperC c) with
    | none => rw [hs] at ha; cases ha
    | some o =>
      rw [hs] at ha
      simp only [Except.ok.injEq] at ha
      subst ha
      obtain ⟨k1, k2, k3, k4, k5, k6, k7, k8, k9, k10, k11, k12, k13, k14, k15, k16, k17, k18, k19, k20, k21, k22,
        k23, k24⟩ := simpleOption_fields hs
      have hn : ∀ w, GivenLong (items ++ [.flag c]) w ↔ GivenLong items w := by
        intro w; rw [givenLong_snoc]; simp
      have hj : jobNumbers (items ++ [.flag c]) = jobNumbers items := by simp [jobNumbers]
      have hf : fileNames (items ++ [.flag c]) = fileNames items := by simp [fileNames]
      have he : errFileNames (items ++ [.flag c]) = errFileNames items := by simp [errFileNames]
      constructor
      case makefile => simp only [addFlag_makefile, hf]; exact g1
      case jobsSet => simp only [addFlag_jobsSet, hj]; exact g2
      case jobsDefault => simp only [addFlag_jobs, hj]; exact g3
      case jobs => simp only [addFlag_jobs, hj]; exact g4
      case numbers => simp only [hj]; exact g5
      case stderrFile => simp only [he, k24]; exact f24
      case debugMode => simp only [hn, k22]; exact f22
      case showVersionAndExit => simp only [hn, k23]; exact f23
      case dumpDependencyGraph => simp only [hn, k17]; exact f17
      case dumpDependencyGraphDot => simp only [hn, k18]; exact f18
      case showLogo => simp only [hn, given_snoc_flag]; rw [k3, f3]; grind
      case showUsageAndExit => simp only [given_snoc_flag]; rw [k20, f20]; grind
      case buildAllTargets => rw [given_snoc_flag, k1, f1]
      case buildIfTimeStampsAreEqual => rw [given_snoc_flag, k2, f2]
      case suppressOutputMessages => rw [given_snoc_flag, k4, f4]
      case overrideEnvVarMacros => rw [given_snoc_flag, k5, f5]
      case displayIncludeFileNames => rw [given_snoc_flag, k6, f6]
      case dryRun => rw [given_snoc_flag, k7, f7]
      case stopOnErrors => rw [given_snoc_flag, k8, f8]
      case buildUnrelatedTargetsOnError => rw [given_snoc_flag, k9, f9]
      case checkTimeStampsButDoNotBuild => rw [given_snoc_flag, k10, f10]
      case changeTimeStampsButDoNotBuild => rw [given_snoc_flag, k11, f11]
      case ignorePredefinedRulesAndMacros => rw [given_snoc_flag, k12, f12]
      case suppressExecutedCommandsDisplay => rw [given_snoc_flag, k13, f13]
      case printWorkingDir => rw [given_snoc_flag, k14, f14]
      case batchModeEnabled => rw [given_snoc_flag, k15, f15]
      case dumpInlineFiles => rw [given_snoc_flag, k16, f16]
      case displayMakeInformation => rw [given_snoc_flag, k19, f19]
      case displayBuildInfo => rw [given_snoc_flag, k21, f21]
  | file c n =>
    have hg : ∀ u, Given (items ++ [.file c n]) u ↔ Given items u := by
      intro u; rw [given_snoc]; simp
    have hn : ∀ w, GivenLong (items ++ [.file c n]) w ↔ GivenLong items w := by
      intro w; rw [givenLong_snoc]; simp
    have hj : jobNumbers (items ++ [.file c n]) = jobNumbers items := by simp [jobNumbers]
    have hf : fileNames (items ++ [.file c n]) = fileNames items ++ [n] := by simp [fileNames]
    have he : errFileNames (items ++ [.file c n]) = errFileNames items := by simp [errFileNames]
    simp only [applyItem, Except.ok.injEq] at ha
    subst ha
    constructor
    case makefile => simp [hf]
    all_goals simp only [hg, hn, hj, he, addFlag_opts, addFlag_jobs, addFlag_jobsSet]; assumption
  | errFile c n =>
    have hg : ∀ u, Given (items ++ [.errFile c n]) u ↔ Given items u := by
      intro u; rw [given_snoc]; simp
    have hn : ∀ w, GivenLong (items ++ [.errFile c n]) w ↔ GivenLong items w := by
      intro w; rw [givenLong_snoc]; simp
    have hj : jobNumbers (items ++ [.errFile c n]) = jobNumbers items := by simp [jobNumbers]
    have hf : fileNames (items ++ [.errFile c n]) = fileNames items := by simp [fileNames]
    have he : errFileNames (items ++ [.errFile c n]) = errFileNames items ++ [n] := by simp [errFileNames]
    simp only [applyItem, Except.ok.injEq] at ha
    subst ha
    constructor
    case stderrFile => simp [he]
    all_goals simp only [hg, hn, hj, hf, addFlag_makefile, addFlag_jobs, addFlag_jobsSet]; assumption
  | jobs c n =>
    have hg : ∀ u, Given (items ++ [.jobs c n]) u ↔ Given items u := by
      intro u; rw [given_snoc]; simp
    have hn : ∀ w, GivenLong (items ++ [.jobs c n]) w ↔ GivenLong items w := by
      intro w; rw [givenLong_snoc]; simp
    have hj : jobNumbers (items ++ [.jobs c n]) = jobNumbers items ++ [n] := by simp [jobNumbers]
    have hf : fileNames (items ++ [.jobs c n]) = fileNames items := by simp [fileNames]
    have he : errFileNames (items ++ [.jobs c n]) = errFileNames items := by simp [errFileNames]
    simp only [applyItem] at ha
    obtain ⟨v, hv, rfl⟩ := setJobs_ok ha
    constructor
    case jobsSet => simp [hj]
    case jobsDefault => simp [hj]
    case jobs => intro m hm; simp [hj] at hm; subst hm; exact ⟨v, hv, rfl⟩
    case numbers =>
      intro m hm
      rw [hj, List.mem_append, List.mem_singleton] at hm
      rcases hm with hm | rfl
      · exact g5 m hm
      · exact ⟨v, hv⟩
    all_goals simp only [hg, hn, hf, he, addFlag_opts, addFlag_makefile]; assumption
  | long w =>
    have hg : ∀ u, Given (items ++ [.long w]) u ↔ Given items u := by
      intro u; rw [given_snoc]; simp
    have hn : ∀ w', GivenLong (items ++ [.long w]) w' ↔ GivenLong items w' ∨ w = w' := by
      intro w; rw [givenLong_snoc]; simp
    have hj : jobNumbers (items ++ [.long w]) = jobNumbers items := by simp [jobNumbers]
    have hf : fileNames (items ++ [.long w]) = fileNames items := by simp [fileNames]
    have he : errFileNames (items ++ [.long w]) = errFileNames items := by simp [errFileNames]
    simp only [applyItem, Except.ok.injEq] at ha
    subst ha
    cases w <;> constructor <;> simp only [hg, hn, hj, hf, he, applyLong, reduceCtorEq, or_false, or_true] <;>
      first | assumption | simp

theorem applyItems_append {st : St} {a b : List Item} :
    applyItems st (a ++ b) = match applyItems st a with
      | .ok s => applyItems s b
      | .error e => .error e := by
  induction a generalizing st with
  | nil => rfl
  | cons i a ih =>
    simp only [List.cons_append, applyItems]
    cases applyItem st i with
    | error e => rfl
    | ok s => exact ih

theorem raw_steps {cpus : Int} {is : List Item} : ∀ {items : List Item} {st st' : St}, Raw cpus items st →
    applyItems st is = .ok st' → Raw cpus (items ++ is) st' := by
  induction is with
  | nil => intro items st st' h ha; cases ha; simpa using h
  | cons i is ih =>
    intro items st st' h ha
    simp only [applyItems] at ha
    cases hi : applyItem st i with
    | error e => rw [hi] at ha; cases ha
    | ok s =>
      rw [hi] at ha
      have := ih (raw_step h hi) ha
      simpa using this

/-- The items are accepted exactly if every number of jobs is usable and every letter exists. -/
theorem applyItems_ok {is : List Item} : ∀ {st : St}, (∀ c, Item.flag c ∈ is → toUpperC c ∈ simpleLetters) →
    (∀ n ∈ jobNumbers is, ∃ v, JobCount n v) → ∃ st', applyItems st is = .ok st' := by
  induction is with
  | nil => intro st _ _; exact ⟨st, rfl⟩
  | cons i is ih =>
    intro st hf hj
    have hi : ∃ s, applyItem st i = .ok s := by
      cases i with
      | flag c =>
        have := (simpleOption_iff st.opts (toUpperC c)).2 (hf c (by simp))
        simp only [applyItem]
        cases hs : simpleOption st.opts (toUpperC c) with
        | none => rw [hs] at this; cases this
        | some o => exact ⟨_, rfl⟩
      | file c n => exact ⟨_, rfl⟩
      | errFile c n => exact ⟨_, rfl⟩
      | jobs c n =>
        obtain ⟨v, hv⟩ := hj n (by simp [jobNumbers])
        exact setJobs_accepts (addFlag_ne_nil st c) hv
      | long w => exact ⟨_, rfl⟩
    obtain ⟨s, hs⟩ := hi
    simp only [applyItems, hs]
    apply ih
    · intro c hc; exact hf c (by simp [hc])
    · intro n hn
      apply hj n
      simp only [jobNumbers, List.filterMap_cons] at hn ⊢
      split
      · exact hn
      · exact List.mem_cons_of_mem _ hn

end Jom.Cmd
