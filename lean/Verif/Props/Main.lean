import Verif.Spec.Main
import Verif.Proofs.MainErrors
import Verif.Props.Whole
import Verif.Props.Options
import Verif.Proofs.SchedDump

/-! C77: the environment of the commands. C78: from the command line to the exit code. C79: `/DUMPGRAPH`. -/

namespace Jom.Props

open Jom.Main Cmd Spec.Cmd Spec.Main Prepare Parse

/-! ### C77: the environment of the commands -/

theorem addEntry_sets {t name v : Str} {m : List (Str × Str)} (h : Sets t name v) : envLookup name (addEntry m t) = some v := by
  obtain ⟨n, rfl, hn, hs⟩ := h
  have : indexOf? ['='] (n ++ '=' :: v) = some n.length := indexOf?_char hn
  unfold addEntry
  rw [this]
  simp only [List.take_left]
  have hd : (n ++ '=' :: v).drop (n.length + 1) = v := by
    rw [List.drop_append]; simp
  rw [hd, lookup_envSet, if_pos (show toLower n = toLower name from hs)]

theorem addEntry_other {t name : Str} {m : List (Str × Str)} (h : ∀ v, ¬ Sets t name v) : envLookup name (addEntry m t) = envLookup name m := by
  unfold addEntry
  split
  · rfl
  · rename_i idx hi
    obtain ⟨h1, h2⟩ := indexOf_eq hi
    rw [lookup_envSet, if_neg]
    intro e
    exact h _ ⟨_, h1, h2, e⟩

theorem foldl_unset {name : Str} : ∀ {env : List Str} {m : List (Str × Str)}, Unset env name →
    envLookup name (env.foldl addEntry m) = envLookup name m
  | [], _, _ => rfl
  | t :: env, m, h => by
    rw [List.foldl_cons, foldl_unset (fun t ht => h t (by simp [ht])), addEntry_other (h t (by simp))]

theorem setEnvironment_unset {env : List Str} {name : Str} (h : Unset env name) : envLookup name (setEnvironment env) = none := by
  rw [lookup_setEnvironment, foldl_unset h]; rfl

theorem setEnvironment_variable {env : List Str} {name v : Str} (h : Variable env name v) : envLookup name (setEnvironment env) = some v := by
  obtain ⟨pre, t, post, rfl, hs, hu⟩ := h
  rw [lookup_setEnvironment, List.foldl_append, List.foldl_cons, foldl_unset hu, addEntry_sets hs]

section

variable {w : Outside} {args args' plain : List Str} {items : List Item} {b : Build} {name v : Str}

theorem env_of_build (h : main w args = .build b) (h1 : ¬ SameName c!"_JOMSRVKEY_" name) (h2 : ¬ SameName c!"_JOMJOBCOUNT_" name) :
    ∃ t, readEnvironment b.line.st.opts.overrideEnvVarMacros (setEnvironment w.environment) b.line.table = .ok t ∧
      envLookup name b.env = envLookup name t.env := by
  obtain ⟨t, s, _, _, _, ht, _, hs, hp, _, _, _, he⟩ := main_build h
  obtain ⟨t1, ht1, e1⟩ := initial_env ht
  refine ⟨t1, ht1, ?_⟩
  have e2 := parse_env hp
  have e3 : s.table = t := by
    unfold PP.openFile at hs
    split at hs
    · cases hs
    · split at hs
      · cases hs
      · split at hs
        · cases hs
        · cases hs; rfl
  rw [e3, e1] at e2
  rcases he with he | ⟨k, c, he⟩
  · rw [he, e2]
  · unfold SameName at h1 h2
    rw [he, lookup_envSet, if_neg h2, lookup_envSet, if_neg h1, e2]

theorem inherits_of_build (h : main w args = .build b) (he : expandCommandFiles w.commandFile (arguments w args) = .ok args')
    (ha : Args items plain args') (hno : ∀ p ∈ plain, DefinesNot name p) :
    Inherits name (envLookup name (setEnvironment w.environment)) b.line.table := by
  obtain ⟨_, _, hl, _⟩ := main_build h
  obtain ⟨a, l1, g1, g2, g3⟩ := read_ok hl
  rw [he] at g1
  cases g1
  have := args_inv ha (I := fun rest l => (∀ p ∈ rest, DefinesNot name p) ∧ Inherits name (envLookup name (setEnvironment w.environment)) l.table)
    (fun _ _ _ h => h)
    (fun p rest l l' h hp => ⟨fun q hq => h.1 q (by simp [hq]), plainStep_inherits (h.1 p (by simp)) hp h.2⟩)
    _ _ _ (Nat.le_refl _) g2 ⟨hno, rfl, fun k d hk => by cases hk⟩
  exact set_inherits (by decide) (by decide) (finish_table g3) this.2

/-- **C77**: a variable of jom's environment reaches the commands unchanged if there is no `$` in its value and the command line does not
define it — in spite of everything the makefile does. -/
theorem C77_inherited_partial (h : main w args = .build b) (he : expandCommandFiles w.commandFile (arguments w args) = .ok args')
    (ha : Args items plain args') (hno : ∀ p ∈ plain, DefinesNot name p) (h1 : ¬ SameName c!"_JOMSRVKEY_" name)
    (h2 : ¬ SameName c!"_JOMJOBCOUNT_" name) (hv : Variable w.environment name v) (hd : '$' ∉ v) : envLookup name b.env = some v := by
  have hi := inherits_of_build h he ha hno
  obtain ⟨t, ht, e⟩ := env_of_build (name := name) h h1 h2
  have hval := setEnvironment_variable hv
  rw [hval] at hi
  rw [e]
  refine (readEnvironment_inherits ?_ ht hi).1
  intro x hx hn
  have hdis : Distinct (w.environment.foldl addEntry []) := distinct_foldl _ (by simp [Distinct])
  have := lookup_mem hdis x ((mem_sort x _).1 hx) hn
  rw [lookup_setEnvironment, this] at hval
  cases hval
  exact ⟨rfl, hd⟩

/-- A variable that jom does not have, and that the command line does not define, the commands do not have either. -/
theorem C77_unset (h : main w args = .build b) (he : expandCommandFiles w.commandFile (arguments w args) = .ok args')
    (ha : Args items plain args') (hno : ∀ p ∈ plain, DefinesNot name p) (h1 : ¬ SameName c!"_JOMSRVKEY_" name)
    (h2 : ¬ SameName c!"_JOMJOBCOUNT_" name) (hv : Unset w.environment name) : envLookup name b.env = none := by
  have hi := inherits_of_build h he ha hno
  obtain ⟨t, ht, e⟩ := env_of_build (name := name) h h1 h2
  have hval := setEnvironment_unset hv
  rw [hval] at hi
  rw [e]
  refine (readEnvironment_inherits ?_ ht hi).1
  intro x hx hn
  have hdis : Distinct (w.environment.foldl addEntry []) := distinct_foldl _ (by simp [Distinct])
  have := lookup_mem hdis x ((mem_sort x _).1 hx) hn
  rw [lookup_setEnvironment, this] at hval
  cases hval

/-- A macro that is defined once on the command line is a variable of the commands, with the value that is written there, whatever
jom's environment says. -/
theorem C77_defined_partial {pre post : List Str} {p : Str} (h : main w args = .build b)
    (he : expandCommandFiles w.commandFile (arguments w args) = .ok args') (ha : Args items (pre ++ p :: post) args')
    (hp : Defines p name v) (hno : ∀ q ∈ pre ++ post, DefinesNot name q) (h1 : ¬ SameName c!"_JOMSRVKEY_" name)
    (h2 : ¬ SameName c!"_JOMJOBCOUNT_" name) (hd : '$' ∉ v) : envLookup name b.env = some v := by
  obtain ⟨_, _, hl, _⟩ := main_build h
  obtain ⟨a, l1, g1, g2, g3⟩ := read_ok hl
  rw [he] at g1
  cases g1
  obtain ⟨x, hx⟩ : ∃ x, envLookup name (setEnvironment w.environment) = x := ⟨_, rfl⟩
  have := args_inv ha (I := fun rest l =>
      (∃ pre, rest = pre ++ p :: post ∧ (∀ q ∈ pre ++ post, DefinesNot name q) ∧ Inherits name x l.table ∧ ∀ e ∈ l.explicit, toLower e ≠ toLower name) ∨
      ((∀ q ∈ rest, DefinesNot name q) ∧ Main.Defined name v l.table))
    (fun _ _ _ h => h)
    (fun q rest l l' h hq => ?_)
    _ _ _ (Nat.le_refl _) g2 (.inl ⟨pre, rfl, hno, ⟨hx, fun k d hk => by cases hk⟩, by simp⟩)
  · have hdef : Main.Defined name v l1.table := by
      rcases this with ⟨pre, e, _⟩ | ⟨_, h⟩
      · cases pre <;> cases e
      · exact h
    have hfin := set_defined (by decide) (by decide) (finish_table g3) hdef
    obtain ⟨t, ht, e⟩ := env_of_build (name := name) h h1 h2
    rw [e]
    exact (readEnvironment_defined hd ht hfin).env
  · rcases h with ⟨pre, e, hno, hi, hex⟩ | ⟨hr, hdef⟩
    · cases pre with
      | nil =>
        simp only [List.nil_append, List.cons.injEq] at e
        obtain ⟨rfl, rfl⟩ := e
        exact .inr ⟨fun r hr => hno r (by simpa using hr), plainStep_defines hp hd hq hi hex⟩
      | cons r pre =>
        simp only [List.cons_append, List.cons.injEq] at e
        obtain ⟨rfl, rfl⟩ := e
        have hl := hno q (by simp)
        exact .inl ⟨pre, rfl, fun r hr => hno r (by simp only [List.cons_append, List.mem_cons]; exact .inr hr),
          plainStep_inherits hl hq hi, plainStep_spares hl hq hex⟩
    · exact .inr ⟨fun r h => hr r (by simp [h]), plainStep_defined (hr q (by simp)) hq hdef⟩

end

/-! ### C78: from the command line to the exit code -/

section

variable {w : Outside} {args args' plain : List Str} {items : List Item} {b : Build}

theorem readLine_correct (he : expandCommandFiles w.commandFile (arguments w args) = .ok args') (hc : Correct items plain args') :
    (∃ l, Main.readLine w args = .ok l) ∨ ((∃ m, Main.readLine w args = .error (.macroError m)) ∧ ∃ a ∈ args', '$' ∈ a) := by
  unfold Main.readLine readCommandLine
  rw [he]
  simp only [bind, Except.bind]
  rcases argLoop_accepts hc.spelled hc.numbers hc.names args'.length
    { st := { jobs := w.cpus }, table := { env := setEnvironment w.environment } } (Nat.le_refl _) with ⟨l, hl⟩ | ⟨m, hm⟩
  · obtain ⟨l', hl'⟩ := finish_total l
    rw [hl]
    exact .inl ⟨l', hl'⟩
  · rw [hm]
    refine .inr ⟨⟨m, rfl⟩, ?_⟩
    rcases argLoop_error _ hm with h | h | ⟨_, h⟩ | ⟨h, _⟩
    · cases h
    · cases h
    · exact h
    · cases h

theorem main_line {l : Line} (hl : Main.readLine w args = .ok l) :
    (main w args = .exit 0 ∧ (l.st.opts.showUsageAndExit = true ∨ l.st.opts.showVersionAndExit = true)) ∨
    (l.st.opts.showUsageAndExit = false ∧ l.st.opts.showVersionAndExit = false ∧
      (main w args = .exit 2 ∨ main w args = .exit 3 ∨ main w args = .fault ∨ ∃ b, main w args = .build b)) := by
  unfold main
  rw [hl]
  simp only
  split
  · rename_i h
    exact .inl ⟨rfl, by simpa using h⟩
  · rename_i h
    simp only [Bool.or_eq_true, not_or, Bool.not_eq_true] at h
    refine .inr ⟨h.1, h.2, ?_⟩
    split
    · exact .inl rfl
    · split
      · exact .inl rfl
      · unfold makefile
        simp only
        split
        · exact .inl rfl
        · split
          · exact .inl rfl
          · split
            · exact .inr (.inr (.inl rfl))
            · exact .inr (.inr (.inl rfl))
            · exact .inl rfl
            · unfold Main.start
              simp only
              split
              · exact .inr (.inl rfl)
              · split
                · exact .inl rfl
                · split
                  · exact .inl rfl
                  · exact .inr (.inr (.inl rfl))
                  · exact .inr (.inr (.inr ⟨_, rfl⟩))

/-- **C78**: a correct command line is never answered with the exit code 128. -/
theorem C78_correct (he : expandCommandFiles w.commandFile (arguments w args) = .ok args') (hc : Correct items plain args') :
    main w args ≠ .exit 128 := by
  rcases readLine_correct he hc with ⟨l, hl⟩ | ⟨⟨m, hm⟩, _⟩
  · rcases main_line hl with ⟨h, _⟩ | ⟨_, _, h | h | h | ⟨b, h⟩⟩ <;> rw [h] <;> simp
  · unfold main
    rw [hm]
    simp

/-- A wrong command line ends jom with 128, before anything is read or executed: a command file that cannot be read, an unknown option, a number
of jobs that is not usable, a wrong name of a macro. -/
theorem C78_incorrect (h : expandCommandFiles w.commandFile (arguments w args) = .error .usage ∨
      ∃ args', expandCommandFiles w.commandFile (arguments w args) = .ok args' ∧ (∀ a ∈ args', '$' ∉ a ∧ a ≠ []) ∧
        ∀ items plain, ¬ Correct items plain args') :
    main w args = .exit 128 := by
  have hr : Main.readLine w args = .error .usage ∨ Main.readLine w args = .error .invalidMacroName := by
    unfold Main.readLine readCommandLine
    rcases h with h | ⟨args', he, ha, hc⟩
    · rw [h]; exact .inl rfl
    · rw [he]
      simp only [bind, Except.bind]
      cases hl : argLoop args'.length { st := { jobs := w.cpus }, table := { env := setEnvironment w.environment } } args' with
      | ok l =>
        obtain ⟨items, plain, h⟩ := argLoop_correct (by exact raw_nil w.cpus) hl
        exact absurd h (hc items plain)
      | error e =>
        rcases argLoop_error _ hl with rfl | rfl | ⟨_, a, h1, h2⟩ | ⟨_, h1⟩
        · exact .inl rfl
        · exact .inr rfl
        · exact absurd h2 (ha a h1).1
        · exact absurd rfl (ha [] h1).2
  unfold main
  rcases hr with hr | hr <;> rw [hr]

/-- With a correct command line jom ends with 0 at once exactly if help or the version is asked for. -/
theorem C78_asked (he : expandCommandFiles w.commandFile (arguments w args) = .ok args') (hc : Correct items plain args')
    (hd : ∀ a ∈ args', '$' ∉ a) : main w args = .exit 0 ↔ AsksOnly items := by
  rcases readLine_correct he hc with ⟨l, hl⟩ | ⟨_, a, h1, h2⟩
  · have hm := C55_meaning he hc.spelled hl
    unfold AsksOnly
    rw [← or_assoc, ← hm.showUsageAndExit, ← hm.showVersionAndExit]
    rcases main_line hl with ⟨h, h'⟩ | ⟨h1, h2, h⟩
    · exact ⟨fun _ => h', fun _ => h⟩
    · rw [h1, h2]
      rcases h with h | h | h | ⟨b, h⟩ <;> rw [h] <;> simp
  · exact absurd h2 (hd a h1)

/-- A makefile that does not exist: exit code 2. -/
theorem C78_no_makefile (he : expandCommandFiles w.commandFile (arguments w args) = .ok args') (hc : Correct items plain args')
    (ha : ¬ AsksOnly items) (hf : w.world.find ((fileNames items).getLast?.getD c!"Makefile") = none) : main w args = .exit 2 := by
  rcases readLine_correct he hc with ⟨l, hl⟩ | ⟨⟨m, hm⟩, _⟩
  · have hm := C55_meaning he hc.spelled hl
    have h1 : (l.st.opts.showUsageAndExit || l.st.opts.showVersionAndExit) = false := by
      rw [Bool.eq_false_iff]
      intro h
      apply ha
      unfold AsksOnly
      rw [← or_assoc, ← hm.showUsageAndExit, ← hm.showVersionAndExit]
      simpa using h
    unfold main
    rw [hl]
    simp only [h1, Bool.false_eq_true, if_false]
    split
    · rfl
    · split
      · rfl
      · unfold makefile PP.openFile
        simp only [hm.makefile, Option.getD_some, hf]
  · unfold main
    rw [hm]

/-- The scheduler works with the settings of the command line. -/
structure Configured (b : Build) (cfg : Sched.Cfg) : Prop where
  targets : cfg.targets = b.ids
  jobs : cfg.jobs = b.jobs
  keepGoing : cfg.keepGoing = b.line.st.opts.buildUnrelatedTargetsOnError
  buildAll : cfg.buildAll = b.line.st.opts.buildAllTargets
  dumpGraph : cfg.dumpGraph = b.line.st.opts.dumpDependencyGraph

/-- The targets on the command line. -/
def goals (plain : List Str) : List Str := ((plain.filter fun p => decide ('=' ∉ p)).map trimmed).eraseDups

/-- `/K` without `/I`, `/A` and the number of jobs are those of the command line. -/
theorem C78_settings {cfg : Sched.Cfg} (h : main w args = .build b) (he : expandCommandFiles w.commandFile (arguments w args) = .ok args')
    (ha : Args items plain args') (hcfg : Configured b cfg) :
    (cfg.keepGoing = true ↔ Given items 'K' ∧ ¬ Given items 'I') ∧ (cfg.buildAll = true ↔ Given items 'A') ∧
    (∀ n, (jobNumbers items).getLast? = some n → ∃ v, JobCount n v ∧ cfg.jobs ≤ v) ∧
    (jobNumbers items = [] → (cfg.jobs : Int) ≤ max w.cpus 1) := by
  obtain ⟨_, _, hl, _, _, _, _, _, _, _, _, hj, _⟩ := main_build h
  have hm := C55_meaning he ha hl
  rw [hcfg.keepGoing, hcfg.buildAll, hcfg.jobs, hj]
  refine ⟨hm.buildUnrelatedTargetsOnError, hm.buildAllTargets, ?_, ?_⟩
  · intro n hn
    obtain ⟨v, hv, e⟩ := hm.jobs n hn
    refine ⟨v, hv, ?_⟩
    obtain ⟨_, _, _, _, _, _, _, _, _, h1, _⟩ := hv
    unfold Blocks.jobsOf
    split
    · exact h1
    · rw [e]; simp
  · intro hn
    have := hm.jobsDefault hn
    unfold Blocks.jobsOf
    split
    · omega
    · rw [this]; omega

/-- Never more commands at once than the command line (or the number of processors) allows. -/
theorem C78_job_limit {cfg : Sched.Cfg} {s : Sched.St} (h : main w args = .build b)
    (he : expandCommandFiles w.commandFile (arguments w args) = .ok args') (ha : Args items plain args') (hcfg : Configured b cfg)
    (hr : Sched.Reachable cfg s) :
    (∀ n, (jobNumbers items).getLast? = some n → ∃ v, JobCount n v ∧ running s.log ≤ v) ∧
    (jobNumbers items = [] → (running s.log : Int) ≤ max w.cpus 1) := by
  obtain ⟨_, _, h3, h4⟩ := C78_settings h he ha hcfg
  have hl := (C32_job_limit cfg s hr).2.2.1
  refine ⟨?_, ?_⟩
  · intro n hn
    obtain ⟨v, hv, e⟩ := h3 n hn
    exact ⟨v, hv, by omega⟩
  · intro hn
    have := h4 hn
    omega

open Jom.Blocks Jom.Inference Jom.Whole
open Jom.Make (J Run)
open Jom.Sched (Ev)
open Jom.Spec.Blocks (canon Enclosed)
open Jom.Spec.Setup (Named SourcesDeclared)

/-- The macros at the first line of the makefile. -/
def Begins (w : Outside) (args : List Str) (t : MacroTable) : Prop :=
  ∃ l, Main.readLine w args = .ok l ∧ initialMacros w l.st.opts l.table = .ok t

/-- What is read is the makefile of the command line — the last `/F`, else `Makefile` — with the targets of the command line. -/
theorem C78_loaded (h : main w args = .build b) (he : expandCommandFiles w.commandFile (arguments w args) = .ok args')
    (ha : Args items plain args') (horder : ∀ l, (w.order l).Perm l) (hkeys : ∀ rs, HashOrder rs (w.keys rs))
    (hne : b.p.table.targets ≠ [])
    (hq : ∀ n d, tableSays (applySync b.p.table (w.order b.p.table.sync)) n = some d → ∀ x ∈ d.deps, ¬ Enclosed x) :
    ∃ (fl : Spec.Makefile.Flags) (t : MacroTable) (s : PP.St), Begins w args t ∧
      (fl.silent = true ↔ Given items 'C') ∧ (fl.ignore = true ↔ Given items 'I') ∧
      PP.openFile w.world ((fileNames items).getLast?.getD c!"Makefile") { table := t } = .ok s ∧
      b.dir = w.dirOf ((fileNames items).getLast?.getD c!"Makefile") ∧
      Loaded w.world w.fuel w.entries b.dir fl (goals plain) s b.p (w.order b.p.table.sync) (w.keys b.p.rules) b.tab b.ids := by
  obtain ⟨t, s, hl, _, _, ht, hdir, hs, hp, htab, hids, _⟩ := main_build h
  have hm := C55_meaning he ha hl
  have htg := C55_targets he ha hl
  rw [hm.makefile, Option.getD_some] at hdir hs
  refine ⟨{ silent := b.line.st.opts.suppressOutputMessages, ignore := !b.line.st.opts.stopOnErrors }, t, s, ⟨_, hl, ht⟩, hm.suppressOutputMessages, ?_, hs,
    hdir, ?_⟩
  · rw [← hm.stopOnErrors]; simp
  · refine ⟨⟨w.order, w.keys, rfl, rfl, ?_⟩, horder _, hkeys _, hne, hq⟩
    unfold Whole.load setup
    rw [show goals plain = b.line.targets from htg.symm]
    simp only [Bool.not_not, hp, htab, hids]

/-- Exit code 0 of a build (C76) in terms of the command line: no command has failed, and everything that the blocks of the makefile say about the
targets of the command line and what they need has been dealt with. -/
theorem C78_exit_zero_partial {cfg : Sched.Cfg} {abs : Str → Str} {disk : Str → Option Nat} {ok : J → Make.Event → Prop} {j : J}
    (h : main w args = .build b) (he : expandCommandFiles w.commandFile (arguments w args) = .ok args')
    (ha : Args items plain args') (horder : ∀ l, (w.order l).Perm l) (hkeys : ∀ rs, HashOrder rs (w.keys rs))
    (hne : b.p.table.targets ≠ [])
    (hq : ∀ n d, tableSays (applySync b.p.table (w.order b.p.table.sync)) n = some d → ∀ x ∈ d.deps, ¬ Enclosed x)
    (hcfg : Configured b cfg) (hd : NoDir b.tab b.dir)
    (hdecl : SourcesDeclared b.tab.target b.tab.candidates b.dir (wanted b.p.table (goals plain)))
    (hrun : Run (env b.tab b.dir abs) cfg (info b.tab) disk ok j) (h0 : 0 ∈ j.s.exits) :
    (∀ k r, Ev.failed k r ∉ j.s.log) ∧ j.s.busy = [] ∧
    ∃ t s cut ls is e, PP.openFile w.world ((fileNames items).getLast?.getD c!"Makefile") { table := t } = .ok s ∧
      Before (ppSource w.world w.fuel) cut s ls e ∧
      (∃ fl : Spec.Makefile.Flags, (fl.silent = true ↔ Given items 'C') ∧ (fl.ignore = true ↔ Given items 'I') ∧
        Spec.Makefile.Reads (Wildcards.files w.entries b.dir) fl cut ls is) ∧
      ∀ (k : Nat) (a n m : Str) (B : Blocks.Block), (wanted b.p.table (goals plain))[k]? = some a →
        Named (tableSays (applySync b.p.table (w.order b.p.table.sync))) [a] n → .block B ∈ is → m ∈ B.targets → m ≠ c!".NOTPARALLEL" →
        canon m = canon n → ∃ r d, b.tab.entry r = some d ∧ canon d.name = canon m ∧ Done j.s.log k r := by
  obtain ⟨fl, t, s, _, h1, h2, h3, _, hload⟩ := C78_loaded h he ha horder hkeys hne hq
  obtain ⟨g1, g2, cut, ls, is, e, g3, g4, g5⟩ := C76_exit_zero_partial hload hcfg.targets hd hdecl hrun h0
  exact ⟨g1, g2, t, s, cut, ls, is, e, h3, g3, ⟨fl, h1, h2, g4⟩, g5⟩

end

/-! ### A call of jom -/

namespace MainCase

def name : Str := c!"Makefile"

def text : Str := c!"X=obj\nPATH=$(PATH);e\n.SUFFIXES: .c\n.c.$(X):\n\tcl $(OPT)\napp: foo.obj\n\tlink\n"

def w : Outside where
  environment := [c!"Path=c:\\bin", c!"PROMPT=$P$G", c!"MAKEFLAGS=s"]
  cpus := 2
  commandFile := fun _ => none
  writable := fun _ => true
  appPath := c!"c:/j/jom.exe"
  currentPath := c!"c:/d"
  world := { find := fun n => if n = name then some n else none, content := fun _ => some text, dir := fun _ => c!"c:/d", eval := fun _ _ => none }
  dirOf := fun _ => c!"c:/d"
  entries := fun _ _ => []
  fuel := 60
  order := id
  keys := fun rs => (rs.map (·.toExt)).eraseDups
  semaphore := some c!"k"
  client := true

def args : List Str := [c!"/j4", c!"opt=$(CC)", c!"Q=1 2", c!"app"]

def none : Build :=
  { line := { st := { jobs := 1 }, table := {} }, dir := [], p := { src := {} }, tab := { table := {} }, ids := [], env := [], jobs := 0 }

def result (args : List Str) : Build := match main w args with
  | .build b => b
  | _ => none

def built (args : List Str) : Bool := match main w args with
  | .build _ => true
  | _ => false

theorem built_result {args : List Str} (h : built args = true) : main w args = .build (result args) := by
  unfold built at h
  unfold result
  split at h
  · rename_i hb; rw [hb]
  · cases h

def b : Build := result args

theorem build : main w args = .build b := built_result (by decide +kernel)

def full : List Str := c!"/s" :: args

theorem expanded : expandCommandFiles w.commandFile (arguments w args) = .ok full := by decide +kernel

def items : List Item := [.flag 's', .jobs 'j' c!"4"]

def plain : List Str := [c!"opt=$(CC)", c!"Q=1 2", c!"app"]

theorem spelled : Args items plain full := by
  refine .opt (d := '/') (items := [.flag 's']) (more := []) (.inr rfl) (.flag (by decide) (fun _ => notLong_of (by decide)) .nil) ?_
  refine .opt (d := '/') (items := [.jobs 'j' c!"4"]) (more := []) (.inr rfl)
    (.jobs (n := c!"4") (text := []) (by decide) (by decide) (by decide) (by simp) .nil) ?_
  exact .plain (by decide) (by decide) (.plain (by decide) (by decide) (.plain (by decide) (by decide) .nil))

theorem definesNot {name p : Str} (h : ∀ idx, indexOf? ['='] p = some idx → toLower (trimmed (p.take idx)) ≠ toLower name) : DefinesNot name p := by
  intro n v hd
  obtain ⟨idx, hi, rfl, _⟩ := defines_iff.1 hd
  exact h idx hi

theorem definesNot_of {name p : Str} (h : (match indexOf? ['='] p with
    | some idx => decide (toLower (trimmed (p.take idx)) ≠ toLower name)
    | Option.none => true) = true) : DefinesNot name p := by
  apply definesNot
  intro idx hi
  rw [hi] at h
  simpa using h

theorem unset_of {env : List Str} {name : Str} (h : env.all (fun t => match indexOf? ['='] t with
    | some idx => decide (toLower (t.take idx) ≠ toLower name)
    | Option.none => true) = true) : Unset env name := by
  intro t ht v hs
  obtain ⟨n, rfl, hn, e⟩ := hs
  have := List.all_eq_true.1 h _ ht
  rw [indexOf?_char hn] at this
  simp only [List.take_left, decide_eq_true_eq] at this
  exact this e

/-- `Path` reaches the commands as it is, although the makefile defines the macro `PATH`. -/
example : envLookup c!"PATH" b.env = some c!"c:\\bin" := by
  refine C77_inherited_partial build expanded spelled (fun p hp => ?_) (by unfold SameName; decide) (by unfold SameName; decide)
    ⟨[], _, [c!"PROMPT=$P$G", c!"MAKEFLAGS=s"], rfl, ⟨c!"Path", rfl, by decide, by unfold SameName; decide⟩, unset_of (by decide)⟩ (by decide)
  simp only [plain, List.mem_cons, List.not_mem_nil, or_false] at hp
  rcases hp with rfl | rfl | rfl <;> exact definesNot_of (by decide +kernel)

example : envLookup c!"X" b.env = Option.none := by
  refine C77_unset build expanded spelled (fun p hp => ?_) (by unfold SameName; decide) (by unfold SameName; decide) (unset_of (by decide))
  simp only [plain, List.mem_cons, List.not_mem_nil, or_false] at hp
  rcases hp with rfl | rfl | rfl <;> exact definesNot_of (by decide +kernel)

example : envLookup c!"Q" b.env = some c!"1 2" := by
  refine C77_defined_partial (pre := [c!"opt=$(CC)"]) (p := c!"Q=1 2") (post := [c!"app"]) build expanded spelled
    (defines_iff.2 ⟨1, by decide +kernel, by decide +kernel, by decide +kernel, by decide +kernel⟩) (fun p hp => ?_)
    (by unfold SameName; decide) (by unfold SameName; decide) (by decide)
  simp only [List.cons_append, List.nil_append, List.mem_cons, List.not_mem_nil, or_false] at hp
  rcases hp with rfl | rfl <;> exact definesNot_of (by decide +kernel)

theorem correct : Correct items plain full where
  spelled := spelled
  numbers := by
    intro n hn
    have : n = c!"4" := by simpa [items, jobNumbers] using hn
    subst this
    exact ⟨4, [], [], c!"4", [], rfl, rfl, rfl, .inl rfl, .one (by decide), by decide, by decide⟩
  names := by
    intro p hp he
    simp only [plain, List.mem_cons, List.not_mem_nil, or_false] at hp
    rcases hp with rfl | rfl | rfl
    · exact ⟨c!"opt", c!"$(CC)", defines_iff.2 ⟨3, by decide +kernel, by decide +kernel, by decide +kernel, by decide +kernel⟩⟩
    · exact ⟨c!"Q", c!"1 2", defines_iff.2 ⟨1, by decide +kernel, by decide +kernel, by decide +kernel, by decide +kernel⟩⟩
    · exact absurd he (by decide)

example := C78_correct expanded correct

/-- The exit code of a call that builds nothing. -/
def code (args : List Str) : Option Nat := match main w args with
  | .exit c => some c
  | _ => Option.none

theorem code_exit {args : List Str} {c : Nat} (h : code args = some c) : main w args = .exit c := by
  unfold code at h
  split at h
  · rename_i e; cases h; exact e
  · cases h

/-- `/j0` -/
example : main w [c!"/j0"] = .exit 128 :=
  C78_incorrect (.inr ⟨[c!"/s", c!"/j0"], by decide +kernel, by decide, fun _ _ hc =>
    C78_correct (w := w) (args := [c!"/j0"]) (by decide +kernel) hc (code_exit (by decide +kernel))⟩)

theorem asked_correct : Correct [.flag 's', .flag 'k', .flag '?'] [] [c!"/s", c!"-k?"] where
  spelled := by
    refine .opt (d := '/') (items := [.flag 's']) (more := []) (.inr rfl) (.flag (by decide) (fun _ => notLong_of (by decide)) .nil) ?_
    exact .opt (d := '-') (items := [.flag 'k', .flag '?']) (more := []) (.inl rfl)
      (.flag (by decide) (fun _ => notLong_of (by decide)) (.flag (by decide) (fun _ => notLong_of (by decide)) .nil)) .nil
  numbers := by simp [jobNumbers]
  names := by simp

example : main w [c!"-k?"] = .exit 0 :=
  (C78_asked (by decide +kernel) asked_correct (by decide)).2 (.inr (.inl ⟨'?', by simp, rfl⟩))

theorem missing_correct : Correct [.flag 's', .file 'f' c!"x"] [] [c!"/s", c!"-f", c!"x"] where
  spelled := by
    refine .opt (d := '/') (items := [.flag 's']) (more := []) (.inr rfl) (.flag (by decide) (fun _ => notLong_of (by decide)) .nil) ?_
    exact .opt (d := '-') (items := [.file 'f' c!"x"]) (more := [c!"x"]) (.inl rfl) (.fileNext (by decide)) .nil
  numbers := by simp [jobNumbers]
  names := by simp

example : main w [c!"-f", c!"x"] = .exit 2 := by
  refine C78_no_makefile (by decide +kernel) missing_correct ?_ (by decide +kernel)
  rintro (⟨c, hc, hu⟩ | ⟨c, hc, hu⟩ | h)
  · simp only [List.mem_cons, Item.flag.injEq, reduceCtorEq, List.not_mem_nil, or_false] at hc
    subst hc; revert hu; decide
  · simp only [List.mem_cons, Item.flag.injEq, reduceCtorEq, List.not_mem_nil, or_false] at hc
    subst hc; revert hu; decide
  · simp [GivenLong] at h

open Jom.Blocks Jom.Inference Jom.Whole
open Jom.Make (J Run)

def disk : Str → Option Nat := fun n => if n = c!"foo.c" then some 1 else Option.none

def cfgOf (b : Build) : Sched.Cfg :=
  { jobs := b.jobs, keepGoing := b.line.st.opts.buildUnrelatedTargetsOnError, buildAll := b.line.st.opts.buildAllTargets,
    dumpGraph := b.line.st.opts.dumpDependencyGraph, targets := b.ids, deps := fun _ => firstDeps b.tab b.dir disk, fuel := 5 }

theorem configured (b : Build) : Configured b (cfgOf b) := ⟨rfl, rfl, rfl, rfl, rfl⟩

example := C78_settings build expanded spelled (configured b)

def begin (b : Build) : J :=
  { s := Sched.init (cfgOf b), m := Make.buildAsked (env b.tab b.dir toLower) [] { info := info b.tab, files := { disk := disk, cache := [] } } }

theorem run_begin (b : Build) : Run (env b.tab b.dir toLower) (cfgOf b) (info b.tab) disk Spec.Build.NobodyWrites (begin b) :=
  Run.start [] (fun t => rfl) (fun n hn => by cases hn)

def played (b : Build) (es : List Make.Event) : J := play (env b.tab b.dir toLower) (cfgOf b) (begin b) es

def toEnd : List Make.Event :=
  [.startProcesses BuildCase.answers, .childFinished 0 false, .startProcesses BuildCase.answers, .childFinished 1 false,
    .startProcesses BuildCase.answers]

theorem run_end : Run (env b.tab b.dir toLower) (cfgOf b) (info b.tab) disk Spec.Build.NobodyWrites (played b toEnd) :=
  play_run _ (run_begin b) (by decide +kernel)

theorem end_log : (played b toEnd).s.log = [.started 0 1, .succeeded 0 1, .started 0 0, .succeeded 0 0] ∧ (played b toEnd).s.exits = [0] := by
  decide +kernel

example := C78_job_limit build expanded spelled (configured b) run_end.reachable

theorem nodup_eraseDups : ∀ (n : Nat) (l : List Str), l.length ≤ n → l.eraseDups.Nodup
  | _, [], _ => by simp
  | 0, _ :: _, h => by simp at h
  | n + 1, a :: l, h => by
    rw [List.eraseDups_cons, List.nodup_cons]
    refine ⟨by simp, nodup_eraseDups n _ ?_⟩
    have := List.length_filter_le (fun b => !b == a) l
    simp at h
    omega

theorem hash : ∀ rs, HashOrder rs (w.keys rs) := by
  intro rs
  refine ⟨?_, fun k => ?_⟩
  · exact nodup_eraseDups _ _ (Nat.le_refl _)
  · simp [w]

theorem unquoted : ∀ n d, tableSays (applySync b.p.table (w.order b.p.table.sync)) n = some d → ∀ x ∈ d.deps, ¬ Spec.Blocks.Enclosed x :=
  fun n d h x hx => (BuildCase.entries (by decide +kernel) n d h x hx).2

example := C78_loaded build expanded spelled (fun l => .refl _) hash (by decide +kernel) unquoted

theorem known : ∃ f, Tidy b.tab f := by
  obtain ⟨_, _, _, _, _, _, _, _, hl⟩ := C78_loaded build expanded spelled (fun l => .refl _) hash (by decide +kernel) unquoted
  obtain ⟨_, _, _, _, _, _, _, _, hp⟩ := C76_prepared hl
  exact ⟨_, hp.known.tidy⟩

example := C78_exit_zero_partial build expanded spelled (fun l => .refl _) hash (by decide +kernel) unquoted (configured b)
  (noDir known.choose_spec _ (by decide +kernel)) (sourcesDeclared known.choose_spec _ _ (by decide +kernel)) run_end (by decide +kernel)

end MainCase

/-- C77 fails for values with dollar signs: what the commands see is the value with all macros expanded. `PROMPT=$P$G`, as Windows sets it,
is empty for the commands. -/
theorem C77_dollar_refuted : ∃ (w : Outside) (args : List Str) (b : Build), main w args = .build b ∧ c!"PROMPT=$P$G" ∈ w.environment ∧
    envLookup c!"PROMPT" b.env = some [] :=
  ⟨MainCase.w, MainCase.args, MainCase.b, MainCase.build, by decide, by decide +kernel⟩

/-- C77 fails for macros of the command line whose values use predefined macros: with `opt=$(CC)` the macro in the makefile is `cl`, but the variable
of the commands is empty, as it is computed before the macros are predefined. -/
theorem C77_late_refuted : ∃ (w : Outside) (args : List Str) (b : Build), main w args = .build b ∧ c!"opt=$(CC)" ∈ args ∧
    (expandMacros b.p.src.table.macros c!"$(opt)" = .ok c!"cl") ∧ envLookup c!"opt" b.env = some [] :=
  ⟨MainCase.w, MainCase.args, MainCase.b, MainCase.build, by decide, by decide +kernel, by decide +kernel⟩

/-! ### C79: `/DUMPGRAPH` -/

/-- What holds instead of C79: with `/DUMPGRAPH` exactly the same can happen to the targets as without it, except that one call of `startProcesses`
less is waiting at the beginning; whatever is started, done or skipped with the option, and whatever exit code is given, is possible without it.
Missing: that nothing is started (`C79_refuted`). -/
theorem C79_partial {cfg : Sched.Cfg} {s : Sched.St} (hd : cfg.dumpGraph = true) (ht : cfg.targets ≠ []) (h : Sched.Reachable cfg s) :
    ∃ s', Sched.Reachable { cfg with dumpGraph := false } s' ∧ s'.log = s.log ∧ s'.exits = s.exits ∧ s'.busy = s.busy ∧ s'.g = s.g := by
  obtain ⟨es, h⟩ := h
  refine ⟨Sched.more s, ⟨es, ?_⟩, rfl, rfl, rfl, rfl⟩
  have := Sched.run_more h
  rw [← Sched.init_more hd ht] at this
  exact this

namespace DumpCase
open MainCase Jom.Whole
open Jom.Make (J Run)

def args : List Str := [c!"/DUMPGRAPH", c!"app"]

def b : Build := result args

theorem build : main w args = .build b := built_result (by decide +kernel)

theorem run : Run (env b.tab b.dir toLower) (cfgOf b) (info b.tab) disk Spec.Build.NobodyWrites (played b toEnd) :=
  play_run _ (run_begin b) (by decide +kernel)

example := C79_partial (cfg := cfgOf b) (by decide +kernel) (by decide +kernel) run.reachable

end DumpCase

open Jom.Make (J Run) in
/-- C79 fails: with `/DUMPGRAPH` the commands are executed after the graph has been shown. -/
theorem C79_refuted : ∃ (w : Outside) (args : List Str) (b : Build) (cfg : Sched.Cfg) (disk : Str → Option Nat) (j : J),
    c!"/DUMPGRAPH" ∈ args ∧ main w args = .build b ∧ Configured b cfg ∧ cfg.dumpGraph = true ∧
    Run (Prepare.env b.tab b.dir toLower) cfg (Prepare.info b.tab) disk Spec.Build.NobodyWrites j ∧ Sched.Ev.started 0 0 ∈ j.s.log :=
  ⟨MainCase.w, DumpCase.args, DumpCase.b, MainCase.cfgOf DumpCase.b, MainCase.disk, MainCase.played DumpCase.b MainCase.toEnd, by decide, DumpCase.build,
    MainCase.configured _, by decide +kernel, DumpCase.run, by decide +kernel⟩

end Jom.Props
