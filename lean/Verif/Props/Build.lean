/-
C71: dependents that nothing can make. C72: which targets are built, and in which order, from what the makefile says. C73: what exit code 0
means for the makefile.
-/
import Verif.Proofs.Build
import Verif.Props.Setup
import Verif.Props.Scheduler
import Verif.Spec.MakeRun

namespace Jom.Props

open Jom.Blocks Jom.Inference Jom.Prepare Jom.Graph Jom.Sched Jom.Make Relation
open Jom.Spec
open Jom.Spec.Blocks (canon Enclosed Described)
open Jom.Spec.Setup
open Jom.Spec.Build (NobodyWrites)

/-! ### What is known when the build starts -/

theorem inDir_prefix {pre dir : Str} (h : InDir pre dir) : DirPrefix pre := by
  cases h with
  | here => exact .inl rfl
  | root c hc => exact .inr ⟨[], c, rfl, hc⟩
  | dir d c hc _ => exact .inr ⟨_, c, rfl, hc⟩

theorem sources_of_tidy {t : Tab} {rules : List Rule} {suffixes keys : List Str} (hd : Defined rules) (hk : HashOrder rules keys)
    (h : Tidy t (findRules (calculatePriorities suffixes rules) keys)) : Sources t := by
  intro d r hn hr
  obtain ⟨k, e, h1, h2, h3⟩ := h.find_entry hn
  rw [h.candidates h1 h2.symm] at hr
  cases hf : find t.rules e.1 with
  | none => rw [hf] at hr; simp at hr
  | some rs =>
    rw [hf] at hr
    simp only [Option.getD_some] at hr
    obtain ⟨b, g1, _, g2⟩ := h.rules _ _ hf
    have g3 := find_of_mem h.nodup (List.mem_of_getElem? h1)
    rw [g3] at g1
    cases g1
    rw [g2, findRules_iff hd hk] at hr
    obtain ⟨r0, ⟨_, ⟨pre, base, ext, h4, h5, h6, h7, _⟩, _⟩, rfl⟩ := hr
    have hname : d.name = pre ++ (base ++ ext) := by rw [← h3]; exact h4
    rw [hname]
    apply inferredDependent_source
    rw [(withPriority_fields suffixes r0).1, fileName_eq (inDir_prefix h6) h5]
    have : ext.length = r0.toExt.length := by
      have := congrArg List.length h7
      simpa [toLower] using this
    simp; omega

/-- Cycles among the targets are cycles of the makefile. -/
theorem cyclic_of_ready {said : Says} {fits : Str → Rule → Prop} {names : List Str} {target : Str → Option Described}
    {candidates : Str → List Rule} (hr : Ready said fits names target candidates) (h : Cyclic target names) : Cyclic said names := by
  have hsaid : ∀ n d, target n = some d → d.deps ≠ [] → ∃ d0, said n = some d0 ∧ Alike d0 d := by
    intro n d hn hd
    cases hs : said n with
    | none => exact absurd (hr.createdEmpty n d hs hn).1 hd
    | some d0 =>
      obtain ⟨d', h1, h2⟩ := hr.described n d0 hs
      rw [hn] at h1
      cases h1
      exact ⟨d0, rfl, h2⟩
  have hlead : ∀ a b c, Leads target a b → Leads target b c → Leads said a b := by
    rintro a b c ⟨d, h1, ⟨x, h2, h3⟩, h4⟩ ⟨d', h5, ⟨y, h6, _⟩, _⟩
    obtain ⟨d0, g1, g2⟩ := hsaid a d h1 (List.ne_nil_of_mem h2)
    obtain ⟨d1, g3, _⟩ := hsaid b d' h5 (List.ne_nil_of_mem h6)
    exact ⟨d0, g1, ⟨x, (g2.2.2 x).1 h2, h3⟩, by rw [g3]; simp⟩
  obtain ⟨a, ha, b, h1, h2⟩ := h
  have hf : ¬ Free (Leads target) a := fun hf => hf b h1 h2
  have hf' : ¬ Free (Leads said) a := fun h => hf (h.of_out hlead)
  unfold Free at hf'
  simp only [not_forall, Classical.not_not] at hf'
  obtain ⟨b, h3, h4⟩ := hf'
  exact ⟨a, ha, b, h3, h4⟩

/-- The makefile, the rules and the command line, and what jom makes of them before the first command is started. -/
structure Prepared (mk : Mk) (order : List (Str × List Str)) (rules : List Rule) (suffixes keys active names : List Str) (t : Tab)
    (ids : List Nat) : Prop where
  /-- the table comes from the parser -/
  parsed : ∃ n bs, addBlocks n {} bs = .ok mk ∧ ∀ b ∈ bs, ∀ t ∈ b.targets, '/' ∉ t
  nonempty : mk.targets ≠ []
  plain : ∀ n d, tableSays (applySync mk order) n = some d → ∀ x ∈ d.deps, '/' ∉ x ∧ ¬ Enclosed x
  defined : Defined rules
  hash : HashOrder rules keys
  names : names = (if active = [] then ((mk.first.bind (find mk.targets)).map (·.name)).toList else active)
  setup : setup rules suffixes order keys active mk = .ok (t, ids)

section

variable {mk : Mk} {order : List (Str × List Str)} {rules : List Rule} {suffixes keys active names : List Str} {t : Tab} {ids : List Nat}

/-- What is known about the targets and the requested ones. -/
structure Known (t : Tab) (F : Str → List Rule) (names : List Str) (ids : List Nat) : Prop where
  length : ids.length = names.length
  tidy : Tidy t F
  sources : Sources t
  acyclic : ¬ Cyclic t.target names
  root : ∀ (b i : Nat), ids[b]? = some i → ∃ a d, names[b]? = some a ∧ t.entry i = some d ∧ t.target a = some d

theorem Prepared.known (h : Prepared mk order rules suffixes keys active names t ids) :
    Known t (findRules (calculatePriorities suffixes rules) keys) names ids := by
  obtain ⟨n, bs, hr, hn⟩ := h.parsed
  have hkeyed : Keyed mk := addBlocks_keyed _ keyed_empty hn hr
  obtain ⟨_, h2, h3⟩ := prepare_spec hkeyed order (said := tableSays (applySync mk order)) (fun _ => rfl) h.plain rules suffixes keys active
  have hact : ∀ a ∈ active, tableSays (applySync mk order) a ≠ none := by
    intro a ha hx
    cases hf : active.find? fun a => (tableSays (applySync mk order) a).isNone with
    | none =>
      have := List.find?_eq_none.1 hf a ha
      rw [hx] at this
      simp at this
    | some a' =>
      have := h2 h.nonempty a' hf
      rw [h.setup] at this
      cases this
  obtain ⟨g1, g2⟩ := h3 h.nonempty hact names h.names
  have hc : ¬ Cyclic (tableSays (applySync mk order)) names := by
    intro hc
    obtain ⟨x, e, _⟩ := g1 hc
    rw [h.setup] at e
    cases e
  obtain ⟨t', ids', e1, _, e2, e3, e4, _⟩ := g2 hc
  rw [h.setup] at e1
  simp only [Except.ok.injEq, Prod.mk.injEq] at e1
  obtain ⟨rfl, rfl⟩ := e1
  refine ⟨by simpa using congrArg List.length e4, e2, sources_of_tidy h.defined h.hash e2, fun hx => hc (cyclic_of_ready e3 hx), fun b i hi => ?_⟩
  have h5 := congrArg (fun l => l[b]?) e4
  simp only [List.getElem?_map, hi, Option.map_some] at h5
  cases ha : names[b]? with
  | none => rw [ha] at h5; cases h5
  | some a =>
    rw [ha] at h5
    simp only [Option.map_some, Option.some.injEq] at h5
    have hk0 := applySync_keyed order hkeyed
    have hsome : tableSays (applySync mk order) a ≠ none := by
      by_cases he : active = []
      · have hm := List.mem_of_getElem? ha
        rw [h.names, if_pos he] at hm
        rcases hkeyed.first with ⟨e, _⟩ | ⟨k, b, e, hb⟩
        · exact absurd e h.nonempty
        · rw [e] at hm
          simp only [Option.bind_some, hb, Option.map_some, Option.toList, List.mem_singleton] at hm
          obtain ⟨k1, k2⟩ := hkeyed.keys k b hb
          rw [tableSays_eq hk0, hm, canon_native k2, ← k1]
          have h6 := applySync_find order mk k
          rw [hb] at h6
          cases h7 : find (applySync mk order).targets k with
          | none => rw [h7] at h6; simp at h6
          | some b' => simp
      · rw [h.names, if_neg he] at ha
        exact hact a (List.mem_of_getElem? ha)
    cases hsa : tableSays (applySync mk order) a with
    | none => exact absurd hsa hsome
    | some d =>
      rw [hsa] at h5
      cases he : t.table.targets[i]? with
      | none => rw [he] at h5; cases h5
      | some e =>
        refine ⟨a, describe e.2, rfl, entry_iff.2 ⟨e, he, rfl⟩, ?_⟩
        rw [he] at h5
        simp only [Option.map_some, Option.some.injEq] at h5
        rw [← (e2.entry he).2]
        apply e2.canon_congr
        rw [tableSays_eq hk0] at hsa
        cases hf : find (applySync mk order).targets (canon a) with
        | none => rw [hf] at hsa; cases hsa
        | some b' =>
          rw [hf] at hsa
          simp only [Option.map_some, Option.some.injEq] at hsa
          obtain ⟨k1, k2⟩ := hk0.keys _ _ hf
          have : e.2.name = b'.name := by
            have := congrArg Described.name (h5.trans hsa.symm)
            exact this
          rw [this, canon_native k2, ← k1]

variable {F : Str → List Rule} {dir : Str} {abs : Str → Str} {cfg : Cfg} {disk : Str → Option Nat} {ok : J → Make.Event → Prop} {j : J}

theorem all_built {cfg : Cfg} {s : St} (h : Sched.Reachable cfg s) (h0 : 0 ∈ s.exits) {b r : Nat} (hr : cfg.targets[b]? = some r) : b ≤ s.build := by
  have hi := h.inv
  rcases hi.codes 0 h0 with ⟨h1, _⟩ | ⟨_, ⟨h1, _⟩ | ⟨h1, _⟩⟩ | ⟨hc, h1⟩
  · cases h1
  · cases h1
  · cases h1
  · have hp := hi.lg.pend hc.ab
    rw [hc.pending] at hp
    have := List.drop_eq_nil_iff.1 hp.symm
    have hb : b < cfg.targets.length := (List.getElem?_eq_some_iff.1 hr).1
    omega

theorem Known.acTo (h : Known t F names ids) (ht : cfg.targets = ids) (hd : NoDir t dir) (hdecl : SourcesDeclared t.target t.candidates dir names)
    (hrun : Run (env t dir abs) cfg (info t) disk ok j) : AcTo cfg j.s.build := by
  intro b hb r hr
  rw [ht] at hr
  obtain ⟨a, d, h1, h2, h3⟩ := h.root b r hr
  obtain ⟨m, h4, h5⟩ := hrun.recorded.graphs b hb
  exact graph_acyclic h.tidy h.sources hd h4 h5 hdecl h.acyclic (List.mem_of_getElem? h1) h2 h3

end

/-! ### C72 -/

section

variable {mk : Mk} {order : List (Str × List Str)} {rules : List Rule} {suffixes keys active names : List Str} {t : Tab} {ids : List Nat}
  {dir : Str} {abs : Str → Str} {cfg : Cfg} {disk : Str → Option Nat} {ok : J → Make.Event → Prop} {j : J}

/-- The target with the number `k` has been dealt with in the `b`-th build: it was made, it was up to date, or there is nothing to do for it. -/
def Done (log : List Ev) (b k : Nat) : Prop := Ev.succeeded b k ∈ log ∨ Ev.upToDate b k ∈ log ∨ Ev.noCommands b k ∈ log

/-- C72: whatever the processes do, whatever files there are, in whatever order things end: if a target is started then it is needed for
the requested target that is being built, it has commands or a rule that fits, it was not started before for this
requested target, and all its dependents that are targets have been dealt with before. (With `/K`: if no cycle has come up, see
`C73_exit_zero_partial`.) -/
theorem C72_started (h : Prepared mk order rules suffixes keys active names t ids) (ht : cfg.targets = ids)
    (hkg : cfg.keepGoing = true → NoDir t dir ∧ SourcesDeclared t.target t.candidates dir names)
    (hrun : Run (env t dir abs) cfg (info t) disk ok j) (before after : List Ev) (b k : Nat)
    (hlog : j.s.log = before ++ Ev.started b k :: after) :
    ∃ a d, names[b]? = some a ∧ t.entry k = some d ∧ t.target d.name = some d ∧
      Needed t.target t.candidates dir [a] d ∧ (d.cmds ≠ [] ∨ t.candidates d.name ≠ []) ∧ Ev.started b k ∉ before ∧
      ∀ x ∈ d.deps, ∀ d', Means t.target dir x = some d' → ∃ k', t.entry k' = some d' ∧ Done before b k' := by
  have hk := h.known
  have hrec := hrun.recorded
  have hreach := hrun.reachable
  have hmem : Ev.started b k ∈ j.s.log := by rw [hlog]; simp
  obtain ⟨r, hr, hrk⟩ := hreach.inv.lg.startReach b k hmem
  obtain ⟨m, hm1, hm2⟩ := hrec.graphs b (hreach.inv.lg.logT b k hmem)
  rw [ht] at hr
  obtain ⟨a, d0, h1, h2, h3⟩ := hk.root b r hr
  obtain ⟨d, h4, h5⟩ := reaches_needed hk.tidy hk.sources hm1 hm2 h2 (names := [a]) (.requested (by simp) h3) hrk
  refine ⟨a, d, h1, h4, hk.tidy.entry_target h4, h5, ?_, ?_, ?_⟩
  · have hcmds := hrec.armed.2 b k hmem
    obtain ⟨e, he, rfl⟩ := entry_iff.1 h4
    show e.2.cmds ≠ [] ∨ t.candidates e.2.name ≠ []
    rw [hk.tidy.candidates he (hk.tidy.entry he).1.symm]
    rcases (hrec.grown k).2 with ⟨_, g, _⟩ | ⟨x, hx, _⟩
    · rw [hcmds, info_entry he] at g
      left
      simpa using g.symm
    · right
      rw [info_entry he] at hx
      obtain ⟨y, hy, _⟩ := List.mem_map.1 hx
      exact List.ne_nil_of_mem hy
  · intro hx
    have := (C31_started_once cfg j.s hreach b k).1
    rw [hlog, List.count_append, List.count_cons_self] at this
    have := List.count_pos_iff.2 hx
    omega
  · intro x hx d' hd'
    obtain ⟨k', hk'⟩ : ∃ k', t.entry k' = some d' := by
      unfold Means at hd'
      cases h6 : t.target x with
      | some d2 => rw [h6, Option.some_or] at hd'; cases hd'; exact hk.tidy.target_entry h6
      | none => rw [h6, Option.none_or] at hd'; exact hk.tidy.target_entry hd'
    refine ⟨k', hk', ?_⟩
    refine C30_dependents_first cfg j.s hreach (fun e => hk.acTo ht (hkg e).1 (hkg e).2 hrun) before after b k hlog k' ?_
    exact .single (edge_to hk.tidy hm1 hm2 h4 hk' hx hd')

/-! ### C73 -/

/-- C73: if sources are declared and no dependent is found via the directory of the makefile then exit code 0 means: no target failed and for
every requested target everything that is named has been dealt with. -/
theorem C73_exit_zero_partial (h : Prepared mk order rules suffixes keys active names t ids) (ht : cfg.targets = ids) (hd : NoDir t dir)
    (hdecl : SourcesDeclared t.target t.candidates dir names)
    (hrun : Run (env t dir abs) cfg (info t) disk ok j) (h0 : 0 ∈ j.s.exits) :
    (∀ b k, Ev.failed b k ∉ j.s.log) ∧ j.s.busy = [] ∧
    ∀ (b : Nat) (a n : Str) (d : Described), names[b]? = some a → Named t.target [a] n → t.target n = some d →
      ∃ k, t.entry k = some d ∧ Done j.s.log b k := by
  have hk := h.known
  have hac := hk.acTo ht hd hdecl hrun
  obtain ⟨g1, g2, g3⟩ := C37_exit_zero cfg j.s hrun.reachable hac h0
  refine ⟨g1, g2, fun b a n d ha hn hd' => ?_⟩
  obtain ⟨k, hk'⟩ := hk.tidy.target_entry hd'
  refine ⟨k, hk', ?_⟩
  have hb : b < ids.length := by rw [hk.length]; exact (List.getElem?_eq_some_iff.1 ha).1
  have hr : ids[b]? = some ids[b] := List.getElem?_eq_getElem hb
  obtain ⟨a', d0, h1, h2, h3⟩ := hk.root b _ hr
  rw [ha] at h1
  cases h1
  have hr' : cfg.targets[b]? = some ids[b] := by rw [ht]; exact hr
  obtain ⟨m, hm1, hm2⟩ := hrun.recorded.graphs b (all_built hrun.reachable h0 hr')
  exact g3 b _ k hr' (named_reaches hk.tidy hm1 hm2 h2 h3 hn hk' hd')

/-! ### C71 -/

/-- When the process has ended, nothing happens any more. -/
theorem step_dead {env : Env} {cfg : Cfg} {j j' : J} {e : Make.Event} (hd : j.s.dead = true) (h : Make.step env cfg j e = some j') : j'.s = j.s := by
  cases e <;> simp only [Make.step, hd, Bool.true_eq_false, false_and, if_false, if_true, reduceCtorEq] at h
  cases h
  rfl

/-- C71: if a target that is named (from the first requested target) has a dependent that is not a target and does not exist as a file
then nothing at all is executed and the exit code is 2. Missing: dependents that would be targets because an inference rule fits
(`C71_unmakeable_dependent`). -/
theorem C71_missing_partial (h : Prepared mk order rules suffixes keys active names t ids) (ht : cfg.targets = ids) {a n x : Str} {d : Described}
    (ha : names[0]? = some a) (hn : Named t.target [a] n) (hd : t.target n = some d) (hx : x ∈ d.deps)
    (hno : Means t.target dir x = none) (hfile : disk (abs x) = none)
    (hrun : Run (env t dir abs) cfg (info t) disk ok j) : j.s.log = [] ∧ j.s.busy = [] ∧ j.s.exits = [2] := by
  have hk := h.known
  have hb : 0 < ids.length := by rw [hk.length]; exact (List.getElem?_eq_some_iff.1 ha).1
  obtain ⟨i, rest, hi⟩ : ∃ i rest, ids = i :: rest := by
    cases ids with
    | nil => simp at hb
    | cons i rest => exact ⟨i, rest, rfl⟩
  obtain ⟨a', d0, h1, h2, h3⟩ := hk.root 0 i (by rw [hi]; rfl)
  rw [ha] at h1
  cases h1
  obtain ⟨k, hkd⟩ := hk.tidy.target_entry hd
  have hstart : DepsNow (env t dir abs) cfg { info := info t, files := { disk := disk, cache := [] } } 0 →
      (Sched.init cfg).dead = true ∧ (Sched.init cfg).busy = [] ∧ (Sched.init cfg).exits = [2] := by
    intro hdeps
    have hreach := named_reaches hk.tidy (fun k => .refl _) hdeps h2 h3 hn hkd hd
    have hmiss : Dep.missing ∈ cfg.deps 0 k := by
      rw [depsNow_mem hdeps]
      refine ⟨x, ?_, (resolve_missing_iff hk.tidy dir abs disk x).2 ⟨hno, hfile⟩⟩
      obtain ⟨e, he, rfl⟩ := entry_iff.1 hkd
      show x ∈ (info t k).deps
      rw [info_entry he]
      exact hx
    unfold Sched.init
    rw [ht, hi]
    simp only [rebuild]
    cases hg : build (cfg.deps 0) cfg.fuel i with
    | ok g => exact absurd hmiss ((build_ok hg).noMissing k hreach)
    | error e => cases cfg.dumpGraph <;> exact ⟨rfl, rfl, rfl⟩
  have hall : j.s.dead = true ∧ j.s.log = [] ∧ j.s.busy = [] ∧ j.s.exits = [2] := by
    induction hrun with
    | start asked hdeps _ =>
      obtain ⟨g1, g2, g3⟩ := hstart hdeps
      exact ⟨g1, (init_log cfg).1, g2, g3⟩
    | step asked _ _ hs _ _ ih =>
      have := step_dead ih.1 hs
      split
      · show _ ∧ _
        simp only [this]; exact ih
      · rw [this]; exact ih
  exact hall.2

end

/-! ### Cases -/

/-- The dependents of the first graph. -/
def firstDeps (t : Tab) (dir : Str) (disk : Str → Option Nat) (k : Nat) : List Dep :=
  (info t k).deps.map (resolve (env t dir toLower) { disk := disk, cache := [] })

/-- A sequence of events without writes to the disk. -/
def play (env : Env) (cfg : Cfg) (j : J) : List Make.Event → J
  | [] => j
  | e :: es => play env cfg ((Make.step env cfg j e).getD j) es

/-- The events are possible, and no new build begins. -/
def legal (env : Env) (cfg : Cfg) (j : J) : List Make.Event → Bool
  | [] => true
  | e :: es =>
    (match e with | .write _ _ => false | _ => true) && (Make.step env cfg j e).isSome &&
      ((Make.step env cfg j e).getD j).s.build == j.s.build && legal env cfg ((Make.step env cfg j e).getD j) es

theorem play_run {env : Env} {cfg : Cfg} {info : Nat → UpToDate.TInfo} {disk : Str → Option Nat} : ∀ (es : List Make.Event) {j : J},
    Run env cfg info disk NobodyWrites j → legal env cfg j es = true → Run env cfg info disk NobodyWrites (play env cfg j es) := by
  intro es
  induction es with
  | nil => intro j h _; exact h
  | cons e es ih =>
    intro j h hl
    simp only [legal, Bool.and_eq_true, beq_iff_eq] at hl
    obtain ⟨⟨⟨h1, h2⟩, h3⟩, h4⟩ := hl
    refine ih ?_ h4
    obtain ⟨x, hx⟩ := Option.isSome_iff_exists.1 h2
    rw [hx] at h3 ⊢
    have := Run.step (e := e) [] h (fun f v he => by subst he; simp at h1) hx (fun hne => absurd h3 hne) (fun n hn => by cases hn)
    rwa [if_neg (by simpa using h3)] at this

/-- Sources are declared if no target ends with the extension of the source of a candidate. -/
theorem sourcesDeclared {t : Tab} {F : Str → List Rule} (ht : Tidy t F) (dir : Str) (names : List Str)
    (h : ∀ e ∈ t.table.targets, ∀ r ∈ t.candidates e.2.name, ∀ e' ∈ t.table.targets, ¬ canon r.fromExt <:+ canon e'.2.name) :
    SourcesDeclared t.target t.candidates dir names := by
  intro d r n hd hr hs hn
  exfalso
  have hd' : ∃ k, t.entry k = some d := by
    have hm : ∀ x d', Means t.target dir x = some d' → ∃ k, t.entry k = some d' := by
      intro x d' hx
      unfold Means at hx
      cases h6 : t.target x with
      | some d2 => rw [h6, Option.some_or] at hx; cases hx; exact ht.target_entry h6
      | none => rw [h6, Option.none_or] at hx; exact ht.target_entry hx
    cases hd with
    | requested _ h => exact ht.target_entry h
    | dependent _ _ h => exact hm _ _ h
    | inferred _ _ _ h => exact hm _ _ h
  obtain ⟨k, hk⟩ := hd'
  obtain ⟨e, he, rfl⟩ := entry_iff.1 hk
  obtain ⟨d', hd'⟩ := Option.ne_none_iff_exists'.1 hn
  obtain ⟨k', hk'⟩ := ht.target_entry hd'
  obtain ⟨e', he', rfl⟩ := entry_iff.1 hk'
  refine h e (List.mem_of_getElem? he) r hr e' (List.mem_of_getElem? he') ?_
  have hc : canon e'.2.name = canon n := ht.target_name hd'
  obtain ⟨pre, base, ext, _, _, _, _, ⟨_, rfl⟩ | ⟨_, rfl⟩⟩ := hs
  · rw [hc]
    exact ⟨canon base, by simp [canon, toLower]⟩
  · rw [hc]
    exact ⟨canon (r.fromPath ++ ['\\'] ++ base), by simp [canon, toLower]⟩

/-- No target is named with a directory. -/
theorem noDir {t : Tab} {F : Str → List Rule} (ht : Tidy t F) (dir : Str) (h : ∀ e ∈ t.table.targets, '\\' ∉ canon e.2.name) : NoDir t dir := by
  intro n
  cases hn : t.target (dir ++ '\\' :: n) with
  | none => rfl
  | some d =>
    obtain ⟨k, hk⟩ := ht.target_entry hn
    obtain ⟨e, he, rfl⟩ := entry_iff.1 hk
    have hc : canon e.2.name = canon (dir ++ '\\' :: n) := ht.target_name hn
    refine absurd ?_ (h e (List.mem_of_getElem? he))
    rw [hc]
    have : toLowerC '\\' = '\\' := by decide
    simp [canon, toLower, this]

namespace BuildCase

/-- The table of `SetupCase`: `App: foo.obj main.obj readme`, `Main.obj: main.c`, `other: bar.obj` and rules. -/
def tab : Tab := (SetupCase.result.map (·.1)).getD { table := {} }

theorem entries {order : List (Str × List Str)} {mk : Mk} (h : ∀ e ∈ (applySync mk order).targets, ∀ x ∈ e.2.deps, '/' ∉ x ∧ ¬ Enclosed x) :
    ∀ n d, tableSays (applySync mk order) n = some d → ∀ x ∈ d.deps, '/' ∉ x ∧ ¬ Enclosed x := by
  intro n d hd
  unfold tableSays Mk.target at hd
  cases hk : (applySync mk order).key n with
  | none => rw [hk] at hd; cases hd
  | some k =>
    rw [hk] at hd
    cases hf : find (applySync mk order).targets k with
    | none => simp only [Option.bind_some, hf] at hd; cases hd
    | some b =>
      simp only [Option.bind_some, hf] at hd
      cases hd
      exact h _ (find_mem hf)

theorem prepared : Prepared SetupCase.mk SetupCase.mk.sync SetupCase.rules SetupCase.suffixes [c!".obj"] [] [c!"App"] tab [0] where
  parsed := ⟨1, SetupCase.blocks.map ofSpec, by decide +kernel, native_targets SetupCase.good⟩
  nonempty := by decide +kernel
  plain := entries (by decide +kernel)
  defined := SetupCase.defined
  hash := SetupCase.hash
  names := by decide +kernel
  setup := by decide +kernel

def disk : Str → Option Nat := fun n =>
  if n = c!"foo.cpp" then some 1 else if n = c!"main.c" then some 2 else if n = c!"readme" then some 3 else none

def cfg : Cfg :=
  { jobs := 2, keepGoing := false, buildAll := false, dumpGraph := false, targets := [0], deps := fun _ => firstDeps tab c!"d" disk, fuel := 5 }

def answers : Answers :=
  { now := 9, asked := fun _ => true, choose := fun _ => [], throws := fun _ => false, res := .running, writes := [] }

def j0 : J :=
  { s := Sched.init cfg
    m := buildAsked (env tab c!"d" toLower) [] { info := info tab, files := { disk := disk, cache := [] } } }

/-- Both objects are made at the same time, then `App` is linked. -/
def events : List Make.Event :=
  [.startProcesses answers, .childFinished 0 false, .startProcesses answers, .childFinished 1 false, .startProcesses answers]

theorem begin : Run (env tab c!"d" toLower) cfg (info tab) disk NobodyWrites j0 := Run.start [] (fun t => rfl) (fun n hn => by cases hn)

/-- `App` is linked. -/
def j1 : J := play (env tab c!"d" toLower) cfg j0 events

theorem run1 : Run (env tab c!"d" toLower) cfg (info tab) disk NobodyWrites j1 := play_run _ begin (by decide +kernel)

theorem log1 : j1.s.log = [.started 0 3, .succeeded 0 3, .started 0 1, .succeeded 0 1] ++ Ev.started 0 0 :: [] := by decide +kernel

/-- A case of the theorem: `foo.obj` and `Main.obj` have been dealt with before `App` is linked. -/
example := C72_started prepared rfl (fun h => by cases h) run1 _ [] 0 0 log1

/-- The end. -/
def j2 : J := play (env tab c!"d" toLower) cfg j1 [.childFinished 0 false, .startProcesses answers]

theorem run2 : Run (env tab c!"d" toLower) cfg (info tab) disk NobodyWrites j2 := play_run _ run1 (by decide +kernel)

example := C73_exit_zero_partial prepared rfl (noDir prepared.known.tidy c!"d" (by decide +kernel))
  (sourcesDeclared prepared.known.tidy c!"d" _ (by decide +kernel)) run2 (by decide +kernel)

/-- Without `readme`. -/
def disk' : Str → Option Nat := fun n => if n = c!"foo.cpp" then some 1 else if n = c!"main.c" then some 2 else none

def cfg' : Cfg := { cfg with deps := fun _ => firstDeps tab c!"d" disk' }

def j0' : J :=
  { s := Sched.init cfg'
    m := buildAsked (env tab c!"d" toLower) [] { info := info tab, files := { disk := disk', cache := [] } } }

/-- Nothing is executed. -/
example : Run (env tab c!"d" toLower) cfg' (info tab) disk' NobodyWrites j0' ∧ j0'.s.exits = [2] := by
  have h : Run (env tab c!"d" toLower) cfg' (info tab) disk' NobodyWrites j0' := Run.start [] (fun t => rfl) (fun n hn => by cases hn)
  have hno : Means tab.target c!"d" c!"readme" = none := by decide +kernel
  have hd : tab.target c!"App" = some ⟨c!"App", [c!"foo.obj", c!"main.obj", c!"readme"], [cmdOf c!"link"]⟩ := by decide +kernel
  exact ⟨h, (C71_missing_partial prepared rfl rfl (.requested (by simp)) hd (x := c!"readme") (by simp) hno (by decide +kernel) h).2.2⟩

end BuildCase

/-! ### A dependent that nothing can make -/

namespace UnmakeableCase

def blocks : List Spec.Blocks.Block :=
  [{ targets := [c!"app"], deps := [[.text c!"foo.obj"]], double := false, cmds := [cmdOf c!"link"] }]

def mk : Mk := match addBlocks 1 {} (blocks.map ofSpec) with | .ok mk => mk | .error _ => {}

def rules : List Rule := [exRule c!".obj" c!"cl"]

def result : Option (Tab × List Nat) := (setup rules SetupCase.suffixes mk.sync [c!".obj"] [] mk).toOption

def tab : Tab := (result.map (·.1)).getD { table := {} }

theorem prepared : Prepared mk mk.sync rules SetupCase.suffixes [c!".obj"] [] [c!"app"] tab [0] where
  parsed := ⟨1, blocks.map ofSpec, by decide +kernel, by decide +kernel⟩
  nonempty := by decide +kernel
  plain := BuildCase.entries (by decide +kernel)
  defined := by constructor <;> decide +kernel
  hash := by
    refine ⟨by decide +kernel, fun k => ?_⟩
    simp [rules, exRule, eq_comm]
  names := by decide +kernel
  setup := by decide +kernel

def cfg : Cfg :=
  { jobs := 2, keepGoing := false, buildAll := false, dumpGraph := false, targets := [0], deps := fun _ => firstDeps tab c!"d" fun _ => none, fuel := 5 }

def j0 : J :=
  { s := Sched.init cfg
    m := buildAsked (env tab c!"d" toLower) [] { info := info tab, files := { disk := fun _ => none, cache := [] } } }

def j1 : J := play (env tab c!"d" toLower) cfg j0 [.startProcesses BuildCase.answers]

theorem run1 : Run (env tab c!"d" toLower) cfg (info tab) (fun _ => none) NobodyWrites j1 :=
  play_run _ (Run.start [] (fun t => rfl) (fun n hn => by cases hn)) (by decide +kernel)

end UnmakeableCase

/-- C71 is false in general: `app: foo.obj` with a command to link and a rule `.c.obj`. There is no `foo.obj`, no `foo.c`, in fact no file at
all, and nothing else is said about `foo.obj`: the linker is started. -/
theorem C71_unmakeable_dependent : ∃ mk order rules suffixes keys active names t ids dir abs cfg j,
    Prepared mk order rules suffixes keys active names t ids ∧ cfg.targets = ids ∧ dir = c!"d" ∧ abs = toLower ∧
    Run (env t dir abs) cfg (info t) (fun _ => none) NobodyWrites j ∧ names = [c!"app"] ∧
    (∃ d, tableSays (applySync mk order) c!"app" = some d ∧ c!"foo.obj" ∈ d.deps) ∧ tableSays (applySync mk order) c!"foo.obj" = none ∧
    (∀ r ∈ rules, r.fromExt = c!".c") ∧ tableSays (applySync mk order) c!"foo.c" = none ∧ Ev.started 0 0 ∈ j.s.log ∧
    ∀ k, Ev.started 0 k ∈ j.s.log → k = 0 :=
  ⟨_, _, _, _, _, _, _, _, _, _, _, _, _, UnmakeableCase.prepared, rfl, rfl, rfl, UnmakeableCase.run1, rfl,
    ⟨⟨c!"app", [c!"foo.obj"], [cmdOf c!"link"]⟩, by decide +kernel, by decide⟩, by decide +kernel, by decide +kernel, by decide +kernel,
    by decide +kernel, by
      have : UnmakeableCase.j1.s.log = [.noCommands 0 1, .started 0 0] := by decide +kernel
      rw [this]
      simp⟩

/-! ### Exit code 0 although a requested target was not dealt with -/

namespace LateCycleCase

/-- `a.obj:` without dependents and commands, and `a.c: a.obj` with a command. -/
def blocks : List Spec.Blocks.Block :=
  [{ targets := [c!"a.obj"], deps := [], double := false, cmds := [] },
   { targets := [c!"a.c"], deps := [[.text c!"a.obj"]], double := false, cmds := [cmdOf c!"gen"] }]

def mk : Mk := match addBlocks 1 {} (blocks.map ofSpec) with | .ok mk => mk | .error _ => {}

def rules : List Rule := [exRule c!".obj" c!"cl"]

def result : Option (Tab × List Nat) := (setup rules SetupCase.suffixes mk.sync [c!".obj"] [c!"a.obj", c!"a.c"] mk).toOption

def tab : Tab := (result.map (·.1)).getD { table := {} }

theorem prepared : Prepared mk mk.sync rules SetupCase.suffixes [c!".obj"] [c!"a.obj", c!"a.c"] [c!"a.obj", c!"a.c"] tab [0, 1] where
  parsed := ⟨1, blocks.map ofSpec, by decide +kernel, by decide +kernel⟩
  nonempty := by decide +kernel
  plain := BuildCase.entries (by decide +kernel)
  defined := by constructor <;> decide +kernel
  hash := by
    refine ⟨by decide +kernel, fun k => ?_⟩
    simp [rules, exRule, eq_comm]
  names := by decide +kernel
  setup := by decide +kernel

def disk : Str → Option Nat := fun n => if n = c!"a.c" then some 1 else none

def cfg : Cfg :=
  { jobs := 2, keepGoing := false, buildAll := false, dumpGraph := false, targets := [0, 1]
    deps := fun b => if b = 0 then firstDeps tab c!"d" disk else fun k => if k = 0 then [.node 1] else if k = 1 then [.node 0] else []
    fuel := 5 }

def j0 : J :=
  { s := Sched.init cfg
    m := buildAsked (env tab c!"d" toLower) [] { info := info tab, files := { disk := disk, cache := [] } } }

def j1 : J := play (env tab c!"d" toLower) cfg j0 [.startProcesses BuildCase.answers, .childFinished 0 false]

theorem run1 : Run (env tab c!"d" toLower) cfg (info tab) disk NobodyWrites j1 :=
  play_run _ (Run.start [] (fun t => rfl) (fun n hn => by cases hn)) (by decide +kernel)

/-- The first requested target is made with the rule; then the second build begins. -/
def j' : J := (Make.step (env tab c!"d" toLower) cfg j1 (.startProcesses BuildCase.answers)).getD j1

theorem step' : Make.step (env tab c!"d" toLower) cfg j1 (.startProcesses BuildCase.answers) = some j' := by
  have : (Make.step (env tab c!"d" toLower) cfg j1 (.startProcesses BuildCase.answers)).isSome = true := by decide +kernel
  obtain ⟨x, hx⟩ := Option.isSome_iff_exists.1 this
  rw [j', hx]
  rfl

/-- Since then `a.obj` depends on `a.c`. -/
theorem deps' : DepsNow (env tab c!"d" toLower) cfg j'.m j'.s.build := by
  have hb : j'.s.build = 1 := by decide +kernel
  rw [hb]
  intro k
  match k with
  | 0 => decide +kernel
  | 1 => decide +kernel
  | k + 2 =>
    have hg := ((step_armed run1.recorded.armed step').1 (k + 2))
    have hg := (run1.recorded.grown (k + 2)).trans hg
    have hi : info tab (k + 2) = noInfo := by
      have : tab.table.targets[k + 2]? = none := by
        apply List.getElem?_eq_none
        have : tab.table.targets.length = 2 := by decide +kernel
        omega
      rw [info, this]
    rw [hi] at hg
    rcases hg.2 with ⟨h, _⟩ | ⟨r, hr, _⟩
    · rw [h]; rfl
    · cases hr

def j2 : J := { j' with m := buildAsked (env tab c!"d" toLower) [] j'.m }

theorem run2 : Run (env tab c!"d" toLower) cfg (info tab) disk NobodyWrites j2 := by
  have := Run.step (e := .startProcesses BuildCase.answers) [] run1 (fun _ _ he => by cases he) step' (fun _ => deps') (fun n hn => by cases hn)
  rwa [if_pos (by decide +kernel)] at this

def j3 : J := play (env tab c!"d" toLower) cfg j2 [.startProcesses BuildCase.answers]

theorem run3 : Run (env tab c!"d" toLower) cfg (info tab) disk NobodyWrites j3 := play_run _ run2 (by decide +kernel)

end LateCycleCase

/-- C73 is false in general: `a.obj:` and `a.c: a.obj` with a command, a rule `.c.obj`, `a.c` exists, `a.obj` and `a.c` are requested. There
is no cycle in the makefile. For the first requested target the rule is applied, so `a.obj` gets the dependent `a.c`. The graph for the second one
is a cycle, nothing can be built, and jom ends with exit code 0. Nothing was done for the second one (the target with the
number 1): it was not started and not found up to date. -/
theorem C73_late_cycle : ∃ mk order rules suffixes keys active names t ids dir abs cfg disk j,
    Prepared mk order rules suffixes keys active names t ids ∧ cfg.targets = ids ∧ dir = c!"d" ∧ abs = toLower ∧
    Run (env t dir abs) cfg (info t) disk NobodyWrites j ∧ names = [c!"a.obj", c!"a.c"] ∧ j.s.exits = [0] ∧
    (∃ d, t.target c!"a.c" = some d ∧ t.entry 1 = some d ∧ d.cmds ≠ []) ∧ disk c!"a.obj" = none ∧
    j.s.log = [.started 0 0, .succeeded 0 0] :=
  ⟨_, _, _, _, _, _, _, _, _, _, _, _, _, _, LateCycleCase.prepared, rfl, rfl, rfl, LateCycleCase.run3, rfl, by decide +kernel,
    ⟨⟨c!"a.c", [c!"a.obj"], [cmdOf c!"gen"]⟩, by decide +kernel, by decide +kernel, by decide⟩, by decide +kernel, by decide +kernel⟩

end Jom.Props
