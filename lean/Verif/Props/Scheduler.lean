/-
Properties of the scheduler of one jom process (C30, C31, C32, C34 - C39).

Every theorem speaks about an arbitrary state that can be reached by an arbitrary sequence of events, i.e. about all
schedules of terminating commands, token grants and queued calls, all file-time situations and all results.  The history `s.log` lists
what happened to the targets, in order; `cfg.targets[b]` is the `b`-th requested target, `cfg.deps b` are the declared dependents
while that target is built.
-/
import Verif.Proofs.SchedMeasure
import Verif.Proofs.SchedExtra

namespace Jom.Props

open Jom.Graph Jom.Spec Jom.Sched

/-! ### A concrete configuration for the examples

Target 0 depends on 1 and 2, both depend on 3; file-times say that everything must be built. -/

def exDeps : Nat → List Dep
  | 0 => [.node 1, .node 2]
  | 1 => [.node 3]
  | 2 => [.node 3, .file]
  | _ => []

def exCfg (jobs : Nat) (keepGoing : Bool) : Cfg :=
  { jobs := jobs, keepGoing := keepGoing, buildAll := false, dumpGraph := false, targets := [0],
    deps := fun _ => exDeps, fuel := 10 }

/-- Everything has commands and is out of date; processes run asynchronously. -/
def exO : Oracle := ⟨fun _ _ _ => false, fun _ _ => true, fun _ => false, .running⟩

/-- Observable part of the state reached by a sequence of events. -/
def obs (cfg : Cfg) (es : List Event) : Option (List Ev × List Nat) :=
  (run cfg (init cfg) es).map fun s => (s.log, s.exits)

/-- `-j2`: 3 first, then 1 and 2 concurrently, then 0. -/
def exRun : List Event :=
  [.startProcesses exO, .startProcesses exO, .childFinished 0 false, .startProcesses exO, .startProcesses exO, .grant,
    .acquired .running false, .childFinished 0 false, .startProcesses exO, .childFinished 1 false,
    .startProcesses exO, .childFinished 0 false, .startProcesses exO]

theorem acyclic_of_rank {deps : Nat → List Dep} (rank : Nat → Nat) (h : ∀ x c, DependsOn deps x c → rank c < rank x)
    (root : Nat) : AcyclicFrom deps root := by
  intro x _ hx
  have : ∀ y, DependsTrans deps x y → rank y < rank x := by
    intro y hy
    induction hy with
    | single h1 => exact h _ _ h1
    | tail _ h2 ih => exact Nat.lt_trans (h _ _ h2) ih
  exact Nat.lt_irrefl _ (this x hx)

/-- The example configuration is acyclic. -/
theorem exCfg_acyclic (jobs : Nat) (k : Bool) : Ac (exCfg jobs k) := by
  intro b r _
  apply acyclic_of_rank (fun x => 4 - x)
  intro x c h
  simp only [exCfg, DependsOn] at h
  unfold exDeps at h
  split at h <;> simp at h <;> omega

/-! ### C30 -/

/-- C30: whenever a target was started, every direct or indirect dependent had been completed before (built successfully,
found up to date, or without commands).  With `/K` the graph must be acyclic (which the parser checks,
C24); otherwise nothing is assumed. -/
theorem C30_dependents_first (cfg : Cfg) (s : St) (h : Reachable cfg s) (hac : cfg.keepGoing = true → AcTo cfg s.build)
    (before after : List Ev) (b t : Nat) (hl : s.log = before ++ Ev.started b t :: after) (d : Nat)
    (hd : DependsTrans (cfg.deps b) t d) :
    Ev.succeeded b d ∈ before ∨ Ev.upToDate b d ∈ before ∨ Ev.noCommands b d ∈ before :=
  h.inv.lg.order hac before after b t hl d hd

example : obs (exCfg 2 false) (exRun) = some ([.started 0 3, .succeeded 0 3, .started 0 1, .started 0 2,
    .succeeded 0 2, .succeeded 0 1, .started 0 0, .succeeded 0 0], [0]) := by decide +kernel

/-! ### C31 -/

/-- C31: in every history a target is started at most once per requested target, and a target that was started is neither
reported as up to date nor as having no commands nor as skipped. -/
theorem C31_started_once (cfg : Cfg) (s : St) (h : Reachable cfg s) (b t : Nat) :
    s.log.count (Ev.started b t) ≤ 1 ∧
    (Ev.started b t ∈ s.log → Ev.upToDate b t ∉ s.log ∧ Ev.noCommands b t ∉ s.log ∧ Ev.unbuildable b t ∉ s.log) := by
  refine ⟨?_, h.inv.lg.notRan b t⟩
  have h1 := List.nodup_iff_count.1 h.inv.lg.startOnce (b, t)
  refine Nat.le_trans ?_ h1
  generalize s.log = l
  induction l with
  | nil => simp
  | cons e l ih =>
    by_cases he : e = Ev.started b t
    · subst he
      simp only [startKey, List.count_cons_self, List.filterMap_cons]
      omega
    · rw [List.count_cons_of_ne (by simpa using he), List.filterMap_cons]
      split
      · exact ih
      · rw [List.count_cons]; omega

/-! ### C32 -/

/-- Targets whose commands were started and have not ended. -/
def running (log : List Ev) : Nat := log.countP isStart - log.countP isEnd

/-- C32: the history never shows more than `-j` targets being built at the same time; the busy executors are pairwise different
members of the pool, none of them is also available, and no undefined behaviour (taking an executor from an empty pool,
missing target, failed assertion of the graph) has happened. -/
theorem C32_job_limit (cfg : Cfg) (s : St) (h : Reachable cfg s) :
    s.log.countP isEnd ≤ s.log.countP isStart ∧ running s.log = s.busy.length ∧ running s.log ≤ cfg.jobs ∧
    (s.busy.map (·.1)).Nodup ∧ (∀ p ∈ s.busy, p.1 < cfg.jobs ∧ p.1 ∉ s.avail) ∧ s.ub = false := by
  have hc := h.extra.count
  have hp := h.inv.ex.perm
  have hlen := hp.length_eq
  simp only [List.length_append, List.length_map, List.length_range] at hlen
  have hnd := hp.nodup_iff.2 List.nodup_range
  refine ⟨by omega, by unfold running; omega, by unfold running; omega, h.inv.ex.busyFst, ?_, h.inv.ub⟩
  intro p hpb
  have hm : p.1 ∈ s.busy.map (·.1) ++ s.stuck.map (·.1) := List.mem_append_left _ (List.mem_map_of_mem hpb)
  refine ⟨List.mem_range.1 (hp.mem_iff.1 (List.mem_append_right _ hm)), fun ha => ?_⟩
  exact (List.nodup_append.1 hnd).2.2 _ ha _ hm rfl

/-- The limit is reached. -/
example : (run (exCfg 2 false) (init (exCfg 2 false)) (exRun.take 7)).map (fun s => (running s.log, s.busy)) =
    some (2, [(0, 2), (1, 1)]) := by decide +kernel

/-! ### C34 -/

/-- Tokens given back. -/
def returned (s : St) : Nat := s.relChild + s.relWait

/-- C34 (partial): full claim: when a jom ends it has given back exactly as many tokens as it took, also if the build was
aborted.  Proved: (1) every end without abort (success, `/K` with failures, `exit(2)`) returns exactly the tokens taken;
(2) after an abort, when all commands have ended, at most one token too many is given back.  Missing: exactness
after an abort is false, see `C34_abort_returns_too_much` and `C34_exception_leaks`. -/
theorem C34_tokens_returned_partial (cfg : Cfg) (s : St) (h : Reachable cfg s) :
    (s.exits ≠ [] → s.aborted = false → returned s = s.taken) ∧
    (s.busy = [] → s.stuck = [] → s.acquiring = false → s.taken ≤ returned s ∧ returned s ≤ s.taken + 1) := by
  have hi := h.inv
  have key : s.busy = [] → s.stuck = [] → s.acquiring = false →
      s.taken ≤ returned s ∧ returned s ≤ s.taken + 1 ∧ (s.aborted = false → returned s = s.taken) := by
    intro hb hs ha
    obtain ⟨d, t1, t2, t3, t4⟩ := hi.ex.tok
    have t5 := hi.ex.tokInt
    have hg : s.granted = false := by
      cases hg : s.granted with
      | false => rfl
      | true => have := hi.ex.gr hg; rw [ha] at this; cases this
    simp only [hb, hs, ha, hg, List.length_nil, Bool.toNat_false] at t2 t4 t5
    unfold returned
    refine ⟨by omega, by omega, fun hab => ?_⟩
    have := t3 hab
    omega
  refine ⟨fun hx hab => ?_, fun hb hs ha => ⟨(key hb hs ha).1, (key hb hs ha).2.1⟩⟩
  obtain ⟨c, hc⟩ := List.exists_mem_of_ne_nil _ hx
  have hs := hi.ex.stuckAb hab
  rcases hi.codes c hc with ⟨_, h1⟩ | ⟨h1, _⟩ | ⟨h1, _⟩
  · obtain ⟨_, _, a, b⟩ := hi.deadExit h1
    exact (key b hs (by simpa using a)).2.2 hab
  · rw [hab] at h1; cases h1
  · exact (key h1.busy hs h1.acq).2.2 hab

/-- Nobody gets a token that the pool of this jom does not have: while not aborted, the tokens taken and not given
back are at most `-j` minus one, and one fewer than the running targets (the first target needs no token). -/
theorem C34_tokens_held (cfg : Cfg) (s : St) (h : Reachable cfg s) (hab : s.aborted = false) :
    s.taken ≤ returned s + (s.busy.length - 1) + s.granted.toNat ∧ s.taken ≤ returned s + (cfg.jobs - 1) := by
  have hi := h.inv
  obtain ⟨d, t1, t2, t3, t4⟩ := hi.ex.tok
  have t5 := hi.ex.tokInt
  have hs := hi.ex.stuckAb hab
  have hd := t3 hab
  have hlen := hi.ex.perm.length_eq
  simp only [List.length_append, List.length_map, List.length_range, hs, List.length_nil] at hlen t4
  have hga : s.granted.toNat ≤ s.acquiring.toNat := by
    cases hg : s.granted with
    | false => simp
    | true => rw [hi.ex.gr hg]; exact Nat.le_refl _
  have hav : s.acquiring.toNat ≤ s.avail.length := by
    cases ha : s.acquiring with
    | false => simp
    | true => exact List.length_pos_iff.2 (hi.ex.acqAvail ha)
  unfold returned
  constructor <;> omega

/-- Two independent dependents. -/
def forkCfg (jobs : Nat) (keepGoing : Bool) : Cfg :=
  { jobs := jobs, keepGoing := keepGoing, buildAll := false, dumpGraph := false, targets := [0],
    deps := fun _ t => if t = 0 then [.node 1, .node 2, .node 3] else [], fuel := 10 }

/-- A normal build takes a token and returns it. -/
example : (run (exCfg 2 false) (init (exCfg 2 false)) exRun).map (fun s => (s.taken, returned s, s.exits)) =
    some (1, 1, [0]) := by decide +kernel

/-- C34 is false for aborted builds: a token was requested for the second target, the first target fails (its
`onChildFinished` gives the token back although it is not there yet), then `waitForJobClient` receives the token and gives it back
again.  The jom ends with one token more in the semaphore than before. -/
theorem C34_abort_returns_too_much : ∃ s, Reachable (forkCfg 2 false) s ∧ s.exits = [2] ∧ s.busy = [] ∧ s.stuck = [] ∧
    s.acquiring = false ∧ s.taken = 1 ∧ returned s = 2 := by
  have : ((run (forkCfg 2 false) (init (forkCfg 2 false)) [.startProcesses exO, .startProcesses exO, .grant,
      .childFinished 0 true, .acquired .running true, .abortDone]).map
      fun s => (s.exits, s.busy, s.stuck, s.acquiring, s.taken, returned s)) = some ([2], [], [], false, 1, 2) := by
    decide +kernel
  obtain ⟨s, h1, h2⟩ := Option.map_eq_some_iff.1 this
  simp only [Prod.mk.injEq] at h2
  obtain ⟨a, b, c, d, e, f⟩ := h2
  exact ⟨s, ⟨_, h1⟩, a, b, c, d, e, f⟩

/-- C34 is false after an exception: a token was taken for the second target, the exception (inline file of the
second target cannot be written) ends the build with exit code 1 and the token is not given back. -/
theorem C34_exception_leaks : ∃ s, Reachable (forkCfg 2 false) s ∧ s.exits = [1] ∧ s.taken = 1 ∧ returned s = 0 := by
  have : ((run (forkCfg 2 false) (init (forkCfg 2 false)) [.startProcesses exO, .startProcesses exO, .grant,
      .acquired .throws false]).map
      fun s => (s.exits, s.taken, returned s)) = some ([1], 1, 0) := by
    decide +kernel
  obtain ⟨s, h1, h2⟩ := Option.map_eq_some_iff.1 this
  simp only [Prod.mk.injEq] at h2
  obtain ⟨a, b, c⟩ := h2
  exact ⟨s, ⟨_, h1⟩, a, b, c⟩

/-! ### C35 -/

/-- C35: without `/K`, after a target failed no target is started any more, and the build can only end with exit code 2 - unless
an exception had ended the build before the failure. -/
theorem C35_failure_stops_build (cfg : Cfg) (s : St) (h : Reachable cfg s) (hk : cfg.keepGoing = false)
    (before after : List Ev) (b t : Nat) (hl : s.log = before ++ Ev.failed b t :: after) :
    (∀ b' t', Ev.started b' t' ∉ after) ∧ (Ev.exception ∉ before → ∀ c ∈ s.exits, c = 2) := by
  have hi := h.inv
  refine ⟨hi.lg.quiet hk before after b t hl, fun he c hc => ?_⟩
  have hf : Ev.failed b t ∈ s.log := by rw [hl]; simp
  have hab := hi.lg.failAb hk b t hf
  rcases hi.codes c hc with ⟨h1, _⟩ | ⟨_, ⟨_, h1⟩ | ⟨h1, _⟩⟩ | ⟨h1, _⟩
  · exact h1
  · rw [hl] at h1
    simp only [List.mem_append, List.mem_cons, reduceCtorEq, false_or] at h1
    exact absurd (h1.resolve_left he) (h.extra.exc hk before after b t hl)
  · exact h1
  · rw [h1.ab] at hab; cases hab

/-- 1 fails while 2 is running: 2 ends, nothing else is started, exit code 2. -/
example : obs (forkCfg 2 false) [.startProcesses exO, .startProcesses exO, .grant, .acquired .running false,
    .childFinished 0 true, .startProcesses exO, .childFinished 1 false, .startProcesses exO, .abortDone] =
    some ([.started 0 1, .started 0 2, .failed 0 1, .succeeded 0 2], [2]) := by decide +kernel

/-! ### C36, C37 -/

theorem eq_of_settled {l : List Ev} (h : (l.filterMap settleKey).Nodup) {x y : Ev} {k : Nat × Nat} (hx : x ∈ l) (hy : y ∈ l)
    (kx : settleKey x = some k) (ky : settleKey y = some k) : x = y := by
  induction l with
  | nil => cases hx
  | cons e l ih =>
    rw [List.filterMap_cons] at h
    have hin : ∀ z ∈ l, settleKey z = some k → k ∈ l.filterMap settleKey := by
      intro z hz hzk; exact List.mem_filterMap.2 ⟨z, hz, hzk⟩
    rcases List.mem_cons.1 hx with hxe | hx
    · rcases List.mem_cons.1 hy with hye | hy
      · rw [hxe, hye]
      · rw [← hxe, kx] at h
        exact absurd (hin y hy ky) (List.nodup_cons.1 h).1
    · rcases List.mem_cons.1 hy with hye | hy
      · rw [← hye, ky] at h
        exact absurd (hin x hx kx) (List.nodup_cons.1 h).1
      · refine ih ?_ hx hy
        split at h
        · exact h
        · exact (List.nodup_cons.1 h).2

/-- At a regular end everything that can be reached from a requested target is accounted for. -/
theorem complete_settled {cfg s} (h : Reachable cfg s) (hac : AcTo cfg s.build) (hc : Complete s) (b r x : Nat)
    (hr : cfg.targets[b]? = some r) (hx : Reaches (cfg.deps b) r x) : (b, x) ∈ s.settled := by
  have hi := h.inv
  have hlen : b ≤ s.build := by
    have hp := hi.lg.pend hc.ab
    rw [hc.pending] at hp
    have := List.drop_eq_nil_iff.1 hp.symm
    have hb : b < cfg.targets.length := by
      obtain ⟨hb, _⟩ := List.getElem?_eq_some_iff.1 hr
      exact hb
    omega
  rcases Nat.lt_or_eq_of_le hlen with hlt | rfl
  · exact hi.lg.past hac b hlt r hr x hx
  · have hids : s.g.ids = [] := GInv.leaf hi.lg.ginv (fun r hr => hac _ (Nat.le_refl _) r hr) hc.leaves
    rcases hi.lg.reachSettled with ⟨_, hh, _⟩ | hh | hh
    · rw [hc.ab] at hh; cases hh
    · rw [hc.dead] at hh; cases hh
    · rcases hh r hr x hx with h1 | h1
      · rw [hids] at h1; cases h1
      · exact h1

/-- C36: with `/K` and acyclic dependencies, for each requested target (the graph `b`;
false across requested targets, see `C36_across_refuted`): (1) no target that depends directly or indirectly on a failed target is started; (2) a
target is skipped only if it depends on a failed one; (3) when the build ends - it was not ended by an exception and
not by a dependent that does not exist - every target that depends on no failed target has been processed, and the exit code is 1 if a target
failed and 0 otherwise. -/
theorem C36_keep_going_partial (cfg : Cfg) (s : St) (h : Reachable cfg s) (hk : cfg.keepGoing = true) (hac : AcTo cfg s.build) :
    (∀ b z p, Ev.failed b z ∈ s.log → DependsTrans (cfg.deps b) p z → Ev.started b p ∉ s.log) ∧
    (∀ b p, Ev.unbuildable b p ∈ s.log → ∃ z, Ev.failed b z ∈ s.log ∧ DependsTrans (cfg.deps b) p z) ∧
    (∀ c ∈ s.exits, Ev.exception ∉ s.log →
      (∀ b r x, cfg.targets[b]? = some r → Reaches (cfg.deps b) r x → Dep.missing ∉ cfg.deps b x) →
      (∀ b r, cfg.targets[b]? = some r → build (cfg.deps b) cfg.fuel r ≠ .error .fuel) →
      (c = 1 ∧ (∃ b z, Ev.failed b z ∈ s.log) ∨ c = 0 ∧ ¬ ∃ b z, Ev.failed b z ∈ s.log) ∧
      ∀ b r x, cfg.targets[b]? = some r → Reaches (cfg.deps b) r x →
        (¬ ∃ z, Ev.failed b z ∈ s.log ∧ DependsTrans (cfg.deps b) x z) →
        Ev.succeeded b x ∈ s.log ∨ Ev.failed b x ∈ s.log ∨ Ev.upToDate b x ∈ s.log ∨ Ev.noCommands b x ∈ s.log) := by
  have hi := h.inv
  refine ⟨?_, hi.lg.unbLog, ?_⟩
  · intro b z p hz hp hs
    obtain ⟨l1, l2, hl⟩ := List.append_of_mem hs
    have ho := hi.lg.order (fun _ => hac) l1 l2 b p hl z hp
    have hsub : ∀ e ∈ l1, e ∈ s.log := fun e he => by rw [hl]; exact List.mem_append_left _ he
    rcases ho with ho | ho | ho
    · exact absurd (eq_of_settled hi.lg.settleOnce hz (hsub _ ho) rfl rfl) (by simp)
    · exact absurd (eq_of_settled hi.lg.settleOnce hz (hsub _ ho) rfl rfl) (by simp)
    · exact absurd (eq_of_settled hi.lg.settleOnce hz (hsub _ ho) rfl rfl) (by simp)
  · intro c hc hex hmiss hfuel
    rcases hi.codes c hc with ⟨_, hd⟩ | ⟨_, ⟨_, h1⟩ | ⟨_, h1, _⟩⟩ | ⟨hcomp, h1⟩
    · obtain ⟨r, e, hr, he⟩ := h.extra.died hd
      cases e with
      | missing =>
        obtain ⟨x, hx, hm⟩ := build_missing he
        exact absurd hm (hmiss _ r x hr hx)
      | fuel => exact absurd he (hfuel _ r hr)
    · exact absurd h1 hex
    · rw [hk] at h1; cases h1
    · refine ⟨?_, ?_⟩
      · rw [h1]
        have := hi.lg.allOk
        cases hao : s.allOk with
        | true =>
          rw [hao] at this
          have hno : ¬ ∃ b z, Ev.failed b z ∈ s.log := fun hh => by simpa using this.2 hh
          exact Or.inr ⟨rfl, hno⟩
        | false =>
          rw [hao] at this
          exact Or.inl ⟨rfl, this.1 rfl⟩
      · intro b r x hr hx hnz
        have hset := mem_settled.1 (complete_settled h hac hcomp b r x hr hx)
        rcases hset with hh | hh | hh | hh | hh
        · exact Or.inr (Or.inr (Or.inl hh))
        · exact Or.inr (Or.inr (Or.inr hh))
        · exact absurd (hi.lg.unbLog b x hh) hnz
        · exact Or.inl hh
        · exact Or.inr (Or.inl hh)

/-- C36 across requested targets: if a target is started although it depends on one that has failed, then the failure belongs to another requested target, and the
target that failed was looked at again for this one and succeeded, was up to date or had no commands before. -/
theorem C36_across_partial (cfg : Cfg) (s : St) (h : Reachable cfg s) (hac : cfg.keepGoing = true → AcTo cfg s.build) (before after : List Ev) (b p : Nat)
    (hl : s.log = before ++ Ev.started b p :: after) (b' z : Nat) (hz : Ev.failed b' z ∈ s.log) (hd : DependsTrans (cfg.deps b) p z) :
    b' ≠ b ∧ (Ev.succeeded b z ∈ before ∨ Ev.upToDate b z ∈ before ∨ Ev.noCommands b z ∈ before) := by
  have hi := h.inv
  have ho := C30_dependents_first cfg s h hac before after b p hl z hd
  refine ⟨?_, ho⟩
  rintro rfl
  have hsub : ∀ e ∈ before, e ∈ s.log := fun e he => by rw [hl]; exact List.mem_append_left _ he
  rcases ho with ho | ho | ho
  · exact absurd (eq_of_settled hi.lg.settleOnce hz (hsub _ ho) rfl rfl) (by simp)
  · exact absurd (eq_of_settled hi.lg.settleOnce hz (hsub _ ho) rfl rfl) (by simp)
  · exact absurd (eq_of_settled hi.lg.settleOnce hz (hsub _ ho) rfl rfl) (by simp)

/-- 1 fails: 0 is skipped, 2 and 3 are still built, exit code 1. -/
example : obs (exCfg 2 true) [.startProcesses exO, .childFinished 0 false, .startProcesses exO, .startProcesses exO, .grant,
    .acquired .running false, .childFinished 1 true, .startProcesses exO, .childFinished 0 false,
    .startProcesses exO] = some ([.started 0 3, .succeeded 0 3, .started 0 1, .started 0 2, .failed 0 1,
      .succeeded 0 2, .unbuildable 0 0], [1]) := by decide +kernel

/-- C37: exit code 0 with acyclic dependencies: no target failed, and every target that can be reached from a requested target was
built, was up to date or has no commands. -/
theorem C37_exit_zero (cfg : Cfg) (s : St) (h : Reachable cfg s) (hac : AcTo cfg s.build) (h0 : 0 ∈ s.exits) :
    (∀ b t, Ev.failed b t ∉ s.log) ∧ s.busy = [] ∧
    ∀ b r x, cfg.targets[b]? = some r → Reaches (cfg.deps b) r x →
      Ev.succeeded b x ∈ s.log ∨ Ev.upToDate b x ∈ s.log ∨ Ev.noCommands b x ∈ s.log := by
  have hi := h.inv
  rcases hi.codes 0 h0 with ⟨h1, _⟩ | ⟨_, ⟨h1, _⟩ | ⟨h1, _⟩⟩ | ⟨hcomp, h1⟩
  · cases h1
  · cases h1
  · cases h1
  · have hao : s.allOk = true := by
      cases hao : s.allOk with
      | true => rfl
      | false => rw [hao] at h1; simp at h1
    have hnf : ∀ b t, Ev.failed b t ∉ s.log := by
      intro b t hf
      have := hi.lg.allOk.2 ⟨b, t, hf⟩
      rw [hao] at this; cases this
    refine ⟨hnf, hcomp.busy, ?_⟩
    intro b r x hr hx
    rcases mem_settled.1 (complete_settled h hac hcomp b r x hr hx) with hh | hh | hh | hh | hh
    · exact Or.inr (Or.inl hh)
    · exact Or.inr (Or.inr hh)
    · obtain ⟨z, hz, _⟩ := hi.lg.unbLog b x hh
      exact absurd hz (hnf b z)
    · exact Or.inl hh
    · exact absurd hh (hnf b x)

/-- Exit code 0 is reached (`exRun`), also with an up-to-date and a command-less target. -/
example : obs (exCfg 2 false) [.startProcesses ⟨fun _ _ t => t = 3, fun _ t => t ≠ 1, fun _ => false, .sync false⟩,
    .startProcesses exO, .childFinished 1 false, .startProcesses exO] =
    some ([.upToDate 0 3, .noCommands 0 1, .started 0 2, .succeeded 0 2, .started 0 0, .succeeded 0 0], [0]) := by
  decide +kernel

/-! ### C38 -/

/-- An event that can happen to a jom that owns its job server: tokens are granted only while the semaphore has some. -/
def Enabled (cfg : Cfg) (s : St) (ev : Event) : Prop :=
  (Sched.step cfg s ev).isSome = true ∧
    (ev = .grant → (s.taken : Int) - s.relChild - s.relWait < (cfg.jobs : Int) - 1)

/-- C38: (1) as long as no exit code has been emitted some event can happen; (2) there is a bound on the length of all
runs; hence (3) every run that cannot be continued has emitted an exit code.  (For cyclic graphs the C++ code may recurse forever
in `markParentsRecursivlyUnbuildable`; the parser rejects them, C24.) -/
theorem C38_progress (cfg : Cfg) (hj : 0 < cfg.jobs) :
    (∀ s, Reachable cfg s → s.exits = [] → ∃ ev, Enabled cfg s ev) ∧
    (∃ bound, ∀ es s, run cfg (init cfg) es = some s → es.length ≤ bound) ∧
    (∀ s, Reachable cfg s → (∀ ev, ¬ Enabled cfg s ev) → s.exits ≠ []) := by
  have h1 : ∀ s, Reachable cfg s → s.exits = [] → ∃ ev, Enabled cfg s ev := by
    intro s h hx
    obtain ⟨ev, s', hs, hg⟩ := h.inv.progress hj hx
    exact ⟨ev, by rw [hs]; rfl, hg⟩
  refine ⟨h1, ⟨Sched.measure cfg (init cfg), ?_⟩, ?_⟩
  · intro es s hr
    have := run_measure (Inv.init cfg) hr
    omega
  · intro s h hn hx
    obtain ⟨ev, he⟩ := h1 s h hx
    exact hn ev he

/-! ### C39 -/

/-- C39 (partial): full claim: at any time exactly one executor writes directly.  Proved: (1) whenever targets are being built, at least
one of their executors writes directly, and if none is built the next executor to be used does; (2) with at most two jobs at
most one executor writes directly.  Missing: with three or more jobs the second half is false, see
`C39_two_unbuffered`. -/
theorem C39_direct_output_partial (cfg : Cfg) (s : St) (h : Reachable cfg s) :
    (s.stuck = [] → s.busy ≠ [] → ∃ p ∈ s.busy, s.buffered p.1 = false) ∧
    (s.stuck = [] → s.busy = [] → ∀ e rest, s.avail = e :: rest → s.buffered e = false) ∧
    (cfg.jobs ≤ 2 → ∀ x y, x < cfg.jobs → y < cfg.jobs → s.buffered x = false → s.buffered y = false → x = y) := by
  have hb := h.buf
  refine ⟨?_, ?_, h.extra.two⟩
  · intro hs hne
    have hact : s.active = s.busy.map (·.1) := by unfold St.active; rw [hs]; simp
    obtain ⟨e, he, hu⟩ := hb.act (by rw [hact]; simpa using hne)
    rw [hact, List.mem_map] at he
    obtain ⟨p, hp, rfl⟩ := he
    exact ⟨p, hp, hu⟩
  · intro hs hb0
    exact hb.idle (by unfold St.active; rw [hs, hb0]; rfl)

/-- `-j2`, both executors busy: exactly one writes directly. -/
example : (run (exCfg 2 false) (init (exCfg 2 false)) (exRun.take 7)).map
    (fun s => (s.busy.map (·.1), s.buffered 0, s.buffered 1)) = some ([0, 1], true, false) := by decide +kernel

/-- C39 is false with three jobs: executors 0, 1, 2 are busy, 0 (which wrote directly) ends, and the hand-over loop in
`onChildFinished` switches off buffering of both others because it does not stop after the first. -/
theorem C39_two_unbuffered : ∃ s, Reachable (forkCfg 3 false) s ∧ s.busy = [(2, 3), (1, 2)] ∧ s.buffered 1 = false ∧
    s.buffered 2 = false := by
  have : ((run (forkCfg 3 false) (init (forkCfg 3 false)) [.startProcesses exO, .startProcesses exO, .grant,
      .acquired .running false, .startProcesses exO, .grant, .acquired .running false, .childFinished 0 false]).map
      fun s => (s.busy, s.buffered 1, s.buffered 2)) = some ([(2, 3), (1, 2)], false, false) := by
    decide +kernel
  obtain ⟨s, h1, h2⟩ := Option.map_eq_some_iff.1 this
  simp only [Prod.mk.injEq] at h2
  obtain ⟨a, b, c⟩ := h2
  exact ⟨s, ⟨_, h1⟩, a, b, c⟩

end Jom.Props
