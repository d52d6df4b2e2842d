/-
C107: no job stays unused while a target could be made, and how long a build takes.

The theorems speak about every reachable state and about every timed run (`Model/Timed.lean`): all schedules of
terminating commands, tokens and queued calls, all file times and all results.
-/
import Verif.Proofs.SchedTime
import Verif.Props.Scheduler

namespace Jom.Props

open Jom.Graph Jom.Spec Jom.Sched Relation

/-- Something has been decided about `t`: it needs no commands or cannot be made, or its commands have ended. -/
def Dealt (log : List Ev) (b t : Nat) : Prop :=
  Ev.upToDate b t ∈ log ∨ Ev.noCommands b t ∈ log ∨ Ev.unbuildable b t ∈ log ∨ Ev.succeeded b t ∈ log ∨ Ev.failed b t ∈ log

/-- The commands of `t` have been started and have not ended. -/
def InWork (log : List Ev) (b t : Nat) : Prop :=
  Ev.started b t ∈ log ∧ Ev.succeeded b t ∉ log ∧ Ev.failed b t ∉ log

/-- Nothing makes jom give up: no exception, and with `/K` or without failed commands. -/
def GoesOn (cfg : Cfg) (log : List Ev) : Prop :=
  Ev.exception ∉ log ∧ (cfg.keepGoing = true ∨ ∀ b t, Ev.failed b t ∉ log)

/-- The time the started commands need altogether. -/
def work (dur : Nat → Nat → Nat) : List Ev → Nat
  | [] => 0
  | .started b t :: log => dur b t + work dur log
  | _ :: log => work dur log

theorem GoesOn.alive {cfg s} (h : GoesOn cfg s.log) (hi : Inv cfg s) : s.aborted = false := by
  have key : ¬ (cfg.keepGoing = false ∧ ∃ b t, Ev.failed b t ∈ s.log) := by
    rintro ⟨hk, b, t, hf⟩
    rcases h.2 with h2 | h2
    · rw [hk] at h2; cases h2
    · exact h2 b t hf
  cases ha : s.aborted with
  | false => rfl
  | true =>
    rcases hi.abLive ha with hf | hx
    · exact absurd (hi.framesFail hf) key
    · obtain ⟨c, hc⟩ := List.exists_mem_of_ne_nil _ hx
      rcases hi.codes c hc with ⟨_, h1⟩ | ⟨_, ⟨_, h1⟩ | ⟨_, h1⟩⟩ | ⟨h1, _⟩
      · rw [(hi.deadExit h1).2.1] at ha; cases ha
      · exact absurd h1 h.1
      · exact absurd h1 key
      · rw [h1.ab] at ha; cases ha

/-- All that belongs to the requested target and has not been dealt with is being made or depends on something that is being made. -/
def AllWait (cfg : Cfg) (s : St) : Prop :=
  ∀ r, cfg.targets[s.build]? = some r → ∀ x, Reaches (cfg.deps s.build) r x → Dealt s.log s.build x ∨
    ∃ y, Reaches (cfg.deps s.build) x y ∧ InWork s.log s.build y

theorem allWait {cfg s} (h : Reachable cfg s) (hab : s.aborted = false) (hd : s.dead = false) (hac : AcTo cfg s.build)
    (hq : s.queued = 0) (ha : s.acquiring = false) : running s.log = cfg.jobs ∨ AllWait cfg s := by
  have hi := h.inv
  have hrun := (C32_job_limit cfg s h).2.1
  by_cases hfull : s.busy.length < cfg.jobs
  · refine Or.inr fun r hr x hrx => ?_
    rcases hi.lg.reachSettled with hc | hc | hc
    · exact absurd hc.2.1 (by rw [hab]; simp)
    · rw [hd] at hc; cases hc
    · rcases hc r hr x hrx with hid | hse
      · obtain ⟨y, hy, hxy⟩ := h.below hq ha hab hd hac hfull hid
        obtain ⟨p, hp, rfl⟩ := List.mem_map.1 hy
        have hun := mt mem_settled.2 (hi.lg.busyUnset p hp)
        exact Or.inr ⟨p.2, hxy, hi.lg.busyStart p hp, fun hh => hun (by simp [hh]), fun hh => hun (by simp [hh])⟩
      · exact Or.inl (mem_settled.1 hse)
  · have := (C32_job_limit cfg s h).2.2.1
    exact Or.inl (by omega)

/-- C107, jobs: whenever jom does nothing but wait for the end of a process, `-j` targets are being made, or every target that
belongs to the requested one and has not been dealt with is being made or depends on one that is being made.  (Dependents are
acyclic; `Waits` includes that no free token of the own job server is left unused.) -/
theorem C107_no_idle_job (cfg : Cfg) (s : St) (h : Reachable cfg s) (hx : s.exits = []) (hg : GoesOn cfg s.log)
    (hac : AcTo cfg s.build) (hw : Waits cfg s) :
    running s.log = cfg.jobs ∨
    ∀ r, cfg.targets[s.build]? = some r → ∀ x, Reaches (cfg.deps s.build) r x → Dealt s.log s.build x ∨
      ∃ y, Reaches (cfg.deps s.build) x y ∧ InWork s.log s.build y := by
  have hi := h.inv
  have hab := hg.alive hi
  have hd : s.dead = false := by
    cases hd : s.dead with
    | false => rfl
    | true => have := (hi.deadExit hd).1; rw [hx] at this; cases this
  obtain ⟨hq, ha⟩ := hw.quiet hi hab hd
  exact allWait h hab hd hac hq ha

theorem work_done (dur : Nat → Nat → Nat) (log : List Ev) : work dur log = done dur (log.filterMap startKey) := by
  induction log with
  | nil => rfl
  | cons e log ih => cases e <;> simp only [work, List.filterMap_cons, startKey, done, ih]

theorem done_le {spent dur : Nat → Nat → Nat} (h : ∀ b t, spent b t ≤ dur b t) : ∀ ks, done spent ks ≤ done dur ks
  | [] => Nat.le_refl _
  | k :: ks => Nat.add_le_add (h k.1 k.2) (done_le h ks)

/-- C107, time: if the commands of target `t` need at most `dur b t` units of time, then for every requested target there is a
chain of dependents such that `-j` times the time since the start is at most the work of all started commands
plus `-j` minus one times the work along these chains. -/
theorem C107_time (cfg : Cfg) (dur : Nat → Nat → Nat) (s : St) (spent : Nat → Nat → Nat) (time : Nat)
    (h : Timed cfg dur s spent time) (hg : GoesOn cfg s.log) (hac : AcTo cfg s.build) :
    ∃ chains : Nat → List Nat, (∀ b r, cfg.targets[b]? = some r → Chain (DependsOn (cfg.deps b)) r (chains b)) ∧
      cfg.jobs * time ≤
        work dur s.log + (cfg.jobs - 1) * total (fun b => total (dur b) (chains b)) (List.range (s.build + 1)) := by
  obtain ⟨idle, hi⟩ := h.inv (hg.alive h.reachable.inv) hac
  have hex : ∀ b, ∃ c, (∀ r, cfg.targets[b]? = some r → Chain (DependsOn (cfg.deps b)) r c) ∧ idle b ≤ total (spent b) c := by
    intro b
    cases hb : cfg.targets[b]? with
    | none => exact ⟨[], by simp, by rw [hi.other b hb]; exact Nat.zero_le _⟩
    | some r =>
      obtain ⟨c, hc, hle⟩ := hi.root b r hb
      refine ⟨c, ?_, hle⟩
      rintro r' ⟨⟩
      exact hc
  refine ⟨fun b => (hex b).choose, fun b r hb => (hex b).choose_spec.1 r hb, Nat.le_trans hi.work ?_⟩
  rw [work_done]
  refine Nat.add_le_add (done_le hi.le _) (Nat.mul_le_mul_left _ (total_le (fun b => ?_) _))
  exact Nat.le_trans (hex b).choose_spec.2 (total_le (fun t => hi.le b t) _)

/-- C107, one job: without parallel jobs the time is the time of the commands. -/
theorem C107_one_job (cfg : Cfg) (dur : Nat → Nat → Nat) (s : St) (spent : Nat → Nat → Nat) (time : Nat)
    (h : Timed cfg dur s spent time) (hg : GoesOn cfg s.log) (hac : AcTo cfg s.build) (hj : cfg.jobs = 1) :
    time ≤ work dur s.log := by
  obtain ⟨_, _, hle⟩ := C107_time cfg dur s spent time h hg hac
  simpa [hj] using hle

/-- C107, factor: `best` is no less than what any way to make the one requested target with `-j` jobs needs (the work divided
among the jobs, and the work along every chain of dependents).  Then jom needs at most `2 - 1/j` times `best`. -/
theorem C107_factor_two (cfg : Cfg) (dur : Nat → Nat → Nat) (s : St) (spent : Nat → Nat → Nat) (time r best : Nat)
    (h : Timed cfg dur s spent time) (hg : GoesOn cfg s.log) (hac : Ac cfg) (ht : cfg.targets = [r])
    (hwork : work dur s.log ≤ cfg.jobs * best) (hchain : ∀ c, Chain (DependsOn (cfg.deps 0)) r c → total (dur 0) c ≤ best) :
    cfg.jobs * time ≤ (cfg.jobs + (cfg.jobs - 1)) * best := by
  obtain ⟨idle, hi⟩ := h.inv (hg.alive h.reachable.inv) (hac.to _)
  obtain ⟨c, hc, hle⟩ := hi.root 0 r (by rw [ht]; rfl)
  have h0 : ∀ n, total idle (List.range (n + 1)) = idle 0 := by
    intro n
    induction n with
    | zero => simp [total, List.range_succ]
    | succ n ih =>
      rw [total_range_succ, ih, hi.other (n + 1) (by rw [ht]; rfl)]
      rfl
  have h1 := hi.work
  rw [h0] at h1
  have h2 : done spent (s.log.filterMap startKey) ≤ cfg.jobs * best := by
    rw [work_done] at hwork
    exact Nat.le_trans (done_le hi.le _) hwork
  have h3 : idle 0 ≤ best := Nat.le_trans hle (Nat.le_trans (total_le (fun t => hi.le 0 t) c) (hchain c hc))
  have h4 := Nat.mul_le_mul_left (cfg.jobs - 1) h3
  rw [Nat.add_mul]
  omega

/-! ### Timed runs that can be computed -/

theorem waits_of {cfg : Cfg} {s : St} (h1 : s.queued = 0) (h2 : s.acquiring = false) (h3 : s.granted = false)
    (h4 : s.frames = 0) : Waits cfg s := by
  intro ev hev
  have hs := hev.1
  cases ev with
  | childFinished e f => exact ⟨e, f, rfl⟩
  | startProcesses o => simp [Sched.step, h1] at hs
  | grant => simp [Sched.step, h2] at hs
  | acquired r w => simp [Sched.step, h3] at hs
  | abortDone => simp [Sched.step, h4] at hs

/-- `none` is a unit of time. -/
def timedRun (cfg : Cfg) (dur : Nat → Nat → Nat) : List (Option Event) → St → (Nat → Nat → Nat) → Nat →
    Option (St × (Nat → Nat → Nat) × Nat)
  | [], s, sp, n => some (s, sp, n)
  | some ev :: es, s, sp, n => (step cfg s ev).bind fun s => timedRun cfg dur es s sp n
  | none :: es, s, sp, n =>
    if s.queued = 0 ∧ s.acquiring = false ∧ s.granted = false ∧ s.frames = 0 ∧ s.busy ≠ [] ∧
        s.busy.all (fun p => decide (sp s.build p.2 < dur s.build p.2)) = true then
      timedRun cfg dur es s (clock s sp) (n + 1)
    else none

theorem timedRun_sound {cfg dur} : ∀ {es s sp n s' sp' n'}, Timed cfg dur s sp n →
    timedRun cfg dur es s sp n = some (s', sp', n') → Timed cfg dur s' sp' n' := by
  intro es
  induction es with
  | nil =>
    intro s sp n s' sp' n' h hr
    simp only [timedRun, Option.some.injEq, Prod.mk.injEq] at hr
    obtain ⟨rfl, rfl, rfl⟩ := hr
    exact h
  | cons e es ih =>
    intro s sp n s' sp' n' h hr
    cases e with
    | some ev =>
      simp only [timedRun] at hr
      cases hs : Sched.step cfg s ev with
      | none => rw [hs] at hr; cases hr
      | some s1 =>
        rw [hs] at hr
        exact ih (h.act hs) hr
    | none =>
      simp only [timedRun] at hr
      split at hr
      · next hc =>
        obtain ⟨h1, h2, h3, h4, h5, h6⟩ := hc
        refine ih (h.tick h5 (waits_of h1 h2 h3 h4) ?_) hr
        intro p hp
        simpa using List.all_eq_true.1 h6 p hp
      · cases hr

namespace SpeedCase

/-- Every target needs two units of time. -/
def dur : Nat → Nat → Nat := fun _ _ => 2

/-- `-j2`: 3, then 1 and 2 at the same time, then 0. -/
def es : List (Option Event) :=
  [some (.startProcesses exO), some (.startProcesses exO), some (.startProcesses exO), none, none,
    some (.childFinished 0 false), some (.startProcesses exO), some (.startProcesses exO),
    some .grant, some (.acquired .running false), some (.startProcesses exO), none, none,
    some (.childFinished 0 false), some (.startProcesses exO), some (.childFinished 1 false),
    some (.startProcesses exO), some (.startProcesses exO), none, none, some (.childFinished 0 false), some (.startProcesses exO)]

def result (jobs : Nat) (es : List (Option Event)) : Option (Nat × Nat × List Nat × List Ev) :=
  (timedRun (exCfg jobs false) dur es (init (exCfg jobs false)) (fun _ _ => 0) 0).map fun x => (x.2.2, x.1.build, x.1.exits, x.1.log)

/-- Four targets of two units each take six units of time. -/
theorem took : result 2 es = some (6, 0, [0], [.started 0 3, .succeeded 0 3, .started 0 1, .started 0 2, .succeeded 0 2,
    .succeeded 0 1, .started 0 0, .succeeded 0 0]) := by decide +kernel

theorem timed {jobs es n b x log} (h : result jobs es = some (n, b, x, log)) :
    ∃ s sp, Timed (exCfg jobs false) dur s sp n ∧ s.build = b ∧ s.exits = x ∧ s.log = log := by
  unfold result at h
  rw [Option.map_eq_some_iff] at h
  obtain ⟨⟨s, sp, m⟩, h1, h2⟩ := h
  simp only [Prod.mk.injEq] at h2
  obtain ⟨rfl, rfl, rfl, rfl⟩ := h2
  exact ⟨s, sp, timedRun_sound .init h1, rfl, rfl, rfl⟩

/-- The hypotheses of `C107_time` hold: 2 * 6 is at most 8 + 1 * the work of a chain, e.g. 0, 1, 3. -/
example : ∃ c, Chain (DependsOn exDeps) 0 c ∧ 2 * 6 ≤ 8 + total (dur 0) c := by
  obtain ⟨s, sp, h, hb, hx, hl⟩ := timed took
  have hg : GoesOn (exCfg 2 false) s.log := by
    rw [hl]
    exact ⟨by decide, Or.inr (by simp)⟩
  obtain ⟨chains, h1, h2⟩ := C107_time _ _ _ _ _ h hg ((exCfg_acyclic 2 false).to _)
  refine ⟨chains 0, h1 0 0 rfl, ?_⟩
  rw [hb, hl] at h2
  simpa [work, total, dur, exCfg] using h2

/-- Work along a chain that starts with a target. -/
def most : Nat → Nat
  | 0 => 6
  | 1 => 4
  | 2 => 4
  | _ => 2

theorem chain_most {x : Nat} {c : List Nat} (h : Chain (DependsOn exDeps) x c) : total (dur 0) c ≤ most x := by
  induction h with
  | last x => unfold most; split <;> simp [total, dur]
  | @cons x y c h1 _ ih =>
    unfold DependsOn exDeps at h1
    have : most y + 2 ≤ most x := by
      split at h1 <;> simp at h1
      · rcases h1 with rfl | rfl <;> decide
      · subst h1; decide
      · subst h1; decide
    simp only [total, dur] at ih ⊢
    omega

/-- The hypotheses of `C107_factor_two`: no way to make the target needs less than six units (0, 1 and 3 one after another); the
run above is as fast as possible, no other run needs more than nine units. -/
example (s : St) (sp : Nat → Nat → Nat) (n : Nat) (h : Timed (exCfg 2 false) dur s sp n) (hg : GoesOn (exCfg 2 false) s.log)
    (hw : work dur s.log ≤ 8) : n ≤ 9 := by
  have := C107_factor_two _ _ _ _ _ 0 6 h hg (exCfg_acyclic 2 false) rfl (Nat.le_trans hw (by decide)) (fun c hc => chain_most hc)
  simp only [exCfg] at this
  omega

/-- While 3 is made nothing else can be started: the second job is unused, but everything else depends on 3. -/
example : ∃ s sp, Timed (exCfg 2 false) dur s sp 2 ∧ Waits (exCfg 2 false) s ∧ running s.log = 1 ∧
    ∀ x, Reaches exDeps 0 x → Dealt s.log 0 x ∨ ∃ y, Reaches exDeps x y ∧ InWork s.log 0 y := by
  have hr : result 2 (es.take 5) = some (2, 0, [], [.started 0 3]) := by decide +kernel
  have hq : (timedRun (exCfg 2 false) dur (es.take 5) (init (exCfg 2 false)) (fun _ _ => 0) 0).map
      (fun x => (x.1.queued, x.1.acquiring, x.1.granted, x.1.frames)) = some (0, false, false, 0) := by decide +kernel
  unfold result at hr
  rw [Option.map_eq_some_iff] at hr hq
  obtain ⟨⟨s, sp, m⟩, h1, h2⟩ := hr
  obtain ⟨⟨s', sp', m'⟩, h3, h4⟩ := hq
  rw [h1] at h3
  cases h3
  simp only [Prod.mk.injEq] at h2 h4
  obtain ⟨rfl, hb, hx, hl⟩ := h2
  have ht : Timed (exCfg 2 false) dur s sp 2 := timedRun_sound .init h1
  have hw : Waits (exCfg 2 false) s := waits_of h4.1 h4.2.1 h4.2.2.1 h4.2.2.2
  have hrun : running s.log = 1 := by rw [hl]; decide
  refine ⟨s, sp, ht, hw, hrun, ?_⟩
  have hn := C107_no_idle_job (exCfg 2 false) s ht.reachable hx (by rw [hl]; exact ⟨by decide, Or.inr (by simp)⟩)
    ((exCfg_acyclic 2 false).to _) hw
  rw [hrun, hb] at hn
  exact hn.resolve_left (by decide) 0 rfl

end SpeedCase

end Jom.Props
