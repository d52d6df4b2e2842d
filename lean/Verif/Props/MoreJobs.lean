/-
C110: more jobs do not make a build slower.

Two runs of the same makefile with different numbers of jobs. In the first one the commands of a target need `dur b t` units of time (nothing for targets
that need no commands), in the second one at most as much.
-/
import Verif.Proofs.SchedLower

namespace Jom.Props

open Jom.Graph Jom.Spec Jom.Sched Relation

/-- In this run everything that belongs to the requested targets has taken its full time. -/
def TookItsTime (cfg : Cfg) (dur spent : Nat → Nat → Nat) : Prop :=
  ∀ b r x, cfg.targets[b]? = some r → Reaches (cfg.deps b) r x → spent b x = dur b x

theorem done_sum (w : Nat → Nat → Nat) (keys : List (Nat × Nat)) : (keys.map fun k => w k.1 k.2).sum = done w keys := by
  induction keys with
  | nil => rfl
  | cons k ks ih => simp only [List.map_cons, List.sum_cons, ih, done]

/-- C110, the lower bounds: no run that does all the work is faster than the work divided by the number of jobs, or than a chain of targets that depend on each other. -/
theorem C110_lower_bounds (cfg : Cfg) (dur : Nat → Nat → Nat) (s : St) (spent : Nat → Nat → Nat) (time : Nat)
    (h : Timed cfg dur s spent time) (hex : TookItsTime cfg dur spent) (hac : cfg.keepGoing = true → Ac cfg) :
    (∀ keys : List (Nat × Nat), keys.Nodup → (∀ k ∈ keys, ∃ r, cfg.targets[k.1]? = some r ∧ Reaches (cfg.deps k.1) r k.2) →
      (keys.map fun k => dur k.1 k.2).sum ≤ cfg.jobs * time) ∧
    ∀ b r c, cfg.targets[b]? = some r → Chain (DependsOn (cfg.deps b)) r c → total (dur b) c ≤ time := by
  have hd : ∀ keys : List (Nat × Nat), (∀ k ∈ keys, ∃ r, cfg.targets[k.1]? = some r ∧ Reaches (cfg.deps k.1) r k.2) →
      done dur keys = done spent keys := by
    intro keys
    induction keys with
    | nil => intro _; rfl
    | cons k ks ih =>
      intro hk
      obtain ⟨r, hr, hx⟩ := hk k List.mem_cons_self
      simp only [done, hex k.1 r k.2 hr hx, ih fun k' hk' => hk k' (List.mem_cons_of_mem _ hk')]
  refine ⟨fun keys hn hk => ?_, fun b r c hb hc => ?_⟩
  · rw [done_sum, hd keys hk]
    exact h.done_le keys hn
  · have h1 := h.chains (fun hk => (hac hk).to _) (fun i => if i = b then c else []) (fun i => by
      by_cases hi : i = b
      · subst hi
        exact Or.inr ⟨r, by simpa using hc⟩
      · exact Or.inl (if_neg hi)) (b + 1)
    rw [total_range_succ] at h1
    simp only [if_true] at h1
    rw [total_congr (w' := spent b) fun x hx => (hex b r x hb (hc.reaches x hx)).symm]
    omega

/-- C110, the bound: if a build takes the time `T` with `m` jobs, it takes no more than `(m + n - 1) / n * T` with `n` jobs, so less than twice as long if `n` is not less
than `m`.

Partial: C110 says that it takes no more than `T`; that is false (`C110_refuted`) except for one job (`C110_one_job_partial`). -/
theorem C110_bound_partial (cfg cfg' : Cfg) (dur : Nat → Nat → Nat) (s s' : St) (spent spent' : Nat → Nat → Nat) (time time' : Nat)
    (htargets : cfg'.targets = cfg.targets) (hdeps : cfg'.deps = cfg.deps) (hac : Ac cfg)
    (h : Timed cfg dur s spent time) (hex : TookItsTime cfg dur spent)
    (h' : Timed cfg' dur s' spent' time') (hg : GoesOn cfg' s'.log) :
    cfg'.jobs * time' ≤ (cfg.jobs + (cfg'.jobs - 1)) * time := by
  have hac' : Ac cfg' := by
    unfold Ac at hac ⊢
    rw [htargets, hdeps]
    exact hac
  obtain ⟨idle, hi⟩ := h'.inv (hg.alive h'.reachable.inv) (hac'.to _)
  -- the work
  have h1 : done spent' (s'.log.filterMap startKey) ≤ cfg.jobs * time := by
    refine Nat.le_trans (done_le hi.le _) ?_
    rw [← done_sum]
    refine (C110_lower_bounds cfg dur s spent time h hex fun _ => hac).1 _ h'.reachable.inv.lg.startOnce ?_
    intro k hk
    obtain ⟨e, he, hek⟩ := List.mem_filterMap.1 hk
    cases e <;> simp only [startKey, Option.some.injEq, reduceCtorEq] at hek
    subst hek
    have := h'.reachable.inv.lg.startReach _ _ he
    rw [htargets, hdeps] at this
    exact this
  -- the chains
  have hc : ∀ b, ∃ c, (c = [] ∨ ∃ x, Chain (DependsOn (cfg.deps b)) x c) ∧ idle b ≤ total (spent b) c := by
    intro b
    cases hb : cfg.targets[b]? with
    | none => exact ⟨[], Or.inl rfl, by rw [hi.other b (by rw [htargets]; exact hb)]; exact Nat.zero_le _⟩
    | some r =>
      obtain ⟨c, hc, hle⟩ := hi.root b r (by rw [htargets]; exact hb)
      rw [hdeps] at hc
      refine ⟨c, Or.inr ⟨r, hc⟩, Nat.le_trans hle (Nat.le_trans (total_le (fun t => hi.le b t) c) (Nat.le_of_eq ?_))⟩
      exact total_congr fun x hx => (hex b r x hb (hc.reaches x hx)).symm
  have h2 : total idle (List.range (s'.build + 1)) ≤ time := by
    refine Nat.le_trans (total_le (fun b => (hc b).choose_spec.2) _) ?_
    exact h.chains (fun _ => hac.to _) (fun b => (hc b).choose) (fun b => (hc b).choose_spec.1) _
  have h3 := Nat.mul_le_mul_left (cfg'.jobs - 1) h2
  have h4 := hi.work
  rw [Nat.add_mul]
  omega

/-- C110 for one job: no number of jobs is slower than one job. -/
theorem C110_one_job_partial (cfg cfg' : Cfg) (dur : Nat → Nat → Nat) (s s' : St) (spent spent' : Nat → Nat → Nat) (time time' : Nat)
    (htargets : cfg'.targets = cfg.targets) (hdeps : cfg'.deps = cfg.deps) (hac : Ac cfg) (hone : cfg.jobs = 1) (hj : 0 < cfg'.jobs)
    (h : Timed cfg dur s spent time) (hex : TookItsTime cfg dur spent)
    (h' : Timed cfg' dur s' spent' time') (hg : GoesOn cfg' s'.log) : time' ≤ time := by
  have := C110_bound_partial cfg cfg' dur s s' spent spent' time time' htargets hdeps hac h hex h' hg
  rw [hone, show 1 + (cfg'.jobs - 1) = cfg'.jobs by omega] at this
  exact Nat.le_of_mul_le_mul_left this hj

namespace MoreJobsCase

/-! Nine targets (the example of Graham, 1969) that `all` depends on:

```
all: 1 2 3 4 5 6 7 8 9
5 6 7 8: 4
9: 1
```

With three jobs 9 is begun as soon as 1 is ready. With four jobs 4 is ready earlier, so that 5, 6, 7 and 8 are begun before 9, which takes longest. -/

def deps : Nat → List Dep
  | 0 => [.node 1, .node 2, .node 3, .node 4, .node 5, .node 6, .node 7, .node 8, .node 9]
  | 5 => [.node 4]
  | 6 => [.node 4]
  | 7 => [.node 4]
  | 8 => [.node 4]
  | 9 => [.node 1]
  | _ => []

def cfg (jobs : Nat) : Cfg :=
  { jobs := jobs, keepGoing := false, buildAll := false, dumpGraph := false, targets := [0], deps := fun _ => deps, fuel := 20 }

def times : List Nat := [1, 3, 2, 2, 2, 4, 4, 4, 4, 9]

def dur : Nat → Nat → Nat := fun b t => if b = 0 then times.getD t 0 else 0

/-- What happens if processes end after their time, and jom goes on before time passes. -/
def play (cfg : Cfg) : Nat → St → (Nat → Nat → Nat) → List (Option Event)
  | 0, _, _ => []
  | n + 1, s, sp =>
    let act (ev : Event) : List (Option Event) :=
      match step cfg s ev with
      | none => []
      | some s' => some ev :: play cfg n s' sp
    if s.exits ≠ [] then []
    else if s.queued > 0 then act (.startProcesses exO)
    else if s.granted then act (.acquired .running false)
    else if s.acquiring then act .grant
    else
      match s.busy.find? fun p => decide (dur 0 p.2 ≤ sp 0 p.2) with
      | some p => act (.childFinished p.1 false)
      | none => none :: play cfg n s (clock s sp)

def result (jobs : Nat) : Option (Nat × List Nat × List Nat × List Ev) :=
  (timedRun (cfg jobs) dur (play (cfg jobs) 150 (init (cfg jobs)) fun _ _ => 0) (init (cfg jobs)) (fun _ _ => 0) 0).map fun x =>
    (x.2.2, (List.range 10).map (x.2.1 0), x.1.exits, x.1.log)

theorem acyclic (jobs : Nat) : Ac (cfg jobs) := by
  intro b r _
  apply acyclic_of_rank (fun x => if x = 0 then 2 else if 5 ≤ x then 1 else 0)
  intro x c h
  simp only [cfg, DependsOn] at h
  unfold deps at h
  split at h <;> simp at h
  · rcases h with rfl | rfl | rfl | rfl | rfl | rfl | rfl | rfl | rfl <;> decide
  all_goals (subst h; decide)

theorem reach_lt {x : Nat} (h : Reaches deps 0 x) : x < 10 := by
  rcases ReflTransGen.cases_tail h with rfl | ⟨y, -, hy⟩
  · omega
  · unfold DependsOn deps at hy
    split at hy <;> simp at hy <;> omega

/-- A run that is complete and in which every target has taken its time. -/
structure Complete (jobs : Nat) (s : St) (sp : Nat → Nat → Nat) (n : Nat) : Prop where
  timed : Timed (cfg jobs) dur s sp n
  exact : TookItsTime (cfg jobs) dur sp
  good : GoesOn (cfg jobs) s.log
  exits : s.exits = [0]

def good (log : List Ev) : Bool := log.all fun e =>
  match e with
  | .exception => false
  | .failed _ _ => false
  | _ => true

def check (jobs : Nat) : Option (Nat × Bool) :=
  (result jobs).map fun x => (x.1, decide (x.2.1 = times) && (decide (x.2.2.1 = [0]) && good x.2.2.2))

theorem complete {jobs n : Nat} (h : check jobs = some (n, true)) : ∃ s sp, Complete jobs s sp n := by
  unfold check result at h
  rw [Option.map_map, Option.map_eq_some_iff] at h
  obtain ⟨⟨s, sp, m⟩, h1, h2⟩ := h
  simp only [Function.comp, Prod.mk.injEq, Bool.and_eq_true, decide_eq_true_eq] at h2
  obtain ⟨rfl, h3, h4, h5⟩ := h2
  refine ⟨s, sp, timedRun_sound .init h1, ?_, ?_, h4⟩
  · intro b r x hb hx
    have hb0 : b = 0 ∧ r = 0 := by
      cases b with
      | zero => simpa [cfg] using hb.symm
      | succ b => simp [cfg] at hb
    obtain ⟨rfl, rfl⟩ := hb0
    have hlt := reach_lt hx
    have : ((List.range 10).map (sp 0))[x]? = times[x]? := by rw [h3]
    rw [List.getElem?_map, List.getElem?_range hlt] at this
    simp only [dur, if_true, List.getD_eq_getElem?_getD, ← this, Option.map_some, Option.getD_some]
  · have hall := List.all_eq_true.1 h5
    refine ⟨fun hm => ?_, Or.inr fun b t hm => ?_⟩
    · simpa using hall _ hm
    · simpa using hall _ hm

theorem one : check 1 = some (35, true) := by decide +kernel
theorem three : check 3 = some (13, true) := by decide +kernel
theorem four : check 4 = some (16, true) := by decide +kernel

/-- The bounds for this makefile: with four jobs no run takes more than 4 + 3 - 1 quarters of the 13 units of three jobs, or longer than with one job. -/
example (s : St) (sp : Nat → Nat → Nat) (n : Nat) (h : Timed (cfg 4) dur s sp n) (hg : GoesOn (cfg 4) s.log) : n ≤ 19 ∧ n ≤ 35 := by
  obtain ⟨s1, sp1, h1⟩ := complete one
  obtain ⟨s3, sp3, h3⟩ := complete three
  have hb := C110_bound_partial (cfg 3) (cfg 4) dur s3 s sp3 sp 13 n rfl rfl (acyclic 3) h3.timed h3.exact h hg
  simp only [cfg] at hb
  exact ⟨by omega, C110_one_job_partial (cfg 1) (cfg 4) dur s1 s sp1 sp 35 n rfl rfl (acyclic 1) rfl (by decide) h1.timed h1.exact h hg⟩

/-- The lower bounds: all runs with four jobs that do all the work take at least nine units (35 divided by four), and at least 13 (9 after 1, then 0). -/
example (s : St) (sp : Nat → Nat → Nat) (n : Nat) (h : Complete 4 s sp n) : 35 ≤ 4 * n ∧ 13 ≤ n := by
  have hb := C110_lower_bounds (cfg 4) dur s sp n h.timed h.exact (fun _ => acyclic 4)
  have r1 : ∀ x, Dep.node x ∈ deps 0 → Reaches deps 0 x := fun x hx => .single hx
  refine ⟨hb.1 ((List.range 10).map fun t => (0, t)) (by decide) ?_, hb.2 0 0 [0, 9, 1] rfl ?_⟩
  · intro k hk
    obtain ⟨t, ht, rfl⟩ := List.mem_map.1 hk
    refine ⟨0, rfl, ?_⟩
    have ht := List.mem_range.1 ht
    by_cases h0 : t = 0
    · subst h0
      exact .refl
    · refine r1 t ?_
      have : t = 1 ∨ t = 2 ∨ t = 3 ∨ t = 4 ∨ t = 5 ∨ t = 6 ∨ t = 7 ∨ t = 8 ∨ t = 9 := by omega
      rcases this with rfl | rfl | rfl | rfl | rfl | rfl | rfl | rfl | rfl <;> decide
  · have h1 : DependsOn deps 0 9 := by simp [DependsOn, deps]
    have h2 : DependsOn deps 9 1 := by simp [DependsOn, deps]
    exact .cons h1 (.cons h2 (.last 1))

end MoreJobsCase

/-- C110 is false: there is a makefile that takes 13 units of time with three jobs and 16 with four, although every command takes as long as before and succeeds. -/
theorem C110_refuted : ∃ cfg cfg' dur s s' spent spent' time time', cfg'.targets = cfg.targets ∧ cfg'.deps = cfg.deps ∧ Ac cfg ∧ cfg.jobs < cfg'.jobs ∧
    (Timed cfg dur s spent time ∧ TookItsTime cfg dur spent ∧ GoesOn cfg s.log ∧ s.exits = [0]) ∧
    (Timed cfg' dur s' spent' time' ∧ TookItsTime cfg' dur spent' ∧ GoesOn cfg' s'.log ∧ s'.exits = [0]) ∧ time < time' := by
  obtain ⟨s3, sp3, h3⟩ := MoreJobsCase.complete MoreJobsCase.three
  obtain ⟨s4, sp4, h4⟩ := MoreJobsCase.complete MoreJobsCase.four
  exact ⟨MoreJobsCase.cfg 3, MoreJobsCase.cfg 4, MoreJobsCase.dur, s3, s4, sp3, sp4, 13, 16, rfl, rfl, MoreJobsCase.acyclic 3, by decide, ⟨h3.timed, h3.exact, h3.good, h3.exits⟩,
    ⟨h4.timed, h4.exact, h4.good, h4.exits⟩, by decide⟩

end Jom.Props
