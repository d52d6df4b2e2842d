/- C107 for a tree of joms that share a job server. -/
import Verif.Props.Speed
import Verif.Props.JobTree

namespace Jom.Props

open Jom.Sched Jom.Tree Jom.Spec

/-- Every process of a tree is in a state it can reach on its own. -/
theorem tree_each {cfg : Cfg} {y : Sys} (h : Tree.Reachable cfg y) : ∀ p ∈ y.procs, Sched.Reachable p.cfg p.st := by
  have key : ∀ (es : List SysEvent) (y y' : Sys), (∀ p ∈ y.procs, Sched.Reachable p.cfg p.st) → Tree.run y es = some y' →
      ∀ p ∈ y'.procs, Sched.Reachable p.cfg p.st := by
    intro es
    induction es with
    | nil => intro y y' h hr; simp only [Tree.run, Option.some.injEq] at hr; subst hr; exact h
    | cons e es ih =>
      intro y y' h hr
      simp only [Tree.run] at hr
      cases hs : Tree.step y e with
      | none => rw [hs] at hr; cases hr
      | some y1 =>
        rw [hs] at hr
        refine ih y1 y' ?_ hr
        cases e with
        | spawn k x c =>
          simp only [Tree.step] at hs
          split at hs
          · simp only [Option.some.injEq] at hs
            subst hs
            intro p hp
            rcases List.mem_append.1 hp with hp | hp
            · exact h p hp
            · rw [List.mem_singleton.1 hp]
              exact ⟨[], rfl⟩
          · cases hs
        | proc k ev =>
          simp only [Tree.step] at hs
          split at hs
          · cases hs
          · next q hq =>
            split at hs
            · split at hs
              · cases hs
              · next st hst =>
                simp only [Option.some.injEq] at hs
                subst hs
                intro p hp
                rcases List.mem_or_eq_of_mem_set hp with hp | rfl
                · exact h p hp
                · exact (h q (List.mem_of_getElem? hq)).next hst
            · cases hs
  obtain ⟨es, he⟩ := h
  refine key es _ y ?_ he
  intro p hp
  simp only [start, List.mem_singleton] at hp
  subst hp
  exact ⟨[], rfl⟩

/-- C107, tree: whenever all joms of a tree that shares the job server of a `-j N` jom only wait for the end of processes that are no joms, the processes
that are running and the free tokens are together exactly `N`: either `N` processes are running, or in every jom of the tree that
has not ended as many targets as it has executors are being made, or all its targets wait for one that is being made. -/
theorem C107_tree (cfg : Cfg) (hj : 0 < cfg.jobs) (y : Sys) (h : Tree.Reachable cfg y)
    (hna : ∀ p ∈ y.procs, p.st.aborted = false) (hroot : ∃ p, y.procs[0]? = some p ∧ p.st.exits = [])
    (hac : ∀ p ∈ y.procs, AcTo p.cfg p.st.build)
    (hw : ∀ k ev, (Tree.step y (.proc k ev)).isSome = true → ∃ x f, ev = .childFinished x f) :
    leafProcesses y + y.sem = cfg.jobs ∧
    (leafProcesses y = cfg.jobs ∨
      ∀ p ∈ y.procs, p.st.exits = [] → running p.st.log = p.cfg.jobs ∨ AllWait p.cfg p.st) := by
  have ht := h.tree hj
  have hpos : ∀ k p ev, y.procs[k]? = some p → p.alive = true → mayFinish y k ev = true → mayGrant y ev = true →
      (Sched.step p.cfg p.st ev).isSome = true → ∃ x f, ev = .childFinished x f := by
    intro k p ev hk ha hf hg hs
    obtain ⟨st, hst⟩ := Option.isSome_iff_exists.1 hs
    refine hw k ev ?_
    simp only [Tree.step, hk, ha, hf, hg, hst, Bool.and_self, if_true, Option.isSome_some]
  have hdead : ∀ p ∈ y.procs, p.alive = true → p.st.dead = false := by
    intro p hp ha
    cases hd : p.st.dead with
    | false => rfl
    | true =>
      have := ((ht.inv p hp).deadExit hd).1
      unfold Proc.alive at ha
      simp only [List.isEmpty_iff] at ha
      rw [ha] at this; cases this
  have hq : ∀ (k : Nat) (p : Proc), y.procs[k]? = some p → p.alive = true → p.st.queued = 0 := by
    intro k p hk ha
    apply Classical.byContradiction
    intro hq
    obtain ⟨x, f, he⟩ := hpos k p (.startProcesses exO) hk ha rfl rfl (by
      have := hdead p (List.mem_of_getElem? hk) ha
      simp only [Sched.step]
      rw [if_pos ⟨this, by omega⟩]
      rfl)
    cases he
  have hgr : ∀ (k : Nat) (p : Proc), y.procs[k]? = some p → p.alive = true → p.st.granted = false := by
    intro k p hk ha
    cases hg : p.st.granted with
    | false => rfl
    | true =>
      exfalso
      obtain ⟨x, f, he⟩ := hpos k p (.acquired .running false) hk ha rfl rfl (by
        have hpm := List.mem_of_getElem? hk
        have := hdead p hpm ha
        have hf := (ht.inv p hpm).ex.frames0 (hna p hpm)
        simp only [Sched.step]
        rw [if_pos ⟨this, hg, by simp, fun _ => Or.inr hf⟩]
        rfl)
      cases he
  have hlive : ∀ p ∈ y.procs, p.alive = true → 0 < p.st.busy.length + p.st.acquiring.toNat := by
    intro p hp ha
    obtain ⟨k, hk⟩ := List.getElem?_of_mem hp
    have hx : p.st.exits = [] := by
      unfold Proc.alive at ha
      simpa using ha
    rcases (ht.inv p hp).live (ht.jobs p hp) (hdead p hp ha) (hna p hp) hx with h1 | h1 | h1
    · have := hq k p hk ha; omega
    · have := List.length_pos_iff.2 h1; omega
    · rw [h1]; simp
  have hsum : (leafProcesses y : Int) + y.sem = cfg.jobs := by
    have h1 := ht.count hna
    have h2 := ht.alive_count
    have h3 := ht.sum
    have h4 : ((slots y).length : Int) = _ := slotsFrom_length y.procs 0
    have h5 : total (fun p => if p.alive then (p.st.busy.length : Int) else 0) y.procs =
        total (fun p => p.st.held + (if p.alive then 1 else 0)) y.procs := by
      apply total_congr
      intro p hp
      have hi := ht.inv p hp
      have hh := hi.held_eq (hna p hp)
      by_cases ha : p.alive = true
      · rw [if_pos ha, if_pos ha]
        obtain ⟨k, hk⟩ := List.getElem?_of_mem hp
        have hg := hgr k p hk ha
        rw [hg] at hh
        have := hh.1 (hlive p hp ha)
        simp only [Bool.toNat_false] at this
        omega
      · rw [if_neg ha, if_neg ha]
        have hx : p.st.exits ≠ [] := by
          unfold Proc.alive at ha
          simpa using ha
        have := (hi.ended (hna p hp) hx).2
        omega
    rw [total_add] at h5
    obtain ⟨p, hp, hpx⟩ := hroot
    have h6 : (y.procs.head?.map (·.alive)).getD false = true := by
      rw [List.head?_eq_getElem?, hp]
      simp [Proc.alive, hpx]
    rw [h6] at h2
    simp only [if_true] at h2
    omega
  refine ⟨by omega, ?_⟩
  by_cases hs : y.sem = 0
  · exact Or.inl (by omega)
  · refine Or.inr fun p hp hx => ?_
    obtain ⟨k, hk⟩ := List.getElem?_of_mem hp
    have ha : p.alive = true := by unfold Proc.alive; simp [hx]
    have hacq : p.st.acquiring = false := by
      cases hacq : p.st.acquiring with
      | false => rfl
      | true =>
        exfalso
        obtain ⟨x, f, he⟩ := hpos k p .grant hk ha rfl (by simp [mayGrant]; omega) (by
          simp only [Sched.step]
          rw [if_pos ⟨hdead p hp ha, hacq, hgr k p hk ha⟩]
          rfl)
        cases he
    exact allWait (tree_each h p hp) (hna p hp) (hdead p hp ha) (hac p hp) (hq k p hk ha) hacq

namespace TreeSpeedCase

/-- Nothing is posted to any process of the tree. -/
def quiet (y : Sys) : Bool :=
  y.procs.all fun p => p.st.queued == 0 && !p.st.acquiring && !p.st.granted && p.st.frames == 0

theorem waits {y : Sys} (h : quiet y = true) (k : Nat) (ev : Event) (hs : (Tree.step y (.proc k ev)).isSome = true) :
    ∃ x f, ev = .childFinished x f := by
  simp only [Tree.step] at hs
  split at hs
  · cases hs
  · next q hq =>
    have hqm := List.mem_of_getElem? hq
    split at hs
    · have h4 := List.all_eq_true.1 h q hqm
      simp only [Bool.and_eq_true, beq_iff_eq, Bool.not_eq_eq_eq_not, Bool.not_true] at h4
      split at hs
      · cases hs
      · next st hst =>
        exact waits_of (cfg := q.cfg) h4.1.1.1 h4.1.1.2 h4.1.2 h4.2 ev
          ⟨by rw [hst]; rfl, fun hg => by subst hg; simp [Sched.step, h4.1.1.2] at hst⟩
    · cases hs

theorem forkCfg_acyclic (jobs : Nat) (k : Bool) : Ac (forkCfg jobs k) := by
  intro b r _
  apply acyclic_of_rank (fun x => 4 - x)
  intro x c h
  simp only [forkCfg, DependsOn] at h
  split at h <;> simp at h
  omega

/-- What the hypotheses of the theorem are about, as far as it can be computed. -/
def view (y : Sys) : (Bool × Nat × Nat) × List (Bool × Nat) :=
  ((quiet y, leafProcesses y, y.sem), y.procs.map fun p => (!p.st.aborted && p.st.exits.isEmpty, running p.st.log))

/-- `-j2`: the outer jom runs a process and a jom, which runs a process: both tokens are in use. -/
def es2 : List SysEvent :=
  treeRun ++ [.proc 0 (.startProcesses exO), .proc 0 (.startProcesses exO), .proc 1 (.startProcesses exO),
    .proc 1 (.startProcesses exO)]

example : (Tree.run (start (forkCfg 2 false)) es2).map view =
    some ((true, 2, 0), [(true, 2), (true, 1)]) := by decide +kernel

/-- `-j2`: target 3 of the outer jom is a jom, which makes its target 3; one token is free. -/
def es1 : List SysEvent :=
  [.proc 0 (.startProcesses exO), .spawn 0 0 (exCfg 2 false), .proc 1 (.startProcesses exO), .proc 0 (.startProcesses exO),
    .proc 0 (.startProcesses exO), .proc 1 (.startProcesses exO), .proc 1 (.startProcesses exO)]

theorem seen : (Tree.run (start (exCfg 2 false)) es1).map view =
    some ((true, 1, 1), [(true, 1), (true, 1)]) := by decide +kernel

/-- The processes of this tree have the configuration `exCfg 2 false`. -/
theorem cfgs {y : Sys} (h : Tree.run (start (exCfg 2 false)) es1 = some y) : ∀ p ∈ y.procs, p.cfg = exCfg 2 false := by
  have key : ∀ (es : List SysEvent) (y y' : Sys), (∀ p ∈ y.procs, p.cfg = exCfg 2 false) →
      (∀ k x c, SysEvent.spawn k x c ∈ es → c = exCfg 2 false) → Tree.run y es = some y' → ∀ p ∈ y'.procs, p.cfg = exCfg 2 false := by
    intro es
    induction es with
    | nil => intro y y' h _ hr; simp only [Tree.run, Option.some.injEq] at hr; subst hr; exact h
    | cons e es ih =>
      intro y y' h hc hr
      simp only [Tree.run] at hr
      cases hs : Tree.step y e with
      | none => rw [hs] at hr; cases hr
      | some y1 =>
        rw [hs] at hr
        refine ih y1 y' ?_ (fun k x c hm => hc k x c (List.mem_cons_of_mem _ hm)) hr
        cases e with
        | spawn k x c =>
          have hcc := hc k x c List.mem_cons_self
          simp only [Tree.step] at hs
          split at hs
          · simp only [Option.some.injEq] at hs
            subst hs
            intro p hp
            rcases List.mem_append.1 hp with hp | hp
            · exact h p hp
            · rw [List.mem_singleton.1 hp]
              exact hcc
          · cases hs
        | proc k ev =>
          simp only [Tree.step] at hs
          split at hs
          · cases hs
          · next q hq =>
            split at hs
            · split at hs
              · cases hs
              · simp only [Option.some.injEq] at hs
                subst hs
                intro p hp
                rcases List.mem_or_eq_of_mem_set hp with hp | rfl
                · exact h p hp
                · exact h q (List.mem_of_getElem? hq)
            · cases hs
  refine key es1 _ y ?_ ?_ h
  · intro p hp
    simp only [start, List.mem_singleton] at hp
    subst hp
    rfl
  · intro k x c hm
    simp only [es1, List.mem_cons, SysEvent.spawn.injEq, reduceCtorEq, false_or, List.not_mem_nil, or_false] at hm
    exact hm.2.2

/-- The theorem applies: one process runs, and in both joms all targets wait for one that is being made. -/
example : ∃ y, Tree.run (start (exCfg 2 false)) es1 = some y ∧ y.procs.length = 2 ∧ ∀ p ∈ y.procs, AllWait p.cfg p.st := by
  obtain ⟨y, h1, h2⟩ := Option.map_eq_some_iff.1 seen
  simp only [view, Prod.mk.injEq] at h2
  obtain ⟨⟨hq, hl, hs⟩, hp⟩ := h2
  have hlen : y.procs.length = 2 := by simpa using congrArg List.length hp
  have hmem : ∀ p ∈ y.procs, p.st.aborted = false ∧ p.st.exits = [] ∧ running p.st.log = 1 := by
    intro p hpm
    have : (!p.st.aborted && p.st.exits.isEmpty, running p.st.log) ∈
        y.procs.map fun p => (!p.st.aborted && p.st.exits.isEmpty, running p.st.log) :=
      List.mem_map.2 ⟨p, hpm, rfl⟩
    rw [hp] at this
    have := by simpa using this
    exact ⟨this.1.1, this.1.2, this.2⟩
  have hc := cfgs h1
  refine ⟨y, h1, hlen, ?_⟩
  have hth := (C107_tree (exCfg 2 false) (by decide) y ⟨es1, h1⟩ (fun p hp => (hmem p hp).1)
    ⟨y.procs[0], List.getElem?_eq_getElem _, (hmem _ (List.getElem_mem _)).2.1⟩
    (fun p hp => by rw [hc p hp]; exact (exCfg_acyclic 2 false).to _) (waits hq)).2
  rw [hl] at hth
  intro p hpm
  refine ((hth.resolve_left (by decide)) p hpm (hmem p hpm).2.1).resolve_left ?_
  rw [(hmem p hpm).2.2, hc p hpm]
  decide

end TreeSpeedCase

end Jom.Props
