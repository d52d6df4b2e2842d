/-
Properties of a tree of joms that share a job server (C33, C53).
-/
import Verif.Proofs.JobTree
import Verif.Props.Scheduler

namespace Jom.Props

open Jom.Sched Jom.Tree

/-- The limit, from the invariant. -/
theorem tree_limit {N : Nat} {y : Sys} (ht : TreeInv N y) (hna : ∀ p ∈ y.procs, p.st.aborted = false) : leafProcesses y + y.sem ≤ N := by
  have h1 := ht.count hna
  have h2 := ht.alive_count
  have h3 := ht.sum
  have h4 : ((slots y).length : Int) = _ := slotsFrom_length y.procs 0
  have h5 : total (fun p => if p.alive then (p.st.busy.length : Int) else 0) y.procs ≤
      total (fun p => p.st.held + (if p.alive then 1 else 0)) y.procs := by
    apply total_le
    intro p hp
    have hi := ht.inv p hp
    have hh := hi.held_eq (hna p hp)
    have hg : 0 ≤ p.st.granted.toNat := Nat.zero_le _
    cases ha : p.alive with
    | false =>
      have hx : p.st.exits ≠ [] := by
        unfold Proc.alive at ha
        simpa using ha
      have := (hi.ended (hna p hp) hx).2
      simp only [Bool.false_eq_true, if_false]
      omega
    | true =>
      simp only [if_true]
      by_cases hz : p.st.busy.length + p.st.acquiring.toNat = 0
      · have := hh.2 hz
        omega
      · have := hh.1 (by omega)
        omega
  rw [total_add] at h5
  have h6 : (if (y.procs.head?.map (·.alive)).getD false then 1 else 0 : Int) ≤ 1 := by split <;> omega
  omega

/-- C33: in every reachable state of a tree of joms sharing the job server of a `-j N` jom in which no build was aborted by a failure or an exception, at
most `N` processes that are not joms themselves are running, and together with the free tokens they are at
most `N`. -/
theorem C33_shared_limit (cfg : Cfg) (hj : 0 < cfg.jobs) (y : Sys) (h : Tree.Reachable cfg y)
    (hna : ∀ p ∈ y.procs, p.st.aborted = false) :
    leafProcesses y + y.sem ≤ cfg.jobs :=
  tree_limit (h.tree hj) hna

/-- A `-j2` jom with targets 1, 2, 3; target 1 runs a nested jom (with a pool of two executors of its own). -/
def treeRun : List SysEvent :=
  [.proc 0 (.startProcesses exO), .spawn 0 0 (exCfg 2 false), .proc 1 (.startProcesses exO),
    .proc 0 (.startProcesses exO), .proc 0 .grant, .proc 0 (.acquired .running false)]

/-- Two processes that are no joms run: target 2 of the outer jom and target 3 of the nested one. -/
example : (Tree.run (start (forkCfg 2 false)) treeRun).map
    (fun y => ((leafProcesses y, y.sem), slots y, hosts y)) =
    some ((2, 0), [(0, 1), (0, 0), (1, 0)], [(0, 0)]) := by decide +kernel

/-- The theorem applies to this tree. -/
example : ∀ y, Tree.run (start (forkCfg 2 false)) treeRun = some y → leafProcesses y + y.sem ≤ 2 := by
  intro y h
  refine C33_shared_limit (forkCfg 2 false) (by decide) y ⟨treeRun, h⟩ fun p hp => ?_
  have e : (Tree.run (start (forkCfg 2 false)) treeRun).map (fun y => y.procs.all fun p => !p.st.aborted) = some true := by decide +kernel
  rw [h] at e
  simpa using List.all_eq_true.1 (Option.some.inj e) p hp

/-- Progress, from the invariant. -/
theorem tree_progress {N : Nat} {y : Sys} (hj : 0 < N) (ht : TreeInv N y) (hna : ∀ p ∈ y.procs, p.st.aborted = false)
    (hroot : ∃ p, y.procs[0]? = some p ∧ p.st.exits = []) : ∃ k ev, (Tree.step y (.proc k ev)).isSome = true := by
  have en : ∀ k p ev, y.procs[k]? = some p → p.alive = true → mayFinish y k ev = true → mayGrant y ev = true →
      (Sched.step p.cfg p.st ev).isSome = true → ∃ k ev, (Tree.step y (.proc k ev)).isSome = true := by
    intro k p ev hk ha hf hg hs
    obtain ⟨st, hst⟩ := Option.isSome_iff_exists.1 hs
    refine ⟨k, ev, ?_⟩
    simp only [Tree.step, hk, ha, hf, hg, hst, Bool.and_self, if_true, Option.isSome_some]
  apply Classical.byContradiction
  intro hno
  have hstuck : ∀ k p ev, y.procs[k]? = some p → p.alive = true → mayFinish y k ev = true → mayGrant y ev = true →
      (Sched.step p.cfg p.st ev).isSome = true → False :=
    fun k p ev a b c d e => hno (en k p ev a b c d e)
  have hdead : ∀ p ∈ y.procs, p.alive = true → p.st.dead = false := by
    intro p hp ha
    cases hd : p.st.dead with
    | false => rfl
    | true =>
      have := ((ht.inv p hp).deadExit hd).1
      unfold Proc.alive at ha
      simp only [List.isEmpty_iff] at ha
      rw [ha] at this; cases this
  -- nothing is queued, nothing is granted
  have hq : ∀ (k : Nat) (p : Proc), y.procs[k]? = some p → p.alive = true → p.st.queued = 0 := by
    intro k p hk ha
    apply Classical.byContradiction
    intro hq
    refine hstuck k p (.startProcesses exO) hk ha rfl rfl ?_
    have := hdead p (List.mem_of_getElem? hk) ha
    simp only [Sched.step]
    rw [if_pos ⟨this, by omega⟩]
    rfl
  have hgr : ∀ (k : Nat) (p : Proc), y.procs[k]? = some p → p.alive = true → p.st.granted = false := by
    intro k p hk ha
    cases hg : p.st.granted with
    | false => rfl
    | true =>
      exfalso
      refine hstuck k p (.acquired .running false) hk ha rfl rfl ?_
      have hpm := List.mem_of_getElem? hk
      have := hdead p hpm ha
      have hf := (ht.inv p hpm).ex.frames0 (hna p hpm)
      simp only [Sched.step]
      rw [if_pos ⟨this, hg, by simp, fun _ => Or.inr hf⟩]
      rfl
  -- every busy executor runs a jom
  have hsl : ∀ a ∈ slots y, a ∈ hosts y := by
    rintro ⟨k, x⟩ hm
    apply Classical.byContradiction
    intro hn
    obtain ⟨p, hk, ha, t, hb⟩ := mem_slots.1 hm
    refine hstuck k p (.childFinished x false) hk ha (by simpa [mayFinish] using hn) rfl ?_
    have := hdead p (List.mem_of_getElem? hk) ha
    simp only [Sched.step, this, Bool.false_eq_true, if_false]
    cases hf : p.st.busy.find? (fun q => decide (q.1 = x)) with
    | some q => rfl
    | none =>
      have := List.find?_eq_none.1 hf (x, t) hb
      simp at this
  have hleaf : leafProcesses y = 0 := by
    unfold leafProcesses
    rw [List.length_eq_zero_iff, List.filter_eq_nil_iff]
    intro a ha
    simpa using hsl a ha
  have hlive : ∀ p ∈ y.procs, p.alive = true → p.st.busy ≠ [] ∨ p.st.acquiring = true := by
    intro p hp ha
    obtain ⟨k, hk⟩ := List.getElem?_of_mem hp
    have hx : p.st.exits = [] := by
      unfold Proc.alive at ha
      simpa using ha
    rcases (ht.inv p hp).live (ht.jobs p hp) (hdead p hp ha) (hna p hp) hx with h1 | h1 | h1
    · have := hq k p hk ha; omega
    · exact Or.inl h1
    · exact Or.inr h1
  -- the semaphore is full
  have hsem : (y.sem : Int) = N := by
    have h1 := ht.count hna
    have h2 := ht.alive_count
    have h3 := ht.sum
    have h4 : ((slots y).length : Int) = _ := slotsFrom_length y.procs 0
    have h5 : total (fun p => if p.alive then (p.st.busy.length : Int) else 0) y.procs =
        total (fun p => p.st.held + (if p.alive then 1 else 0)) y.procs := by
      apply total_congr
      intro p hp
      have hi := ht.inv p hp
      have hh := hi.held_eq (hna p hp)
      by_cases ha : p.alive = true
      · rw [if_pos ha, if_pos ha]
        obtain ⟨k, hk⟩ := List.getElem?_of_mem hp
        have hg := hgr k p hk ha
        rw [hg] at hh
        have : 0 < p.st.busy.length + p.st.acquiring.toNat := by
          rcases hlive p hp ha with h1 | h1
          · have := List.length_pos_iff.2 h1; omega
          · rw [h1]; simp
        have := hh.1 this
        simp only [Bool.toNat_false] at this
        omega
      · rw [if_neg ha, if_neg ha]
        have hx : p.st.exits ≠ [] := by
          unfold Proc.alive at ha
          simpa using ha
        have := (hi.ended (hna p hp) hx).2
        omega
    rw [total_add] at h5
    obtain ⟨p, hp, hx⟩ := hroot
    have h6 : (y.procs.head?.map (·.alive)).getD false = true := by
      rw [List.head?_eq_getElem?, hp]
      simp [Proc.alive, hx]
    rw [if_pos h6] at h2
    omega
  have hacq : ∀ p ∈ y.procs, p.alive = true → p.st.acquiring = false := by
    intro p hp ha
    obtain ⟨k, hk⟩ := List.getElem?_of_mem hp
    cases hac : p.st.acquiring with
    | false => rfl
    | true =>
      exfalso
      refine hstuck k p .grant hk ha rfl (by simp only [mayGrant, decide_eq_true_eq]; omega) ?_
      simp only [Sched.step]
      rw [if_pos ⟨hdead p hp ha, hac, hgr k p hk ha⟩]
      rfl
  -- every live process has a live child: impossible
  have hnone : ∀ (n k : Nat) (p : Proc), y.procs.length ≤ k + n → y.procs[k]? = some p → p.alive = true → False := by
    intro n
    induction n with
    | zero =>
      intro k p hl hk
      have := (List.getElem?_eq_some_iff.1 hk).1
      omega
    | succ n ih =>
      intro k p hl hk ha
      have hpm := List.mem_of_getElem? hk
      have hb : p.st.busy ≠ [] := by
        rcases hlive p hpm ha with h1 | h1
        · exact h1
        · rw [hacq p hpm ha] at h1; cases h1
      obtain ⟨b, hbm⟩ := List.exists_mem_of_ne_nil _ hb
      have hslot : (k, b.1) ∈ slots y := mem_slots.2 ⟨p, hk, ha, b.2, hbm⟩
      obtain ⟨q, hq, hqa, hqp⟩ := mem_hosts.1 (hsl _ hslot)
      obtain ⟨i, hi⟩ := List.getElem?_of_mem hq
      have hik : k < i := by
        cases i with
        | zero =>
          obtain ⟨r, ps, hr, hrp⟩ := ht.root
          rw [hr] at hi
          simp at hi
          rw [← hi, hrp] at hqp
          cases hqp
        | succ i =>
          obtain ⟨a, x, hax, hlt⟩ := ht.par _ q hi (Nat.succ_pos _)
          rw [hax] at hqp
          simp only [Option.some.injEq, Prod.mk.injEq] at hqp
          omega
      exact ih i q (by omega) hi hqa
  obtain ⟨p, hp, hx⟩ := hroot
  exact hnone y.procs.length 0 p (by omega) hp (by simp [Proc.alive, hx])

/-- C53: a tree of joms that share a job server does not deadlock: as long as the outermost jom has not ended and no build was aborted, some
process can handle an event.  (A granted token needs a positive semaphore and an executor that runs a
jom finishes only after that jom.) -/
theorem C53_tree_progress (cfg : Cfg) (hj : 0 < cfg.jobs) (y : Sys) (h : Tree.Reachable cfg y)
    (hna : ∀ p ∈ y.procs, p.st.aborted = false) (hroot : ∃ p, y.procs[0]? = some p ∧ p.st.exits = []) :
    ∃ k ev, (Tree.step y (.proc k ev)).isSome = true :=
  tree_progress hj (h.tree hj) hna hroot

/-- The theorem applies to the tree above, in which both joms are at work. -/
example : ∀ y, Tree.run (start (forkCfg 2 false)) treeRun = some y → ∃ k ev, (Tree.step y (.proc k ev)).isSome = true := by
  intro y h
  have e : (Tree.run (start (forkCfg 2 false)) treeRun).map (fun y => (y.procs.all fun p => !p.st.aborted, y.procs[0]?.map fun p => p.st.exits)) =
      some (true, some []) := by decide +kernel
  rw [h] at e
  simp only [Option.map_some, Option.some.injEq, Prod.mk.injEq, List.all_eq_true, Bool.not_eq_eq_eq_not, Bool.not_true, Option.map_eq_some_iff] at e
  exact C53_tree_progress (forkCfg 2 false) (by decide) y ⟨treeRun, h⟩ e.1 e.2

end Jom.Props
