/-
C113: the shared job limit (C33) when nested joms fail.

The English claim - the limit holds also after nested joms have failed - is false: `C113_refuted`.  Proved: every jom that has ended after an
abort raises it by at most one, even if the processes that such joms left behind are counted.
-/
import Verif.Props.JobTree

namespace Jom.Tree

open Jom.Sched

/-- Busy executors of all processes, also of those that have ended (their commands may go on); the first process has index `k`. -/
def allSlotsFrom : Nat → List Proc → List (Nat × Nat)
  | _, [] => []
  | k, p :: ps => p.st.busy.map (fun b => (k, b.1)) ++ allSlotsFrom (k + 1) ps

def allSlots (y : Sys) : List (Nat × Nat) := allSlotsFrom 0 y.procs

/-- Commands that were started and have not ended and are no live joms, including those of joms that have ended. -/
def allLeafProcesses (y : Sys) : Nat := ((allSlots y).filter (· ∉ hosts y)).length

/-- Joms that have ended after a failed command or an exception. -/
def abortedJoms (y : Sys) : Nat := y.procs.countP fun p => !p.alive && p.st.aborted

theorem mem_allSlotsFrom {ps : List Proc} : ∀ {i k x}, (k, x) ∈ allSlotsFrom i ps ↔
    ∃ j p, k = i + j ∧ ps[j]? = some p ∧ ∃ t, (x, t) ∈ p.st.busy := by
  induction ps with
  | nil => intro i k x; simp [allSlotsFrom]
  | cons p ps ih =>
    intro i k x
    simp only [allSlotsFrom, List.mem_append, ih]
    constructor
    · rintro (h | ⟨j, q, hk, hq, h⟩)
      · obtain ⟨b, hb, he⟩ := List.mem_map.1 h
        simp only [Prod.mk.injEq] at he
        obtain ⟨rfl, rfl⟩ := he
        exact ⟨0, p, rfl, rfl, b.2, hb⟩
      · exact ⟨j + 1, q, by omega, by simpa using hq, h⟩
    · rintro ⟨j, q, hk, hq, t, ht⟩
      cases j with
      | zero =>
        simp only [List.length_cons, Nat.zero_lt_succ, List.getElem?_eq_getElem, List.getElem_cons_zero, Option.some.injEq] at hq
        subst hq
        exact Or.inl (List.mem_map.2 ⟨(x, t), ht, by simp [hk]⟩)
      | succ j => exact Or.inr ⟨j, q, by omega, by simpa using hq, t, ht⟩

theorem mem_allSlots {y : Sys} {k x : Nat} : (k, x) ∈ allSlots y ↔ ∃ p, y.procs[k]? = some p ∧ ∃ t, (x, t) ∈ p.st.busy := by
  unfold allSlots
  rw [mem_allSlotsFrom]
  constructor
  · rintro ⟨j, p, hk, h⟩
    rw [Nat.zero_add] at hk
    subst hk
    exact ⟨p, h⟩
  · rintro ⟨p, h⟩
    exact ⟨k, p, by omega, h⟩

theorem slots_subset {y : Sys} {a : Nat × Nat} (h : a ∈ slots y) : a ∈ allSlots y := by
  obtain ⟨k, x⟩ := a
  obtain ⟨p, h1, _, h2⟩ := mem_slots.1 h
  exact mem_allSlots.2 ⟨p, h1, h2⟩

theorem allSlotsFrom_nodup {ps : List Proc} (h : ∀ p ∈ ps, Inv p.cfg p.st) : ∀ i, (allSlotsFrom i ps).Nodup := by
  induction ps with
  | nil => intro i; exact List.nodup_nil
  | cons p ps ih =>
    intro i
    simp only [allSlotsFrom]
    rw [List.nodup_append]
    refine ⟨?_, ih (fun q hq => h q (List.mem_cons_of_mem _ hq)) _, ?_⟩
    · have hn := (h p (List.mem_cons_self ..)).ex.busyFst
      have : p.st.busy.map (fun b => (i, b.1)) = (p.st.busy.map (·.1)).map (fun e => (i, e)) := by
        rw [List.map_map]; rfl
      rw [this]
      exact hn.map _ (fun a b hab hne => hab (by simpa using hne))
    · intro a ha b hb hab
      subst hab
      obtain ⟨k, x⟩ := a
      obtain ⟨j, q, hk, _⟩ := mem_allSlotsFrom.1 hb
      obtain ⟨c, _, hc⟩ := List.mem_map.1 ha
      simp only [Prod.mk.injEq] at hc
      omega

theorem allSlotsFrom_length (ps : List Proc) : ∀ i,
    ((allSlotsFrom i ps).length : Int) = total (fun p => (p.st.busy.length : Int)) ps := by
  induction ps with
  | nil => intro i; rfl
  | cons p ps ih =>
    intro i
    simp only [allSlotsFrom, List.length_append, total, ← ih (i + 1)]
    simp

/-- Every live nested jom has an executor of its own, also if its parent has ended. -/
structure HostInv (y : Sys) : Prop where
  nodup : (hosts y).Nodup
  sub : ∀ h ∈ hosts y, h ∈ allSlots y

theorem HostInv.start (cfg : Cfg) : HostInv (start cfg) := by
  have : hosts (Tree.start cfg) = [] := by
    unfold hosts
    simp only [Tree.start, List.filter_cons]
    split <;> simp
  exact ⟨by rw [this]; exact List.nodup_nil, by rw [this]; intro h hh; cases hh⟩

theorem HostInv.step {N y y' e} (ht : TreeInv N y) (h : HostInv y) (hs : step y e = some y') : HostInv y' := by
  cases e with
  | spawn k x cfg =>
    simp only [Tree.step] at hs
    split at hs
    · next hc =>
      obtain ⟨hsl, hho, hj⟩ := hc
      simp only [Option.some.injEq] at hs
      subst hs
      refine ⟨?_, ?_⟩
      · have h0 := h.nodup
        unfold hosts at h0 hho ⊢
        simp only [List.filter_append, List.filterMap_append]
        rw [List.nodup_append]
        refine ⟨h0, ?_, ?_⟩
        · simp only [List.filter_cons]
          split <;> simp
        · intro a ha b hb hab
          subst hab
          simp only [List.filter_cons] at hb
          split at hb
          · simp at hb
            subst hb
            exact hho ha
          · simp at hb
      · intro hh hhm
        obtain ⟨p, hp, hal, hpar⟩ := mem_hosts.1 hhm
        have key : hh ∈ allSlots y := by
          rcases List.mem_append.1 hp with hp | hp
          · exact h.sub hh (mem_hosts.2 ⟨p, hp, hal, hpar⟩)
          · simp only [List.mem_singleton] at hp
            subst hp
            simp only [Option.some.injEq] at hpar
            rw [← hpar]
            exact slots_subset hsl
        obtain ⟨a, b⟩ := hh
        obtain ⟨q, hq, hr⟩ := mem_allSlots.1 key
        refine mem_allSlots.2 ⟨q, ?_, hr⟩
        have := (List.getElem?_eq_some_iff.1 hq).1
        rw [List.getElem?_append_left this]
        exact hq
    · cases hs
  | proc k ev =>
    simp only [Tree.step] at hs
    split at hs
    · cases hs
    · next p hpk =>
      split at hs
      · next hc =>
        simp only [Bool.and_eq_true] at hc
        obtain ⟨⟨hal, hfin⟩, hgr⟩ := hc
        split at hs
        · cases hs
        · next st hst =>
          simp only [Option.some.injEq] at hs
          subst hs
          have hklt : k < y.procs.length := (List.getElem?_eq_some_iff.1 hpk).1
          have hm := step_moves (ht.inv p (List.mem_of_getElem? hpk)) hst
          have hsl := hosts_set_sublist y.procs k p { p with st := st } hpk rfl hal
          refine ⟨hsl.nodup h.nodup, ?_⟩
          intro hh hhm
          have hsub : hh ∈ hosts y := hsl.subset hhm
          obtain ⟨a, b⟩ := hh
          obtain ⟨q, hq, t, ht⟩ := mem_allSlots.1 (h.sub _ hsub)
          by_cases hak : a = k
          · subst hak
            rw [hpk] at hq
            simp only [Option.some.injEq] at hq
            subst hq
            refine mem_allSlots.2 ⟨{ p with st := st }, ?_, t, ?_⟩
            · simp only
              rw [List.getElem?_set_self hklt]
            · refine hm.busy (b, t) ht ?_
              intro f hev
              subst hev
              simp only [mayFinish, decide_eq_true_eq] at hfin
              exact hfin hsub
          · refine mem_allSlots.2 ⟨q, ?_, t, ht⟩
            simp only
            rw [List.getElem?_set_ne (Ne.symm hak)]
            exact hq
      · cases hs

theorem HostInv.run {N} : ∀ {es y y'}, TreeInv N y → HostInv y → run y es = some y' → HostInv y' := by
  intro es
  induction es with
  | nil => intro y y' _ h hr; simp only [Tree.run, Option.some.injEq] at hr; subst hr; exact h
  | cons e es ih =>
    intro y y' ht h hr
    simp only [Tree.run] at hr
    cases hs : Tree.step y e with
    | none => rw [hs] at hr; cases hr
    | some y1 => rw [hs] at hr; exact ih (ht.step hs) (h.step ht hs) hr

/-- Commands that run = leaf processes + live nested joms. -/
theorem all_count {N y} (ht : TreeInv N y) (h : HostInv y) : (allSlots y).length = allLeafProcesses y + (hosts y).length := by
  have h1 : (allSlots y).length = ((allSlots y).filter (fun a => decide (a ∉ hosts y))).length +
      ((allSlots y).filter (fun a => decide (a ∈ hosts y))).length := by
    generalize allSlots y = l
    induction l with
    | nil => rfl
    | cons a l ih =>
      by_cases ha : a ∈ hosts y <;> simp only [List.filter_cons, ha, not_true_eq_false, not_false_eq_true, decide_true,
        decide_false, Bool.false_eq_true, if_true, if_false, List.length_cons] <;> omega
  have hp : ((allSlots y).filter (fun a => decide (a ∈ hosts y))).Perm (hosts y) := by
    unfold allSlots
    rw [List.perm_ext_iff_of_nodup ((allSlotsFrom_nodup ht.inv 0).filter _) h.nodup]
    intro a
    simp only [List.mem_filter, decide_eq_true_eq]
    exact ⟨fun hh => hh.2, fun hh => ⟨h.sub a hh, hh⟩⟩
  rw [h1, hp.length_eq]
  rfl

/-- Also after an abort a process holds at least one token fewer than it has running targets. -/
theorem held_ge {cfg : Cfg} {s : St} (h : Inv cfg s) : (s.busy.length : Int) ≤ s.held + 1 := by
  obtain ⟨d, t1, t2, t3, t4⟩ := h.ex.tok
  have t5 := h.ex.tokInt
  unfold St.held
  omega

theorem countP_total (f : Proc → Bool) : ∀ ps : List Proc, ((ps.countP f : Nat) : Int) = total (fun p => if f p then 1 else 0) ps
  | [] => rfl
  | p :: ps => by
    have := countP_total f ps
    simp only [List.countP_cons, total]
    split <;> omega

end Jom.Tree

namespace Jom.Props

open Jom.Sched Jom.Tree

/-- C113 (partial): full claim: in a tree of joms sharing the job server of a `-j N` jom at most `N` processes that are not joms are running, also after
nested joms have failed.  Proved: every jom that has ended after a failed command or an exception raises the limit by at most one; this holds also
for the number of all commands that have been started and have not ended, including those of joms that have ended.
Missing: the limit itself, which is not kept, see `C113_refuted`. -/
theorem C113_limit_partial (cfg : Cfg) (hj : 0 < cfg.jobs) (y : Sys) (h : Tree.Reachable cfg y) :
    leafProcesses y ≤ allLeafProcesses y ∧ allLeafProcesses y + y.sem ≤ cfg.jobs + abortedJoms y := by
  have ht := h.tree hj
  have hh : HostInv y := by
    obtain ⟨es, he⟩ := h
    exact HostInv.run (TreeInv.start cfg hj) (HostInv.start cfg) he
  refine ⟨?_, ?_⟩
  · unfold leafProcesses allLeafProcesses
    have hs : (slots y).Sublist (allSlots y) := by
      unfold slots allSlots
      generalize y.procs = ps
      generalize 0 = i
      induction ps generalizing i with
      | nil => exact List.Sublist.refl _
      | cons p ps ih =>
        simp only [slotsFrom, allSlotsFrom]
        refine List.Sublist.append ?_ (ih _)
        split
        · exact List.Sublist.refl _
        · exact List.nil_sublist _
    exact (hs.filter _).length_le
  · have h1 := all_count ht hh
    have h2 := ht.alive_count
    have h3 := ht.sum
    have h4 : ((allSlots y).length : Int) = _ := allSlotsFrom_length y.procs 0
    have h5 : total (fun p => (p.st.busy.length : Int)) y.procs ≤
        total (fun p => p.st.held + ((if p.alive then 1 else 0) + (if (!p.alive && p.st.aborted) then 1 else 0))) y.procs := by
      apply total_le
      intro p hp
      have hi := ht.inv p hp
      have hge := held_ge hi
      cases ha : p.alive with
      | true => simp; omega
      | false =>
        have hx : p.st.exits ≠ [] := by
          unfold Proc.alive at ha
          simpa using ha
        cases hab : p.st.aborted with
        | true => simp; omega
        | false =>
          obtain ⟨e1, e2⟩ := hi.ended hab hx
          simp [e1, e2]
    rw [total_add, total_add, ← countP_total (fun p => !p.alive && p.st.aborted)] at h5
    have h6 : (if (y.procs.head?.map (·.alive)).getD false then 1 else 0 : Int) ≤ 1 := by split <;> omega
    unfold abortedJoms
    omega

/-- `-j2 /K`, targets 1, 2 and 3.  The nested jom of target 1 fails while it asks for a token and ends; the nested jom of target 2 runs two commands; target 3
runs a command. -/
def failedJomRun : List SysEvent :=
  [.proc 0 (.startProcesses exO), .spawn 0 0 (forkCfg 2 false), .proc 1 (.startProcesses exO), .proc 1 (.startProcesses exO), .proc 1 .grant,
    .proc 1 (.childFinished 0 true), .proc 1 (.acquired .running true), .proc 1 .abortDone,
    .proc 0 (.childFinished 0 true), .proc 0 (.startProcesses exO), .proc 0 (.startProcesses exO), .spawn 0 1 (forkCfg 2 false),
    .proc 2 (.startProcesses exO), .proc 2 (.startProcesses exO), .proc 2 .grant, .proc 2 (.acquired .running false),
    .proc 0 (.startProcesses exO), .proc 0 .grant, .proc 0 (.acquired .running false)]

/-- C113 is false: after one nested jom has failed, three processes that are not joms run with `-j2`; no process is left of the failed jom. -/
theorem C113_refuted : ∃ y, Tree.Reachable (forkCfg 2 true) y ∧ leafProcesses y = 3 ∧ abortedJoms y = 1 ∧
    ∀ p ∈ y.procs, p.alive = false → p.st.busy = [] ∧ p.st.stuck = [] ∧ p.st.exits = [2] := by
  have : (Tree.run (start (forkCfg 2 true)) failedJomRun).map (fun y => (leafProcesses y, abortedJoms y,
      y.procs.all fun p => p.alive || (p.st.busy == [] && p.st.stuck == [] && p.st.exits == [2]))) = some (3, 1, true) := by
    decide +kernel
  obtain ⟨y, h1, h2⟩ := Option.map_eq_some_iff.1 this
  simp only [Prod.mk.injEq] at h2
  obtain ⟨a, b, c⟩ := h2
  refine ⟨y, ⟨_, h1⟩, a, b, fun p hp hal => ?_⟩
  have := List.all_eq_true.1 c p hp
  simpa [hal, and_assoc] using this

/-- The bound is reached in this tree. -/
example : ∃ y, Tree.Reachable (forkCfg 2 true) y ∧ leafProcesses y = 3 ∧ allLeafProcesses y + y.sem ≤ 2 + 1 := by
  obtain ⟨y, h, h1, h2, _⟩ := C113_refuted
  refine ⟨y, h, h1, ?_⟩
  have := (C113_limit_partial (forkCfg 2 true) (by decide) y h).2
  rw [h2] at this
  exact this

end Jom.Props
