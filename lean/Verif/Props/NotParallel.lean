/-
C116: `.NOTPARALLEL` in the outermost makefile of a tree of joms.
-/
import Verif.Model.NotParallel
import Verif.Props.JobTree
import Verif.Props.Blocks
import Verif.Proofs.SchedTime

namespace Jom.Tree

open Jom.Sched

theorem startWith_inv {n : Nat} {cfg : Cfg} (hn : 0 < n) (hj : 0 < cfg.jobs) : TreeInv n (startWith n cfg) := by
  have h := TreeInv.start cfg hj
  refine ⟨h.inv, h.jobs, ?_, h.root, h.par, h.nodup, h.sub⟩
  simp only [startWith, total, init_held]
  omega

theorem ReachableWith.tree {n : Nat} {cfg : Cfg} {y : Sys} (hn : 0 < n) (hj : 0 < cfg.jobs) (h : ReachableWith n cfg y) : TreeInv n y := by
  obtain ⟨es, he⟩ := h
  exact (startWith_inv hn hj).run he

/-- The outermost jom is in a state that it can reach on its own. -/
theorem ReachableWith.outer {n : Nat} {cfg : Cfg} {y : Sys} (h : ReachableWith n cfg y) :
    ∃ p, y.procs[0]? = some p ∧ p.cfg = cfg ∧ Sched.Reachable cfg p.st := by
  have key : ∀ (es : List SysEvent) (y y' : Sys), (∃ p, y.procs[0]? = some p ∧ p.cfg = cfg ∧ Sched.Reachable cfg p.st) → Tree.run y es = some y' →
      ∃ p, y'.procs[0]? = some p ∧ p.cfg = cfg ∧ Sched.Reachable cfg p.st := by
    intro es
    induction es with
    | nil => intro y y' h hr; simp only [Tree.run, Option.some.injEq] at hr; subst hr; exact h
    | cons e es ih =>
      intro y y' h hr
      simp only [Tree.run, Option.bind_eq_some_iff] at hr
      obtain ⟨y1, hs, hr⟩ := hr
      refine ih y1 y' ?_ hr
      obtain ⟨p, hp, hc, hre⟩ := h
      cases e with
      | spawn k x c =>
        simp only [Tree.step] at hs
        split at hs
        · simp only [Option.some.injEq] at hs
          subst hs
          refine ⟨p, ?_, hc, hre⟩
          have := (List.getElem?_eq_some_iff.1 hp).1
          rw [List.getElem?_append_left this]
          exact hp
        · cases hs
      | proc k ev =>
        simp only [Tree.step] at hs
        split at hs
        · cases hs
        · next q hq =>
          split at hs
          · split at hs
            · cases hs
            · next st hst =>
              simp only [Option.some.injEq] at hs
              subst hs
              have hlen := (List.getElem?_eq_some_iff.1 hp).1
              cases k with
              | zero =>
                rw [hp] at hq
                simp only [Option.some.injEq] at hq
                subst hq
                rw [hc] at hst
                exact ⟨_, List.getElem?_set_self hlen, hc, hre.next hst⟩
              | succ k => exact ⟨p, by rw [List.getElem?_set_ne (by omega)]; exact hp, hc, hre⟩
          · cases hs
  obtain ⟨es, he⟩ := h
  exact key es _ y ⟨_, rfl, rfl, [], rfl⟩ he

end Jom.Tree

namespace Jom.Props

open Jom.Sched Jom.Tree Jom.Blocks Jom.Spec

/-- C116: `-j N` and `.NOTPARALLEL` in the outermost makefile: this makefile's targets are built one at a time; in the whole tree at most `N` processes that are
not joms are running as long as no build was aborted. -/
theorem C116_limits {m : Nat} {bs : List Block} {mk : Mk} (h : addBlocks m {} bs = .ok mk) (hb : ∃ b ∈ bs, c!".NOTPARALLEL" ∈ b.targets)
    {N : Nat} (hn : 0 < N) {cfg : Cfg} (hj : cfg.jobs = jobsOf mk N) {y : Sys} (hr : ReachableWith N cfg y) :
    (∃ p, y.procs[0]? = some p ∧ running p.st.log ≤ 1 ∧ p.st.busy.length ≤ 1) ∧
    ((∀ p ∈ y.procs, p.st.aborted = false) → leafProcesses y + y.sem ≤ N) := by
  have h1 : cfg.jobs = 1 := by rw [hj, jobsOf, if_pos ((C67_flag h).2 hb)]
  obtain ⟨p, hp, _, hre⟩ := hr.outer
  have hc := C32_job_limit cfg p.st hre
  exact ⟨⟨p, hp, by omega, by omega⟩, fun hna => tree_limit (hr.tree hn (by omega)) hna⟩

/-- C116: the tree does not deadlock. -/
theorem C116_progress {m : Nat} {bs : List Block} {mk : Mk} (h : addBlocks m {} bs = .ok mk) (hb : ∃ b ∈ bs, c!".NOTPARALLEL" ∈ b.targets)
    {N : Nat} (hn : 0 < N) {cfg : Cfg} (hj : cfg.jobs = jobsOf mk N) {y : Sys} (hr : ReachableWith N cfg y)
    (hna : ∀ p ∈ y.procs, p.st.aborted = false) (hroot : ∃ p, y.procs[0]? = some p ∧ p.st.exits = []) :
    ∃ k ev, (Tree.step y (.proc k ev)).isSome = true := by
  have h1 : cfg.jobs = 1 := by rw [hj, jobsOf, if_pos ((C67_flag h).2 hb)]
  exact tree_progress hn (hr.tree hn (by omega)) hna hroot

/-! `all: x`, `.NOTPARALLEL:` with `-j3`: the first command is a jom that runs its three targets at once. -/

namespace SerialCase

def blocks : List Block := [{ targets := [c!"all", c!".NOTPARALLEL"], deps := [c!"x"], double := false, cmds := [] }]

def nested : List SysEvent :=
  let s (k : Nat) : SysEvent := .proc k (.startProcesses exO)
  [s 0, .spawn 0 0 (forkCfg 4 false), s 1, s 1, .proc 1 .grant, .proc 1 (.acquired .running false), s 1, .proc 1 .grant,
    .proc 1 (.acquired .running false), s 0]

theorem after : (Tree.run (startWith 3 (forkCfg 1 false)) nested).map (fun y => ((leafProcesses y, y.sem), slots y,
    y.procs.map fun p => (p.st.aborted, p.st.exits))) = some ((3, 0), [(0, 0), (1, 2), (1, 1), (1, 0)], [(false, []), (false, [])]) := by decide +kernel

/-- The theorems apply to this tree. -/
example : ∃ y, Tree.run (startWith 3 (forkCfg 1 false)) nested = some y ∧ (∃ p, y.procs[0]? = some p ∧ running p.st.log ≤ 1 ∧ p.st.busy.length ≤ 1) ∧
    leafProcesses y + y.sem ≤ 3 ∧ ∃ k ev, (Tree.step y (.proc k ev)).isSome = true := by
  have e : (addBlocks 3 {} blocks).toOption.map (fun mk => jobsOf mk 3) = some 1 := by decide +kernel
  cases hb : addBlocks 3 {} blocks with
  | error x => rw [hb] at e; cases e
  | ok mk =>
    rw [hb] at e
    simp only [Except.toOption, Option.map_some, Option.some.injEq] at e
    obtain ⟨y, hy, he⟩ := Option.map_eq_some_iff.1 after
    simp only [Prod.mk.injEq] at he
    obtain ⟨_, _, h3⟩ := he
    have hp : ∀ p ∈ y.procs, p.st.aborted = false ∧ p.st.exits = [] := by
      intro p hp
      have := List.mem_map_of_mem (f := fun p => (p.st.aborted, p.st.exits)) hp
      rw [h3] at this
      simpa using this
    have hm : ∃ b ∈ blocks, c!".NOTPARALLEL" ∈ b.targets := ⟨_, List.mem_cons_self, by simp⟩
    have hr : ReachableWith 3 (forkCfg 1 false) y := ⟨_, hy⟩
    obtain ⟨h4, h5⟩ := C116_limits hb hm (by decide) (by rw [e]; rfl) hr
    refine ⟨y, hy, h4, h5 fun p h => (hp p h).1, C116_progress hb hm (by decide) (by rw [e]; rfl) hr (fun p h => (hp p h).1) ?_⟩
    obtain ⟨p, h6, _⟩ := h4
    exact ⟨p, h6, (hp p (List.mem_of_getElem? h6)).2⟩

end SerialCase

/-- The claim that `.NOTPARALLEL` in the outermost makefile holds for the whole build is false: a command of this makefile that is a jom runs as many commands
at once as `-j` allows. -/
theorem C116_whole_build_refuted : ∃ (mk : Mk) (y : Sys), addBlocks 3 {} SerialCase.blocks = .ok mk ∧ mk.notParallel = true ∧
    ReachableWith 3 (forkCfg (jobsOf mk 3) false) y ∧ leafProcesses y = 3 := by
  have e : (addBlocks 3 {} SerialCase.blocks).toOption.map (fun mk => mk.notParallel) = some true := by decide +kernel
  cases hb : addBlocks 3 {} SerialCase.blocks with
  | error x => rw [hb] at e; cases e
  | ok mk =>
    rw [hb] at e
    simp only [Except.toOption, Option.map_some, Option.some.injEq] at e
    obtain ⟨y, hy, he⟩ := Option.map_eq_some_iff.1 SerialCase.after
    simp only [Prod.mk.injEq] at he
    exact ⟨mk, y, rfl, e, ⟨_, by rw [jobsOf, if_pos e]; exact hy⟩, he.1.1⟩

end Jom.Props
