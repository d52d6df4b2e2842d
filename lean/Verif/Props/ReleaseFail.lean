/-
C115: what happens when job tokens cannot be given back.

The English claim - jom prints a warning and carries on: the shared job limit is kept and the build goes on with fewer jobs - holds for the limit
(`C115_limit`), and as long as fewer than `N` releases have failed (`C115_progress_partial`).  After `N` failed releases a build can wait for ever
(`C115_refuted`).
-/
import Verif.Model.ReleaseFail
import Verif.Props.TreeStuck

namespace Jom.ReleaseFail

open Jom.Sched Jom.Tree

theorem pad_inv {N n : Nat} {y : Sys} (h : TreeInv N (pad n y)) (hn : n ≤ N) : TreeInv (N - n) y := by
  refine ⟨h.inv, h.jobs, ?_, h.root, h.par, h.nodup, h.sub⟩
  have := h.sum
  simp only [pad] at this
  omega

/-- What a step of one process does to the semaphore. -/
theorem sem_enough {cfg : Cfg} {s s' : St} {ev : Event} {sem : Nat} (h : Inv cfg s) (hs : Sched.step cfg s ev = some s')
    (hg : ∀ y : Sys, y.sem = sem → mayGrant y ev = true) :
    s.relChild + s.relWait + s'.taken ≤ sem + (s'.relChild + s'.relWait + s.taken) ∧
    s'.relChild + s'.relWait - (s.relChild + s.relWait) ≤ semAfter sem s s' := by
  have hm := step_moves h hs
  have h1 := hm.taken
  have h2 := hm.rel
  unfold semAfter
  cases ev with
  | grant =>
    have h3 : 0 < sem := by simpa [mayGrant] using hg ⟨sem, []⟩ rfl
    simp only [Sched.step] at hs
    split at hs
    · simp only [Option.some.injEq] at hs
      subst hs
      simp only [Event.tokens] at h1 h2 ⊢
      omega
    · cases hs
  | startProcesses o => simp only [Event.tokens] at h1; omega
  | acquired r w => simp only [Event.tokens] at h1; omega
  | childFinished x f => simp only [Event.tokens] at h1; omega
  | abortDone => simp only [Event.tokens] at h1; omega

/-- More free tokens do no harm. -/
theorem step_pad {N n : Nat} {y y' : Sys} {e : SysEvent} (h : TreeInv N (pad n y)) (hs : Tree.step y e = some y') :
    Tree.step (pad n y) e = some (pad n y') := by
  cases e with
  | spawn k x cfg =>
    simp only [Tree.step] at hs ⊢
    split at hs
    · next hc =>
      simp only [Option.some.injEq] at hs
      subst hs
      have hc' : (k, x) ∈ slots (pad n y) ∧ (k, x) ∉ hosts (pad n y) ∧ 0 < cfg.jobs := hc
      rw [if_pos hc']
      rfl
    · cases hs
  | proc k ev =>
    simp only [Tree.step] at hs ⊢
    split at hs
    · cases hs
    · next p hp =>
      split at hs
      · next hc =>
        split at hs
        · cases hs
        · next st hst =>
          simp only [Option.some.injEq] at hs
          subst hs
          simp only [Bool.and_eq_true] at hc
          obtain ⟨⟨h1, h2⟩, h3⟩ := hc
          have h4 : mayGrant (pad n y) ev = true := by
            cases ev with
            | grant =>
              simp only [mayGrant, decide_eq_true_eq] at h3 ⊢
              exact Nat.lt_of_lt_of_le h3 (Nat.le_add_right _ _)
            | _ => rfl
          have h2' : mayFinish (pad n y) k ev = true := h2
          have hp' : (pad n y).procs[k]? = some p := hp
          have hi : Inv p.cfg p.st := h.inv p (List.mem_of_getElem? hp)
          have hq := (sem_enough (sem := y.sem) hi hst fun z hz => by
            cases ev with
            | grant => simpa only [mayGrant, hz] using h3
            | _ => rfl).1
          simp only [hp', h1, h2', h4, hst, Bool.and_self, if_true, Option.some.injEq]
          simp only [pad, Sys.mk.injEq, and_true]
          unfold semAfter
          omega
      · cases hs

/-- Failed releases change nothing but the number of free tokens: with the lost tokens put back, the tree is in a state that occurs without failures. -/
theorem as_if {cfg : Cfg} (hj : 0 < cfg.jobs) {x : LSys} (h : LReachable cfg x) : Tree.Reachable cfg (pad x.lost x.y) := by
  obtain ⟨es, h⟩ := h
  have main : ∀ (es : List LEvent) (x x' : LSys), Tree.Reachable cfg (pad x.lost x.y) → lrun x es = some x' →
      Tree.Reachable cfg (pad x'.lost x'.y) := by
    intro es
    induction es with
    | nil =>
      intro x x' hx h
      simp only [lrun, Option.some.injEq] at h
      subst h
      exact hx
    | cons e es ih =>
      intro x x' hx h
      simp only [lrun, Option.bind_eq_some_iff] at h
      obtain ⟨x1, h1, h2⟩ := h
      refine ih x1 x' ?_ h2
      have ht := hx.tree hj
      have more : ∀ {y : Sys} {e : SysEvent}, Tree.step x.y e = some y → Tree.Reachable cfg (pad x.lost y) := by
        intro y e hs
        obtain ⟨fs, hf⟩ := hx
        refine ⟨fs ++ [e], ?_⟩
        have app : ∀ (fs : List SysEvent) (a b : Sys), Tree.run a fs = some b → Tree.step b e = some (pad x.lost y) →
            Tree.run a (fs ++ [e]) = some (pad x.lost y) := by
          intro fs
          induction fs with
          | nil =>
            intro a b h1 h2
            simp only [Tree.run, Option.some.injEq] at h1
            subst h1
            simp [Tree.run, h2]
          | cons f fs ih =>
            intro a b h1 h2
            simp only [Tree.run, Option.bind_eq_some_iff, List.cons_append] at h1 ⊢
            obtain ⟨c, h3, h4⟩ := h1
            exact ⟨c, h3, ih c b h4 h2⟩
        exact app fs _ _ hf (step_pad ht hs)
      cases e with
      | ok e =>
        obtain ⟨y, h3, rfl⟩ := Option.map_eq_some_iff.1 h1
        exact more h3
      | fails k ev n =>
        simp only [lstep, Option.bind_eq_some_iff] at h1
        obtain ⟨y, h3, h4⟩ := h1
        split at h4
        · next hn =>
          simp only [Option.some.injEq] at h4
          subst h4
          have hle : n ≤ y.sem := by
            simp only [Tree.step] at h3
            split at h3
            · cases h3
            · next p hp =>
              split at h3
              · next hc =>
                split at h3
                · cases h3
                · next st hst =>
                  simp only [Option.some.injEq] at h3
                  subst h3
                  simp only [Bool.and_eq_true] at hc
                  have hi : Inv p.cfg p.st := ht.inv p (List.mem_of_getElem? hp)
                  have hq := (sem_enough (sem := x.y.sem) hi hst fun z hz => by
                    have := hc.2
                    cases ev with
                    | grant => simpa only [mayGrant, hz] using this
                    | _ => rfl).2
                  have hlen := (List.getElem?_eq_some_iff.1 hp).1
                  simp only [calls, hp, List.getElem?_set_self hlen] at hn
                  exact Nat.le_trans hn hq
              · cases h3
          have := more h3
          rw [show pad (x.lost + n) { y with sem := y.sem - n } = pad x.lost y by
            simp only [pad, Sys.mk.injEq, and_true]; omega]
          exact this
        · cases h4
  refine main es _ x ?_ h
  exact ⟨[], rfl⟩

end Jom.ReleaseFail

namespace Jom.Props

open Jom.Sched Jom.Tree Jom.ReleaseFail

/-- C115: failed releases change nothing but the number of free tokens: if the lost tokens were put back, the tree would be in a state that occurs without any
failed release.  So everything that holds in all these states for the targets and the commands of the joms holds here. -/
theorem C115_as_if (cfg : Cfg) (hj : 0 < cfg.jobs) (x : LSys) (h : LReachable cfg x) :
    Tree.Reachable cfg { sem := x.y.sem + x.lost, procs := x.y.procs } := as_if hj h

/-- C115: every failed release lowers the number of processes that can run by one; in particular the limit of C33 holds, and no more than `N` releases can
fail. -/
theorem C115_limit (cfg : Cfg) (hj : 0 < cfg.jobs) (x : LSys) (h : LReachable cfg x) (hna : ∀ p ∈ x.y.procs, p.st.aborted = false) :
    leafProcesses x.y + x.y.sem + x.lost ≤ cfg.jobs := by
  have := C33_shared_limit cfg hj _ (as_if hj h) hna
  rw [show leafProcesses (pad x.lost x.y) = leafProcesses x.y from rfl, show (pad x.lost x.y).sem = x.y.sem + x.lost from rfl] at this
  omega

/-- C115 (partial): full claim: the build goes on after failed releases.  Proved: as long as the outermost jom has not ended, no build was aborted and fewer
than `N` releases have failed, some jom can handle an event.  Missing: `N` failed releases (`C115_refuted`). -/
theorem C115_progress_partial (cfg : Cfg) (hj : 0 < cfg.jobs) (x : LSys) (h : LReachable cfg x) (hna : ∀ p ∈ x.y.procs, p.st.aborted = false)
    (hroot : ∃ p, x.y.procs[0]? = some p ∧ p.st.exits = []) (hl : x.lost < cfg.jobs) : ∃ k ev, (lstep x (.ok (.proc k ev))).isSome = true := by
  obtain ⟨k, ev, hs⟩ := tree_progress (by omega) (pad_inv ((as_if hj h).tree hj) (by omega)) hna hroot
  exact ⟨k, ev, by simpa [lstep] using hs⟩

/-- C115 with failed commands: the limit of C113 is lowered as well. -/
theorem C115_limit_failed (cfg : Cfg) (hj : 0 < cfg.jobs) (x : LSys) (h : LReachable cfg x) :
    leafProcesses x.y ≤ allLeafProcesses x.y ∧ allLeafProcesses x.y + x.y.sem + x.lost ≤ cfg.jobs + abortedJoms x.y := by
  have := C113_limit_partial cfg hj _ (as_if hj h)
  rw [show leafProcesses (pad x.lost x.y) = leafProcesses x.y from rfl, show allLeafProcesses (pad x.lost x.y) = allLeafProcesses x.y from rfl,
    show abortedJoms (pad x.lost x.y) = abortedJoms x.y from rfl, show (pad x.lost x.y).sem = x.y.sem + x.lost from rfl] at this
  omega

/-- C115 with failed commands (partial): as long as the outermost jom has not ended, something can happen if the joms that have failed and have not ended, the
tokens that ended joms did not try to give back and the failed releases are together fewer than `N`.  Missing: as for C114. -/
theorem C115_failures_partial (cfg : Cfg) (hj : 0 < cfg.jobs) (x : LSys) (h : LReachable cfg x)
    (hm : failingJoms x.y + lostTokens x.y + x.lost < cfg.jobs) (hroot : ∃ p, x.y.procs[0]? = some p ∧ p.st.exits = []) :
    ∃ k ev, Happens x.y (.proc k ev) :=
  stuck_progress ((as_if hj h).tree hj) (reachable_ends (y := pad x.lost x.y) hj (as_if hj h)) hm hroot

/-! A `-j2` jom whose targets 1, 2 and 3 are independent. Two commands run at once; giving back a token fails when they end. -/

namespace LossCase

def s : LEvent := .ok (.proc 0 (.startProcesses exO))

/-- The first release fails. -/
def once : List LEvent :=
  [s, s, .ok (.proc 0 .grant), .ok (.proc 0 (.acquired .running false)), s, .fails 0 (.childFinished 1 false) 1, s]

/-- The next one as well. -/
def twice : List LEvent := once ++ [.fails 0 (.childFinished 0 false) 1, s, s]

def after (es : List LEvent) : Option LSys := lrun { y := start (forkCfg 2 false), lost := 0 } es

/-- After one failed release: one command runs, the next one waits for a token. -/
theorem after_once : (after once).map (fun x => ((x.lost, x.y.sem, leafProcesses x.y), x.y.procs.map fun p => (p.st.aborted, p.st.exits))) =
    some ((1, 0, 1), [(false, [])]) := by decide +kernel

/-- The theorems apply: the build can go on. -/
example : ∃ x, after once = some x ∧ leafProcesses x.y + x.y.sem + x.lost ≤ 2 ∧ (∃ k ev, (lstep x (.ok (.proc k ev))).isSome = true) ∧
    Tree.Reachable (forkCfg 2 false) { sem := 1, procs := x.y.procs } := by
  have h := after_once
  obtain ⟨x, hx, he⟩ := Option.map_eq_some_iff.1 h
  simp only [Prod.mk.injEq] at he
  obtain ⟨⟨h1, h2, h3⟩, h4⟩ := he
  have hr : LReachable (forkCfg 2 false) x := ⟨once, hx⟩
  have hp : ∀ p ∈ x.y.procs, p.st.aborted = false ∧ p.st.exits = [] := by
    intro p hp
    have := List.mem_map_of_mem (f := fun p => (p.st.aborted, p.st.exits)) hp
    rw [h4] at this
    simp only [List.mem_cons, List.not_mem_nil, or_false, Prod.mk.injEq] at this
    exact this
  have hroot : ∃ p, x.y.procs[0]? = some p ∧ p.st.exits = [] := by
    cases hq : x.y.procs with
    | nil => rw [hq] at h4; cases h4
    | cons p ps => exact ⟨p, rfl, (hp p (by rw [hq]; simp)).2⟩
  refine ⟨x, hx, C115_limit _ (by decide) x hr fun p h => (hp p h).1,
    C115_progress_partial _ (by decide) x hr (fun p h => (hp p h).1) hroot (by rw [h1]; decide), ?_⟩
  have := C115_as_if _ (by decide) x hr
  rw [h1, h2] at this
  exact this

/-- `-j3` with a nested jom, whose command fails; a token of the outer jom is lost. -/
def failed : List LEvent :=
  [s, .ok (.spawn 0 0 (forkCfg 2 false)), .ok (.proc 1 (.startProcesses exO)), .ok (.proc 1 (.childFinished 0 true)),
    s, .ok (.proc 0 .grant), .ok (.proc 0 (.acquired .running false)), .fails 0 (.childFinished 1 false) 1]

/-- The theorems for failed commands apply. -/
example : ∃ x, lrun { y := start (forkCfg 3 false), lost := 0 } failed = some x ∧ failingJoms x.y = 1 ∧ x.lost = 1 ∧
    allLeafProcesses x.y + x.y.sem + x.lost ≤ 3 + abortedJoms x.y ∧ ∃ k ev, Happens x.y (.proc k ev) := by
  have h : (lrun { y := start (forkCfg 3 false), lost := 0 } failed).map (fun x => ((failingJoms x.y, x.lost),
      decide (lostTokens x.y = 0), x.y.procs[0]?.map fun p => p.st.exits)) = some ((1, 1), true, some []) := by decide +kernel
  obtain ⟨x, hx, he⟩ := Option.map_eq_some_iff.1 h
  simp only [Prod.mk.injEq, decide_eq_true_eq] at he
  obtain ⟨⟨h1, h2⟩, h3, h4⟩ := he
  have hr : LReachable (forkCfg 3 false) x := ⟨failed, hx⟩
  refine ⟨x, hx, h1, h2, (C115_limit_failed _ (by decide) x hr).2, C115_failures_partial _ (by decide) x hr ?_ (Option.map_eq_some_iff.1 h4)⟩
  rw [h1, h2, h3]
  decide

/-- After two failed releases. -/
theorem after_twice : (after twice).map (fun x => ((x.lost, (List.range x.y.procs.length).all fun k => (x.y.procs[k]?.map (blocked x.y k)).getD false),
    x.y.procs.map fun p => ((p.st.aborted, p.st.exits), p.st.busy.length, p.st.next))) = some ((2, true), [((false, []), 0, some 3)]) := by decide +kernel

end LossCase

/-- C115 is false after `N` failed releases: nothing has failed but two releases, no command runs, a target is ready, and jom waits for ever. -/
theorem C115_refuted : ∃ x, LReachable (forkCfg 2 false) x ∧ x.lost = 2 ∧ (∀ e, lstep x e = none) ∧
    ∃ p, x.y.procs = [p] ∧ p.st.aborted = false ∧ p.st.exits = [] ∧ p.st.busy = [] ∧ p.st.next = some 3 := by
  obtain ⟨x, hx, he⟩ := Option.map_eq_some_iff.1 LossCase.after_twice
  simp only [Prod.mk.injEq] at he
  obtain ⟨⟨h1, h2⟩, h3⟩ := he
  have hp : ∃ p, x.y.procs = [p] ∧ p.st.aborted = false ∧ p.st.exits = [] ∧ p.st.busy = [] ∧ p.st.next = some 3 := by
    cases hq : x.y.procs with
    | nil => rw [hq] at h3; cases h3
    | cons p ps =>
      rw [hq] at h3
      simp only [List.map_cons, List.cons.injEq, Prod.mk.injEq, List.map_eq_nil_iff] at h3
      obtain ⟨⟨⟨a, b⟩, c, d⟩, rfl⟩ := h3
      exact ⟨p, rfl, a, b, List.length_eq_zero_iff.1 c, d⟩
  refine ⟨x, ⟨_, hx⟩, h1, ?_, hp⟩
  have hb : ∀ k p, x.y.procs[k]? = some p → blocked x.y k p = true := by
    intro k p hk
    have := List.all_eq_true.1 h2 k (List.mem_range.2 (List.getElem?_eq_some_iff.1 hk).1)
    rw [hk] at this
    exact this
  obtain ⟨p, hq, _, _, hbusy, _⟩ := hp
  have hnone : ∀ e, Tree.step x.y e = none := by
    intro e
    have := blocked_none hb e
    cases hs : Tree.step x.y e with
    | none => rfl
    | some y =>
      refine absurd ⟨by rw [hs]; rfl, fun k p' _ hk => ?_⟩ this
      have hm := List.mem_of_getElem? hk
      rw [hq, List.mem_singleton] at hm
      rw [hm]
      exact hbusy
  intro e
  cases e <;> simp [lstep, hnone]

end Jom.Props
