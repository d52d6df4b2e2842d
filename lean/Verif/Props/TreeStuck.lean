/-
C114: can a tree of joms that share a job server be stuck after failures (C53 is about builds that do not fail)?

The English claim - as long as the outermost jom has not ended, something can happen - is false: joms that wait for their last commands after a failure can
keep tokens that the joms among these commands need (`C114_refuted`), and a jom that ends because of an exception keeps its tokens
(`C114_exception_refuted`).  Proved: it needs at least `N` joms that have failed and have not ended, or tokens that ended joms did not give back.
-/
import Verif.Props.JobTreeAbort
import Verif.Proofs.AcquireFail
import Mathlib.Data.List.Perm.Subperm

namespace Jom.Tree

open Jom.Sched

/-- An event that can happen; a failed jom ends when its commands have ended (targetexecutor.cpp 260-263: `waitForProcesses` comes first). -/
def Happens (y : Sys) (e : SysEvent) : Prop :=
  (Tree.step y e).isSome = true ∧ ∀ k p, e = .proc k .abortDone → y.procs[k]? = some p → p.st.busy = []

/-- Joms that have failed and have not ended. -/
def failingJoms (y : Sys) : Nat := y.procs.countP fun p => p.alive && p.st.aborted

/-- The tokens that joms which have ended took and did not give back. -/
def lostTokens (y : Sys) : Int := total (fun p => if p.alive then 0 else (p.st.taken : Int) - p.st.relChild - p.st.relWait) y.procs

/-- A jom to which nothing can happen. -/
def blocked (y : Sys) (k : Nat) (p : Proc) : Bool :=
  !p.alive || (p.st.queued == 0 && !p.st.granted && (!p.st.acquiring || y.sem == 0) &&
    p.st.busy.all (fun b => decide ((k, b.1) ∈ hosts y)) && (p.st.frames == 0 || p.st.acquiring || !p.st.busy.isEmpty))

theorem blocked_none {y : Sys} (h : ∀ k p, y.procs[k]? = some p → blocked y k p = true) (e : SysEvent) : ¬ Happens y e := by
  rintro ⟨hs, hab⟩
  cases e with
  | spawn k x cfg =>
    simp only [Tree.step] at hs
    split at hs
    · next hc =>
      obtain ⟨p, hp, hal, t, ht⟩ := mem_slots.1 hc.1
      have hb := h k p hp
      simp only [blocked, hal, Bool.not_true, Bool.false_or, Bool.and_eq_true, List.all_eq_true, decide_eq_true_eq] at hb
      exact hc.2.1 (hb.1.2 (x, t) ht)
    · cases hs
  | proc k ev =>
    simp only [Tree.step] at hs
    split at hs
    · cases hs
    · next p hp =>
      split at hs
      · next hc =>
        simp only [Bool.and_eq_true] at hc
        obtain ⟨⟨hal, hfin⟩, hgr⟩ := hc
        have hb := h k p hp
        simp only [blocked, hal, Bool.not_true, Bool.false_or, Bool.and_eq_true, List.all_eq_true, decide_eq_true_eq, beq_iff_eq,
          Bool.or_eq_true, Bool.not_eq_true', List.isEmpty_eq_false_iff] at hb
        obtain ⟨⟨⟨⟨b1, b2⟩, b3⟩, b4⟩, b5⟩ := hb
        have hstep : (Sched.step p.cfg p.st ev).isSome = true := by
          cases hh : Sched.step p.cfg p.st ev with
          | none => rw [hh] at hs; cases hs
          | some st => rfl
        cases ev with
        | startProcesses o => simp [Sched.step, b1] at hstep
        | grant =>
          simp only [mayGrant, decide_eq_true_eq] at hgr
          rcases b3 with b3 | b3
          · simp [Sched.step, b3] at hstep
          · omega
        | acquired r w => simp [Sched.step, b2] at hstep
        | childFinished x f =>
          simp only [Sched.step] at hstep
          split at hstep
          · cases hstep
          · split at hstep
            · next q t hq =>
              have hm := List.mem_of_find?_eq_some hq
              have hx : q = x := by simpa using List.find?_some hq
              subst hx
              simp only [mayFinish, decide_eq_true_eq] at hfin
              exact hfin (b4 _ hm)
            · cases hstep
        | abortDone =>
          have hbusy := hab k p rfl hp
          simp only [Sched.step] at hstep
          split at hstep
          · next hg =>
            rcases b5 with (b5 | b5) | b5
            · omega
            · rw [hg.2.2] at b5; cases b5
            · exact b5 hbusy
          · cases hstep
      · cases hs

/-- An exception ends the build at once. -/
def Ends (s : St) : Prop := s.stuck ≠ [] → s.exits ≠ []

theorem ends_build (cfg : Cfg) (res : StartRes) {s : St} (h : Ends s) : Ends (buildNextTarget cfg res s) := by
  unfold buildNextTarget
  split
  · exact h
  · split
    · exact h
    · split
      · exact h
      · next e rest _ =>
        cases res with
        | running => exact h
        | throws => intro _; simp [onException, finishBuild]
        | sync f =>
          unfold Ends
          simp only [begun]
          rw [(childFinished_fields cfg e _ f _).stuck, (childFinished_fields cfg e _ f _).exits]
          exact h

theorem ends_start {cfg s} (h : Inv cfg s) (hc : Ends s) (o : Oracle) (q : Nat) : Ends (startProcesses cfg o { s with queued := q }) := by
  unfold startProcesses
  split
  · exact hc
  · next hg =>
    simp only [Bool.or_eq_true, List.isEmpty_iff, not_or, Bool.not_eq_true] at hg
    obtain ⟨⟨hab, _⟩, _⟩ := hg
    have hab : s.aborted = false := hab
    have hn := h.idle hab (by assumption)
    have hl0 : LogInv cfg { s with queued := q } := h.lg.congr rfl rfl rfl id id rfl rfl rfl rfl (fun _ => rfl)
    have hf := findNext_spec cfg o (s.g.ids.length + 1) { s with queued := q } hl0 hab hn
    simp only [hn, Option.isNone_none, if_true]
    have hf' : FindRes cfg { s with queued := q } (s.g.ids.length + 1)
      (findNextTarget cfg o (s.g.ids.length + 1) { s with queued := q, next := none }) := by
      have e : ({ s with queued := q, next := none } : St) = { s with queued := q } := by
        cases s; simp only at hn; subst hn; rfl
      rw [e]; exact hf
    clear hf
    generalize findNextTarget cfg o (s.g.ids.length + 1) { s with queued := q, next := none } = res at hf'
    cases res with
    | error s1 => intro _; simp [onException, finishBuild]
    | ok s1 =>
      obtain ⟨⟨f1, f2, f3⟩, f4, f5⟩ := hf'
      have h1 : Ends s1 := by
        unfold Ends
        rw [f1]
        exact hc
      simp only
      split
      · split
        · exact ends_build cfg o.res h1
        · exact h1
      · split
        · split
          · intro _; simp [finishBuild]
          · unfold rebuild
            split
            · exact h1
            · intro _; simp
        · exact h1

theorem Ends.step {cfg s s' ev} (h : Inv cfg s) (hc : Ends s) (hs : Sched.step cfg s ev = some s') : Ends s' := by
  cases ev with
  | startProcesses o =>
    simp only [Sched.step] at hs
    split at hs
    · injection hs with hs; subst hs; exact ends_start h hc o _
    · cases hs
  | grant =>
    simp only [Sched.step] at hs
    split at hs
    · injection hs with hs; subst hs; exact hc
    · cases hs
  | acquired res w =>
    simp only [Sched.step] at hs
    split at hs
    · injection hs with hs
      subst hs
      have := ends_build cfg res (s := { s with acquiring := false, granted := false }) hc
      split <;> exact this
    · cases hs
  | childFinished e f =>
    simp only [Sched.step] at hs
    split at hs
    · cases hs
    · split at hs
      · next t _ =>
        injection hs with hs; subst hs
        have hf := childFinished_fields cfg e t f s
        unfold Ends
        rw [hf.exits, hf.stuck]
        exact hc
      · cases hs
  | abortDone =>
    simp only [Sched.step] at hs
    split at hs
    · injection hs with hs; subst hs; intro _; simp [finishBuild]
    · cases hs

theorem init_stuck (cfg : Cfg) : (init cfg).stuck = [] := by
  unfold Sched.init
  extract_lets s
  split
  · rfl
  · unfold rebuild
    split <;> split <;> rfl

theorem tree_ends {N} : ∀ {es y y'}, TreeInv N y → (∀ p ∈ y.procs, Ends p.st) → Tree.run y es = some y' → ∀ p ∈ y'.procs, Ends p.st := by
  intro es
  induction es with
  | nil => intro y y' _ h hr; simp only [Tree.run, Option.some.injEq] at hr; subst hr; exact h
  | cons e es ih =>
    intro y y' ht h hr
    simp only [Tree.run] at hr
    cases hs : Tree.step y e with
    | none => rw [hs] at hr; cases hr
    | some y1 =>
      rw [hs] at hr
      refine ih (ht.step hs) ?_ hr
      cases e with
      | spawn k x cfg =>
        simp only [Tree.step] at hs
        split at hs
        · simp only [Option.some.injEq] at hs
          subst hs
          intro p hp
          rcases List.mem_append.1 hp with hp | hp
          · exact h p hp
          · simp only [List.mem_singleton] at hp
            subst hp
            intro hh
            exact absurd (init_stuck cfg) hh
        · cases hs
      | proc k ev =>
        simp only [Tree.step] at hs
        split at hs
        · cases hs
        · next p hpk =>
          split at hs
          · split at hs
            · cases hs
            · next st hst =>
              simp only [Option.some.injEq] at hs
              subst hs
              have hpm := List.mem_of_getElem? hpk
              intro q hq
              rcases List.mem_or_eq_of_mem_set hq with hq | rfl
              · exact h q hq
              · exact (h p hpm).step (ht.inv p hpm) hst
          · cases hs

/-- The tree with `n` more free tokens. -/
def pad (n : Nat) (y : Sys) : Sys := { y with sem := y.sem + n }

end Jom.Tree

namespace Jom.Props

open Jom.Sched Jom.Tree

/-- The argument, for a tree in which `n` of the tokens are missing. -/
theorem stuck_progress {N n : Nat} {y : Sys} (ht : TreeInv N (pad n y)) (hends : ∀ p ∈ y.procs, Ends p.st)
    (hm : failingJoms y + lostTokens y + n < N) (hroot : ∃ p, y.procs[0]? = some p ∧ p.st.exits = []) : ∃ k ev, Happens y (.proc k ev) := by
  have inv : ∀ p ∈ y.procs, Inv p.cfg p.st := ht.inv
  have jobs : ∀ p ∈ y.procs, 0 < p.cfg.jobs := ht.jobs
  have root : ∃ p ps, y.procs = p :: ps ∧ p.parent = none := ht.root
  have par : ∀ k p, y.procs[k]? = some p → 0 < k → ∃ q x, p.parent = some (q, x) ∧ q < k := ht.par
  have sum := ht.sum
  have ac := ht.alive_count
  rw [show (pad n y).sem = y.sem + n from rfl, show (pad n y).procs = y.procs from rfl] at sum
  rw [show (pad n y).procs = y.procs from rfl, show hosts (pad n y) = hosts y from rfl] at ac
  apply Classical.byContradiction
  intro hno
  have hstuck : ∀ k p ev, y.procs[k]? = some p → p.alive = true → mayFinish y k ev = true → mayGrant y ev = true →
      (Sched.step p.cfg p.st ev).isSome = true → (ev = .abortDone → p.st.busy = []) → False := by
    intro k p ev hk ha hf hg hs hb
    apply hno
    obtain ⟨st, hst⟩ := Option.isSome_iff_exists.1 hs
    refine ⟨k, ev, ?_, ?_⟩
    · simp only [Tree.step, hk, ha, hf, hg, hst, Bool.and_self, if_true, Option.isSome_some]
    · intro k' p' he hk'
      simp only [SysEvent.proc.injEq] at he
      obtain ⟨rfl, rfl⟩ := he
      rw [hk] at hk'
      simp only [Option.some.injEq] at hk'
      subst hk'
      exact hb rfl
  have hdead : ∀ p ∈ y.procs, p.alive = true → p.st.dead = false := by
    intro p hp ha
    cases hd : p.st.dead with
    | false => rfl
    | true =>
      have := ((inv p hp).deadExit hd).1
      unfold Proc.alive at ha
      simp only [List.isEmpty_iff] at ha
      rw [ha] at this; cases this
  have hexits : ∀ p : Proc, p.alive = true → p.st.exits = [] := by
    intro p ha
    unfold Proc.alive at ha
    simpa using ha
  have hq : ∀ (k : Nat) (p : Proc), y.procs[k]? = some p → p.alive = true → p.st.queued = 0 := by
    intro k p hk ha
    apply Classical.byContradiction
    intro hq
    refine hstuck k p (.startProcesses exO) hk ha rfl rfl ?_ (fun hh => by cases hh)
    have := hdead p (List.mem_of_getElem? hk) ha
    simp only [Sched.step]
    rw [if_pos ⟨this, by omega⟩]
    rfl
  have hgr : ∀ (k : Nat) (p : Proc), y.procs[k]? = some p → p.alive = true → p.st.granted = false := by
    intro k p hk ha
    cases hg : p.st.granted with
    | false => rfl
    | true =>
      exfalso
      have hd := hdead p (List.mem_of_getElem? hk) ha
      by_cases hw : p.st.busy ≠ [] ∨ p.st.frames = 0
      · refine hstuck k p (.acquired .running false) hk ha rfl rfl ?_ (fun hh => by cases hh)
        simp only [Sched.step]
        rw [if_pos ⟨hd, hg, by simp, fun _ => hw⟩]
        rfl
      · refine hstuck k p (.acquired .running true) hk ha rfl rfl ?_ (fun hh => by cases hh)
        simp only [Sched.step]
        rw [if_pos ⟨hd, hg, fun _ => by omega, by simp⟩]
        rfl
  have hsl : ∀ a ∈ slots y, a ∈ hosts y := by
    rintro ⟨k, x⟩ hmem
    apply Classical.byContradiction
    intro hn
    obtain ⟨p, hk, ha, t, hb⟩ := mem_slots.1 hmem
    have hpm := List.mem_of_getElem? hk
    refine hstuck k p (.childFinished x false) hk ha (by simpa [mayFinish] using hn) rfl ?_ (fun hh => by cases hh)
    simp only [Sched.step, hdead p hpm ha, Bool.false_eq_true, if_false]
    cases hf : p.st.busy.find? (fun q => decide (q.1 = x)) with
    | some q => rfl
    | none =>
      have := List.find?_eq_none.1 hf (x, t) hb
      simp at this
  have hlive : ∀ p ∈ y.procs, p.alive = true → p.st.busy ≠ [] ∨ p.st.acquiring = true := by
    intro p hp ha
    obtain ⟨k, hk⟩ := List.getElem?_of_mem hp
    cases hab : p.st.aborted with
    | false =>
      rcases (inv p hp).live (jobs p hp) (hdead p hp ha) hab (hexits p ha) with h1 | h1 | h1
      · have := hq k p hk ha; omega
      · exact Or.inl h1
      · exact Or.inr h1
    | true =>
      rcases (inv p hp).abLive hab with h1 | h1
      · by_cases hb : p.st.busy = []
        · right
          cases hac : p.st.acquiring with
          | true => rfl
          | false =>
            exfalso
            refine hstuck k p .abortDone hk ha rfl rfl ?_ (fun _ => hb)
            simp only [Sched.step]
            rw [if_pos ⟨hdead p hp ha, h1, hac⟩]
            rfl
        · exact Or.inl hb
      · exact absurd (hexits p ha) h1
  -- a token is free
  have hsem : 0 < y.sem := by
    have h1 : (slots y).length ≤ (hosts y).length := List.Nodup.length_le_of_subset (slotsFrom_nodup inv 0) hsl
    have h2 := ac
    have h3 := sum
    have h4 : ((slots y).length : Int) = _ := slotsFrom_length y.procs 0
    have h5 : total (fun p => p.st.held + (if p.alive then 1 else 0)) y.procs ≤
        total (fun p => (if p.alive then (p.st.busy.length : Int) else 0) + ((if (p.alive && p.st.aborted) then 1 else 0) +
          (if p.alive then 0 else (p.st.taken : Int) - p.st.relChild - p.st.relWait))) y.procs := by
      apply total_le
      intro p hp
      have hi := inv p hp
      obtain ⟨d, t1, t2, t3, t4⟩ := hi.ex.tok
      have t5 := hi.ex.tokInt
      cases ha : p.alive with
      | false =>
        simp only [Bool.false_eq_true, if_false, Bool.false_and]
        unfold St.held
        omega
      | true =>
        obtain ⟨k, hk⟩ := List.getElem?_of_mem hp
        have hg := hgr k p hk ha
        rw [hg] at t5
        have hst : p.st.stuck = [] := Classical.byContradiction fun hh => hends p hp hh (hexits p ha)
        simp only [hst, List.length_nil] at t4
        have hpos : 0 < p.st.busy.length + p.st.acquiring.toNat := by
          rcases hlive p hp ha with h1 | h1
          · have := List.length_pos_iff.2 h1; omega
          · rw [h1]; simp
        simp only [Bool.toNat_false] at t5
        unfold St.held
        cases hab : p.st.aborted with
        | false =>
          have := t3 hab
          simp only [if_true, Bool.and_false, Bool.false_eq_true, if_false]
          omega
        | true =>
          simp only [if_true, Bool.and_true]
          omega
    rw [total_add, total_add, total_add, ← countP_total (fun p => p.alive && p.st.aborted)] at h5
    obtain ⟨p, hp, hx⟩ := hroot
    have h6 : (y.procs.head?.map (·.alive)).getD false = true := by
      rw [List.head?_eq_getElem?, hp]
      simp [Proc.alive, hx]
    rw [if_pos h6] at h2
    unfold failingJoms lostTokens at hm
    omega
  have hacq : ∀ p ∈ y.procs, p.alive = true → p.st.acquiring = false := by
    intro p hp ha
    obtain ⟨k, hk⟩ := List.getElem?_of_mem hp
    cases hac : p.st.acquiring with
    | false => rfl
    | true =>
      exfalso
      refine hstuck k p .grant hk ha rfl (by simp only [mayGrant, decide_eq_true_eq]; omega) ?_ (fun hh => by cases hh)
      simp only [Sched.step]
      rw [if_pos ⟨hdead p hp ha, hac, hgr k p hk ha⟩]
      rfl
  -- every live process has a live child: impossible
  have hnone : ∀ (n k : Nat) (p : Proc), y.procs.length ≤ k + n → y.procs[k]? = some p → p.alive = true → False := by
    intro n
    induction n with
    | zero =>
      intro k p hl hk
      have := (List.getElem?_eq_some_iff.1 hk).1
      omega
    | succ n ih =>
      intro k p hl hk ha
      have hpm := List.mem_of_getElem? hk
      have hb : p.st.busy ≠ [] := by
        rcases hlive p hpm ha with h1 | h1
        · exact h1
        · rw [hacq p hpm ha] at h1; cases h1
      obtain ⟨b, hbm⟩ := List.exists_mem_of_ne_nil _ hb
      have hslot : (k, b.1) ∈ slots y := mem_slots.2 ⟨p, hk, ha, b.2, hbm⟩
      obtain ⟨q, hq, hqa, hqp⟩ := mem_hosts.1 (hsl _ hslot)
      obtain ⟨i, hi⟩ := List.getElem?_of_mem hq
      have hik : k < i := by
        cases i with
        | zero =>
          obtain ⟨r, ps, hr, hrp⟩ := root
          rw [hr] at hi
          simp at hi
          rw [← hi, hrp] at hqp
          cases hqp
        | succ i =>
          obtain ⟨a, x, hax, hlt⟩ := par _ q hi (Nat.succ_pos _)
          rw [hax] at hqp
          simp only [Option.some.injEq, Prod.mk.injEq] at hqp
          omega
      exact ih i q (by omega) hi hqa
  obtain ⟨p, hp, hx⟩ := hroot
  exact hnone y.procs.length 0 p (by omega) hp (by simp [Proc.alive, hx])

theorem reachable_ends {cfg : Cfg} {y : Sys} (hj : 0 < cfg.jobs) (h : Tree.Reachable cfg y) : ∀ p ∈ y.procs, Ends p.st := by
  obtain ⟨es, he⟩ := h
  refine tree_ends (TreeInv.start cfg hj) ?_ he
  intro p hp
  simp only [Tree.start, List.mem_singleton] at hp
  subst hp
  intro hh
  exact absurd (init_stuck cfg) hh

/-- C114 (partial): full claim: as long as the outermost jom of a tree of joms sharing a job server has not ended, something can happen, also after failures.
Proved: if the joms that have failed and have not ended and the tokens that ended joms did not give back are together fewer than `N`.
Missing: otherwise the tree can be stuck, with plain failures as well as after exceptions, see `C114_refuted` and `C114_exception_refuted`. -/
theorem C114_progress_partial (cfg : Cfg) (hj : 0 < cfg.jobs) (y : Sys) (h : Tree.Reachable cfg y)
    (hm : failingJoms y + lostTokens y < cfg.jobs) (hroot : ∃ p, y.procs[0]? = some p ∧ p.st.exits = []) :
    ∃ k ev, Happens y (.proc k ev) :=
  stuck_progress (n := 0) (h.tree hj) (reachable_ends hj h) (by simpa using hm) hroot

/-- `-j2`; every jom runs the next one as its first target, nested joms have three executors (their number is that of the processor cores, options.cpp 42, since
`-j` is not passed on in `MAKEFLAGS`).  The joms 1 and 2 start a second target, ask for a token for the third, the second
target fails, and the token arrives while they wait for the jom that is still running; jom 3 has given its token back and asks for one. -/
def stuckRun : List SysEvent :=
  let s (k : Nat) : SysEvent := .proc k (.startProcesses exO)
  let fails (k : Nat) : List SysEvent :=
    [.proc k .grant, .proc k (.acquired .running false), s k, .proc k (.childFinished 1 true), .proc k .grant, .proc k (.acquired .running false), s k]
  [s 0, s 0, s 0, .spawn 0 0 (forkCfg 3 false), s 1, s 1, .spawn 1 0 (forkCfg 3 false), s 2, s 2, .spawn 2 0 (forkCfg 3 false)] ++ fails 1 ++
    [s 3, s 3, .proc 3 (.childFinished 0 false), s 3, s 3] ++ fails 2

/-- C114 is false: commands fail, no exception, nobody has ended, and nothing can happen any more. -/
theorem C114_refuted : ∃ y, Tree.Reachable (forkCfg 2 false) y ∧ (∀ e, ¬ Happens y e) ∧ (∀ p ∈ y.procs, p.alive = true ∧ p.st.stuck = []) ∧
    failingJoms y = 2 ∧ ∃ p, y.procs[0]? = some p ∧ p.st.aborted = false := by
  have : (Tree.run (start (forkCfg 2 false)) stuckRun).map (fun y => ((List.range y.procs.length).all fun k => (y.procs[k]?.map (blocked y k)).getD false,
      y.procs.all (fun p => p.alive && p.st.stuck == []), failingJoms y, y.procs[0]?.map (·.st.aborted))) = some (true, true, 2, some false) := by
    decide +kernel
  obtain ⟨y, h1, h2⟩ := Option.map_eq_some_iff.1 this
  simp only [Prod.mk.injEq, Option.map_eq_some_iff] at h2
  obtain ⟨a, b, c, p, hp, hpa⟩ := h2
  refine ⟨y, ⟨_, h1⟩, blocked_none ?_, ?_, c, p, hp, hpa⟩
  · intro k p hk
    have := List.all_eq_true.1 a k (List.mem_range.2 (List.getElem?_eq_some_iff.1 hk).1)
    rw [hk] at this
    simpa using this
  · intro p hp
    have := List.all_eq_true.1 b p hp
    simpa using this

/-- `-j2 /K`: the nested jom of target 1 takes the token and ends because the inline file of its second target cannot be written; so does the nested jom of target 2, with the
token that the jom it runs has given back; that jom ends after its targets, and the outer jom asks for a token for target 3. -/
def leakRun : List SysEvent :=
  let s (k : Nat) : SysEvent := .proc k (.startProcesses exO)
  [s 0, .spawn 0 0 (forkCfg 2 false), s 1, s 1, .proc 1 .grant, .proc 1 (.acquired .throws false), .proc 0 (.childFinished 0 true),
    s 0, s 0, .spawn 0 1 (forkCfg 2 false), s 2, s 2, .spawn 2 0 (forkCfg 2 false), s 3, s 3, .proc 3 (.childFinished 0 false),
    .proc 2 .grant, .proc 2 (.acquired .throws false), .proc 0 (.childFinished 1 true),
    .proc 3 .grant, .proc 3 (.acquired .running false), s 3, s 3, s 3, .proc 3 (.childFinished 1 false), .proc 3 .grant, .proc 3 (.acquired .running false),
    .proc 3 (.childFinished 0 false), s 3, s 3, .proc 3 (.childFinished 1 false), s 3, s 0, s 0, s 0]

/-- C114 is false after exceptions in nested joms: the outer jom, in which nothing was aborted, waits forever. -/
theorem C114_exception_refuted : ∃ y, Tree.Reachable (forkCfg 2 true) y ∧ (∀ e, ¬ Happens y e) ∧ failingJoms y = 0 ∧
    ∃ p, y.procs[0]? = some p ∧ p.alive = true ∧ p.st.aborted = false ∧ p.st.busy = [] := by
  have : (Tree.run (start (forkCfg 2 true)) leakRun).map (fun y => ((List.range y.procs.length).all fun k => (y.procs[k]?.map (blocked y k)).getD false,
      failingJoms y, y.procs[0]?.map (fun p => (p.alive && !p.st.aborted && p.st.busy.isEmpty)))) = some (true, 0, some true) := by
    decide +kernel
  obtain ⟨y, h1, h2⟩ := Option.map_eq_some_iff.1 this
  simp only [Prod.mk.injEq, Option.map_eq_some_iff] at h2
  obtain ⟨a, z, p, hp, b⟩ := h2
  simp only [Bool.and_eq_true, Bool.not_eq_true', List.isEmpty_iff] at b
  refine ⟨y, ⟨_, h1⟩, blocked_none ?_, z, p, hp, b.1.1, b.1.2, b.2⟩
  intro k p hk
  have := List.all_eq_true.1 a k (List.mem_range.2 (List.getElem?_eq_some_iff.1 hk).1)
  rw [hk] at this
  simpa using this

/-- One nested jom has failed and waits for its other target, which runs a jom: something can happen. -/
example : ∃ y, Tree.Reachable (forkCfg 2 false) y ∧ failingJoms y = 1 ∧ ∃ k ev, Happens y (.proc k ev) := by
  have : (Tree.run (start (forkCfg 2 false)) (stuckRun.take 17)).map (fun y => (failingJoms y, lostTokens y, y.procs[0]?.map (·.st.exits))) =
      some (1, 0, some []) := by
    decide +kernel
  obtain ⟨y, h1, h2⟩ := Option.map_eq_some_iff.1 this
  simp only [Prod.mk.injEq, Option.map_eq_some_iff] at h2
  obtain ⟨a, b, hr⟩ := h2
  exact ⟨y, ⟨_, h1⟩, a, C114_progress_partial (forkCfg 2 false) (by decide) y ⟨_, h1⟩ (by rw [a, b]; decide) hr⟩

/-- A nested jom has ended because of an exception and did not give its token back: something can happen. -/
example : ∃ y, Tree.Reachable (forkCfg 2 true) y ∧ lostTokens y = 1 ∧ ∃ k ev, Happens y (.proc k ev) := by
  have : (Tree.run (start (forkCfg 2 true)) (leakRun.take 6)).map (fun y => (failingJoms y, lostTokens y, y.procs[0]?.map (·.st.exits))) =
      some (0, 1, some []) := by
    decide +kernel
  obtain ⟨y, h1, h2⟩ := Option.map_eq_some_iff.1 this
  simp only [Prod.mk.injEq, Option.map_eq_some_iff] at h2
  obtain ⟨a, b, hr⟩ := h2
  exact ⟨y, ⟨_, h1⟩, b, C114_progress_partial (forkCfg 2 true) (by decide) y ⟨_, h1⟩ (by rw [a, b]; decide) hr⟩

end Jom.Props
