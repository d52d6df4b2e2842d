/-
C112: what happens when the job token that jom asked for cannot be acquired.

The English claim - jom ends the build with an error and has given back the tokens it took - is false in every execution in which an
acquisition fails: `C112_refuted`, `C112_token_refuted`.  Proved is what remains true.
-/
import Verif.Proofs.AcquireFail
import Verif.Props.Scheduler

namespace Jom.Props

open Jom.Graph Jom.Spec Jom.Sched Jom.AcquireFail

/-- An event that can happen. -/
def CanHappen (cfg : Cfg) (x : FSt) (ev : FEvent) : Prop := (fstep cfg x ev).isSome = true

theorem frun_still {cfg : Cfg} : ∀ (es : List FEvent) (x x' : FSt), FInv cfg x → x.lost = true → frun cfg x es = some x' →
    x'.lost = true ∧ x'.s.exits = x.s.exits ∧ x'.s.dead = x.s.dead ∧ x'.s.taken = x.s.taken ∧ x'.s.next = x.s.next ∧
    x'.s.build = x.s.build ∧ x'.s.busy.Sublist x.s.busy ∧
    es.length + 2 * x'.s.busy.length + x'.s.queued ≤ 2 * x.s.busy.length + x.s.queued ∧
    ∃ l, x'.s.log = x.s.log ++ l ∧ ∀ ev ∈ l, ∃ p ∈ x.s.busy, ev = .succeeded x.s.build p.2 ∨ ev = .failed x.s.build p.2
  | [], x, x', _, hl, h => by
    simp only [frun, Option.some.injEq] at h
    subst h
    exact ⟨hl, rfl, rfl, rfl, rfl, rfl, List.Sublist.refl _, by simp, [], by simp⟩
  | e :: es, x, x', hi, hl, h => by
    simp only [frun, Option.bind_eq_some_iff] at h
    obtain ⟨x1, h1, h2⟩ := h
    have hi1 := hi.step h1
    obtain ⟨ha, hg⟩ := hi.lost hl
    cases e with
    | acquireFails => simp [fstep, hl] at h1
    | ev e =>
      simp only [fstep] at h1
      split at h1
      · cases h1
      · next hng =>
        obtain ⟨s1, h3, h4⟩ := Option.map_eq_some_iff.1 h1
        subst h4
        have st := still_step hi.reach.inv ha hg (by simpa [hl] using hng) h3
        obtain ⟨r1, r2, r3, r4, r5, r6, r7, r8, l, r9, r10⟩ := frun_still es _ x' hi1 hl h2
        simp only at r2 r3 r4 r5 r6 r7 r8 r9 r10
        obtain ⟨l0, q1, q2⟩ := st.log
        have hless := st.less
        refine ⟨r1, r2.trans st.exits, r3.trans st.dead, r4.trans st.taken, r5.trans st.next, r6.trans st.build,
          r7.trans st.busy, by simp only [List.length_cons]; omega, l0 ++ l, ?_, ?_⟩
        · rw [r9, q1, List.append_assoc]
        · intro ev hev
          rcases List.mem_append.1 hev with hev | hev
          · obtain ⟨b, t, hm, h5⟩ := q2 ev hev
            obtain ⟨p, hp, hpe⟩ := List.mem_map.1 hm
            simp only [Prod.mk.injEq] at hpe
            obtain ⟨e1, e2⟩ := hpe
            subst e1 e2
            exact ⟨p, hp, h5⟩
          · obtain ⟨p, hp, h5⟩ := r10 ev hev
            refine ⟨p, st.busy.subset hp, ?_⟩
            rw [st.build] at h5
            exact h5

/-- Tokens while a request is open that is never answered: one more has been or will be given back than was taken. -/
theorem lost_tokens {cfg : Cfg} {x : FSt} (h : FInv cfg x) (hl : x.lost = true) :
    returned x.s + x.s.busy.length = x.s.taken + 1 := by
  obtain ⟨ha, hg⟩ := h.lost hl
  have hi := h.reach.inv
  obtain ⟨d, t1, t2, t3, t4⟩ := hi.ex.tok
  have t5 := hi.ex.tokInt
  have hst := (reachable_clean h.reach ha).2
  simp only [ha, hg, hst, List.length_nil, Bool.toNat_true, Bool.toNat_false] at t2 t4 t5
  unfold returned
  omega

/-- C112 (partial): full claim: if a job token cannot be acquired, jom ends the build with an error and has given back the tokens it took.
Proved: after the failure no target is started any more; every target whose commands run can still end and is recorded as
succeeded or failed, and nothing else is recorded; the limits of C32 hold; all continuations are finite.
Missing: the end of the build and the number of returned tokens, which are wrong: `C112_refuted`, `C112_token_refuted`. -/
theorem C112_after_partial (cfg : Cfg) (x : FSt) (h : FReachable cfg x) (hl : x.lost = true) (es : List FEvent) (x' : FSt)
    (hr : frun cfg x es = some x') :
    (∃ l, x'.s.log = x.s.log ++ l ∧ ∀ ev ∈ l, ∃ p ∈ x.s.busy, ev = .succeeded x.s.build p.2 ∨ ev = .failed x.s.build p.2) ∧
    (∀ p ∈ x'.s.busy, ∀ failed, CanHappen cfg x' (.ev (.childFinished p.1 failed))) ∧
    running x'.s.log = x'.s.busy.length ∧ running x'.s.log ≤ running x.s.log ∧ running x.s.log ≤ cfg.jobs ∧
    es.length ≤ 2 * running x.s.log + x.s.queued := by
  obtain ⟨r1, r2, r3, r4, r5, r6, r7, r8, hlog⟩ := frun_still es x x' h.inv hl hr
  have hi' := FInv.run es x x' h.inv hr
  have c := C32_job_limit cfg x.s h.inv.reach
  have c' := C32_job_limit cfg x'.s hi'.reach
  have hlen := r7.length_le
  refine ⟨hlog, ?_, c'.2.1, by rw [c.2.1, c'.2.1]; omega, c.2.2.1, by rw [c.2.1]; omega⟩
  intro p hp failed
  have hd : x'.s.dead = false := by
    cases hd : x'.s.dead with
    | false => rfl
    | true =>
      have := (hi'.reach.inv.deadExit hd).2.2.1
      rw [(hi'.lost r1).1] at this
      cases this
  unfold CanHappen fstep Sched.step
  simp only [isGrant, Bool.and_false, Bool.false_eq_true, if_false, hd]
  cases hf : x'.s.busy.find? (·.1 = p.1) with
  | some q => rfl
  | none =>
    have := List.find?_eq_none.1 hf p hp
    simp at this

/-- C112 is false: after the failure jom never ends.  In every continuation no exit code is emitted and a target that is ready waits for its
token; a continuation to which nothing can be added exists, in which all commands have ended - and jom waits. -/
theorem C112_refuted (cfg : Cfg) (x : FSt) (h : FReachable cfg x) (hl : x.lost = true) :
    (∀ es x', frun cfg x es = some x' → x'.s.exits = [] ∧ x'.s.dead = false ∧ ∃ t, x'.s.next = some t) ∧
    ∃ es x', frun cfg x es = some x' ∧ (∀ ev, ¬ CanHappen cfg x' ev) ∧ x'.s.busy = [] ∧ x'.s.exits = [] := by
  have key : ∀ y, FInv cfg y → y.lost = true → y.s.exits = [] ∧ y.s.dead = false ∧ ∃ t, y.s.next = some t := by
    intro y hi hy
    obtain ⟨ha, _⟩ := hi.lost hy
    refine ⟨(reachable_clean hi.reach ha).1, ?_, Option.isSome_iff_exists.1 (hi.reach.inv.ex.acqNext ha)⟩
    cases hd : y.s.dead with
    | false => rfl
    | true =>
      have := (hi.reach.inv.deadExit hd).2.2.1
      rw [ha] at this
      cases this
  refine ⟨fun es x' hr => key x' (FInv.run es x x' h.inv hr) (frun_still es x x' h.inv hl hr).1, ?_⟩
  have main : ∀ n (y : FSt), FInv cfg y → y.lost = true → 2 * y.s.busy.length + y.s.queued ≤ n →
      ∃ es x', frun cfg y es = some x' ∧ (∀ ev, ¬ CanHappen cfg x' ev) ∧ x'.s.busy = [] ∧ x'.s.exits = [] := by
    intro n
    induction n with
    | zero =>
      intro y hi hy hn
      have hb : y.s.busy = [] := List.length_eq_zero_iff.1 (by omega)
      refine ⟨[], y, rfl, ?_, hb, (key y hi hy).1⟩
      intro ev hev
      obtain ⟨x1, h1⟩ := Option.isSome_iff_exists.1 hev
      have := (frun_still [ev] y x1 hi hy (by simp [frun, h1])).2.2.2.2.2.2.2.1
      simp only [List.length_cons, List.length_nil] at this
      omega
    | succ n ih =>
      intro y hi hy hn
      by_cases hc : ∃ ev, CanHappen cfg y ev
      · obtain ⟨ev, hev⟩ := hc
        obtain ⟨x1, h1⟩ := Option.isSome_iff_exists.1 hev
        have hs := frun_still [ev] y x1 hi hy (by simp [frun, h1])
        have hm := hs.2.2.2.2.2.2.2.1
        simp only [List.length_cons, List.length_nil] at hm
        obtain ⟨es, x', a, b⟩ := ih x1 (hi.step h1) hs.1 (by omega)
        exact ⟨ev :: es, x', by simp [frun, h1, a], b⟩
      · have hb : y.s.busy = [] := by
          cases hb : y.s.busy with
          | nil => rfl
          | cons p l =>
            exfalso
            apply hc
            refine ⟨.ev (.childFinished p.1 false), ?_⟩
            unfold CanHappen fstep Sched.step
            simp [isGrant, (key y hi hy).2.1, hb]
        exact ⟨[], y, rfl, fun ev hev => hc ⟨ev, hev⟩, hb, (key y hi hy).1⟩
  exact main _ x h.inv hl (Nat.le_refl _)

/-- C112 is false also for the tokens: when all commands have ended, one token more has been given back than was taken (the token that
was requested and never came), so that the joms sharing the job server can run one process too many. -/
theorem C112_token_refuted (cfg : Cfg) (x : FSt) (h : FReachable cfg x) (hl : x.lost = true) :
    returned x.s + running x.s.log = x.s.taken + 1 ∧ (x.s.busy = [] → returned x.s = x.s.taken + 1) := by
  have := lost_tokens h.inv hl
  refine ⟨by rw [(C32_job_limit cfg x.s h.inv.reach).2.1]; exact this, fun hb => ?_⟩
  rw [hb] at this
  simpa using this

/-! ### An execution: `-j2`, two independent targets; the token for the second one cannot be acquired -/

namespace AcquireFailCase

def events : List FEvent := [.ev (.startProcesses exO), .ev (.startProcesses exO), .acquireFails]

def after : List FEvent := [.ev (.childFinished 0 false), .ev (.startProcesses exO)]

theorem reached : ∃ x, FReachable (forkCfg 2 false) x ∧ x.lost = true ∧ x.s.busy = [(0, 1)] ∧ x.s.log = [.started 0 1] := by
  have : (frun (forkCfg 2 false) (finit (forkCfg 2 false)) events).map
      (fun x => (x.lost, x.s.busy, x.s.log)) = some (true, [(0, 1)], [.started 0 1]) := by
    decide +kernel
  obtain ⟨x, h1, h2⟩ := Option.map_eq_some_iff.1 this
  simp only [Prod.mk.injEq] at h2
  exact ⟨x, ⟨_, h1⟩, h2.1, h2.2.1, h2.2.2⟩

/-- The running target ends; nothing was taken, one token is given back, and jom waits. -/
example : (frun (forkCfg 2 false) (finit (forkCfg 2 false)) (events ++ after)).map
    (fun x => (x.s.log, x.s.exits, x.s.taken, returned x.s)) = some ([.started 0 1, .succeeded 0 1], [], 0, 1) := by
  decide +kernel

example : ∃ x, FReachable (forkCfg 2 false) x ∧ x.lost = true ∧ ∃ es x', frun (forkCfg 2 false) x es = some x' ∧
    (∀ ev, ¬ CanHappen (forkCfg 2 false) x' ev) ∧ x'.s.busy = [] ∧ x'.s.exits = [] := by
  obtain ⟨x, h, hl, _⟩ := reached
  exact ⟨x, h, hl, (C112_refuted _ x h hl).2⟩

example : ∃ x, FReachable (forkCfg 2 false) x ∧ x.lost = true ∧
    ∀ es x', frun (forkCfg 2 false) x es = some x' → Ev.started 0 2 ∉ x'.s.log := by
  obtain ⟨x, h, hl, _, hlog⟩ := reached
  refine ⟨x, h, hl, fun es x' hr hm => ?_⟩
  obtain ⟨⟨l, h1, h2⟩, _⟩ := C112_after_partial _ x h hl es x' hr
  rw [h1, hlog] at hm
  rcases List.mem_append.1 hm with hm | hm
  · simp at hm
  · obtain ⟨p, _, hp | hp⟩ := h2 _ hm <;> cases hp

example : ∃ x, FReachable (forkCfg 2 false) x ∧ x.lost = true ∧ returned x.s + running x.s.log = x.s.taken + 1 := by
  obtain ⟨x, h, hl, _⟩ := reached
  exact ⟨x, h, hl, (C112_token_refuted _ x h hl).1⟩

end AcquireFailCase

end Jom.Props
