/- What holds while jom waits for a job token, and what can happen after the acquisition has failed. -/
import Verif.Model.AcquireFail
import Verif.Proofs.SchedMeasure
import Verif.Proofs.SchedExtra

namespace Jom.AcquireFail

open Jom.Sched Jom.Graph

theorem build_acquiring (cfg : Cfg) (res : StartRes) (s : St) : (buildNextTarget cfg res s).acquiring = s.acquiring := by
  unfold buildNextTarget
  split
  · rfl
  · split
    · rfl
    · split
      · rfl
      · next e rest _ =>
        cases res with
        | running => rfl
        | throws => rfl
        | sync f =>
          simp only [begun]
          rw [(childFinished_fields cfg e _ f _).acquiring]
          rfl

/-- While a token is requested, no exit code has been emitted and no target has ended by an exception. -/
def Clean (s : St) : Prop := s.acquiring = true → s.exits = [] ∧ s.stuck = []

theorem Clean.of_false {s : St} (h : s.acquiring = false) : Clean s := fun hh => by rw [h] at hh; cases hh

theorem clean_start {cfg s} (h : Inv cfg s) (hd : s.dead = false) (hc : Clean s) (o : Oracle) (q : Nat) :
    Clean (startProcesses cfg o { s with queued := q }) := by
  unfold startProcesses
  split
  · exact hc
  · next hg =>
    simp only [Bool.or_eq_true, List.isEmpty_iff, not_or, Bool.not_eq_true] at hg
    obtain ⟨⟨hab, hacq⟩, hav⟩ := hg
    have hab : s.aborted = false := hab
    have hacq : s.acquiring = false := hacq
    have hn := h.idle hab hacq
    have hl0 : LogInv cfg { s with queued := q } := h.lg.congr rfl rfl rfl id id rfl rfl rfl rfl (fun _ => rfl)
    have hf := findNext_spec cfg o (s.g.ids.length + 1) { s with queued := q } hl0 hab hn
    simp only [hn, Option.isNone_none, if_true]
    have hf' : FindRes cfg { s with queued := q } (s.g.ids.length + 1)
      (findNextTarget cfg o (s.g.ids.length + 1) { s with queued := q, next := none }) := by
      have e : ({ s with queued := q, next := none } : St) = { s with queued := q } := by
        cases s; simp only at hn; subst hn; rfl
      rw [e]; exact hf
    clear hf
    generalize findNextTarget cfg o (s.g.ids.length + 1) { s with queued := q, next := none } = res at hf'
    cases res with
    | error s1 =>
      obtain ⟨⟨f1, f2, f3⟩, f4, f5⟩ := hf'
      apply Clean.of_false
      simp only [onException, finishBuild]
      rw [f1]
      exact hacq
    | ok s1 =>
      obtain ⟨⟨f1, f2, f3⟩, f4, f5⟩ := hf'
      have hacq1 : s1.acquiring = false := by rw [f1]; exact hacq
      have e1 : s1.exits = s.exits := by rw [f1]
      have e2 : s1.stuck = s.stuck := by rw [f1]
      have e3 : s1.avail = s.avail := by rw [f1]
      simp only
      split
      · split
        · exact Clean.of_false (by rw [build_acquiring]; exact hacq1)
        · next hr =>
          intro _
          simp only [e1, e2]
          have hst := h.ex.stuckAb hab
          refine ⟨?_, hst⟩
          apply Classical.byContradiction
          intro hx
          obtain ⟨c, hcm⟩ := List.exists_mem_of_ne_nil _ hx
          rcases h.codes c hcm with ⟨_, h1⟩ | ⟨h1, _⟩ | ⟨h1, _⟩
          · rw [hd] at h1; cases h1
          · rw [hab] at h1; cases h1
          · have hlen := h.ex.perm.length_eq
            simp only [List.length_append, List.length_map, List.length_range, h1.busy, hst, List.length_nil] at hlen
            apply hr
            unfold St.running
            rw [e3]
            omega
      · apply Clean.of_false
        split
        · split
          · exact hacq1
          · unfold rebuild
            split <;> exact hacq1
        · exact hacq1

theorem Clean.step {cfg s s' ev} (h : Inv cfg s) (hc : Clean s) (hs : step cfg s ev = some s') : Clean s' := by
  cases ev with
  | startProcesses o =>
    simp only [Sched.step] at hs
    split at hs
    · next hg => injection hs with hs; subst hs; exact clean_start h hg.1 hc o _
    · cases hs
  | grant =>
    simp only [Sched.step] at hs
    split at hs
    · injection hs with hs; subst hs; exact hc
    · cases hs
  | acquired res w =>
    simp only [Sched.step] at hs
    split at hs
    · injection hs with hs
      subst hs
      apply Clean.of_false
      split <;> simp only [build_acquiring]
    · cases hs
  | childFinished e f =>
    simp only [Sched.step] at hs
    split at hs
    · cases hs
    · split at hs
      · next t _ =>
        injection hs with hs; subst hs
        have hf := childFinished_fields cfg e t f s
        unfold Clean
        rw [hf.acquiring, hf.exits, hf.stuck]
        exact hc
      · cases hs
  | abortDone =>
    simp only [Sched.step] at hs
    split at hs
    · next hg => injection hs with hs; subst hs; exact Clean.of_false hg.2.2
    · cases hs

theorem run_snoc_clean {cfg} : ∀ (es : List Event) (s s' : St), Inv cfg s → Clean s → run cfg s es = some s' → Clean s'
  | [], s, s', _, hc, h => by simp only [run, Option.some.injEq] at h; subst h; exact hc
  | e :: es, s, s', hi, hc, h => by
    simp only [run, Option.bind_eq_some_iff] at h
    obtain ⟨s1, h1, h2⟩ := h
    exact run_snoc_clean es s1 s' (hi.step h1) (hc.step hi h1) h2

theorem reachable_clean {cfg s} (h : Reachable cfg s) : Clean s := by
  obtain ⟨es, h⟩ := h
  refine run_snoc_clean es _ _ (Inv.init cfg) (Clean.of_false ?_) h
  unfold init
  simp only
  split
  · rfl
  · unfold rebuild
    split <;> split <;> rfl

theorem run_append {cfg} : ∀ (es fs : List Event) (s : St), run cfg s (es ++ fs) = (run cfg s es).bind fun s => run cfg s fs
  | [], fs, s => rfl
  | e :: es, fs, s => by
    simp only [List.cons_append, run]
    cases step cfg s e with
    | none => rfl
    | some s1 => exact run_append es fs s1

theorem Reachable.next {cfg s s' ev} (h : Reachable cfg s) (hs : step cfg s ev = some s') : Reachable cfg s' := by
  obtain ⟨es, h⟩ := h
  refine ⟨es ++ [ev], ?_⟩
  rw [run_append, h]
  simp only [Option.bind_some, run, hs]

/-- The invariant: the scheduler is in a state that it can also reach without the failure; the request stays open. -/
structure FInv (cfg : Cfg) (x : FSt) : Prop where
  reach : Reachable cfg x.s
  lost : x.lost = true → x.s.acquiring = true ∧ x.s.granted = false

/-- What a step after the failure does. -/
structure Still (s s' : St) : Prop where
  acquiring : s'.acquiring = s.acquiring
  granted : s'.granted = s.granted
  next : s'.next = s.next
  taken : s'.taken = s.taken
  exits : s'.exits = s.exits
  dead : s'.dead = s.dead
  less : 2 * s'.busy.length + s'.queued + 1 ≤ 2 * s.busy.length + s.queued
  log : ∃ l, s'.log = s.log ++ l ∧ ∀ ev ∈ l, ∃ b t, (b, t) ∈ s.busy.map (fun p => (s.build, p.2)) ∧ (ev = .succeeded b t ∨ ev = .failed b t)
  build : s'.build = s.build
  busy : s'.busy.Sublist s.busy

theorem still_step {cfg s s' ev} (hi : Inv cfg s) (ha : s.acquiring = true) (hg : s.granted = false) (hng : isGrant ev = false)
    (hs : step cfg s ev = some s') : Still s s' := by
  cases ev with
  | startProcesses o =>
    simp only [Sched.step] at hs
    split at hs
    · next h =>
      injection hs with hs
      subst hs
      unfold startProcesses
      simp only [ha, Bool.or_true, Bool.true_or, if_true]
      exact ⟨ha.symm, rfl, rfl, rfl, rfl, rfl, by simp only; omega, ⟨[], by simp⟩, rfl, List.Sublist.refl _⟩
    · cases hs
  | grant => cases hng
  | acquired res w =>
    simp only [Sched.step, hg] at hs
    simp at hs
  | childFinished e f =>
    simp only [Sched.step] at hs
    split at hs
    · cases hs
    · split at hs
      · next x t hb =>
        injection hs with hs
        subst hs
        have hm := List.mem_of_find?_eq_some hb
        have he : x = e := by simpa using List.find?_some hb
        subst he
        have hf := childFinished_fields cfg x t f s
        obtain ⟨p1, p2⟩ := filter_fst_perm s.busy x t hi.ex.busyFst hm
        refine ⟨hf.acquiring, hf.granted, hf.next, hf.taken, hf.exits, hf.dead, ?_, ⟨_, hf.log, ?_⟩, hf.build, ?_⟩
        · rw [hf.busy, hf.queued]
          split <;> omega
        · intro ev hev
          simp only [List.mem_singleton] at hev
          refine ⟨s.build, t, List.mem_map.2 ⟨(x, t), hm, rfl⟩, ?_⟩
          cases f
          · exact Or.inl hev
          · exact Or.inr hev
        · rw [hf.busy]
          exact List.filter_sublist
      · cases hs
  | abortDone =>
    simp only [Sched.step, ha] at hs
    simp at hs

theorem FInv.step {cfg x x' ev} (h : FInv cfg x) (hs : fstep cfg x ev = some x') : FInv cfg x' := by
  cases ev with
  | ev e =>
    simp only [fstep] at hs
    split at hs
    · cases hs
    · next hg =>
      obtain ⟨s', h1, h2⟩ := Option.map_eq_some_iff.1 hs
      subst h2
      refine ⟨Reachable.next h.reach h1, fun hl => ?_⟩
      simp only at hl
      obtain ⟨a, b⟩ := h.lost hl
      have hst := still_step h.reach.inv a b (by simpa [hl] using hg) h1
      exact ⟨by rw [hst.acquiring]; exact a, by rw [hst.granted]; exact b⟩
  | acquireFails =>
    simp only [fstep] at hs
    split at hs
    · next hg =>
      injection hs with hs
      subst hs
      exact ⟨h.reach, fun _ => ⟨hg.2.1, hg.2.2.1⟩⟩
    · cases hs

theorem FInv.run {cfg} : ∀ (es : List FEvent) (x x' : FSt), FInv cfg x → frun cfg x es = some x' → FInv cfg x'
  | [], x, x', hi, h => by simp only [frun, Option.some.injEq] at h; subst h; exact hi
  | e :: es, x, x', hi, h => by
    simp only [frun, Option.bind_eq_some_iff] at h
    obtain ⟨x1, h1, h2⟩ := h
    exact FInv.run es x1 x' (hi.step h1) h2

theorem FReachable.inv {cfg x} (h : FReachable cfg x) : FInv cfg x := by
  obtain ⟨es, h⟩ := h
  exact FInv.run es _ _ ⟨⟨[], rfl⟩, fun hl => by cases hl⟩ h

end Jom.AcquireFail
