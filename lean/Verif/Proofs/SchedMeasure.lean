/- The scheduler: every step decreases a measure, some step is always possible, one executor is unbuffered. -/
import Verif.Proofs.SchedSteps

namespace Jom.Sched

open Jom.Graph Jom.Spec Relation

/-- Size of the graph of a requested target. -/
def graphSize (cfg : Cfg) (b t : Nat) : Nat :=
  match Graph.build (cfg.deps b) cfg.fuel t with
  | .ok g => waiting g
  | .error _ => 0

/-- Work of the requested targets that have not been looked at. -/
def pendingWork (cfg : Cfg) : Nat → List Nat → Nat
  | _, [] => 0
  | b, t :: rest => 8 * graphSize cfg b t + 2 + pendingWork cfg (b + 1) rest

def measure (cfg : Cfg) (s : St) : Nat :=
  s.queued + 2 * s.frames + 4 * s.busy.length +
    (if s.aborted then (if s.acquiring then (if s.granted then 1 else 2) else 0)
     else (if s.acquiring then (if s.granted then 6 else 7) else 0) + 8 * waiting s.g +
       pendingWork cfg (s.build + 1) s.pending)

theorem LogInv.child_waiting {cfg e t f s s'} (h : LogInv cfg s) (hb : (e, t) ∈ s.busy)
    (hc : ChildFields cfg e t f s s') : waiting s'.g ≤ waiting s.g := by
  obtain ⟨g1, hg1, hg, _⟩ := hc.g
  by_cases hab : (f && !cfg.keepGoing) = true
  · rw [if_pos hab] at hg
    rw [hg]
    simp [waiting, clear, Graph.empty]
  · rw [if_neg hab] at hg
    rcases h.busyOk with h1 | h1
    · have hgs : s'.g = s.g := by
        rw [hg]
        rw [h1.2.2] at hg1
        simp only [Bool.and_false, Bool.false_eq_true, if_false] at hg1
        subst hg1
        unfold removeLeaf
        rw [h1.1]
        simp
      rw [hgs]
      exact Nat.le_refl _
    · obtain ⟨hti, hte⟩ := h1 _ hb
      have hm := h.marked f hti
      rw [← hg1] at hm
      obtain ⟨_, q2, q3⟩ := removeLeaf_settle hm.ginv (by rw [hm.ids]; exact hti)
        (by rw [hm.children]; exact h.execLeaf t hti hte)
      rw [hg]
      unfold waiting
      rw [q2, q3, hm.ids, List.filter_filter]
      apply filter_length_le
      intro x hx hxx
      simp only [Bool.and_eq_true, decide_eq_true_eq] at hxx ⊢
      exact fun hc => hxx.1 ((hm.exec x hx).2 hc)

theorem child_measure {cfg e t f s s'} (h : LogInv cfg s) (hfst : (s.busy.map (·.1)).Nodup) (hb : (e, t) ∈ s.busy)
    (hc : ChildFields cfg e t f s s') : measure cfg s' + 2 ≤ measure cfg s := by
  have hw := h.child_waiting hb hc
  have hl := (filter_fst_perm s.busy e t hfst hb).2
  unfold measure
  rw [hc.queued, hc.frames, hc.busy, hc.aborted, hc.acquiring, hc.granted, hc.build, hc.pending]
  cases f <;> cases cfg.keepGoing <;> cases s.aborted <;> cases s.acquiring <;> cases s.granted <;>
    simp only [Bool.not_true, Bool.not_false, Bool.and_true, Bool.and_false, Bool.or_true, Bool.or_false,
      Bool.false_eq_true, if_true, if_false] <;> omega

/-- `buildNextTarget` costs less than what the caller has used up. -/
theorem build_measure {cfg s t} (res : StartRes) (hp : PreBuild cfg s) (hl : LogInv cfg s)
    (hn : s.next = some t) (hav : s.avail ≠ []) (hd : s.dead = false) :
    measure cfg (buildNextTarget cfg res s) ≤ measure cfg s + 5 := by
  cases ha : s.avail with
  | nil => exact absurd ha hav
  | cons e rest =>
    have hbl := hl.begin (e := e) (rest := rest) hp.ab hd hn
    have hmb : measure cfg { Sched.begin e t rest s with next := none } = measure cfg s + 4 := by
      unfold measure Sched.begin
      simp only [List.length_cons]
      omega
    rw [build_eq cfg res hn hp.ab ha]
    cases res with
    | running =>
      have : measure cfg (begun (Sched.begin e t rest s)) =
          measure cfg { Sched.begin e t rest s with next := none } + 1 := by
        unfold measure begun
        simp only
        omega
      simp only
      omega
    | throws =>
      simp only [onException, finishBuild]
      unfold measure
      simp only [hp.ab, hp.acq, Bool.false_eq_true, if_false, if_true]
      omega
    | sync f =>
      simp only
      have hc := (childFinished_fields cfg e t f (Sched.begin e t rest s)).setNext none
      have hb0 := hp.busy (t := t) ha
      generalize childFinished cfg e t f (Sched.begin e t rest s) = s1 at hc
      have := child_measure hbl hb0.busyFst (List.mem_cons_self ..) hc
      have h2 : measure cfg (begun s1) = measure cfg { s1 with next := none } + 1 := by
        unfold measure begun
        simp only
        omega
      omega

theorem start_measure {cfg s} (h : Inv cfg s) (o : Oracle) (hd : s.dead = false) (q : Nat) :
    measure cfg (startProcesses cfg o { s with queued := q }) ≤ measure cfg { s with queued := q } := by
  unfold startProcesses
  split
  · exact Nat.le_refl _
  · next hc =>
    simp only [Bool.or_eq_true, List.isEmpty_iff, not_or, Bool.not_eq_true] at hc
    obtain ⟨⟨hab, hacq⟩, hav⟩ := hc
    have hab : s.aborted = false := hab
    have hacq : s.acquiring = false := hacq
    have hav : s.avail ≠ [] := hav
    have hn := h.idle hab hacq
    have hl0 : LogInv cfg { s with queued := q } := h.lg.congr rfl rfl rfl id id rfl rfl rfl rfl (fun _ => rfl)
    have hf := findNext_spec cfg o (s.g.ids.length + 1) { s with queued := q } hl0 hab hn
    simp only [hn, Option.isNone_none, if_true]
    have hf' : FindRes cfg { s with queued := q } (s.g.ids.length + 1)
      (findNextTarget cfg o (s.g.ids.length + 1) { s with queued := q, next := none }) := by
      have e : ({ s with queued := q, next := none } : St) = { s with queued := q } := by
        cases s; simp only at hn; subst hn; rfl
      rw [e]; exact hf
    clear hf
    have hm0 : measure cfg { s with queued := q, next := none } = measure cfg { s with queued := q } := by
      unfold measure; rfl
    rw [hm0]
    generalize findNextTarget cfg o (s.g.ids.length + 1) { s with queued := q, next := none } = res at hf'
    cases res with
    | error s1 =>
      obtain ⟨⟨f1, f2, f3⟩, f4, f5⟩ := hf'
      simp only [onException, finishBuild]
      rw [f1]
      unfold measure
      simp only [hab, hacq, Bool.false_eq_true, if_false, if_true]
      omega
    | ok s1 =>
      obtain ⟨⟨f1, f2, f3⟩, f4, f5⟩ := hf'
      have hd1 : s1.dead = false := by rw [f1]; exact hd
      have hab1 : s1.aborted = false := by rw [f1]; exact hab
      have hacq1 : s1.acquiring = false := by rw [f1]; exact hacq
      have hav1 : s1.avail ≠ [] := by rw [f1]; exact hav
      have hex1 : ExecInv cfg s1 := by
        rw [f1]
        exact h.ex.congr rfl rfl rfl rfl rfl (fun hh => by rw [hacq] at hh; cases hh) id
          h.ex.frames0 rfl rfl rfl rfl
      have hmm : measure cfg s1 + (if s1.next.isSome then 8 else 0) ≤ measure cfg { s with queued := q } := by
        have e1 : s1.queued = q := by rw [f1]
        have e2 : s1.frames = s.frames := by rw [f1]
        have e3 : s1.busy = s.busy := by rw [f1]
        have e4 : s1.build = s.build := by rw [f1]
        have e5 : s1.pending = s.pending := by rw [f1]
        unfold measure
        simp only [hab1, hacq1, e1, e2, e3, e4, e5, hab, hacq, Bool.false_eq_true, if_false]
        have f3' : waiting s1.g + (if s1.next.isSome then 1 else 0) ≤ waiting s.g := f3
        cases hi : s1.next.isSome <;> simp only [hi, Bool.false_eq_true, if_false, if_true] at f3' ⊢ <;> omega
      simp only
      split
      · next hns =>
        obtain ⟨t, ht⟩ := Option.isSome_iff_exists.1 hns
        rw [hns] at hmm
        simp only [if_true] at hmm
        split
        · next hr =>
          have := build_measure o.res (hex1.pre0 hr hacq1 hab1) f2 ht hav1 hd1
          omega
        · have : measure cfg { s1 with jobAcq := s1.jobAcq + 1, acquiring := true } ≤ measure cfg s1 + 7 := by
            unfold measure
            simp only [hab1, hacq1, Bool.false_eq_true, if_false, if_true]
            split <;> omega
          omega
      · next hns =>
        simp only [hns, Bool.false_eq_true, if_false, Nat.add_zero] at hmm
        split
        · split
          · exact hmm
          · next t rest hpe =>
            refine Nat.le_trans ?_ hmm
            unfold rebuild
            split
            · next g hg =>
              have hgs : graphSize cfg (s1.build + 1) t = waiting g := by
                unfold graphSize; rw [hg]
              unfold measure
              simp only [hab1, hacq1, hpe, pendingWork, hgs, Bool.false_eq_true, if_false]
              omega
            · unfold measure
              simp only [hab1, hacq1, hpe, pendingWork, Bool.false_eq_true, if_false, waiting, Graph.empty,
                List.filter_nil, List.length_nil]
              omega
        · exact hmm

theorem step_measure {cfg s s' ev} (h : Inv cfg s) (hs : step cfg s ev = some s') :
    measure cfg s' < measure cfg s := by
  cases ev with
  | startProcesses o =>
    simp only [Sched.step] at hs
    split at hs
    · next hc =>
      simp only [Option.some.injEq] at hs
      subst hs
      have h1 := start_measure h o hc.1 (s.queued - 1)
      have h2 : measure cfg { s with queued := s.queued - 1 } + 1 = measure cfg s := by
        unfold measure
        simp only
        omega
      omega
    · cases hs
  | grant =>
    simp only [Sched.step] at hs
    split at hs
    · next hc =>
      simp only [Option.some.injEq] at hs
      subst hs
      unfold measure
      simp only [hc.2.1, hc.2.2, if_true, Bool.false_eq_true, if_false]
      split <;> omega
    · cases hs
  | acquired res inWait =>
    simp only [Sched.step] at hs
    split at hs
    · next hc =>
      simp only [Option.some.injEq] at hs
      obtain ⟨hd, hg, hw1, hw2⟩ := hc
      have hacq := h.ex.gr hg
      obtain ⟨t, ht⟩ := Option.isSome_iff_exists.1 (h.ex.acqNext hacq)
      have hl : LogInv cfg { s with acquiring := false, granted := false } :=
        h.lg.congr rfl rfl rfl id id rfl rfl rfl rfl (fun _ => rfl)
      have hs2 : measure cfg s' = measure cfg (buildNextTarget cfg res { s with acquiring := false, granted := false }) := by
        rw [← hs]
        cases inWait <;> rfl
      rw [hs2]
      by_cases hab : s.aborted = false
      · have hp := h.ex.preAcq hg hab
        have h1 := build_measure res hp hl ht (h.ex.acqAvail hacq) hd
        have h2 : measure cfg { s with acquiring := false, granted := false } + 6 = measure cfg s := by
          unfold measure
          simp only [hab, hacq, hg, Bool.false_eq_true, if_false, if_true]
          omega
        omega
      · have hab : s.aborted = true := by simpa using hab
        rw [build_aborted (s := { s with acquiring := false, granted := false }) cfg res ht hab]
        unfold measure
        simp only [hab, hacq, hg, Bool.false_eq_true, if_false, if_true]
        omega
    · cases hs
  | childFinished e f =>
    simp only [Sched.step] at hs
    split at hs
    · cases hs
    · next hd =>
      split at hs
      · next p t hf =>
        simp only [Option.some.injEq] at hs
        subst hs
        have h1 := List.mem_of_find?_eq_some hf
        have h2 := List.find?_some hf
        simp only [decide_eq_true_eq] at h2
        subst h2
        have := child_measure h.lg h.ex.busyFst h1 (childFinished_fields cfg p t f s)
        omega
      · cases hs
  | abortDone =>
    simp only [Sched.step] at hs
    split at hs
    · next hc =>
      simp only [Option.some.injEq] at hs
      have hfin : s' = { s with frames := s.frames - 1, exits := s.exits ++ [2], queued := s.queued + 1 } := by
        rw [← hs]
        simp [finishBuild]
      subst hfin
      unfold measure
      simp only
      omega
    · cases hs

theorem run_measure {cfg} : ∀ {es s s'}, Inv cfg s → run cfg s es = some s' → es.length + measure cfg s' ≤ measure cfg s := by
  intro es
  induction es with
  | nil =>
    intro s s' h hr
    simp only [Sched.run, Option.some.injEq] at hr
    subst hr
    simp
  | cons e es ih =>
    intro s s' h hr
    simp only [Sched.run] at hr
    cases hs : Sched.step cfg s e with
    | none => rw [hs] at hr; cases hr
    | some s1 =>
      rw [hs] at hr
      have h1 := ih (h.step hs) hr
      have h2 := step_measure h hs
      simp only [List.length_cons]
      omega

/-- Tokens the jom process holds at the moment (can be -1, see `Props/Scheduler.lean`). -/
def St.held (s : St) : Int := s.taken - s.relChild - s.relWait

/-- A build that has not ended can go on; a job token is free when one is needed. -/
theorem Inv.progress {cfg s} (h : Inv cfg s) (hj : 0 < cfg.jobs) (hx : s.exits = []) :
    ∃ ev s', Sched.step cfg s ev = some s' ∧
      (ev = .grant → s.held < cfg.jobs - 1) := by
  have hd : s.dead = false := by
    cases hd : s.dead with
    | false => rfl
    | true => have := (h.deadExit hd).1; rw [hx] at this; cases this
  have hacq : s.acquiring = true → ∃ ev s', Sched.step cfg s ev = some s' ∧
      (ev = .grant → s.held < cfg.jobs - 1) := by
    intro ha
    cases hg : s.granted with
    | false =>
      refine ⟨.grant, _, if_pos ⟨hd, ha, hg⟩, fun _ => ?_⟩
      obtain ⟨d, t1, t2, t3, t4⟩ := h.ex.tok
      have t5 := h.ex.tokInt
      have t6 := h.ex.avail_length
      have t7 : 0 < s.avail.length := List.length_pos_iff.2 (h.ex.acqAvail ha)
      simp only [ha, hg, Bool.toNat_true, Bool.toNat_false] at t2 t4 t5
      unfold St.held
      omega
    | true =>
      cases hab : s.aborted with
      | false =>
        exact ⟨.acquired .running false, _, if_pos ⟨hd, hg, by simp, fun _ => Or.inr (h.ex.frames0 hab)⟩,
          (fun hh => by cases hh)⟩
      | true =>
        have hf : 0 < s.frames := (h.abLive hab).resolve_right (by simp [hx])
        exact ⟨.acquired .running true, _, if_pos ⟨hd, hg, fun _ => hf, by simp⟩, (fun hh => by cases hh)⟩
  cases ha : s.acquiring with
  | true => exact hacq ha
  | false =>
    cases hab : s.aborted with
    | true =>
      have hf : 0 < s.frames := (h.abLive hab).resolve_right (by simp [hx])
      exact ⟨.abortDone, _, if_pos ⟨hd, hf, ha⟩, (fun hh => by cases hh)⟩
    | false =>
      rcases h.live hj hd hab hx with h1 | h1 | h1
      · exact ⟨.startProcesses ⟨fun _ _ _ => false, fun _ _ => true, fun _ => false, .running⟩, _, if_pos ⟨hd, h1⟩,
          fun hh => by cases hh⟩
      · obtain ⟨p, hp⟩ := List.exists_mem_of_ne_nil _ h1
        have hfind : ∃ q, s.busy.find? (·.1 = p.1) = some q := by
          cases hq : s.busy.find? (·.1 = p.1) with
          | some q => exact ⟨q, rfl⟩
          | none =>
            rw [List.find?_eq_none] at hq
            exact absurd (by simp) (hq p hp)
        obtain ⟨q, hq⟩ := hfind
        refine ⟨.childFinished p.1 false, childFinished cfg p.1 q.2 false s, ?_, (fun hh => by cases hh)⟩
        simp only [Sched.step, hd, Bool.false_eq_true, if_false, hq]
      · rw [ha] at h1; cases h1

end Jom.Sched
