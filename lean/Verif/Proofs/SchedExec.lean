/- Invariants of the scheduler: executors and job tokens. -/
import Verif.Model.Scheduler
import Verif.Proofs.GraphOps

namespace Jom.Sched

open Jom.Graph

/-- What `childFinished` does to each field. -/
structure ChildFields (cfg : Cfg) (e t : Nat) (f : Bool) (s s' : St) : Prop where
  build : s'.build = s.build
  next : s'.next = s.next
  stuck : s'.stuck = s.stuck
  acquiring : s'.acquiring = s.acquiring
  granted : s'.granted = s.granted
  taken : s'.taken = s.taken
  relWait : s'.relWait = s.relWait
  exits : s'.exits = s.exits
  dead : s'.dead = s.dead
  busy : s'.busy = s.busy.filter (·.1 ≠ e)
  avail : s'.avail = s.avail ++ [e]
  jobAcq : s'.jobAcq = s.jobAcq - 1
  relChild : s'.relChild = s.relChild + (if s.jobAcq > 0 then 1 else 0)
  aborted : s'.aborted = (s.aborted || (f && !cfg.keepGoing))
  allOk : s'.allOk = (s.allOk && !f)
  log : s'.log = s.log ++ [if f then Ev.failed s.build t else Ev.succeeded s.build t]
  pending : s'.pending = if f && !cfg.keepGoing then [] else s.pending
  queued : s'.queued = if f && !cfg.keepGoing then s.queued else s.queued + 1
  frames : s'.frames = if f && !cfg.keepGoing then s.frames + 1 else s.frames
  g : ∃ g1, g1 = (if f && cfg.keepGoing then markParents (s.g.ids.length + 1) s.g t else s.g) ∧
    s'.g = (if f && !cfg.keepGoing then clear (removeLeaf g1 t) else removeLeaf g1 t) ∧
    s'.ub = (s.ub || (f && cfg.keepGoing && decide (t ∉ s.g.ids)) || decide (t ∈ g1.ids ∧ g1.children t ≠ []))

theorem handOver_fields (e : Nat) (s : St) (h : s.avail ≠ []) :
    ∃ b, handOver e s = { s with buffered := b } := by
  unfold handOver
  split
  · exact ⟨s.buffered, rfl⟩
  · simp only
    split
    · cases hs : s.avail with
      | nil => exact absurd hs h
      | cons x xs => simp only; exact ⟨_, by rw [← hs]⟩
    · exact ⟨_, rfl⟩

theorem childFinished_fields (cfg : Cfg) (e t : Nat) (f : Bool) (s : St) :
    ChildFields cfg e t f s (childFinished cfg e t f s) := by
  unfold childFinished
  extract_lets s1 s2 s3 s4 s5 s6
  obtain ⟨b, hb⟩ : ∃ b, s6 = { s5 with buffered := b } := handOver_fields e s5 (by simp [s5])
  rw [hb]
  have h4 : s4 = { s3 with relChild := s3.relChild + (if s3.jobAcq > 0 then 1 else 0), jobAcq := s3.jobAcq - 1 } := by
    simp only [s4]
    split
    · rfl
    · next h =>
      have hz : s3.jobAcq - 1 = s3.jobAcq := by omega
      simp only [hz, Nat.add_zero]
  cases f <;> cases hk : cfg.keepGoing
  all_goals
    simp only [s5, h4, s3, s2, s1, hk, Bool.not_true, Bool.not_false, Bool.and_true, Bool.and_false,
      Bool.false_eq_true, if_true, if_false]
    constructor
    all_goals try simp [hk]

/-- Executors and job tokens. `d` counts an acquisition that was started and then dropped because of an abort. -/
structure ExecInv (cfg : Cfg) (s : St) : Prop where
  perm : (s.avail ++ (s.busy.map (·.1) ++ s.stuck.map (·.1))).Perm (List.range cfg.jobs)
  acqNext : s.acquiring = true → s.next.isSome = true
  gr : s.granted = true → s.acquiring = true
  acqAvail : s.acquiring = true → s.avail ≠ []
  frames0 : s.aborted = false → s.frames = 0
  stuckAb : s.aborted = false → s.stuck = []
  tok : ∃ d, s.relWait ≤ d ∧ d + s.acquiring.toNat ≤ 1 ∧ (s.aborted = false → d = 0) ∧
    (s.jobAcq + 1 = s.busy.length + s.stuck.length + s.acquiring.toNat + d ∨
      (s.jobAcq = 0 ∧ s.busy.length + s.stuck.length + s.acquiring.toNat + d = 0))
  tokInt : (s.taken : Int) - s.relChild = s.jobAcq - s.acquiring.toNat + s.granted.toNat

theorem ExecInv.busyFst {cfg s} (h : ExecInv cfg s) : (s.busy.map (·.1)).Nodup := by
  have h1 := h.perm.nodup_iff.2 List.nodup_range
  exact (List.nodup_append.1 (List.nodup_append.1 h1).2.1).1

theorem filter_fst_perm : ∀ (l : List (Nat × Nat)) (e t : Nat), (l.map (·.1)).Nodup → (e, t) ∈ l →
    (e :: (l.filter (·.1 ≠ e)).map (·.1)).Perm (l.map (·.1)) ∧ (l.filter (·.1 ≠ e)).length + 1 = l.length := by
  intro l e t
  induction l with
  | nil => intro _ h; simp at h
  | cons p l ih =>
    intro hnd hm
    simp only [List.map_cons, List.nodup_cons] at hnd
    by_cases hp : p.1 = e
    · have hl : l.filter (·.1 ≠ e) = l := by
        rw [List.filter_eq_self]
        intro q hq
        have : q.1 ∈ l.map (·.1) := List.mem_map_of_mem hq
        simp only [ne_eq, decide_not, Bool.not_eq_eq_eq_not, Bool.not_true, decide_eq_false_iff_not]
        rintro h
        rw [h, ← hp] at this
        exact hnd.1 this
      have hf : (p :: l).filter (·.1 ≠ e) = l := by
        rw [List.filter_cons_of_neg (by simp [hp]), hl]
      rw [hf]
      subst hp
      exact ⟨List.Perm.refl _, rfl⟩
    · have hm' : (e, t) ∈ l := by
        rcases List.mem_cons.1 hm with h | h
        · exact absurd (by rw [← h]) hp
        · exact h
      obtain ⟨a, b⟩ := ih hnd.2 hm'
      have hf : (p :: l).filter (·.1 ≠ e) = p :: l.filter (·.1 ≠ e) :=
        List.filter_cons_of_pos (by simp [hp])
      rw [hf]
      refine ⟨?_, by simpa using b⟩
      simp only [List.map_cons]
      exact (List.Perm.swap _ _ _).trans (a.cons _)

/-- The executor invariant survives the end of a target. -/
theorem ExecInv.child {cfg e t f s s'} (h : ExecInv cfg s) (hb : (e, t) ∈ s.busy) (hc : ChildFields cfg e t f s s') :
    ExecInv cfg s' := by
  obtain ⟨p1, p2⟩ := filter_fst_perm s.busy e t h.busyFst hb
  have hpos : 0 < s.busy.length := List.length_pos_of_mem hb
  constructor
  · refine List.Perm.trans ?_ h.perm
    rw [hc.avail, hc.busy, hc.stuck, List.append_assoc]
    refine List.Perm.append_left _ ?_
    rw [← List.append_assoc]
    exact List.Perm.append_right _ p1
  · rw [hc.acquiring, hc.next]; exact h.acqNext
  · rw [hc.granted, hc.acquiring]; exact h.gr
  · rw [hc.avail]; simp
  · rw [hc.aborted, hc.frames]
    intro hh
    simp only [Bool.or_eq_false_iff] at hh
    rw [hh.2]
    exact h.frames0 hh.1
  · rw [hc.aborted, hc.stuck]
    intro hh
    simp only [Bool.or_eq_false_iff] at hh
    exact h.stuckAb hh.1
  · obtain ⟨d, a, b, c, t⟩ := h.tok
    refine ⟨d, by rw [hc.relWait]; exact a, by rw [hc.acquiring]; exact b, ?_, ?_⟩
    · rw [hc.aborted]
      intro hh
      simp only [Bool.or_eq_false_iff] at hh
      exact c hh.1
    · rw [hc.jobAcq, hc.busy, hc.stuck, hc.acquiring]
      omega
  · have := h.tokInt
    obtain ⟨d, a, b, c, t⟩ := h.tok
    rw [hc.taken, hc.relChild, hc.jobAcq, hc.acquiring, hc.granted]
    split <;> omega

theorem ExecInv.setNext {cfg s} (h : ExecInv cfg s) (n : Option Nat) (hn : s.acquiring = true → n.isSome = true)
    (q : Nat) : ExecInv cfg { s with next := n, queued := q } :=
  ⟨h.perm, hn, h.gr, h.acqAvail, h.frames0, h.stuckAb, h.tok, h.tokInt⟩

/-- What holds when `buildNextTarget` is called. -/
structure PreBuild (cfg : Cfg) (s : St) : Prop where
  perm : (s.avail ++ (s.busy.map (·.1) ++ s.stuck.map (·.1))).Perm (List.range cfg.jobs)
  ab : s.aborted = false
  frames : s.frames = 0
  stuck : s.stuck = []
  acq : s.acquiring = false
  gr : s.granted = false
  rel : s.relWait = 0
  job : s.jobAcq = s.busy.length
  tokInt : (s.taken : Int) - s.relChild = s.jobAcq

theorem move_perm {e : Nat} {rest b s r : List Nat} (h : (e :: rest ++ (b ++ s)).Perm r) :
    (rest ++ (e :: b ++ s)).Perm r := by
  refine List.Perm.trans ?_ h
  rw [List.cons_append, List.cons_append]
  exact List.perm_middle

theorem PreBuild.busy {cfg s e rest t} (h : PreBuild cfg s) (ha : s.avail = e :: rest) :
    ExecInv cfg (begin e t rest s) := by
  have h1 := h.perm
  rw [ha] at h1
  unfold begin
  refine ⟨move_perm h1, ?_, ?_, ?_, fun _ => h.frames, fun _ => h.stuck, ⟨0, ?_⟩, ?_⟩
  · intro hh; simp only [h.acq] at hh; cases hh
  · intro hh; simp only [h.gr] at hh; cases hh
  · intro hh; simp only [h.acq] at hh; cases hh
  · simp [h.rel, h.acq, h.job, h.stuck]
  · have := h.tokInt
    simp only [h.acq, h.gr, Bool.toNat_false]
    omega

theorem PreBuild.throws {cfg s e rest t x l} (h : PreBuild cfg s) (ha : s.avail = e :: rest) :
    ExecInv cfg { s with avail := rest, stuck := (e, t) :: s.stuck, aborted := true, exits := x, log := l } := by
  have h1 := h.perm
  rw [ha] at h1
  refine ⟨?_, ?_, ?_, ?_, fun _ => h.frames, ?_, ⟨0, ?_⟩, ?_⟩
  · refine List.Perm.trans ?_ h1
    simp only [h.stuck, List.map_nil, List.append_nil, List.map_cons, List.cons_append]
    refine List.Perm.trans ?_ List.perm_middle
    exact List.Perm.append_left _ (List.perm_append_comm)
  · intro hh; simp only [h.acq] at hh; cases hh
  · intro hh; simp only [h.gr] at hh; cases hh
  · intro hh; simp only [h.acq] at hh; cases hh
  · intro hh; cases hh
  · simp [h.rel, h.acq, h.job, h.stuck]
  · have := h.tokInt
    simp only [h.acq, h.gr, Bool.toNat_false]
    omega

theorem build_eq {s t e rest} (cfg : Cfg) (res : StartRes) (hn : s.next = some t) (hab : s.aborted = false)
    (ha : s.avail = e :: rest) : buildNextTarget cfg res s =
      match res with
      | .throws => onException cfg { s with avail := rest, stuck := (e, t) :: s.stuck }
      | .running => begun (begin e t rest s)
      | .sync failed => begun (childFinished cfg e t failed (begin e t rest s)) := by
  unfold buildNextTarget
  simp only [hn, hab, ha, Bool.false_eq_true, if_false]
  cases res <;> rfl

theorem build_aborted {s t} (cfg : Cfg) (res : StartRes) (hn : s.next = some t) (hab : s.aborted = true) :
    buildNextTarget cfg res s = s := by
  unfold buildNextTarget
  simp only [hn, hab, if_true]

theorem ExecInv.build {cfg s t} (h : PreBuild cfg s) (hn : s.next = some t) (hav : s.avail ≠ []) (res : StartRes) :
    ExecInv cfg (buildNextTarget cfg res s) := by
  cases ha : s.avail with
  | nil => exact absurd ha hav
  | cons e rest =>
    rw [build_eq cfg res hn h.ab ha]
    have hb := h.busy (t := t) ha
    have hacq : (begin e t rest s).acquiring = false := h.acq
    cases res with
    | running => exact hb.setNext none (by rw [hacq]; simp) _
    | throws => exact h.throws ha
    | sync f =>
      have hc := childFinished_fields cfg e t f (begin e t rest s)
      refine ExecInv.setNext (hb.child (t := t) (e := e) (List.mem_cons_self ..) hc) _ ?_ _
      rw [hc.acquiring, hacq]
      simp

theorem ExecInv.avail_length {cfg s} (h : ExecInv cfg s) :
    s.avail.length + s.busy.length + s.stuck.length = cfg.jobs := by
  have := h.perm.length_eq
  simp only [List.length_append, List.length_map, List.length_range] at this
  omega

/-- Nothing runs: the first process needs no token. -/
theorem ExecInv.pre0 {cfg s} (h : ExecInv cfg s) (hr : s.running cfg = 0) (ha : s.acquiring = false)
    (hab : s.aborted = false) : PreBuild cfg s := by
  obtain ⟨d, a, b, c, t⟩ := h.tok
  have hd := c hab
  have hl := h.avail_length
  have hst := h.stuckAb hab
  unfold St.running at hr
  have hg : s.granted = false := by
    cases hg : s.granted with
    | false => rfl
    | true => have := h.gr hg; rw [ha] at this; cases this
  have hi := h.tokInt
  have hs0 : s.stuck.length = 0 := by rw [hst]; rfl
  simp only [ha, hg, Bool.toNat_false] at b t hi
  refine ⟨h.perm, hab, h.frames0 hab, hst, ha, hg, by omega, by omega, by omega⟩

/-- A token has been delivered. -/
theorem ExecInv.preAcq {cfg s} (h : ExecInv cfg s) (hg : s.granted = true) (hab : s.aborted = false) :
    PreBuild cfg { s with acquiring := false, granted := false } := by
  obtain ⟨d, a, b, c, t⟩ := h.tok
  have hd := c hab
  have ha := h.gr hg
  have hst := h.stuckAb hab
  have hi := h.tokInt
  have hs0 : s.stuck.length = 0 := by rw [hst]; rfl
  simp only [ha, hg, Bool.toNat_true] at b t hi
  refine ⟨h.perm, hab, h.frames0 hab, hst, rfl, rfl, ?_, ?_, ?_⟩
  · simp only; omega
  · simp only; omega
  · simp only; omega

/-- A token is requested. -/
theorem ExecInv.request {cfg s} (h : ExecInv cfg s) (hr : s.running cfg ≠ 0) (ha : s.acquiring = false)
    (hab : s.aborted = false) (hn : s.next.isSome = true) (hav : s.avail ≠ []) :
    ExecInv cfg { s with jobAcq := s.jobAcq + 1, acquiring := true } := by
  obtain ⟨d, a, b, c, t⟩ := h.tok
  have hd := c hab
  have hl := h.avail_length
  have hst := h.stuckAb hab
  have hi := h.tokInt
  have hs0 : s.stuck.length = 0 := by rw [hst]; rfl
  unfold St.running at hr
  refine ⟨h.perm, fun _ => hn, fun _ => rfl, fun _ => hav, h.frames0, h.stuckAb, ⟨0, ?_⟩, ?_⟩
  · simp only [ha, Bool.toNat_false, Bool.toNat_true] at b t hi ⊢
    exact ⟨by omega, by omega, by simp, by omega⟩
  · simp only [ha, Bool.toNat_false, Bool.toNat_true] at b t hi ⊢
    omega

/-- Fields that the executor invariant does not look at. -/
theorem ExecInv.congr {cfg s s'} (h : ExecInv cfg s) (h1 : s'.avail = s.avail) (h2 : s'.busy = s.busy)
    (h3 : s'.stuck = s.stuck) (h4 : s'.acquiring = s.acquiring) (h5 : s'.granted = s.granted)
    (h6 : s.acquiring = true → s'.next.isSome = true) (h7 : s'.aborted = false → s.aborted = false)
    (h8 : s'.aborted = false → s'.frames = 0) (h9 : s'.relWait = s.relWait)
    (h10 : s'.jobAcq = s.jobAcq) (h11 : s'.taken = s.taken) (h12 : s'.relChild = s.relChild) : ExecInv cfg s' := by
  obtain ⟨d, a, b, c, t⟩ := h.tok
  refine ⟨?_, ?_, ?_, ?_, h8, ?_, ⟨d, ?_, ?_, ?_, ?_⟩, ?_⟩
  · rw [h1, h2, h3]; exact h.perm
  · rw [h4]; exact h6
  · rw [h4, h5]; exact h.gr
  · rw [h4, h1]; exact h.acqAvail
  · rw [h3]; exact fun x => h.stuckAb (h7 x)
  · rw [h9]; exact a
  · rw [h4]; exact b
  · exact fun x => c (h7 x)
  · rw [h10, h2, h3, h4]; exact t
  · rw [h11, h12, h10, h4, h5]; exact h.tokInt

/-- An acquired token is dropped because the build was aborted. -/
theorem ExecInv.drop {cfg s} (h : ExecInv cfg s) (hg : s.granted = true) (hab : s.aborted = true) (w : Bool) :
    ExecInv cfg { s with acquiring := false, granted := false, relWait := s.relWait + w.toNat } := by
  obtain ⟨d, a, b, c, t⟩ := h.tok
  have ha := h.gr hg
  have := h.tokInt
  have hw := Bool.toNat_le w
  simp only [ha, hg, Bool.toNat_true] at *
  refine ⟨h.perm, ?_, ?_, ?_, h.frames0, h.stuckAb, ⟨d + 1, ?_⟩, ?_⟩
  · intro hh; cases hh
  · intro hh; cases hh
  · intro hh; cases hh
  · simp only [hab, Bool.toNat_false]
    refine ⟨by omega, by omega, by simp, by omega⟩
  · simp only [Bool.toNat_false]
    omega

end Jom.Sched
