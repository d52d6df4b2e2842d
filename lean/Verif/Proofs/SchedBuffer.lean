/- The scheduler: one of the active executors writes its output directly. -/
import Verif.Proofs.SchedSteps

namespace Jom.Sched

open Jom.Graph

/-- Executors that work on a target. -/
def St.active (s : St) : List Nat := s.busy.map (·.1) ++ s.stuck.map (·.1)

structure BufInv (s : St) : Prop where
  idle : s.active = [] → ∀ e rest, s.avail = e :: rest → s.buffered e = false
  act : s.active ≠ [] → ∃ e ∈ s.active, s.buffered e = false

theorem handOver_buf {e s s'} (h1 : s'.buffered = s.buffered) (h2 : s'.busy = s.busy) (h3 : s'.stuck = s.stuck)
    (h4 : s'.avail = s.avail) : (handOver e s').buffered = (handOver e s).buffered := by
  unfold handOver
  rw [h1, h2, h3, h4]
  split
  · exact h1
  · simp only
    split
    · split <;> simp_all
    · rfl

theorem childFinished_buf (cfg : Cfg) (e t : Nat) (f : Bool) (s : St) :
    (childFinished cfg e t f s).buffered =
      (handOver e { s with busy := s.busy.filter (·.1 ≠ e), avail := s.avail ++ [e] }).buffered := by
  unfold childFinished
  extract_lets s1 s2 s3 s4 s5 s6
  have h1 : s1.buffered = s.buffered ∧ s1.busy = s.busy ∧ s1.stuck = s.stuck ∧ s1.avail = s.avail := by
    simp only [s1]; by_cases hf : f = true
    · rw [if_pos hf]; exact ⟨rfl, rfl, rfl, rfl⟩
    · rw [if_neg hf]; exact ⟨rfl, rfl, rfl, rfl⟩
  have h2 : s2.buffered = s1.buffered ∧ s2.busy = s1.busy ∧ s2.stuck = s1.stuck ∧ s2.avail = s1.avail := by
    simp only [s2]; by_cases hf : (f && cfg.keepGoing) = true
    · rw [if_pos hf]; exact ⟨rfl, rfl, rfl, rfl⟩
    · rw [if_neg hf]; exact ⟨rfl, rfl, rfl, rfl⟩
  have h4 : s4.buffered = s3.buffered ∧ s4.busy = s3.busy ∧ s4.stuck = s3.stuck ∧ s4.avail = s3.avail := by
    simp only [s4]; by_cases hf : s3.jobAcq > 0
    · rw [if_pos hf]; exact ⟨rfl, rfl, rfl, rfl⟩
    · rw [if_neg hf]; exact ⟨rfl, rfl, rfl, rfl⟩
  have h6 : s6.buffered = (handOver e { s with busy := s.busy.filter (·.1 ≠ e), avail := s.avail ++ [e] }).buffered := by
    apply handOver_buf
    · exact h4.1.trans (h2.1.trans h1.1)
    · exact congrArg (List.filter (·.1 ≠ e)) (h4.2.1.trans (h2.2.1.trans h1.2.1))
    · exact h4.2.2.1.trans (h2.2.2.1.trans h1.2.2.1)
    · exact congrArg (· ++ [e]) (h4.2.2.2.trans (h2.2.2.2.trans h1.2.2.2))
  clear_value s6
  rw [← h6]
  split <;> rfl

theorem BufInv.child {cfg e t f s} (h : BufInv s) (hb : (e, t) ∈ s.busy) :
    BufInv (childFinished cfg e t f s) := by
  have hc := childFinished_fields cfg e t f s
  have hbuf := childFinished_buf cfg e t f s
  generalize childFinished cfg e t f s = s' at hc hbuf
  have hea : e ∈ s.active := List.mem_append_left _ (List.mem_map.2 ⟨_, hb, rfl⟩)
  have hact : s'.active = (s.busy.filter (·.1 ≠ e)).map (·.1) ++ s.stuck.map (·.1) := by
    unfold St.active
    rw [hc.busy, hc.stuck]
  have hstill : ∀ x ∈ s.active, x ≠ e → x ∈ s'.active := by
    intro x hx hxe
    rw [hact]
    unfold St.active at hx
    rw [List.mem_append] at hx ⊢
    refine hx.imp ?_ id
    rw [List.mem_map, List.mem_map]
    rintro ⟨p, hp, rfl⟩
    exact ⟨p, by simp [hp, hxe], rfl⟩
  have hne : s.active ≠ [] := fun h => by rw [h] at hea; cases hea
  obtain ⟨u, hu, hub⟩ := h.act hne
  by_cases hbe : s.buffered e = true
  · have hbs : s'.buffered = s.buffered := by
      rw [hbuf]; unfold handOver; simp [hbe]
    have hue : u ≠ e := by rintro rfl; rw [hbe] at hub; cases hub
    refine ⟨fun h0 => ?_, fun _ => ⟨u, hstill u hu hue, by rw [hbs]; exact hub⟩⟩
    have := hstill u hu hue
    rw [h0] at this; cases this
  · have hbe : s.buffered e = false := by simpa using hbe
    constructor
    · intro h0 x rest hx
      rw [hbuf]
      rw [hc.avail] at hx
      unfold handOver
      rw [hact] at h0
      simp only [hbe, Bool.false_eq_true, if_false, h0, hx, List.isEmpty_nil, if_true]
      simp [upd]
    · intro h0
      rw [hbuf]
      unfold handOver
      rw [hact] at h0
      obtain ⟨x, hx⟩ := List.exists_mem_of_ne_nil _ h0
      have hx' := hx
      rw [← hact] at hx'
      refine ⟨x, hx', ?_⟩
      simp only [hbe, Bool.false_eq_true, if_false, List.isEmpty_iff, h0]
      simp only [hx, if_true]

theorem BufInv.congr {s s' : St} (h : BufInv s) (h1 : s'.busy = s.busy) (h2 : s'.stuck = s.stuck)
    (h3 : s'.avail = s.avail) (h4 : s'.buffered = s.buffered) : BufInv s' := by
  have ha : s'.active = s.active := by unfold St.active; rw [h1, h2]
  exact ⟨by rw [ha, h3, h4]; exact h.idle, by rw [ha, h4]; exact h.act⟩

theorem BufInv.build {cfg s t} (res : StartRes) (h : BufInv s) (hp : PreBuild cfg s) (hn : s.next = some t)
    (hav : s.avail ≠ []) : BufInv (buildNextTarget cfg res s) := by
  cases ha : s.avail with
  | nil => exact absurd ha hav
  | cons e rest =>
    have hb : BufInv (Sched.begin e t rest s) := by
      have hact : (Sched.begin e t rest s).active = e :: s.active := rfl
      refine ⟨fun h0 => (by rw [hact] at h0; cases h0), fun _ => ?_⟩
      rw [hact]
      show ∃ x ∈ e :: s.active, s.buffered x = false
      by_cases h0 : s.active = []
      · exact ⟨e, List.mem_cons_self .., h.idle h0 e rest ha⟩
      · obtain ⟨x, hx, hxb⟩ := h.act h0
        exact ⟨x, List.mem_cons_of_mem _ hx, hxb⟩
    rw [build_eq cfg res hn hp.ab ha]
    cases res with
    | running => exact hb.congr rfl rfl rfl rfl
    | throws =>
      have hact : (onException cfg { s with avail := rest, stuck := (e, t) :: s.stuck }).active =
          s.busy.map (·.1) ++ e :: s.stuck.map (·.1) := rfl
      refine ⟨fun h0 => (by rw [hact] at h0; simp at h0), fun _ => ?_⟩
      rw [hact]
      show ∃ x ∈ s.busy.map (·.1) ++ e :: s.stuck.map (·.1), s.buffered x = false
      by_cases h0 : s.active = []
      · exact ⟨e, by simp, h.idle h0 e rest ha⟩
      · obtain ⟨x, hx, hxb⟩ := h.act h0
        refine ⟨x, ?_, hxb⟩
        unfold St.active at hx
        simp only [List.mem_append, List.mem_cons] at hx ⊢
        exact hx.imp id Or.inr
    | sync f =>
      exact (hb.child (cfg := cfg) (f := f) (List.mem_cons_self ..)).congr rfl rfl rfl rfl

theorem BufInv.start {cfg s} (hb : BufInv s) (h : Inv cfg s) (o : Oracle) (q : Nat) :
    BufInv (startProcesses cfg o { s with queued := q }) := by
  have hb0 : BufInv { s with queued := q } := hb.congr rfl rfl rfl rfl
  unfold startProcesses
  split
  · exact hb0
  · next hc =>
    simp only [Bool.or_eq_true, List.isEmpty_iff, not_or, Bool.not_eq_true] at hc
    obtain ⟨⟨hab, hacq⟩, hav⟩ := hc
    have hab : s.aborted = false := hab
    have hacq : s.acquiring = false := hacq
    have hav : s.avail ≠ [] := hav
    have hn := h.idle hab hacq
    have hl0 : LogInv cfg { s with queued := q } := h.lg.congr rfl rfl rfl id id rfl rfl rfl rfl (fun _ => rfl)
    have hf := findNext_spec cfg o (s.g.ids.length + 1) { s with queued := q } hl0 hab hn
    simp only [hn, Option.isNone_none, if_true]
    have hf' : FindRes cfg { s with queued := q } (s.g.ids.length + 1)
      (findNextTarget cfg o (s.g.ids.length + 1) { s with queued := q, next := none }) := by
      have e : ({ s with queued := q, next := none } : St) = { s with queued := q } := by
        cases s; simp only at hn; subst hn; rfl
      rw [e]; exact hf
    clear hf
    generalize findNextTarget cfg o (s.g.ids.length + 1) { s with queued := q, next := none } = res at hf'
    cases res with
    | error s1 =>
      obtain ⟨⟨f1, f2, f3⟩, f4, f5⟩ := hf'
      exact hb0.congr (by rw [f1]; rfl) (by rw [f1]; rfl) (by rw [f1]; rfl) (by rw [f1]; rfl)
    | ok s1 =>
      obtain ⟨⟨f1, f2, f3⟩, f4, f5⟩ := hf'
      have hab1 : s1.aborted = false := by rw [f1]; exact hab
      have hacq1 : s1.acquiring = false := by rw [f1]; exact hacq
      have hav1 : s1.avail ≠ [] := by rw [f1]; exact hav
      have hb1 : BufInv s1 := hb0.congr (by rw [f1]) (by rw [f1]) (by rw [f1]) (by rw [f1])
      have hex1 : ExecInv cfg s1 := by
        rw [f1]
        exact h.ex.congr rfl rfl rfl rfl rfl (fun hh => by rw [hacq] at hh; cases hh) id
          h.ex.frames0 rfl rfl rfl rfl
      simp only
      split
      · next hns =>
        obtain ⟨t, ht⟩ := Option.isSome_iff_exists.1 hns
        split
        · next hr => exact hb1.build o.res (hex1.pre0 hr hacq1 hab1) ht hav1
        · exact hb1.congr rfl rfl rfl rfl
      · split
        · split
          · exact hb1.congr rfl rfl rfl rfl
          · unfold rebuild
            split
            · exact hb1.congr rfl rfl rfl rfl
            · exact hb1.congr rfl rfl rfl rfl
        · exact hb1

theorem BufInv.step {cfg s s' ev} (hb : BufInv s) (h : Inv cfg s) (hs : step cfg s ev = some s') : BufInv s' := by
  cases ev with
  | startProcesses o =>
    simp only [Sched.step] at hs
    split at hs
    · simp only [Option.some.injEq] at hs
      subst hs
      exact hb.start h o _
    · cases hs
  | grant =>
    simp only [Sched.step] at hs
    split at hs
    · simp only [Option.some.injEq] at hs
      subst hs
      exact hb.congr rfl rfl rfl rfl
    · cases hs
  | acquired res inWait =>
    simp only [Sched.step] at hs
    split at hs
    · next hc =>
      simp only [Option.some.injEq] at hs
      obtain ⟨hd, hg, hw1, hw2⟩ := hc
      have hacq := h.ex.gr hg
      obtain ⟨t, ht⟩ := Option.isSome_iff_exists.1 (h.ex.acqNext hacq)
      have hb0 : BufInv { s with acquiring := false, granted := false } := hb.congr rfl rfl rfl rfl
      have hb2 : BufInv (buildNextTarget cfg res { s with acquiring := false, granted := false }) := by
        by_cases hab : s.aborted = false
        · exact hb0.build res (h.ex.preAcq hg hab) ht (h.ex.acqAvail hacq)
        · rw [build_aborted (s := { s with acquiring := false, granted := false }) cfg res ht (by simpa using hab)]
          exact hb0
      rw [← hs]
      cases inWait
      · exact hb2
      · exact hb2.congr rfl rfl rfl rfl
    · cases hs
  | childFinished e f =>
    simp only [Sched.step] at hs
    split at hs
    · cases hs
    · next hd =>
      split at hs
      · next p t hf =>
        simp only [Option.some.injEq] at hs
        subst hs
        have h1 := List.mem_of_find?_eq_some hf
        have h2 := List.find?_some hf
        simp only [decide_eq_true_eq] at h2
        subst h2
        exact hb.child h1
      · cases hs
  | abortDone =>
    simp only [Sched.step] at hs
    split at hs
    · simp only [Option.some.injEq] at hs
      subst hs
      exact hb.congr rfl rfl rfl rfl
    · cases hs

theorem BufInv.init (cfg : Cfg) : BufInv (init cfg) := by
  have key : ∀ s : St, s.busy = [] → s.stuck = [] → s.avail = List.range cfg.jobs →
      (∀ e, s.buffered e = decide (e ≠ 0)) → BufInv s := by
    intro s h1 h2 h3 h4
    refine ⟨fun _ e rest he => ?_, fun h0 => ?_⟩
    · rw [h3] at he
      have h0 : (List.range cfg.jobs)[0]? = some e := by rw [he]; rfl
      have h1 := List.getElem?_eq_some_iff.1 h0
      obtain ⟨_, hlt⟩ := h1
      simp only [List.getElem_range] at hlt
      rw [h4, ← hlt]
      rfl
    · simp [St.active, h1, h2] at h0
  unfold Sched.init
  extract_lets s
  split
  · exact key _ rfl rfl rfl (fun _ => rfl)
  · unfold rebuild
    split <;> split <;> exact key _ rfl rfl rfl (fun _ => rfl)

theorem BufInv.run {cfg} : ∀ {es s s'}, BufInv s → Inv cfg s → run cfg s es = some s' → BufInv s' := by
  intro es
  induction es with
  | nil => intro s s' hb h hr; simp only [Sched.run, Option.some.injEq] at hr; subst hr; exact hb
  | cons e es ih =>
    intro s s' hb h hr
    simp only [Sched.run] at hr
    cases hs : Sched.step cfg s e with
    | none => rw [hs] at hr; cases hr
    | some s1 =>
      rw [hs] at hr
      exact ih (hb.step h hs) (h.step hs) hr

theorem Reachable.buf {cfg s} (h : Reachable cfg s) : BufInv s := by
  obtain ⟨es, he⟩ := h
  exact (BufInv.init cfg).run (Inv.init cfg) he

end Jom.Sched
