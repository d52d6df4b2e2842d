/- Invariants of the scheduler: preservation by every step. -/
import Verif.Proofs.SchedInv

namespace Jom.Sched

open Jom.Graph Jom.Spec Relation

/-- Nothing is left to do. -/
structure Complete (s : St) : Prop where
  ab : s.aborted = false
  acq : s.acquiring = false
  busy : s.busy = []
  pending : s.pending = []
  leaves : s.g.leaves = []
  dead : s.dead = false

/-- When an exit code may be emitted. -/
def ExitOk (cfg : Cfg) (s : St) (c : Nat) : Prop :=
  (c = 2 ∧ s.dead = true) ∨
  (s.aborted = true ∧ ((c = 1 ∧ Ev.exception ∈ s.log) ∨ (c = 2 ∧ cfg.keepGoing = false ∧ ∃ b t, Ev.failed b t ∈ s.log))) ∨
  (Complete s ∧ c = if s.allOk then 0 else 1)

structure Inv (cfg : Cfg) (s : St) : Prop where
  ex : ExecInv cfg s
  lg : LogInv cfg s
  ub : s.ub = false
  idle : s.aborted = false → s.acquiring = false → s.next = none
  codes : ∀ c ∈ s.exits, ExitOk cfg s c
  framesFail : 0 < s.frames → cfg.keepGoing = false ∧ ∃ b t, Ev.failed b t ∈ s.log
  live : 0 < cfg.jobs → s.dead = false → s.aborted = false → s.exits = [] →
    0 < s.queued ∨ s.busy ≠ [] ∨ s.acquiring = true
  abLive : s.aborted = true → 0 < s.frames ∨ s.exits ≠ []
  deadExit : s.dead = true → 2 ∈ s.exits ∧ s.aborted = false ∧ s.acquiring = false ∧ s.busy = []

/-- Emitted codes stay justified while the build is aborted. -/
theorem ExitOk.mono {cfg s s' c} (h : ExitOk cfg s c) (hnc : ¬ Complete s) (hnd : s.dead = false)
    (hab : s.aborted = true → s'.aborted = true) (hlog : ∀ e ∈ s.log, e ∈ s'.log) : ExitOk cfg s' c := by
  rcases h with ⟨_, h⟩ | ⟨h1, h2⟩ | ⟨h, _⟩
  · rw [hnd] at h; cases h
  · refine Or.inr (Or.inl ⟨hab h1, h2.imp (fun h => ⟨h.1, hlog _ h.2⟩) ?_⟩)
    rintro ⟨a, b, x, y, z⟩
    exact ⟨a, b, x, y, hlog _ z⟩
  · exact absurd h hnc

/-- The end of a target. -/
theorem Inv.child {cfg e t f s} (h : Inv cfg s) (hd : s.dead = false) (hb : (e, t) ∈ s.busy) :
    Inv cfg (childFinished cfg e t f s) := by
  have hc := childFinished_fields cfg e t f s
  generalize childFinished cfg e t f s = s' at hc
  have hnc : ¬ Complete s := by
    intro hc; rw [hc.busy] at hb; cases hb
  have hmono : ∀ e ∈ s.log, e ∈ s'.log := by
    intro e he; rw [hc.log]; exact List.mem_append_left _ he
  have hab : s.aborted = true → s'.aborted = true := by
    intro hh; rw [hc.aborted, hh]; rfl
  refine ⟨h.ex.child hb hc, h.lg.child h.ex.busyFst hb hc ?_, h.lg.child_ub hb hc h.ub, ?_, ?_, ?_, ?_, ?_, ?_⟩
  · intro hab hn
    exact (h.lg.nextOk hab t hn).2.2 (List.mem_map_of_mem (f := (·.2)) hb)
  · rw [hc.aborted, hc.acquiring, hc.next]
    intro hh
    simp only [Bool.or_eq_false_iff] at hh
    exact h.idle hh.1
  · rw [hc.exits]
    intro c hcc
    exact (h.codes c hcc).mono hnc hd hab hmono
  · rw [hc.frames]
    intro hf
    by_cases hk : (f && !cfg.keepGoing) = true
    · simp only [Bool.and_eq_true, Bool.not_eq_true'] at hk
      refine ⟨hk.2, s.build, t, ?_⟩
      rw [hc.log, hk.1]
      simp
    · rw [if_neg hk] at hf
      obtain ⟨a, b, c, d⟩ := h.framesFail hf
      exact ⟨a, b, c, hmono _ d⟩
  · intro _ _ ha _
    rw [hc.aborted] at ha
    simp only [Bool.or_eq_false_iff] at ha
    left
    rw [hc.queued, ha.2]
    simp
  · rw [hc.aborted, hc.frames, hc.exits]
    intro ha
    cases hk : (f && !cfg.keepGoing) with
    | true => left; simp
    | false =>
      rw [hk, Bool.or_false] at ha
      simpa using h.abLive ha
  · rw [hc.dead, hd]
    intro hh; cases hh

theorem ChildFields.setNext {cfg e t f s s'} (h : ChildFields cfg e t f s s') (n : Option Nat) :
    ChildFields cfg e t f { s with next := n } { s' with next := n } :=
  ⟨h.build, rfl, h.stuck, h.acquiring, h.granted, h.taken, h.relWait, h.exits, h.dead, h.busy, h.avail, h.jobAcq,
    h.relChild, h.aborted, h.allOk, h.log, h.pending, h.queued, h.frames, h.g⟩

/-- `buildNextTarget` when the build is not aborted. -/
theorem Inv.build {cfg s t} (res : StartRes) (hp : PreBuild cfg s) (hl : LogInv cfg s) (hu : s.ub = false)
    (hn : s.next = some t) (hav : s.avail ≠ []) (hd : s.dead = false) (hx : s.exits = []) :
    Inv cfg (buildNextTarget cfg res s) := by
  have hex := ExecInv.build hp hn hav res
  cases ha : s.avail with
  | nil => exact absurd ha hav
  | cons e rest =>
    have hbl := hl.begin (e := e) (rest := rest) hp.ab hd hn
    rw [build_eq cfg res hn hp.ab ha] at hex ⊢
    cases res with
    | running =>
      refine ⟨hex, hbl.congr rfl rfl rfl id id rfl rfl rfl rfl (fun _ => rfl), hu, fun _ _ => rfl, ?_, ?_, ?_, ?_, ?_⟩
      · intro c hc
        rw [show (begun (Sched.begin e t rest s)).exits = s.exits from rfl, hx] at hc
        cases hc
      · intro hf
        rw [show (begun (Sched.begin e t rest s)).frames = s.frames from rfl, hp.frames] at hf
        cases hf
      · intro _ _ _ _; left; exact Nat.succ_pos _
      · intro hab
        rw [show (begun (Sched.begin e t rest s)).aborted = s.aborted from rfl, hp.ab] at hab
        cases hab
      · intro hh
        rw [show (begun (Sched.begin e t rest s)).dead = s.dead from rfl, hd] at hh
        cases hh
    | throws =>
      simp only at hex ⊢
      have hcodes : (onException cfg { s with avail := rest, stuck := (e, t) :: s.stuck }).exits = [1] := by
        simp [onException, finishBuild, hx]
      refine ⟨hex, ?_, hu, ?_, ?_, ?_, ?_, ?_, ?_⟩
      · exact hl.exc rfl rfl rfl rfl rfl rfl rfl
      · intro hh; cases hh
      · rw [hcodes]
        intro c hc
        rw [List.mem_singleton] at hc
        exact Or.inr (Or.inl ⟨rfl, Or.inl ⟨hc, by simp [onException, finishBuild]⟩⟩)
      · intro hf
        have hf' : 0 < s.frames := hf
        rw [hp.frames] at hf'
        cases hf'
      · intro _ _ hh; cases hh
      · intro _; right; rw [hcodes]; simp
      · intro hh
        have hh' : s.dead = true := hh
        rw [hd] at hh'
        cases hh'
    | sync f =>
      simp only at hex ⊢
      have hc := (childFinished_fields cfg e t f (Sched.begin e t rest s)).setNext none
      have hb0 := hp.busy (t := t) ha
      generalize childFinished cfg e t f (Sched.begin e t rest s) = s1 at hc hex
      have hfst : (({ Sched.begin e t rest s with next := none } : St).busy.map (·.1)).Nodup := hb0.busyFst
      have hmem : (e, t) ∈ ({ Sched.begin e t rest s with next := none } : St).busy := List.mem_cons_self ..
      have hl1 := hbl.child hfst hmem hc (fun _ hh => by cases hh)
      have hu1 := hbl.child_ub hmem hc hu
      refine ⟨hex, hl1.congr rfl rfl rfl id id rfl rfl rfl rfl (fun _ => rfl), hu1, fun _ _ => rfl, ?_, ?_, ?_, ?_, ?_⟩
      · intro c hcc
        have h1 : c ∈ s1.exits := hcc
        have h2 : s1.exits = s.exits := hc.exits
        rw [h2, hx] at h1
        cases h1
      · intro hf
        have hf' : 0 < s1.frames := hf
        have h2 : s1.frames = if f && !cfg.keepGoing then s.frames + 1 else s.frames := hc.frames
        rw [h2, hp.frames] at hf'
        have h3 : s1.log = (s.log ++ [Ev.started s.build t]) ++
          [if f then Ev.failed s.build t else Ev.succeeded s.build t] := hc.log
        by_cases hk : (f && !cfg.keepGoing) = true
        · simp only [Bool.and_eq_true, Bool.not_eq_true'] at hk
          refine ⟨hk.2, s.build, t, ?_⟩
          show _ ∈ s1.log
          rw [h3, hk.1]
          simp
        · rw [if_neg hk] at hf'; cases hf'
      · intro _ _ _ _; left; exact Nat.succ_pos _
      · intro hab
        have hab' : s1.aborted = true := hab
        have h2 : s1.frames = if f && !cfg.keepGoing then s.frames + 1 else s.frames := hc.frames
        have h3 : s1.aborted = (s.aborted || (f && !cfg.keepGoing)) := hc.aborted
        left
        show 0 < s1.frames
        rw [h3, hp.ab, Bool.false_or] at hab'
        rw [h2, hab']
        simp
      · intro hh
        have hh' : s1.dead = true := hh
        have h2 : s1.dead = s.dead := hc.dead
        rw [h2, hd] at hh'
        cases hh'

/-- Without a target that can be started and without running processes, everything is settled. -/
theorem LogInv.noLeaves {cfg s} (h : LogInv cfg s) (hab : s.aborted = false) (hn : s.next = none) (hb : s.busy = [])
    (hl : ∀ x ∈ s.g.leaves, s.g.state x = .executing) : s.g.leaves = [] := by
  apply List.eq_nil_iff_forall_not_mem.2
  intro x hx
  have := h.exec hab x ((h.ginv.lv x).1 hx).1 (hl x hx)
  rw [hb, hn] at this
  simp at this

/-- The next requested target. -/
theorem LogInv.nextBuild {cfg s t rest} (h : LogInv cfg s) (hab : s.aborted = false) (hd : s.dead = false)
    (hb : s.busy = []) (hn : s.next = none) (hp : s.pending = t :: rest) (hl : s.g.leaves = []) :
    LogInv cfg (rebuild cfg (s.build + 1) t rest s) := by
  have hpend := h.pend hab
  rw [hp] at hpend
  have hroot : cfg.targets[s.build + 1]? = some t := by
    have := congrArg (·[0]?) hpend
    simpa using this.symm
  have hrest : rest = cfg.targets.drop (s.build + 1 + 1) := by
    have := congrArg List.tail hpend
    simpa using this
  refine LogInv.rebuilt hb hn hroot hrest h.failAb h.allOk (fun k hk => Nat.lt_succ_of_le (h.logS k hk))
    (fun b t hbt => Nat.lt_succ_of_le (h.logT b t hbt)) h.settleOnce h.startOnce ?_ h.unbLog h.ran h.notRan (fun hk => h.order fun e => (hk e).mono (Nat.le_succ _)) h.quiet h.startReach
  intro hac b hlt r hr x hx
  rcases Nat.lt_succ_iff_lt_or_eq.1 hlt with h1 | h1
  · exact h.past (hac.mono (Nat.le_succ _)) b h1 r hr x hx
  · subst h1
    have hids := GInv.leaf h.ginv (fun r hr => hac _ (Nat.le_succ _) r hr) hl
    have hncl : ¬ Cleared cfg s := by rintro ⟨_, b, _⟩; rw [hab] at b; cases b
    rcases h.reachSettled.resolve_left hncl with h2 | h2
    · rw [hd] at h2; cases h2
    · rcases h2 r hr x hx with h3 | h3
      · rw [hids] at h3; cases h3
      · exact h3

theorem Inv.exits_nil {cfg s} (h : Inv cfg s) (hd : s.dead = false) (hab : s.aborted = false) (hnc : ¬ Complete s) :
    s.exits = [] := by
  apply List.eq_nil_iff_forall_not_mem.2
  intro c hc
  rcases h.codes c hc with ⟨_, h1⟩ | ⟨h1, _⟩ | ⟨h1, _⟩
  · rw [hd] at h1; cases h1
  · rw [hab] at h1; cases h1
  · exact hnc h1

/-- Fewer queued calls. -/
theorem Inv.lessQueued {cfg s q} (h : Inv cfg s)
    (hl : 0 < cfg.jobs → s.aborted = false → s.exits = [] → 0 < q ∨ s.busy ≠ [] ∨ s.acquiring = true) :
    Inv cfg { s with queued := q } := by
  refine ⟨?_, ?_, h.ub, h.idle, ?_, h.framesFail, fun a _ c d => hl a c d, h.abLive, h.deadExit⟩
  · exact h.ex.congr rfl rfl rfl rfl rfl h.ex.acqNext id h.ex.frames0 rfl rfl rfl rfl
  · exact h.lg.congr rfl rfl rfl id id rfl rfl rfl rfl (fun _ => rfl)
  · intro c hc
    rcases h.codes c hc with h1 | h1 | ⟨⟨a, b, c, d, e, f⟩, h2⟩
    · exact Or.inl h1
    · exact Or.inr (Or.inl h1)
    · exact Or.inr (Or.inr ⟨⟨a, b, c, d, e, f⟩, h2⟩)

theorem Inv.start {cfg s} (h : Inv cfg s) (o : Oracle) (hd : s.dead = false) (q : Nat) :
    Inv cfg (startProcesses cfg o { s with queued := q }) := by
  unfold startProcesses
  split
  · next hc =>
    simp only [Bool.or_eq_true, List.isEmpty_iff] at hc
    refine h.lessQueued ?_
    intro hj hab _
    rcases hc with (hc | hc) | hc
    · have : s.aborted = true := hc
      rw [hab] at this; cases this
    · exact Or.inr (Or.inr hc)
    · right; left
      intro hb
      have := h.ex.avail_length
      have hst := h.ex.stuckAb hab
      have hc' : s.avail = [] := hc
      rw [hb, hst, hc'] at this
      simp at this
      omega
  · next hc =>
    simp only [Bool.or_eq_true, List.isEmpty_iff, not_or, Bool.not_eq_true] at hc
    obtain ⟨⟨hab, hacq⟩, hav⟩ := hc
    have hab : s.aborted = false := hab
    have hacq : s.acquiring = false := hacq
    have hav : s.avail ≠ [] := hav
    have hn := h.idle hab hacq
    have hl0 : LogInv cfg { s with queued := q } := h.lg.congr rfl rfl rfl id id rfl rfl rfl rfl (fun _ => rfl)
    have hf := findNext_spec cfg o (s.g.ids.length + 1) { s with queued := q } hl0 hab hn
    simp only [hn, Option.isNone_none, if_true]
    have hf' : FindRes cfg { s with queued := q } (s.g.ids.length + 1)
      (findNextTarget cfg o (s.g.ids.length + 1) { s with queued := q, next := none }) := by
      have e : ({ s with queued := q, next := none } : St) = { s with queued := q } := by
        cases s; simp only at hn; subst hn; rfl
      rw [e]; exact hf
    clear hf
    generalize findNextTarget cfg o (s.g.ids.length + 1) { s with queued := q, next := none } = res at hf'
    cases res with
    | error s1 =>
      obtain ⟨⟨f1, f2, f3⟩, f4, f5⟩ := hf'
      have hnc : ¬ Complete s := fun hc => f5 hc.leaves
      have hx := h.exits_nil hd hab hnc
      have e1 : s1.exits = [] := by rw [f1]; exact hx
      simp only
      have hcodes : (onException cfg s1).exits = [1] := by simp [onException, finishBuild, e1]
      have hfr : s1.frames = 0 := by rw [f1]; exact h.ex.frames0 hab
      refine ⟨?_, ?_, ?_, ?_, ?_, ?_, ?_, ?_, ?_⟩
      · rw [f1]
        exact h.ex.congr rfl rfl rfl rfl rfl (fun hh => by rw [hacq] at hh; cases hh) (fun hh => by cases hh)
          (fun hh => by cases hh) rfl rfl rfl rfl
      · exact f2.exc rfl rfl rfl rfl rfl rfl rfl
      · show s1.ub = false
        rw [f1]; exact h.ub
      · intro hh; cases hh
      · rw [hcodes]
        intro c hc
        rw [List.mem_singleton] at hc
        exact Or.inr (Or.inl ⟨rfl, Or.inl ⟨hc, by simp [onException, finishBuild]⟩⟩)
      · intro hh
        have hh' : 0 < s1.frames := hh
        omega
      · intro _ _ hh; cases hh
      · intro _; right; rw [hcodes]; simp
      · intro hh
        have hh' : s1.dead = true := hh
        rw [f1] at hh'
        have : s.dead = true := hh'
        rw [hd] at this; cases this
    | ok s1 =>
      obtain ⟨⟨f1, f2, f3⟩, f4, f5⟩ := hf'
      have hx1 : s1.exits = s.exits := by rw [f1]
      have hd1 : s1.dead = false := by rw [f1]; exact hd
      have hab1 : s1.aborted = false := by rw [f1]; exact hab
      have hacq1 : s1.acquiring = false := by rw [f1]; exact hacq
      have hav1 : s1.avail ≠ [] := by rw [f1]; exact hav
      have hu1 : s1.ub = false := by rw [f1]; exact h.ub
      have hbusy1 : s1.busy = s.busy := by rw [f1]
      have hpend1 : s1.pending = s.pending := by rw [f1]
      have hallOk1 : s1.allOk = s.allOk := by rw [f1]
      have hex1 : ExecInv cfg s1 := by
        rw [f1]
        exact h.ex.congr rfl rfl rfl rfl rfl (fun hh => by rw [hacq] at hh; cases hh) id
          h.ex.frames0 rfl rfl rfl rfl
      have hfr1 : s1.frames = 0 := hex1.frames0 hab1
      have hcompl : Complete s → s1 = { s with queued := q } := fun hc => f5 hc.leaves
      simp only
      split
      · next hns =>
        obtain ⟨t, ht⟩ := Option.isSome_iff_exists.1 hns
        have hnc : ¬ Complete s := by
          intro hc
          rw [hcompl hc] at ht
          have : s.next = some t := ht
          rw [hn] at this; cases this
        have hx := h.exits_nil hd hab hnc
        rw [hx] at hx1
        split
        · next hr => exact Inv.build o.res (hex1.pre0 hr hacq1 hab1) f2 hu1 ht hav1 hd1 hx1
        · next hr =>
          refine ⟨hex1.request hr hacq1 hab1 hns hav1, f2.congr rfl rfl rfl id id rfl rfl rfl rfl (fun _ => rfl), hu1,
            ?_, ?_, ?_, ?_, ?_, ?_⟩
          · intro _ hh; cases hh
          · intro c hc
            have hc' : c ∈ s1.exits := hc
            rw [hx1] at hc'; cases hc'
          · intro hh
            have hh' : 0 < s1.frames := hh
            omega
          · intro _ _ _ _; exact Or.inr (Or.inr rfl)
          · intro hh
            have hh' : s1.aborted = true := hh
            rw [hab1] at hh'; cases hh'
          · intro hh
            have hh' : s1.dead = true := hh
            rw [hd1] at hh'; cases hh'
      · next hns =>
        have hn1 : s1.next = none := by simpa using hns
        split
        · next hr =>
          have hbe : s1.busy = [] := by
            have := hex1.avail_length
            unfold St.running at hr
            apply List.eq_nil_of_length_eq_zero
            omega
          have hlv : s1.g.leaves = [] := f2.noLeaves hab1 hn1 hbe (f4 (Nat.lt_succ_self _) hn1)
          split
          · next hpe =>
            have hcp : Complete s1 := ⟨hab1, hacq1, hbe, hpe, hlv, hd1⟩
            have hk : s1.allOk = false → cfg.keepGoing = true := by
              intro ha
              obtain ⟨b, z, hz⟩ := f2.allOk.1 ha
              cases hk : cfg.keepGoing with
              | true => rfl
              | false => have := f2.failAb hk b z hz; rw [hab1] at this; cases this
            have hcode : (finishBuild cfg 0 s1).exits = s1.exits ++ [if s1.allOk then 0 else 1] := by
              unfold finishBuild
              cases ha : s1.allOk with
              | true => simp
              | false => simp [hk ha]
            refine ⟨?_, ?_, hu1, fun _ _ => hn1, ?_, ?_, ?_, ?_, ?_⟩
            · exact hex1.congr rfl rfl rfl rfl rfl hex1.acqNext id hex1.frames0 rfl rfl rfl rfl
            · exact f2.congr rfl rfl rfl id id rfl rfl rfl rfl (fun _ => rfl)
            · rw [hcode]
              intro c hc
              have hcp' : Complete (finishBuild cfg 0 s1) := ⟨hab1, hacq1, hbe, hpe, hlv, hd1⟩
              refine Or.inr (Or.inr ⟨hcp', ?_⟩)
              show c = if s1.allOk then 0 else 1
              rw [List.mem_append, List.mem_singleton] at hc
              rcases hc with hc | hc
              · rw [hx1] at hc
                rcases h.codes c hc with ⟨_, h1⟩ | ⟨h1, _⟩ | ⟨_, h1⟩
                · rw [hd] at h1; cases h1
                · rw [hab] at h1; cases h1
                · rw [hallOk1]; exact h1
              · exact hc
            · intro hh
              have hh' : 0 < s1.frames := hh
              omega
            · intro _ _ _ hh
              rw [hcode] at hh
              simp at hh
            · intro hh
              have hh' : s1.aborted = true := hh
              rw [hab1] at hh'; cases hh'
            · intro hh
              have hh' : s1.dead = true := hh
              rw [hd1] at hh'; cases hh'
          · next t rest hpe =>
            have hnc : ¬ Complete s := by
              intro hc
              rw [hpend1, hc.pending] at hpe; cases hpe
            have hx := h.exits_nil hd hab hnc
            rw [hx] at hx1
            have hl := f2.nextBuild hab1 hd1 hbe hn1 hpe hlv
            unfold rebuild at hl ⊢
            split
            · next g hg =>
              rw [hg] at hl
              refine ⟨?_, hl, hu1, fun _ _ => hn1, ?_, ?_, ?_, ?_, ?_⟩
              · exact hex1.congr rfl rfl rfl rfl rfl hex1.acqNext id hex1.frames0 rfl rfl rfl rfl
              · intro c hc
                have hc' : c ∈ s1.exits := hc
                rw [hx1] at hc'; cases hc'
              · intro hh
                have hh' : 0 < s1.frames := hh
                omega
              · intro _ _ _ _; exact Or.inl (Nat.succ_pos _)
              · intro hh
                have hh' : s1.aborted = true := hh
                rw [hab1] at hh'; cases hh'
              · intro hh
                have hh' : s1.dead = true := hh
                rw [hd1] at hh'; cases hh'
            · next e he =>
              rw [he] at hl
              refine ⟨?_, hl, hu1, fun _ _ => hn1, ?_, ?_, ?_, ?_, ?_⟩
              · exact hex1.congr rfl rfl rfl rfl rfl hex1.acqNext id hex1.frames0 rfl rfl rfl rfl
              · intro c hc
                rw [hx1] at hc
                simp only [List.nil_append, List.mem_singleton] at hc
                exact Or.inl ⟨hc, rfl⟩
              · intro hh
                have hh' : 0 < s1.frames := hh
                omega
              · intro _ hh; cases hh
              · intro hh
                have hh' : s1.aborted = true := hh
                rw [hab1] at hh'; cases hh'
              · intro _; exact ⟨by simp, hab1, hacq1, hbe⟩
        · next hr =>
          have hbne : s1.busy ≠ [] := by
            intro hb
            have := hex1.avail_length
            rw [hb, hex1.stuckAb hab1] at this
            simp only [List.length_nil, Nat.add_zero] at this
            unfold St.running at hr
            omega
          have hnc : ¬ Complete s := by
            intro hc
            rw [hbusy1] at hbne
            exact hbne hc.busy
          have hx := h.exits_nil hd hab hnc
          rw [hx] at hx1
          refine ⟨hex1, f2, hu1, fun _ _ => hn1, ?_, ?_, fun _ _ _ _ => Or.inr (Or.inl hbne), ?_, ?_⟩
          · intro c hc; rw [hx1] at hc; cases hc
          · intro hh; omega
          · intro hh; rw [hab1] at hh; cases hh
          · intro hh; rw [hd1] at hh; cases hh

theorem Inv.step {cfg s s' ev} (h : Inv cfg s) (hs : step cfg s ev = some s') : Inv cfg s' := by
  cases ev with
  | startProcesses o =>
    simp only [Sched.step] at hs
    split at hs
    · next hc =>
      simp only [Option.some.injEq] at hs
      subst hs
      exact h.start o hc.1 _
    · cases hs
  | grant =>
    simp only [Sched.step] at hs
    split at hs
    · next hc =>
      simp only [Option.some.injEq] at hs
      subst hs
      obtain ⟨hd, hacq, hg⟩ := hc
      have hex := h.ex
      refine ⟨?_, h.lg.congr rfl rfl rfl id id rfl rfl rfl rfl (fun _ => rfl), h.ub, h.idle, ?_, h.framesFail, h.live,
        h.abLive, h.deadExit⟩
      · refine ⟨hex.perm, hex.acqNext, fun _ => hacq, hex.acqAvail, hex.frames0, hex.stuckAb, hex.tok, ?_⟩
        have := hex.tokInt
        simp only [hg, Bool.toNat_false, Bool.toNat_true] at this ⊢
        omega
      · intro c hc
        refine (h.codes c hc).mono ?_ hd id (fun _ h => h)
        intro hcc; rw [hcc.acq] at hacq; cases hacq
    · cases hs
  | acquired res inWait =>
    simp only [Sched.step] at hs
    split at hs
    · next hc =>
      simp only [Option.some.injEq] at hs
      obtain ⟨hd, hg, hw1, hw2⟩ := hc
      have hacq := h.ex.gr hg
      obtain ⟨t, ht⟩ := Option.isSome_iff_exists.1 (h.ex.acqNext hacq)
      have hnc : ¬ Complete s := by intro hcc; rw [hcc.acq] at hacq; cases hacq
      have hl : LogInv cfg { s with acquiring := false, granted := false } :=
        h.lg.congr rfl rfl rfl id id rfl rfl rfl rfl (fun _ => rfl)
      cases hab : s.aborted with
      | false =>
        have hp := h.ex.preAcq hg hab
        have hw : inWait = false := by
          cases hw : inWait with
          | false => rfl
          | true =>
            have := hw1 hw
            have h2 := h.ex.frames0 hab
            omega
        rw [hw] at hs
        simp only [Bool.false_eq_true, if_false] at hs
        subst hs
        exact Inv.build res hp hl h.ub ht (h.ex.acqAvail hacq) hd (h.exits_nil hd hab hnc)
      | true =>
        have hb := build_aborted (s := { s with acquiring := false, granted := false }) cfg res ht hab
        rw [hb] at hs
        have hfin : s' = { s with acquiring := false, granted := false, relWait := s.relWait + inWait.toNat } := by
          rw [← hs]
          cases inWait <;> rfl
        subst hfin
        refine ⟨h.ex.drop hg hab inWait, h.lg.congr rfl rfl rfl id id rfl rfl rfl rfl (fun _ => rfl), h.ub, ?_, ?_,
          h.framesFail, ?_, h.abLive, fun hh => absurd (h.deadExit hh).2.1 (by simp [hab])⟩
        · intro hh
          have hh' : s.aborted = false := hh
          rw [hab] at hh'; cases hh'
        · intro c hc
          exact (h.codes c hc).mono hnc hd id (fun _ h => h)
        · intro _ _ hh
          have hh' : s.aborted = false := hh
          rw [hab] at hh'; cases hh'
    · cases hs
  | childFinished e f =>
    simp only [Sched.step] at hs
    split at hs
    · cases hs
    · next hd =>
      split at hs
      · next p t hf =>
        simp only [Option.some.injEq] at hs
        subst hs
        have h1 := List.mem_of_find?_eq_some hf
        have h2 := List.find?_some hf
        simp only [decide_eq_true_eq] at h2
        subst h2
        exact h.child (by simpa using hd) h1
      · cases hs
  | abortDone =>
    simp only [Sched.step] at hs
    split at hs
    · next hc =>
      simp only [Option.some.injEq] at hs
      obtain ⟨hd, hf, hacq⟩ := hc
      have hab : s.aborted = true := by
        cases hab : s.aborted with
        | true => rfl
        | false => have := h.ex.frames0 hab; omega
      have hfin : s' = { s with frames := s.frames - 1, exits := s.exits ++ [2], queued := s.queued + 1 } := by
        rw [← hs]
        simp [finishBuild]
      subst hfin
      refine ⟨?_, h.lg.congr rfl rfl rfl id id rfl rfl rfl rfl (fun _ => rfl), h.ub, h.idle, ?_, ?_, ?_, ?_, ?_⟩
      · exact h.ex.congr rfl rfl rfl rfl rfl h.ex.acqNext id
          (fun hh => by have hh' : s.aborted = false := hh; rw [hab] at hh'; cases hh') rfl rfl rfl rfl
      · intro c hc
        rw [List.mem_append, List.mem_singleton] at hc
        rcases hc with hc | hc
        · refine (h.codes c hc).mono ?_ hd id (fun _ h => h)
          intro hcc
          rw [hcc.ab] at hab; cases hab
        · exact Or.inr (Or.inl ⟨hab, Or.inr ⟨hc, h.framesFail hf⟩⟩)
      · intro _; exact h.framesFail hf
      · intro _ _ hh
        have hh' : s.aborted = false := hh
        rw [hab] at hh'; cases hh'
      · intro _; right; simp
      · intro hh
        exact absurd (h.deadExit hh).2.1 (by simp [hab])
    · cases hs

theorem ExecInv.init0 {cfg s} (h1 : s.avail = List.range cfg.jobs) (h2 : s.busy = []) (h3 : s.stuck = [])
    (h4 : s.acquiring = false) (h5 : s.granted = false) (h6 : s.frames = 0) (h7 : s.relWait = 0) (h8 : s.jobAcq = 0)
    (h9 : s.taken = 0) (h10 : s.relChild = 0) : ExecInv cfg s := by
  refine ⟨?_, ?_, ?_, ?_, fun _ => h6, fun _ => h3, ⟨0, ?_⟩, ?_⟩
  · rw [h1, h2, h3]; simp
  · rw [h4]; simp
  · rw [h5]; simp
  · rw [h4]; simp
  · simp [h2, h3, h4, h7, h8]
  · simp [h4, h5, h8, h9, h10]

theorem Inv.init (cfg : Cfg) : Inv cfg (init cfg) := by
  unfold Sched.init
  extract_lets s
  have hlog : s.log = [] := rfl
  have hset : s.settled = [] := rfl
  split
  · next ht =>
    refine ⟨ExecInv.init0 rfl rfl rfl rfl rfl rfl rfl rfl rfl rfl, ?_, rfl, fun _ _ => rfl, ?_, ?_, ?_, ?_, ?_⟩
    · constructor
      all_goals try (intros; simp_all [s, Graph.empty])
      · exact ginv_empty (cfg.deps 0) _ true
      · exact List.nodup_nil
      · intro l1 l2 b t hl
        simp at hl
      · intro l1 l2 b t hl
        simp at hl
    · intro c hc; cases hc
    · intro hh; cases hh
    · intro _ _ _ _; exact Or.inl Nat.one_pos
    · intro hh; cases hh
    · intro hh; cases hh
  · next t rest ht =>
    obtain ⟨s0, hs0⟩ : ∃ s0, s0 = (if cfg.dumpGraph = true then s else { s with queued := 1 }) := ⟨_, rfl⟩
    rw [← hs0]
    have e : s0 = { s with queued := s0.queued } := by rw [hs0]; split <;> rfl
    have hl : LogInv cfg (rebuild cfg 0 t rest s0) := by
      rw [e]
      refine LogInv.rebuilt rfl rfl (by rw [ht]; rfl) (by rw [ht]; rfl) ?_ ?_ ?_ ?_ ?_ ?_ ?_ ?_ ?_ ?_ ?_ ?_ (fun _ _ hh => by cases hh)
      · intro _ _ _ hh; cases hh
      · constructor
        · intro hh; cases hh
        · rintro ⟨_, _, hh⟩; cases hh
      · intro _ hh; cases hh
      · intro _ _ hh; cases hh
      · exact List.nodup_nil
      · exact List.nodup_nil
      · intro _ _ hh; cases hh
      · intro _ _ hh; cases hh
      · intro _ _ hh; rcases hh with hh | hh <;> cases hh
      · intro _ _ hh; cases hh
      · intro _ l1 l2 b t hl
        have hl' : [] = l1 ++ Ev.started b t :: l2 := hl
        simp at hl'
      · intro _ l1 l2 b t hl
        have hl' : [] = l1 ++ Ev.failed b t :: l2 := hl
        simp at hl'
    unfold rebuild at hl ⊢
    split
    · next g hg =>
      rw [hg] at hl
      refine ⟨?_, hl, ?_, ?_, ?_, ?_, ?_, ?_, ?_⟩
      · rw [e]; exact ExecInv.init0 rfl rfl rfl rfl rfl rfl rfl rfl rfl rfl
      · rw [e]
      · rw [e]; exact fun _ _ => rfl
      · rw [e]; intro c hc; cases hc
      · rw [e]; intro hh; cases hh
      · intro _ _ _ _; exact Or.inl (Nat.succ_pos _)
      · rw [e]; intro hh; cases hh
      · rw [e]; intro hh; cases hh
    · next er he =>
      rw [he] at hl
      refine ⟨?_, hl, ?_, ?_, ?_, ?_, ?_, ?_, ?_⟩
      · rw [e]; exact ExecInv.init0 rfl rfl rfl rfl rfl rfl rfl rfl rfl rfl
      · rw [e]
      · rw [e]; exact fun _ _ => rfl
      · intro c hc
        have hx : s0.exits = [] := by rw [e]
        rw [hx] at hc
        simp only [List.nil_append, List.mem_singleton] at hc
        exact Or.inl ⟨hc, rfl⟩
      · rw [e]; intro hh; cases hh
      · intro _ hh; cases hh
      · rw [e]; intro hh; cases hh
      · intro _
        rw [e]
        exact ⟨by simp, rfl, rfl, rfl⟩

theorem Inv.run {cfg} : ∀ {es s s'}, Inv cfg s → run cfg s es = some s' → Inv cfg s' := by
  intro es
  induction es with
  | nil => intro s s' h hr; simp only [Sched.run, Option.some.injEq] at hr; subst hr; exact h
  | cons e es ih =>
    intro s s' h hr
    simp only [Sched.run] at hr
    cases hs : Sched.step cfg s e with
    | none => rw [hs] at hr; cases hr
    | some s1 =>
      rw [hs] at hr
      exact ih (h.step hs) hr

theorem Reachable.inv {cfg s} (h : Reachable cfg s) : Inv cfg s := by
  obtain ⟨es, he⟩ := h
  exact (Inv.init cfg).run he

end Jom.Sched
