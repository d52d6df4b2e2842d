/- The scheduler: counting running targets, exceptions after a failure, reasons of `exit(2)`, two jobs. -/
import Verif.Proofs.SchedBuffer

namespace Jom.Sched

open Jom.Graph

def isStart : Ev → Bool
  | .started _ _ => true
  | _ => false

def isEnd : Ev → Bool
  | .succeeded _ _ => true
  | .failed _ _ => true
  | _ => false

/-- No exception after a failure. -/
def NoExcAfterFailure (log : List Ev) : Prop :=
  ∀ l1 l2 b t, log = l1 ++ Ev.failed b t :: l2 → Ev.exception ∉ l2

structure Extra (cfg : Cfg) (s : St) : Prop where
  count : s.log.countP isStart = s.busy.length + s.log.countP isEnd
  exc : cfg.keepGoing = false → NoExcAfterFailure s.log
  died : s.dead = true → ∃ r e, cfg.targets[s.build]? = some r ∧ build (cfg.deps s.build) cfg.fuel r = .error e
  two : cfg.jobs ≤ 2 → ∀ x y, x < cfg.jobs → y < cfg.jobs → s.buffered x = false → s.buffered y = false → x = y

theorem NoExcAfterFailure.append {log evs} (h : NoExcAfterFailure log) (he : Ev.exception ∉ evs) :
    NoExcAfterFailure (log ++ evs) := by
  intro l1 l2 b t hl
  rcases split_append hl with ⟨c, h1, h2⟩ | ⟨a, _, h2⟩
  · rw [h2, List.mem_append, not_or]
    exact ⟨h l1 c b t h1, he⟩
  · intro hm
    exact he (by rw [h2]; simp [hm])

theorem NoExcAfterFailure.noFail {log} (h : ∀ b t, Ev.failed b t ∉ log) : NoExcAfterFailure log := by
  intro l1 l2 b t hl
  exact absurd (by rw [hl]; simp) (h b t)

/-- Events that `findNextTarget` may log. -/
def quietEv (e : Ev) : Bool := !isStart e && !isEnd e && decide (e ≠ .exception)

def resLog : Except St St → List Ev
  | .ok s => s.log
  | .error s => s.log

theorem findNext_log (cfg : Cfg) (o : Oracle) : ∀ i s,
    ∃ evs, (∀ e ∈ evs, quietEv e = true) ∧
      resLog (findNextTarget cfg o i s) = s.log ++ evs := by
  intro i
  induction i with
  | zero => intro s; exact ⟨[], by simp, by simp [findNextTarget, resLog]⟩
  | succ i ih =>
    intro s
    simp only [findNextTarget]
    split
    · exact ⟨[], by simp, by simp [resLog]⟩
    · generalize prune cfg.buildAll (o.upToDate i) s.g = gp
      obtain ⟨g, gone⟩ := gp
      simp only
      have hq : ∀ e ∈ gone.map (Ev.upToDate s.build ·), quietEv e = true := by
        intro e he
        obtain ⟨x, _, rfl⟩ := List.mem_map.1 he
        rfl
      split
      · exact ⟨_, hq, rfl⟩
      · generalize pick g = gr
        obtain ⟨g2, r⟩ := gr
        simp only
        cases r with
        | none => exact ⟨_, hq, rfl⟩
        | some t =>
          simp only
          split
          · obtain ⟨evs, h1, h2⟩ := ih { s with g := removeLeaf g2 t, next := none, log := s.log ++ gone.map (.upToDate s.build ·) ++ [.noCommands s.build t] }
            refine ⟨gone.map (.upToDate s.build ·) ++ [.noCommands s.build t] ++ evs, ?_, ?_⟩
            · intro e he
              simp only [List.mem_append, List.mem_singleton] at he
              rcases he with (he | rfl) | he
              · exact hq e he
              · rfl
              · exact h1 e he
            · rw [h2]; simp
          · split
            · obtain ⟨evs, h1, h2⟩ := ih { s with g := removeLeaf g2 t, next := none, log := s.log ++ gone.map (.upToDate s.build ·) ++ [.unbuildable s.build t] }
              refine ⟨gone.map (.upToDate s.build ·) ++ [.unbuildable s.build t] ++ evs, ?_, ?_⟩
              · intro e he
                simp only [List.mem_append, List.mem_singleton] at he
                rcases he with (he | rfl) | he
                · exact hq e he
                · rfl
                · exact h1 e he
              · rw [h2]; simp
            · exact ⟨_, hq, rfl⟩

theorem countP_quiet {p : Ev → Bool} (hp : ∀ e, quietEv e = true → p e = false) {evs : List Ev}
    (h : ∀ e ∈ evs, quietEv e = true) : evs.countP p = 0 := by
  rw [List.countP_eq_zero]
  intro e he
  rw [hp e (h e he)]
  simp

theorem quiet_start (e : Ev) (h : quietEv e = true) : isStart e = false := by
  cases e <;> simp_all [quietEv, isStart]

theorem quiet_end (e : Ev) (h : quietEv e = true) : isEnd e = false := by
  cases e <;> simp_all [quietEv, isEnd]

theorem Extra.congr {cfg s s'} (h : Extra cfg s) (h1 : s'.log = s.log) (h2 : s'.busy = s.busy) (h3 : s'.dead = s.dead)
    (h4 : s'.build = s.build) (h5 : s'.buffered = s.buffered) : Extra cfg s' :=
  ⟨by rw [h1, h2]; exact h.count, by rw [h1]; exact h.exc, by rw [h3, h4]; exact h.died, by rw [h5]; exact h.two⟩

theorem Extra.quiet {cfg s s'} {evs : List Ev} (h : Extra cfg s) (hq : ∀ e ∈ evs, quietEv e = true)
    (h1 : s'.log = s.log ++ evs) (h2 : s'.busy = s.busy) (h3 : s'.dead = s.dead)
    (h4 : s'.build = s.build) (h5 : s'.buffered = s.buffered) : Extra cfg s' := by
  refine ⟨?_, ?_, by rw [h3, h4]; exact h.died, by rw [h5]; exact h.two⟩
  · rw [h1, h2, List.countP_append, List.countP_append, countP_quiet quiet_start hq, countP_quiet quiet_end hq]
    exact h.count
  · intro hk
    rw [h1]
    refine (h.exc hk).append (fun hm => ?_)
    have := hq _ hm
    simp [quietEv] at this

theorem Extra.exception {cfg s s'} (h : Extra cfg s) (hno : cfg.keepGoing = false → ∀ b t, Ev.failed b t ∉ s.log)
    (h1 : s'.log = s.log ++ [.exception]) (h2 : s'.busy = s.busy) (h3 : s'.dead = s.dead)
    (h4 : s'.build = s.build) (h5 : s'.buffered = s.buffered) : Extra cfg s' := by
  refine ⟨?_, ?_, by rw [h3, h4]; exact h.died, by rw [h5]; exact h.two⟩
  · rw [h1, h2, List.countP_append, List.countP_append]
    simpa [isStart, isEnd] using h.count
  · intro hk
    rw [h1]
    apply NoExcAfterFailure.noFail
    intro b t hm
    rw [List.mem_append] at hm
    rcases hm with hm | hm
    · exact hno hk b t hm
    · simp at hm

theorem Extra.child {cfg e t f s} (h : Extra cfg s) (hex : ExecInv cfg s) (hb : (e, t) ∈ s.busy) :
    Extra cfg (childFinished cfg e t f s) := by
  have hc := childFinished_fields cfg e t f s
  have hbuf := childFinished_buf cfg e t f s
  generalize childFinished cfg e t f s = s' at hc hbuf
  have hl := (filter_fst_perm s.busy e t hex.busyFst hb).2
  refine ⟨?_, ?_, by rw [hc.dead, hc.build]; exact h.died, ?_⟩
  · rw [hc.log, hc.busy, List.countP_append, List.countP_append]
    have := h.count
    have e1 : ([if f then Ev.failed s.build t else Ev.succeeded s.build t] : List Ev).countP isStart = 0 := by
      cases f <;> rfl
    have e2 : ([if f then Ev.failed s.build t else Ev.succeeded s.build t] : List Ev).countP isEnd = 1 := by
      cases f <;> rfl
    rw [e1, e2]
    omega
  · intro hk
    rw [hc.log]
    refine (h.exc hk).append ?_
    cases f <;> simp
  · intro hj x y hx hy
    have hn := hex.perm.nodup_iff.2 List.nodup_range
    have hmem : ∀ z, z ∈ s.avail ++ (s.busy.map (·.1) ++ s.stuck.map (·.1)) ↔ z < cfg.jobs := by
      intro z; rw [hex.perm.mem_iff, List.mem_range]
    have hej : e < cfg.jobs := (hmem e).1 (by
      rw [List.mem_append, List.mem_append]; exact Or.inr (Or.inl (List.mem_map.2 ⟨_, hb, rfl⟩)))
    have heb : e ∈ s.busy.map (·.1) := List.mem_map.2 ⟨_, hb, rfl⟩
    have hest : e ∉ s.stuck.map (·.1) := by
      have h2 := (List.nodup_append.1 hn).2.1
      have h3 := (List.nodup_append.1 h2).2.2
      exact fun hh => h3 e heb e hh rfl
    have hsm := h.two hj
    rw [hbuf]
    unfold handOver
    by_cases hbe : s.buffered e = true
    · simp only [hbe, if_true]
      exact hsm x y hx hy
    · have hbe' : s.buffered e = false := by simpa using hbe
      simp only [hbe', Bool.false_eq_true, if_false]
      have henot : e ∉ (s.busy.filter (·.1 ≠ e)).map (·.1) ++ s.stuck.map (·.1) := by
        rw [List.mem_append, not_or]
        refine ⟨?_, hest⟩
        rw [List.mem_map]
        rintro ⟨p, hp, rfl⟩
        simp at hp
      by_cases hemp : ((s.busy.filter (·.1 ≠ e)).map (·.1) ++ s.stuck.map (·.1)).isEmpty = true
      · rw [if_pos hemp]
        cases hav : s.avail ++ [e] with
        | nil => simp at hav
        | cons a rest =>
          simp only [upd]
          have ha : a < cfg.jobs := by
            have : a ∈ s.avail ++ [e] := by rw [hav]; exact List.mem_cons_self ..
            rw [List.mem_append, List.mem_singleton] at this
            rcases this with h1 | h1
            · exact (hmem a).1 (List.mem_append_left _ h1)
            · rw [h1]; exact hej
          have key : ∀ z, z < cfg.jobs → (if z = a then false else if z = e then true else s.buffered z) = false → z = a := by
            intro z hz h0
            by_cases hza : z = a
            · exact hza
            · rw [if_neg hza] at h0
              by_cases hze : z = e
              · rw [if_pos hze] at h0; cases h0
              · rw [if_neg hze] at h0
                exact absurd (hsm z e hz hej h0 hbe') hze
          intro h1 h2
          exact (key x hx h1).trans (key y hy h2).symm
      · rw [if_neg hemp]
        simp only [upd]
        have key : ∀ z, (if z ∈ (s.busy.filter (·.1 ≠ e)).map (·.1) ++ s.stuck.map (·.1) then false
            else if z = e then true else s.buffered z) = false → z ≠ e := by
          rintro z h0 rfl
          rw [if_neg henot, if_pos rfl] at h0
          cases h0
        intro h1 h2
        have := key x h1
        have := key y h2
        omega

theorem Extra.build {cfg s t} (res : StartRes) (h : Extra cfg s) (hp : PreBuild cfg s) (hn : s.next = some t)
    (hav : s.avail ≠ []) (hno : cfg.keepGoing = false → ∀ b t, Ev.failed b t ∉ s.log) :
    Extra cfg (buildNextTarget cfg res s) := by
  cases ha : s.avail with
  | nil => exact absurd ha hav
  | cons e rest =>
    have hb : Extra cfg (Sched.begin e t rest s) := by
      refine ⟨?_, ?_, h.died, h.two⟩
      · show (s.log ++ [Ev.started s.build t]).countP isStart = s.busy.length + 1 + (s.log ++ [Ev.started s.build t]).countP isEnd
        have := h.count
        have e1 : ([Ev.started s.build t] : List Ev).countP isStart = 1 := rfl
        have e2 : ([Ev.started s.build t] : List Ev).countP isEnd = 0 := rfl
        rw [List.countP_append, List.countP_append, e1, e2]
        omega
      · intro hk
        exact (h.exc hk).append (by simp)
    rw [build_eq cfg res hn hp.ab ha]
    cases res with
    | running => exact hb.congr rfl rfl rfl rfl rfl
    | throws => exact h.exception hno rfl rfl rfl rfl rfl
    | sync f =>
      exact (hb.child (f := f) (hp.busy (t := t) ha) (List.mem_cons_self ..)).congr rfl rfl rfl rfl rfl

theorem LogInv.noFail {cfg s} (h : LogInv cfg s) (hab : s.aborted = false) :
    cfg.keepGoing = false → ∀ b t, Ev.failed b t ∉ s.log := by
  intro hk b t hm
  have := h.failAb hk b t hm
  rw [hab] at this
  cases this

theorem Extra.start {cfg s} (hb : Extra cfg s) (h : Inv cfg s) (o : Oracle) (hd : s.dead = false) (q : Nat) :
    Extra cfg (startProcesses cfg o { s with queued := q }) := by
  have hb0 : Extra cfg { s with queued := q } := hb.congr rfl rfl rfl rfl rfl
  unfold startProcesses
  split
  · exact hb0
  · next hc =>
    simp only [Bool.or_eq_true, List.isEmpty_iff, not_or, Bool.not_eq_true] at hc
    obtain ⟨⟨hab, hacq⟩, hav⟩ := hc
    have hab : s.aborted = false := hab
    have hacq : s.acquiring = false := hacq
    have hav : s.avail ≠ [] := hav
    have hn := h.idle hab hacq
    have hl0 : LogInv cfg { s with queued := q } := h.lg.congr rfl rfl rfl id id rfl rfl rfl rfl (fun _ => rfl)
    have hf := findNext_spec cfg o (s.g.ids.length + 1) { s with queued := q } hl0 hab hn
    simp only [hn, Option.isNone_none, if_true]
    have hf' : FindRes cfg { s with queued := q } (s.g.ids.length + 1)
      (findNextTarget cfg o (s.g.ids.length + 1) { s with queued := q, next := none }) := by
      have e : ({ s with queued := q, next := none } : St) = { s with queued := q } := by
        cases s; simp only at hn; subst hn; rfl
      rw [e]; exact hf
    clear hf
    obtain ⟨evs, hq, hlg⟩ := findNext_log cfg o (s.g.ids.length + 1) { s with queued := q, next := none }
    generalize findNextTarget cfg o (s.g.ids.length + 1) { s with queued := q, next := none } = res at hf' hlg
    cases res with
    | error s1 =>
      obtain ⟨⟨f1, f2, f3⟩, f4, f5⟩ := hf'
      have hab1 : s1.aborted = false := by rw [f1]; exact hab
      have hb1 : Extra cfg s1 := hb0.quiet hq hlg (by rw [f1]) (by rw [f1]) (by rw [f1]) (by rw [f1])
      exact hb1.exception (f2.noFail hab1) rfl rfl rfl rfl rfl
    | ok s1 =>
      obtain ⟨⟨f1, f2, f3⟩, f4, f5⟩ := hf'
      have hab1 : s1.aborted = false := by rw [f1]; exact hab
      have hacq1 : s1.acquiring = false := by rw [f1]; exact hacq
      have hav1 : s1.avail ≠ [] := by rw [f1]; exact hav
      have hd1 : s1.dead = false := by rw [f1]; exact hd
      have hb1 : Extra cfg s1 := hb0.quiet hq hlg (by rw [f1]) (by rw [f1]) (by rw [f1]) (by rw [f1])
      have hex1 : ExecInv cfg s1 := by
        rw [f1]
        exact h.ex.congr rfl rfl rfl rfl rfl (fun hh => by rw [hacq] at hh; cases hh) id
          h.ex.frames0 rfl rfl rfl rfl
      simp only
      split
      · next hns =>
        obtain ⟨t, ht⟩ := Option.isSome_iff_exists.1 hns
        split
        · next hr => exact hb1.build o.res (hex1.pre0 hr hacq1 hab1) ht hav1 (f2.noFail hab1)
        · exact hb1.congr rfl rfl rfl rfl rfl
      · split
        · split
          · exact hb1.congr rfl rfl rfl rfl rfl
          · next t rest hpe =>
            have hroot : cfg.targets[s1.build + 1]? = some t := by
              have hpend := f2.pend hab1
              rw [hpe] at hpend
              have := congrArg (·[0]?) hpend
              simpa using this.symm
            unfold rebuild
            split
            · refine ⟨hb1.count, hb1.exc, ?_, hb1.two⟩
              intro hh
              have : s1.dead = true := hh
              rw [hd1] at this
              cases this
            · next er he => exact ⟨hb1.count, hb1.exc, fun _ => ⟨t, er, hroot, he⟩, hb1.two⟩
        · exact hb1

theorem Extra.step {cfg s s' ev} (hb : Extra cfg s) (h : Inv cfg s) (hs : step cfg s ev = some s') : Extra cfg s' := by
  cases ev with
  | startProcesses o =>
    simp only [Sched.step] at hs
    split at hs
    · next hd =>
      simp only [Option.some.injEq] at hs
      subst hs
      exact hb.start h o hd.1 _
    · cases hs
  | grant =>
    simp only [Sched.step] at hs
    split at hs
    · simp only [Option.some.injEq] at hs
      subst hs
      exact hb.congr rfl rfl rfl rfl rfl
    · cases hs
  | acquired res inWait =>
    simp only [Sched.step] at hs
    split at hs
    · next hc =>
      simp only [Option.some.injEq] at hs
      obtain ⟨hd, hg, hw1, hw2⟩ := hc
      have hacq := h.ex.gr hg
      obtain ⟨t, ht⟩ := Option.isSome_iff_exists.1 (h.ex.acqNext hacq)
      have hb0 : Extra cfg { s with acquiring := false, granted := false } := hb.congr rfl rfl rfl rfl rfl
      have hb2 : Extra cfg (buildNextTarget cfg res { s with acquiring := false, granted := false }) := by
        by_cases hab : s.aborted = false
        · exact hb0.build res (h.ex.preAcq hg hab) ht (h.ex.acqAvail hacq) (h.lg.noFail hab)
        · rw [build_aborted (s := { s with acquiring := false, granted := false }) cfg res ht (by simpa using hab)]
          exact hb0
      rw [← hs]
      cases inWait
      · exact hb2
      · exact hb2.congr rfl rfl rfl rfl rfl
    · cases hs
  | childFinished e f =>
    simp only [Sched.step] at hs
    split at hs
    · cases hs
    · next hd =>
      split at hs
      · next p t hf =>
        simp only [Option.some.injEq] at hs
        subst hs
        have h1 := List.mem_of_find?_eq_some hf
        have h2 := List.find?_some hf
        simp only [decide_eq_true_eq] at h2
        subst h2
        exact hb.child h.ex h1
      · cases hs
  | abortDone =>
    simp only [Sched.step] at hs
    split at hs
    · simp only [Option.some.injEq] at hs
      subst hs
      exact hb.congr rfl rfl rfl rfl rfl
    · cases hs

theorem Extra.init (cfg : Cfg) : Extra cfg (init cfg) := by
  have key : ∀ s : St, s.log = [] → s.busy = [] → (∀ e, s.buffered e = decide (e ≠ 0)) →
      (s.dead = true → ∃ r e, cfg.targets[s.build]? = some r ∧ Graph.build (cfg.deps s.build) cfg.fuel r = .error e) →
      Extra cfg s := by
    intro s h1 h2 h3 h4
    refine ⟨by rw [h1, h2]; rfl, fun _ l1 l2 b t hl => ?_, h4, ?_⟩
    · rw [h1] at hl; simp at hl
    · intro _ x y _ _ hx hy
      rw [h3] at hx hy
      simp at hx hy
      rw [hx, hy]
  unfold Sched.init
  extract_lets s
  split
  · exact key _ rfl rfl (fun _ => rfl) (fun hh => by cases hh)
  · next t rest ht =>
    unfold rebuild
    split <;> split
    · exact key _ rfl rfl (fun _ => rfl) (fun hh => by cases hh)
    · exact key _ rfl rfl (fun _ => rfl) (fun hh => by cases hh)
    · next he _ => exact key _ rfl rfl (fun _ => rfl) (fun _ => ⟨t, _, by simp [ht], he⟩)
    · next he _ => exact key _ rfl rfl (fun _ => rfl) (fun _ => ⟨t, _, by simp [ht], he⟩)

theorem Extra.run {cfg} : ∀ {es s s'}, Extra cfg s → Inv cfg s → run cfg s es = some s' → Extra cfg s' := by
  intro es
  induction es with
  | nil => intro s s' hb h hr; simp only [Sched.run, Option.some.injEq] at hr; subst hr; exact hb
  | cons e es ih =>
    intro s s' hb h hr
    simp only [Sched.run] at hr
    cases hs : Sched.step cfg s e with
    | none => rw [hs] at hr; cases hr
    | some s1 =>
      rw [hs] at hr
      exact ih (hb.step h hs) (h.step hs) hr

theorem Reachable.extra {cfg s} (h : Reachable cfg s) : Extra cfg s := by
  obtain ⟨es, he⟩ := h
  exact (Extra.init cfg).run (Inv.init cfg) he

end Jom.Sched
