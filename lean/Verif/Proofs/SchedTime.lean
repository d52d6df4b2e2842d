/- How long a build takes. -/
import Verif.Model.Timed
import Verif.Spec.Chain
import Verif.Proofs.SchedFull

namespace Jom.Sched

open Jom.Graph Jom.Spec Relation

structure Advances (s s' : St) : Prop where
  ab : s'.aborted = false → s.aborted = false
  log : ∃ evs, s'.log = s.log ++ evs
  build : s'.build = s.build ∨ s'.build = s.build + 1

theorem Advances.refl (s : St) : Advances s s := ⟨id, ⟨[], (List.append_nil _).symm⟩, Or.inl rfl⟩

theorem Advances.child (cfg : Cfg) (e t : Nat) (f : Bool) (s : St) : Advances s (childFinished cfg e t f s) := by
  have hc := childFinished_fields cfg e t f s
  refine ⟨fun h => ?_, ⟨_, hc.log⟩, Or.inl hc.build⟩
  rw [hc.aborted, Bool.or_eq_false_iff] at h
  exact h.1

theorem Advances.buildNext (cfg : Cfg) (res : StartRes) (s : St) : Advances s (buildNextTarget cfg res s) := by
  unfold buildNextTarget
  split
  · exact ⟨id, ⟨[], (List.append_nil _).symm⟩, Or.inl rfl⟩
  · next t hn =>
    split
    · exact Advances.refl s
    · next hab =>
      have hab : s.aborted = false := by simpa using hab
      split
      · exact ⟨id, ⟨[], (List.append_nil _).symm⟩, Or.inl rfl⟩
      · next e rest ha =>
        cases res with
        | throws => exact ⟨fun _ => hab, ⟨_, rfl⟩, Or.inl rfl⟩
        | running => exact ⟨fun _ => hab, ⟨_, rfl⟩, Or.inl rfl⟩
        | sync f =>
          have hc := childFinished_fields cfg e t f (begin e t rest s)
          refine ⟨fun _ => hab, ⟨[Ev.started s.build t, if f then Ev.failed s.build t else Ev.succeeded s.build t], ?_⟩, Or.inl hc.build⟩
          have : (begun (childFinished cfg e t f (begin e t rest s))).log =
            (childFinished cfg e t f (begin e t rest s)).log := rfl
          rw [this, hc.log]
          simp only [begin, List.append_assoc, List.cons_append, List.nil_append]

theorem Advances.start {cfg s} (h : Inv cfg s) (o : Oracle) (q : Nat) :
    Advances s (startProcesses cfg o { s with queued := q }) := by
  unfold startProcesses
  split
  · exact ⟨id, ⟨[], (List.append_nil _).symm⟩, Or.inl rfl⟩
  · next hc =>
    simp only [Bool.or_eq_true, List.isEmpty_iff, not_or, Bool.not_eq_true] at hc
    obtain ⟨⟨hab, hacq⟩, hav⟩ := hc
    have hab : s.aborted = false := hab
    have hacq : s.acquiring = false := hacq
    have hn := h.idle hab hacq
    have hl0 : LogInv cfg { s with queued := q } := h.lg.congr rfl rfl rfl id id rfl rfl rfl rfl (fun _ => rfl)
    have hf := findNext_spec cfg o (s.g.ids.length + 1) { s with queued := q } hl0 hab hn
    have hlog := findNext_log cfg o (s.g.ids.length + 1) { s with queued := q }
    simp only [hn, Option.isNone_none, if_true]
    have e : ({ s with queued := q, next := none } : St) = { s with queued := q } := by
      cases s; simp only at hn; subst hn; rfl
    rw [← e] at hf hlog
    simp only at hlog
    generalize findNextTarget cfg o (s.g.ids.length + 1) { s with queued := q, next := none } = res at hf hlog
    obtain ⟨evs, _, hlog⟩ := hlog
    cases res with
    | error s1 =>
      obtain ⟨⟨f1, f2, f3⟩, f4, f5⟩ := hf
      simp only [resLog] at hlog
      refine ⟨fun _ => hab, ⟨evs ++ [.exception], ?_⟩, Or.inl (by rw [f1]; rfl)⟩
      simp only [onException, finishBuild, hlog, List.append_assoc]
    | ok s1 =>
      obtain ⟨⟨f1, f2, f3⟩, f4, f5⟩ := hf
      simp only [resLog] at hlog
      have hb1 : s1.build = s.build := by rw [f1]
      have key : ∀ s2, Advances s1 s2 → Advances s s2 := by
        intro s2 hm
        obtain ⟨evs2, h2⟩ := hm.log
        refine ⟨fun _ => hab, ⟨evs ++ evs2, by rw [h2, hlog, List.append_assoc]⟩, ?_⟩
        rw [← hb1]
        exact hm.build
      simp only
      apply key
      split
      · split
        · exact Advances.buildNext ..
        · exact ⟨id, ⟨[], (List.append_nil _).symm⟩, Or.inl rfl⟩
      · split
        · split
          · exact ⟨id, ⟨[], (List.append_nil _).symm⟩, Or.inl rfl⟩
          · unfold rebuild
            split
            · exact ⟨id, ⟨[], (List.append_nil _).symm⟩, Or.inr rfl⟩
            · exact ⟨id, ⟨[], (List.append_nil _).symm⟩, Or.inr rfl⟩
        · exact Advances.refl _

theorem Advances.step {cfg s s' ev} (h : Inv cfg s) (hs : step cfg s ev = some s') : Advances s s' ∧ s.dead = false := by
  cases ev with
  | startProcesses o =>
    simp only [Sched.step] at hs
    split at hs
    · next hc =>
      simp only [Option.some.injEq] at hs
      subst hs
      exact ⟨Advances.start h o _, hc.1⟩
    · cases hs
  | grant =>
    simp only [Sched.step] at hs
    split at hs
    · next hc =>
      simp only [Option.some.injEq] at hs
      subst hs
      exact ⟨⟨id, ⟨[], (List.append_nil _).symm⟩, Or.inl rfl⟩, hc.1⟩
    · cases hs
  | acquired res inWait =>
    simp only [Sched.step] at hs
    split at hs
    · next hc =>
      simp only [Option.some.injEq] at hs
      have hm := Advances.buildNext cfg res { s with acquiring := false, granted := false }
      rw [← hs]
      refine ⟨?_, hc.1⟩
      cases inWait
      · exact ⟨hm.ab, hm.log, hm.build⟩
      · exact ⟨hm.ab, hm.log, hm.build⟩
    · cases hs
  | childFinished e f =>
    simp only [Sched.step] at hs
    split at hs
    · cases hs
    · next hd =>
      split at hs
      · simp only [Option.some.injEq] at hs
        subst hs
        exact ⟨Advances.child cfg e _ f s, by simpa using hd⟩
      · cases hs
  | abortDone =>
    simp only [Sched.step] at hs
    split at hs
    · next hc =>
      simp only [Option.some.injEq] at hs
      subst hs
      exact ⟨⟨id, ⟨[], (List.append_nil _).symm⟩, Or.inl rfl⟩, hc.1⟩
    · cases hs

/-- While the same requested target is made no node is added. -/
theorem Advances.ids {cfg s s'} (hm : Advances s s') (h : Inv cfg s) (h' : Inv cfg s') (hd : s.dead = false)
    (hab : s'.aborted = false) (hb : s'.build = s.build) {x : Nat} (hx : x ∈ s'.g.ids) : x ∈ s.g.ids := by
  obtain ⟨r, hr, hrx⟩ := h'.lg.ginv.reach x hx
  rw [hb] at hr hrx
  rcases h.lg.reachSettled with hc | hc | hc
  · exact absurd hc.2.1 (by rw [hm.ab hab]; simp)
  · rw [hd] at hc; cases hc
  · refine (hc r hr x hrx).resolve_right (fun hse => h'.lg.notSettled x hx ?_)
    obtain ⟨evs, hl⟩ := hm.log
    rw [hb, St.settled, hl, List.filterMap_append]
    exact List.mem_append_left _ hse

/-- What it means that jom waits for a process. -/
theorem Waits.quiet {cfg s} (h : Waits cfg s) (hi : Inv cfg s) (hab : s.aborted = false) (hd : s.dead = false) :
    s.queued = 0 ∧ s.acquiring = false := by
  constructor
  · apply Classical.byContradiction
    intro hq
    have hstep : (Sched.step cfg s (.startProcesses ⟨fun _ _ _ => false, fun _ _ => true, fun _ => false, .running⟩)).isSome = true := by
      simp only [Sched.step]
      rw [if_pos ⟨hd, by omega⟩]
      rfl
    obtain ⟨e, f, hx⟩ := h _ ⟨hstep, (fun hh => by cases hh)⟩
    cases hx
  · cases ha : s.acquiring with
    | false => rfl
    | true =>
      cases hg : s.granted with
      | false =>
        have hstep : (Sched.step cfg s .grant).isSome = true := by
          simp only [Sched.step]
          rw [if_pos ⟨hd, ha, hg⟩]
          rfl
        have hfree : (s.taken : Int) - s.relChild - s.relWait < (cfg.jobs : Int) - 1 := by
          obtain ⟨d, t1, t2, t3, t4⟩ := hi.ex.tok
          have t5 := hi.ex.tokInt
          have t6 := hi.ex.avail_length
          have t7 : 0 < s.avail.length := List.length_pos_iff.2 (hi.ex.acqAvail ha)
          simp only [ha, hg, Bool.toNat_true, Bool.toNat_false] at t2 t4 t5
          omega
        obtain ⟨e, f, hx⟩ := h _ ⟨hstep, fun _ => hfree⟩
        cases hx
      | true =>
        have hstep : (Sched.step cfg s (.acquired .running false)).isSome = true := by
          simp only [Sched.step]
          rw [if_pos ⟨hd, hg, by simp, fun _ => Or.inr (hi.ex.frames0 hab)⟩]
          rfl
        obtain ⟨e, f, hx⟩ := h _ ⟨hstep, (fun hh => by cases hh)⟩
        cases hx

/-- While no call is posted, no token is awaited and an executor is free, every node depends on a running one. -/
theorem Reachable.below {cfg s} (hr : Reachable cfg s) (hq : s.queued = 0) (ha : s.acquiring = false) (hab : s.aborted = false)
    (hd : s.dead = false) (hac : AcTo cfg s.build) (hfree : s.busy.length < cfg.jobs) {x : Nat} (hx : x ∈ s.g.ids) :
    ∃ y ∈ s.busy.map (·.2), Reaches (cfg.deps s.build) x y := by
  have hi := hr.inv
  obtain ⟨y, hy, hxy⟩ := GInv.toLeaf hi.lg.ginv (fun r hr => hac _ (Nat.le_refl _) r hr) hx
  refine ⟨y, ?_, hxy⟩
  have hne : s.avail ≠ [] := by
    intro h0
    have := hi.ex.avail_length
    rw [h0, hi.ex.stuckAb hab] at this
    simp only [List.length_nil] at this
    omega
  have hexec := (hr.full hab hd ha hq).resolve_left hne y hy
  refine (hi.lg.exec hab y ((hi.lg.ginv.lv y).1 hy).1 hexec).resolve_right ?_
  rw [hi.idle hab ha]
  exact fun hh => by cases hh

/-- While jom waits and an executor is free every node depends on a running one. -/
theorem Waits.below {cfg s} (h : Waits cfg s) (hr : Reachable cfg s) (hab : s.aborted = false) (hd : s.dead = false)
    (hac : AcTo cfg s.build) (hfree : s.busy.length < cfg.jobs) {x : Nat} (hx : x ∈ s.g.ids) :
    ∃ y ∈ s.busy.map (·.2), Reaches (cfg.deps s.build) x y := by
  obtain ⟨hq, ha⟩ := h.quiet hr.inv hab hd
  exact hr.below hq ha hab hd hac hfree hx

theorem Reachable.next {cfg s s' ev} (h : Reachable cfg s) (hs : step cfg s ev = some s') : Reachable cfg s' := by
  obtain ⟨es, he⟩ := h
  refine ⟨es ++ [ev], ?_⟩
  have key : ∀ (es : List Event) (a : St), Sched.run cfg a es = some s → Sched.run cfg a (es ++ [ev]) = some s' := by
    intro es
    induction es with
    | nil =>
      intro a ha
      simp only [Sched.run, Option.some.injEq] at ha
      subst ha
      simp only [List.nil_append, Sched.run, hs]
      rfl
    | cons e es ih =>
      intro a ha
      simp only [Sched.run, List.cons_append] at ha ⊢
      cases h1 : Sched.step cfg a e with
      | none => rw [h1] at ha; cases ha
      | some b =>
        rw [h1] at ha
        exact ih b ha
  exact key es _ he

theorem Timed.reachable {cfg dur s spent time} (h : Timed cfg dur s spent time) : Reachable cfg s := by
  induction h with
  | init => exact ⟨[], rfl⟩
  | act _ hs ih => exact ih.next hs
  | tick _ _ _ _ ih => exact ih

theorem _root_.Jom.Spec.Chain.head {needs : Nat → Nat → Prop} {x : Nat} {c : List Nat} (h : Chain needs x c) : x ∈ c := by
  cases h <;> simp

theorem _root_.Jom.Spec.Chain.above {needs : Nat → Nat → Prop} {x y : Nat} {c : List Nat} (hxy : ReflTransGen needs x y) (h : Chain needs y c) :
    ∃ c', Chain needs x c' ∧ ∀ w : Nat → Nat, total w c ≤ total w c' := by
  induction hxy using ReflTransGen.head_induction_on with
  | refl => exact ⟨c, h, fun _ => Nat.le_refl _⟩
  | head h1 _ ih =>
    obtain ⟨c', h2, h3⟩ := ih
    exact ⟨_, .cons h1 h2, fun w => Nat.le_trans (h3 w) (Nat.le_add_left _ _)⟩

theorem total_le {w w' : Nat → Nat} (h : ∀ x, w x ≤ w' x) : ∀ c : List Nat, total w c ≤ total w' c
  | [] => Nat.le_refl _
  | x :: c => Nat.add_le_add (h x) (total_le h c)

theorem total_lt {w w' : Nat → Nat} (h : ∀ x, w x ≤ w' x) {y : Nat} (hy : w y < w' y) :
    ∀ c : List Nat, y ∈ c → total w c < total w' c
  | [], hc => by cases hc
  | x :: c, hc => by
    rcases List.mem_cons.1 hc with rfl | hc
    · exact Nat.add_lt_add_of_lt_of_le hy (total_le h c)
    · exact Nat.add_lt_add_of_le_of_lt (h x) (total_lt h hy c hc)

/-- Work done on the targets that were started. -/
def done (spent : Nat → Nat → Nat) : List (Nat × Nat) → Nat
  | [] => 0
  | k :: ks => spent k.1 k.2 + done spent ks

theorem done_append (spent : Nat → Nat → Nat) (a b : List (Nat × Nat)) : done spent (a ++ b) = done spent a + done spent b := by
  induction a with
  | nil => simp [done]
  | cons k a ih => simp only [List.cons_append, done, ih]; omega

theorem clock_le (s : St) (spent : Nat → Nat → Nat) (b t : Nat) : spent b t ≤ clock s spent b t := by
  unfold clock
  split <;> omega

/-- A tick is work for every running target. -/
theorem done_clock (s : St) (spent : Nat → Nat → Nat) : ∀ (keys : List (Nat × Nat)) (b : List Nat), keys.Nodup → b.Nodup →
    (∀ t ∈ b, t ∈ s.busy.map (·.2)) → (∀ t ∈ b, (s.build, t) ∈ keys) → done spent keys + b.length ≤ done (clock s spent) keys := by
  intro keys
  induction keys with
  | nil =>
    intro b _ _ _ hb
    cases b with
    | nil => exact Nat.le_refl _
    | cons t b => exact absurd (hb t List.mem_cons_self) (by simp)
  | cons k keys ih =>
    intro b hk hbn hbusy hb
    obtain ⟨hk1, hk2⟩ := List.nodup_cons.1 hk
    by_cases hkb : k.1 = s.build ∧ k.2 ∈ b
    · have h2 := ih (b.erase k.2) hk2 (hbn.erase _) (fun t ht => hbusy t (List.mem_of_mem_erase ht)) (fun t ht => by
        have hne := (hbn.mem_erase_iff.1 ht)
        rcases List.mem_cons.1 (hb t hne.2) with h3 | h3
        · exact absurd (by rw [← h3]) hne.1
        · exact h3)
      have hlen := List.length_erase_of_mem hkb.2
      have hpos := List.length_pos_of_mem hkb.2
      have hc : clock s spent k.1 k.2 = spent k.1 k.2 + 1 := if_pos ⟨hkb.1, hbusy _ hkb.2⟩
      simp only [done, hc]
      omega
    · have h2 := ih b hk2 hbn hbusy (fun t ht => by
        rcases List.mem_cons.1 (hb t ht) with h3 | h3
        · exact absurd ⟨by rw [← h3], by rw [← h3]; exact ht⟩ hkb
        · exact h3)
      have := clock_le s spent k.1 k.2
      simp only [done]
      omega

/-- Time accounting: `idle b` is the time in which an executor was free while the `b`-th requested target was made. -/
structure TimeInv (cfg : Cfg) (dur : Nat → Nat → Nat) (s : St) (spent : Nat → Nat → Nat) (time : Nat) (idle : Nat → Nat) :
    Prop where
  work : cfg.jobs * time ≤ done spent (s.log.filterMap startKey) + (cfg.jobs - 1) * total idle (List.range (s.build + 1))
  le : ∀ b t, spent b t ≤ dur b t
  fresh : ∀ b, s.build < b → idle b = 0
  other : ∀ b, cfg.targets[b]? = none → idle b = 0
  root : ∀ b r, cfg.targets[b]? = some r → ∃ c, Chain (DependsOn (cfg.deps b)) r c ∧ idle b ≤ total (spent b) c
  ids : ∀ x ∈ s.g.ids, ∃ c, Chain (DependsOn (cfg.deps s.build)) x c ∧ idle s.build ≤ total (spent s.build) c

theorem total_range_succ (w : Nat → Nat) (n : Nat) : total w (List.range (n + 1)) = total w (List.range n) + w n := by
  have key : ∀ a b : List Nat, total w (a ++ b) = total w a + total w b := by
    intro a b
    induction a with
    | nil => simp [total]
    | cons k a ih => simp only [List.cons_append, total, ih]; omega
  rw [List.range_succ, key]
  simp [total]

theorem total_range_upd (w : Nat → Nat) (b : Nat) : ∀ n, b < n →
    total (fun i => if i = b then w i + 1 else w i) (List.range n) = total w (List.range n) + 1 := by
  have before : ∀ n, n ≤ b → total (fun i => if i = b then w i + 1 else w i) (List.range n) = total w (List.range n) := by
    intro n
    induction n with
    | zero => intro _; rfl
    | succ n ih =>
      intro hn
      rw [total_range_succ, total_range_succ, ih (by omega), if_neg (by omega)]
  intro n
  induction n with
  | zero => intro h; omega
  | succ n ih =>
    intro h
    rw [total_range_succ, total_range_succ]
    by_cases hb : n = b
    · rw [before n (by omega), if_pos hb]; omega
    · rw [ih (by omega), if_neg hb]; omega

theorem TimeInv.act {cfg dur s s' spent time idle ev} (h : TimeInv cfg dur s spent time idle) (hi : Inv cfg s)
    (hs : step cfg s ev = some s') (hab : s'.aborted = false) : TimeInv cfg dur s' spent time idle := by
  obtain ⟨hm, hd⟩ := Advances.step hi hs
  have hi' := hi.step hs
  obtain ⟨evs, hl⟩ := hm.log
  have hdone : done spent (s.log.filterMap startKey) ≤ done spent (s'.log.filterMap startKey) := by
    rw [hl, List.filterMap_append, done_append]
    omega
  refine ⟨?_, h.le, fun b hb => h.fresh b ?_, h.other, h.root, fun x hx => ?_⟩
  · rcases hm.build with hb | hb
    · rw [hb]; have := h.work; omega
    · rw [hb, total_range_succ, h.fresh (s.build + 1) (by omega)]
      have := h.work
      simp only [Nat.add_zero]
      omega
  · rcases hm.build with hb' | hb' <;> omega
  · rcases hm.build with hb | hb
    · rw [hb]
      exact h.ids x (hm.ids hi hi' hd hab hb hx)
    · refine ⟨[x], .last x, ?_⟩
      rw [h.fresh s'.build (by omega)]
      exact Nat.zero_le _

theorem TimeInv.tick {cfg dur s spent time idle} (h : TimeInv cfg dur s spent time idle) (hr : Reachable cfg s)
    (hne : s.busy ≠ []) (hw : Waits cfg s) (hle : ∀ p ∈ s.busy, spent s.build p.2 < dur s.build p.2)
    (hab : s.aborted = false) (hac : AcTo cfg s.build) : ∃ idle', TimeInv cfg dur s (clock s spent) (time + 1) idle' := by
  have hi := hr.inv
  have hd : s.dead = false := by
    cases hd : s.dead with
    | false => rfl
    | true => exact absurd (hi.deadExit hd).2.2.2 hne
  have hdone : done spent (s.log.filterMap startKey) + s.busy.length ≤ done (clock s spent) (s.log.filterMap startKey) := by
    have := done_clock s spent (s.log.filterMap startKey) (s.busy.map (·.2)) hi.lg.startOnce hi.lg.busyNodup (fun _ ht => ht)
      (fun t ht => by
        obtain ⟨p, hp, rfl⟩ := List.mem_map.1 ht
        exact List.mem_filterMap.2 ⟨_, hi.lg.busyStart p hp, rfl⟩)
    rwa [List.length_map] at this
  have hdur : ∀ b t, clock s spent b t ≤ dur b t := by
    intro b t
    unfold clock
    split
    · next hc =>
      obtain ⟨rfl, hc⟩ := hc
      obtain ⟨p, hp, rfl⟩ := List.mem_map.1 hc
      exact hle p hp
    · exact h.le b t
  have hmono : ∀ b c, total (spent b) c ≤ total (clock s spent b) c := fun b c => total_le (clock_le s spent b) c
  have hpos := List.length_pos_iff.2 hne
  have hlen := hi.ex.avail_length
  have hstuck := hi.ex.stuckAb hab
  rw [hstuck] at hlen
  simp only [List.length_nil, Nat.add_zero] at hlen
  have hmul : cfg.jobs * (time + 1) = cfg.jobs * time + cfg.jobs := Nat.mul_succ ..
  by_cases hfull : s.busy.length < cfg.jobs
  · have key : ∀ x ∈ s.g.ids, ∃ c, Chain (DependsOn (cfg.deps s.build)) x c ∧ idle s.build + 1 ≤ total (clock s spent s.build) c := by
      intro x hx
      obtain ⟨y, hy, hxy⟩ := hw.below hr hab hd hac hfull hx
      have hyid : y ∈ s.g.ids := by
        obtain ⟨p, hp, rfl⟩ := List.mem_map.1 hy
        rcases hi.lg.busyOk with hc | hc
        · exact absurd hc.2.1 (by rw [hab]; simp)
        · exact (hc p hp).1
      obtain ⟨c, hc, hle2⟩ := h.ids y hyid
      obtain ⟨c', hc', hle3⟩ := Chain.above hxy hc
      refine ⟨c', hc', Nat.le_trans ?_ (hle3 _)⟩
      have : spent s.build y < clock s spent s.build y := by
        unfold clock
        rw [if_pos ⟨rfl, hy⟩]
        omega
      have := total_lt (clock_le s spent s.build) this c hc.head
      omega
    refine ⟨fun i => if i = s.build then idle i + 1 else idle i, ?_, hdur, fun b hb => ?_, fun b hb => ?_,
      fun b r hb => ?_, fun x hx => ?_⟩
    · have hup := total_range_upd idle s.build (s.build + 1) (by omega)
      have := h.work
      have hm2 : (cfg.jobs - 1) * (total idle (List.range (s.build + 1)) + 1) =
        (cfg.jobs - 1) * total idle (List.range (s.build + 1)) + (cfg.jobs - 1) := Nat.mul_succ ..
      rw [hup, hm2, hmul]
      omega
    · rw [if_neg (by omega)]
      exact h.fresh b hb
    · rw [if_neg]
      · exact h.other b hb
      · rintro rfl
        obtain ⟨p, hp⟩ := List.exists_mem_of_ne_nil _ hne
        rcases hi.lg.busyOk with hc | hc
        · exact absurd hc.2.1 (by rw [hab]; simp)
        · obtain ⟨r', hr', _⟩ := hi.lg.ginv.reach _ (hc p hp).1
          rw [hb] at hr'
          cases hr'
    · split
      · next hbb =>
        subst hbb
        obtain ⟨p, hp⟩ := List.exists_mem_of_ne_nil _ hne
        have hpid : p.2 ∈ s.g.ids := by
          rcases hi.lg.busyOk with hc | hc
          · exact absurd hc.2.1 (by rw [hab]; simp)
          · exact (hc p hp).1
        obtain ⟨r', hr', hrp⟩ := hi.lg.ginv.reach _ hpid
        rw [hb] at hr'
        cases hr'
        refine key r ?_
        rcases reflTransGen_iff_eq_or_transGen.1 hrp with heq | htr
        · rw [← heq]; exact hpid
        · exact GInv.upTrans hi.lg.ginv hb htr hpid .refl
      · obtain ⟨c, hc, hle2⟩ := h.root b r hb
        exact ⟨c, hc, Nat.le_trans hle2 (hmono b c)⟩
    · simp only [if_true]
      exact key x hx
  · refine ⟨idle, ?_, hdur, h.fresh, h.other, fun b r hb => ?_, fun x hx => ?_⟩
    · have := h.work
      omega
    · obtain ⟨c, hc, hle2⟩ := h.root b r hb
      exact ⟨c, hc, Nat.le_trans hle2 (hmono b c)⟩
    · obtain ⟨c, hc, hle2⟩ := h.ids x hx
      exact ⟨c, hc, Nat.le_trans hle2 (hmono _ c)⟩

theorem Timed.inv {cfg dur s spent time} (h : Timed cfg dur s spent time) (hab : s.aborted = false)
    (hac : AcTo cfg s.build) : ∃ idle, TimeInv cfg dur s spent time idle := by
  induction h with
  | init =>
    refine ⟨fun _ => 0, by simp, fun _ _ => Nat.zero_le _, fun _ _ => rfl, fun _ _ => rfl, fun b r _ => ⟨[r], .last r, Nat.zero_le _⟩,
      fun x _ => ⟨[x], .last x, Nat.zero_le _⟩⟩
  | act ht hs ih =>
    obtain ⟨hm, _⟩ := Advances.step ht.reachable.inv hs
    obtain ⟨idle, hi⟩ := ih (hm.ab hab) (hac.mono (by rcases hm.build with h | h <;> omega))
    exact ⟨idle, hi.act ht.reachable.inv hs hab⟩
  | tick ht hne hw hle ih =>
    obtain ⟨idle, hi⟩ := ih hab hac
    exact hi.tick ht.reachable hne hw hle hab hac

end Jom.Sched
