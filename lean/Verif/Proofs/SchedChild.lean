/- Invariants of the scheduler: the end of a target. -/
import Verif.Proofs.SchedLog

namespace Jom.Sched

open Jom.Graph Jom.Spec Relation

/-- Edges to parents inside the graph are reversed dependencies. -/
theorem GInv.parTrans {deps root g} (h : GInv deps root g) {a x : Nat} (hp : TransGen (Par g) a x) :
    x ∈ g.ids ∧ DependsTrans deps x a ∧ ∃ c, c ∈ g.children x := by
  induction hp with
  | single h1 =>
    obtain ⟨h2, h3⟩ := (h.pa _ h1.1 _).1 h1.2
    exact ⟨h2, TransGen.single h3, _, (h.ch _ h2 _).2 ⟨h3, h1.1⟩⟩
  | tail _ h1 ih =>
    obtain ⟨h2, h3⟩ := (h.pa _ h1.1 _).1 h1.2
    exact ⟨h2, TransGen.head h3 ih.2.1, _, (h.ch _ h2 _).2 ⟨h3, h1.1⟩⟩

theorem GInv.transPar {deps root g} (h : GInv deps root g) {a x : Nat} (ha : a ∈ g.ids) (hx : x ∈ g.ids)
    (hd : DependsTrans deps x a) : TransGen (Par g) a x := by
  obtain ⟨r, hr, hrx⟩ := h.reach x hx
  clear hx
  induction hd using TransGen.head_induction_on with
  | single h1 =>
    exact TransGen.single ⟨ha, (h.pa _ ha _).2 ⟨h.up _ ha _ r hr hrx h1, h1⟩⟩
  | head h1 h2 ih =>
    have hc := hrx.tail h1
    have hci := GInv.upTrans h hr h2 ha hc
    exact (ih hc).tail ⟨hci, (h.pa _ hci _).2 ⟨h.up _ hci _ r hr hrx h1, h1⟩⟩

/-- The graph after the failure marking of `onChildFinished`. -/
structure Marked (cfg : Cfg) (s : St) (f : Bool) (t : Nat) (g1 : Graph) : Prop where
  ids : g1.ids = s.g.ids
  children : g1.children = s.g.children
  ginv : GInv (cfg.deps s.build) cfg.targets[s.build]? g1
  exec : ∀ x ∈ s.g.ids, g1.state x = .executing ↔ s.g.state x = .executing
  unb : ∀ x ∈ s.g.ids, g1.state x = .unbuildable →
    s.g.state x = .unbuildable ∨ (f = true ∧ DependsTrans (cfg.deps s.build) x t)
  keep : ∀ x ∈ s.g.ids, s.g.state x = .unbuildable → g1.state x = .unbuildable
  mark : f = true → cfg.keepGoing = true → AcTo cfg s.build → ∀ x ∈ s.g.ids, DependsTrans (cfg.deps s.build) x t →
    g1.state x = .unbuildable

theorem LogInv.marked {cfg s t} (h : LogInv cfg s) (f : Bool) (ht : t ∈ s.g.ids) :
    Marked cfg s f t (if f && cfg.keepGoing then markParents (s.g.ids.length + 1) s.g t else s.g) := by
  split
  · next hf =>
    simp only [Bool.and_eq_true] at hf
    obtain ⟨a, b, c, d, e⟩ := markParents_frame (s.g.ids.length + 1) s.g t
    have hin : ∀ a ∈ s.g.ids, ∀ b ∈ s.g.parents a, b ∈ s.g.ids :=
      fun a ha b hb => ((h.ginv.pa a ha b).1 hb).1
    have hs := fun x => markParents_sound (s.g.ids.length + 1) s.g t x hin ht
    have hg : markParents (s.g.ids.length + 1) s.g t =
        { s.g with state := (markParents (s.g.ids.length + 1) s.g t).state } := by
      generalize markParents (s.g.ids.length + 1) s.g t = gg at *
      cases gg
      simp only at *
      simp only [a, b, c, d, e]
    refine ⟨a, b, by rw [hg]; exact h.ginv.withState _, ?_, ?_, ?_, ?_⟩
    · intro x hx
      rcases (hs x).1 with h1 | ⟨h1, h2⟩
      · rw [h1]
      · refine ⟨fun h3 => (by rw [h1] at h3; cases h3), fun h3 => ?_⟩
        obtain ⟨_, _, c, hc⟩ := GInv.parTrans h.ginv h2
        rw [h.execLeaf x hx h3] at hc
        cases hc
    · intro x _ hu
      rcases (hs x).1 with h1 | ⟨h1, h2⟩
      · rw [h1] at hu; exact Or.inl hu
      · exact Or.inr ⟨hf.1, (GInv.parTrans h.ginv h2).2.1⟩
    · intro x _ hu
      exact (hs x).2 hu
    · intro _ _ hac x hx hd
      refine markParents_complete _ s.g t hin ht ?_ (Nat.le_succ_of_le (ancCount_le _ _)) x (GInv.transPar h.ginv ht hx hd)
      intro y hy
      obtain ⟨hyi, hyd, _⟩ := GInv.parTrans h.ginv hy
      obtain ⟨r, hr, hry⟩ := h.ginv.reach y hyi
      exact hac _ (Nat.le_refl _) r hr y hry hyd
  · next hf =>
    refine ⟨rfl, rfl, h.ginv, fun _ _ => Iff.rfl, fun _ _ h => Or.inl h, fun _ _ h => h, ?_⟩
    intro h1 h2
    exact absurd (by simp [h1, h2]) hf

theorem busy_unique : ∀ {l : List (Nat × Nat)} {p q : Nat × Nat}, (l.map (·.2)).Nodup → p ∈ l → q ∈ l → p.2 = q.2 →
    p = q := by
  intro l
  induction l with
  | nil => intro p q _ h; cases h
  | cons a l ih =>
    intro p q hnd hp hq he
    obtain ⟨h1, h2⟩ := List.nodup_cons.1 hnd
    rcases List.mem_cons.1 hp with h3 | hp' <;> rcases List.mem_cons.1 hq with h4 | hq'
    · rw [h3, h4]
    · rw [← h3] at h1; exact absurd (List.mem_map.2 ⟨q, hq', he.symm⟩) h1
    · rw [← h4] at h1; exact absurd (List.mem_map.2 ⟨p, hp', he⟩) h1
    · exact ih h2 hp' hq' he

theorem busy_unique1 : ∀ {l : List (Nat × Nat)} {p q : Nat × Nat}, (l.map (·.1)).Nodup → p ∈ l → q ∈ l → p.1 = q.1 →
    p = q := by
  intro l
  induction l with
  | nil => intro p q _ h; cases h
  | cons a l ih =>
    intro p q hnd hp hq he
    obtain ⟨h1, h2⟩ := List.nodup_cons.1 hnd
    rcases List.mem_cons.1 hp with h3 | hp' <;> rcases List.mem_cons.1 hq with h4 | hq'
    · rw [h3, h4]
    · rw [← h3] at h1; exact absurd (List.mem_map.2 ⟨q, hq', he.symm⟩) h1
    · rw [← h4] at h1; exact absurd (List.mem_map.2 ⟨p, hp', he⟩) h1
    · exact ih h2 hp' hq' he

/-- The end of a target does not run into undefined behaviour. -/
theorem LogInv.child_ub {cfg e t f s s'} (h : LogInv cfg s) (hb : (e, t) ∈ s.busy) (hc : ChildFields cfg e t f s s')
    (hu : s.ub = false) : s'.ub = false := by
  obtain ⟨g1, hg1, _, hub⟩ := hc.g
  rw [hub, hu]
  rcases h.busyOk with ⟨h1, _, h3⟩ | h1
  · rw [h3] at hg1
    simp only [Bool.and_false, Bool.false_eq_true, if_false] at hg1
    subst hg1
    simp [h1, h3]
  · obtain ⟨h2, h3⟩ := h1 _ hb
    have hm := h.marked f h2
    rw [← hg1] at hm
    simp [h2, hm.children, h.execLeaf _ h2 h3]

theorem LogInv.child {cfg e t f s s'} (h : LogInv cfg s) (hfst : (s.busy.map (·.1)).Nodup) (hb : (e, t) ∈ s.busy)
    (hc : ChildFields cfg e t f s s') (hnt : s.aborted = false → s.next ≠ some t) : LogInv cfg s' := by
  -- the list of running targets
  have hbm : ∀ p, p ∈ s'.busy ↔ p ∈ s.busy ∧ p.1 ≠ e := by
    intro p; rw [hc.busy]; simp
  have hbt : ∀ p ∈ s'.busy, p.2 ≠ t := by
    intro p hp he
    obtain ⟨h1, h2⟩ := (hbm p).1 hp
    exact h2 (by rw [busy_unique h.busyNodup h1 hb he])
  have hbk : ∀ x, x ∈ s.busy.map (·.2) → x ≠ t → x ∈ s'.busy.map (·.2) := by
    intro x hx hxt
    obtain ⟨p, hp, rfl⟩ := List.mem_map.1 hx
    refine List.mem_map.2 ⟨p, (hbm p).2 ⟨hp, ?_⟩, rfl⟩
    intro he
    exact hxt (by rw [busy_unique1 hfst hp hb he])
  have hbs : ∀ x, x ∈ s'.busy.map (·.2) → x ∈ s.busy.map (·.2) := by
    intro x hx
    obtain ⟨p, hp, rfl⟩ := List.mem_map.1 hx
    exact List.mem_map_of_mem ((hbm p).1 hp).1
  -- the log
  obtain ⟨ev, hev⟩ : ∃ ev, ev = (if f then Ev.failed s.build t else Ev.succeeded s.build t) := ⟨_, rfl⟩
  have hlog : s'.log = s.log ++ [ev] := by rw [hc.log, hev]
  have hset : s'.settled = s.settled ++ [(s.build, t)] := by
    rw [St.settled, hlog, List.filterMap_append]
    congr 1
    rw [hev]
    cases f <;> rfl
  have hkey : s'.log.filterMap startKey = s.log.filterMap startKey := by
    rw [hlog, List.filterMap_append, hev]
    cases f <;> simp [startKey]
  have hst : ∀ b x, Ev.started b x ∈ s'.log ↔ Ev.started b x ∈ s.log := by
    intro b x
    rw [hlog, List.mem_append, List.mem_singleton, hev]
    cases f <;> simp
  have hfail : ∀ b x, Ev.failed b x ∈ s'.log ↔ Ev.failed b x ∈ s.log ∨ (f = true ∧ b = s.build ∧ x = t) := by
    intro b x
    rw [hlog, List.mem_append, List.mem_singleton, hev]
    cases f <;> simp
  have hsucc : ∀ b x, Ev.succeeded b x ∈ s'.log → Ev.succeeded b x ∈ s.log ∨ (b = s.build ∧ x = t) := by
    intro b x
    rw [hlog, List.mem_append, List.mem_singleton, hev]
    cases f
    · simp
    · simpa using Or.inl
  have hother : ∀ b x, (Ev.upToDate b x ∈ s'.log ↔ Ev.upToDate b x ∈ s.log) ∧
      (Ev.noCommands b x ∈ s'.log ↔ Ev.noCommands b x ∈ s.log) ∧
      (Ev.unbuildable b x ∈ s'.log ↔ Ev.unbuildable b x ∈ s.log) := by
    intro b x
    rw [hlog]
    simp only [List.mem_append, List.mem_singleton, hev]
    cases f <;> simp
  have hns : ∀ b x, Ev.started b x ∉ [ev] := by
    intro b x
    rw [hev]
    cases f <;> simp
  have htu := h.busyUnset _ hb
  obtain ⟨g1, hg1, hg, _⟩ := hc.g
  -- the graph
  have main : GInv (cfg.deps s.build) cfg.targets[s.build]? s'.g ∧
      (Cleared cfg s' ∨ (¬ Cleared cfg s ∧ t ∈ s.g.ids ∧ Marked cfg s f t g1 ∧ s'.g.ids = s.g.ids.filter (· ≠ t) ∧
        s'.g.state = g1.state)) := by
    by_cases hab : (f && !cfg.keepGoing) = true
    · rw [if_pos hab] at hg
      refine ⟨by rw [hg]; exact ginv_clear .., Or.inl ⟨by rw [hg]; rfl, by rw [hc.aborted, hab]; simp, ?_⟩⟩
      simp only [Bool.and_eq_true, Bool.not_eq_true'] at hab
      exact hab.2
    · rw [if_neg hab] at hg
      rcases h.busyOk with h1 | h1
      · have hgs : s'.g = s.g := by
          rw [hg]
          rw [h1.2.2] at hg1
          simp only [Bool.and_false, Bool.false_eq_true, if_false] at hg1
          subst hg1
          unfold removeLeaf
          rw [h1.1]
          simp
        rw [hgs]
        exact ⟨h.ginv, Or.inl ⟨by rw [hgs]; exact h1.1, by rw [hc.aborted, h1.2.1]; rfl, h1.2.2⟩⟩
      · obtain ⟨hti, hte⟩ := h1 _ hb
        have hm := h.marked f hti
        rw [← hg1] at hm
        have hti1 : t ∈ g1.ids := by rw [hm.ids]; exact hti
        have hrl : removeLeaf g1 t = removeLeafNode g1 t := by
          unfold removeLeaf
          rw [if_pos hti1]
        rw [hrl] at hg
        obtain ⟨a, b⟩ := removeLeafNode_ids g1 t (hm.ginv.paNodup t hti1)
        refine ⟨by rw [hg]; exact hm.ginv.removeLeafNode hti1 (by rw [hm.children]; exact h.execLeaf t hti hte), ?_⟩
        refine Or.inr ⟨?_, hti, hm, by rw [hg, a, hm.ids], by rw [hg, b]⟩
        rintro ⟨h2, _, _⟩
        rw [h2] at hti
        cases hti
  obtain ⟨hginv, hmain⟩ := main
  have hsub : ∀ x ∈ s'.g.ids, x ∈ s.g.ids ∧ x ≠ t ∧ Marked cfg s f t g1 ∧ s'.g.state = g1.state := by
    intro x hx
    rcases hmain with h1 | ⟨_, _, h2, h3, h4⟩
    · rw [h1.1] at hx; cases hx
    · rw [h3] at hx
      simp only [List.mem_filter, ne_eq, decide_not, Bool.not_eq_eq_eq_not, Bool.not_true, decide_eq_false_iff_not] at hx
      exact ⟨hx.1, hx.2, h2, h4⟩
  have habs : s'.aborted = false → s.aborted = false := by
    rw [hc.aborted]
    intro hh
    simp only [Bool.or_eq_false_iff] at hh
    exact hh.1
  have hch : ∀ x ∈ s'.g.ids, s.g.children x = [] → s'.g.children x = [] := by
    intro x hx hcx
    apply List.eq_nil_iff_forall_not_mem.2
    intro c hc'
    obtain ⟨h1, h2⟩ := (hginv.ch x hx c).1 hc'
    have := (h.ginv.ch x (hsub x hx).1 c).2 ⟨h1, (hsub c h2).1⟩
    rw [hcx] at this
    cases this
  constructor
  · rw [hc.build]; exact hginv
  · rcases hmain with h1 | ⟨h1, h2, h3, h4, h5⟩
    · exact Or.inl h1
    · right
      intro p hp
      obtain ⟨a, b⟩ := h.busyOk.resolve_left h1 p ((hbm p).1 hp).1
      rw [h4, h5]
      refine ⟨?_, (h3.exec _ a).2 b⟩
      simp [a, hbt p hp]
  · rw [hc.busy]
    exact h.busyNodup.sublist (List.filter_sublist.map _)
  · intro x hx hs
    obtain ⟨a, b, c, d⟩ := hsub x hx
    rw [d] at hs
    exact hch x hx (h.execLeaf x a ((c.exec x a).1 hs))
  · intro hab x hx hs
    obtain ⟨a, b, c, d⟩ := hsub x hx
    rw [d] at hs
    rcases h.exec (habs hab) x a ((c.exec x a).1 hs) with h1 | h1
    · exact Or.inl (hbk x h1 b)
    · exact Or.inr (by rw [hc.next]; exact h1)
  · intro hab x hx
    rw [hc.next] at hx
    obtain ⟨a, b, c⟩ := h.nextOk (habs hab) x hx
    have hxt : x ≠ t := by rintro rfl; exact hnt (habs hab) hx
    rcases hmain with h1 | ⟨h1, h2, h3, h4, h5⟩
    · rw [h1.2.1] at hab; cases hab
    · rw [h4, h5]
      refine ⟨by simp [a, hxt], (h3.exec x a).2 b, fun hh => c (hbs x hh)⟩
  · intro p hp hs
    obtain ⟨a, b, c, d⟩ := hsub p hp
    rw [d] at hs
    rw [hc.build]
    rcases c.unb p a hs with h1 | ⟨h1, h2⟩
    · obtain ⟨z, hz, hdz⟩ := h.unb p a h1
      exact ⟨z, (hfail _ _).2 (Or.inl hz), hdz⟩
    · exact ⟨t, (hfail _ _).2 (Or.inr ⟨h1, rfl, rfl⟩), h2⟩
  · intro hac hk z hz p hp hdz
    rw [hc.build] at hac
    obtain ⟨a, b, c, d⟩ := hsub p hp
    rw [hc.build] at hz hdz
    rw [d]
    rcases (hfail _ _).1 hz with h1 | ⟨h1, _, rfl⟩
    · exact c.keep p a (h.failK hac hk z h1 p a hdz)
    · exact c.mark h1 hk hac p a hdz
  · intro hk b z hz
    rw [hc.aborted]
    rcases (hfail _ _).1 hz with h1 | ⟨h1, _, _⟩
    · rw [h.failAb hk b z h1]; rfl
    · rw [h1, hk]; simp
  · rw [hc.allOk]
    simp only [hfail]
    cases f
    · simpa using h.allOk
    · simp only [Bool.not_true, Bool.and_false, true_and, true_iff]
      exact ⟨s.build, t, Or.inr ⟨rfl, rfl⟩⟩
  · intro k hk
    rw [hset, List.mem_append, List.mem_singleton] at hk
    rw [hc.build]
    rcases hk with h1 | rfl
    · exact h.logS k h1
    · exact Nat.le_refl _
  · intro b x hx
    rw [hc.build]
    exact h.logT b x ((hst b x).1 hx)
  · intro x hx
    rw [hset, hc.build, List.mem_append, List.mem_singleton, not_or]
    exact ⟨h.notSettled x (hsub x hx).1, by simpa using (hsub x hx).2.1⟩
  · intro p hp
    rw [hset, hc.build, List.mem_append, List.mem_singleton, not_or]
    exact ⟨h.busyUnset p ((hbm p).1 hp).1, by simpa using hbt p hp⟩
  · rcases hmain with h1 | ⟨h1, h2, h3, h4, h5⟩
    · exact Or.inl h1
    · right
      rcases h.reachSettled.resolve_left h1 with hd | hr
      · left; rw [hc.dead]; exact hd
      · right
        rw [hc.build, hset, h4]
        intro r hr' x hx
        by_cases hxt : x = t
        · right; rw [hxt]; simp
        · rcases hr r hr' x hx with h6 | h6
          · left; simp [h6, hxt]
          · right; exact List.mem_append_left _ h6
  · intro x hx
    rw [hc.build] at hx ⊢
    rw [hset, List.mem_append, List.mem_singleton]
    by_cases hxt : x = t
    · right; right; rw [hxt]
    · rcases h.startBusy x ((hst _ _).1 hx) with h6 | h6
      · exact Or.inl (hbk x h6 hxt)
      · exact Or.inr (Or.inl h6)
  · intro p hp
    rw [hc.build, hst]
    exact h.busyStart p ((hbm p).1 hp).1
  · rw [hset, List.nodup_append]
    refine ⟨h.settleOnce, by simp, ?_⟩
    intro a ha b hb' hab
    rw [List.mem_singleton] at hb'
    subst hab hb'
    exact htu ha
  · rw [hkey]; exact h.startOnce
  · intro hac b hb' r hr x hx
    rw [hc.build] at hb' hac
    rw [hset]
    exact List.mem_append_left _ (h.past hac b hb' r hr x hx)
  · intro b x hx
    obtain ⟨z, hz, hdz⟩ := h.unbLog b x ((hother b x).2.2.1 hx)
    exact ⟨z, (hfail _ _).2 (Or.inl hz), hdz⟩
  · intro b x hx
    rw [hst]
    have hbst := h.busyStart _ hb
    rcases hx with h1 | h1
    · rcases hsucc b x h1 with h2 | ⟨rfl, rfl⟩
      · exact h.ran b x (Or.inl h2)
      · exact hbst
    · rcases (hfail b x).1 h1 with h2 | ⟨_, rfl, rfl⟩
      · exact h.ran b x (Or.inr h2)
      · exact hbst
  · intro b x hx
    obtain ⟨h1, h2, h3⟩ := hother b x
    rw [h1, h2, h3]
    exact h.notRan b x ((hst b x).1 hx)
  · intro hk
    rw [hlog]
    rw [hc.build] at hk
    exact (h.order hk).append hns
  · intro hk
    rw [hlog]
    exact (h.quiet hk).append hns
  · intro hab
    have h1 := habs hab
    rw [hc.pending, hc.build]
    rw [hc.aborted, h1, Bool.false_or] at hab
    rw [hab]
    exact h.pend h1
  · simp only [hst]; exact h.startReach

end Jom.Sched
