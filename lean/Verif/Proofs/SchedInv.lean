/- Invariants of the scheduler: all steps. -/
import Verif.Proofs.SchedChild

namespace Jom.Sched

open Jom.Graph Jom.Spec Relation

/-- A nonempty part of an acyclic graph has a leaf. -/
theorem GInv.leaf {deps root g} (h : GInv deps root g) (hac : ∀ r, root = some r → AcyclicFrom deps r)
    (hl : g.leaves = []) : g.ids = [] := by
  classical
  apply List.eq_nil_iff_forall_not_mem.2
  suffices H : ∀ n x, x ∈ g.ids → (g.ids.filter (fun y => decide (DependsTrans deps x y))).length ≤ n → False from
    fun x hx => H _ x hx (Nat.le_refl _)
  intro n
  induction n with
  | zero =>
    intro x hx hn
    have hne : g.children x ≠ [] := by
      intro hc
      have := (h.lv x).2 ⟨hx, hc⟩
      rw [hl] at this
      cases this
    obtain ⟨c, hc⟩ := List.exists_mem_of_ne_nil _ hne
    obtain ⟨h1, h2⟩ := (h.ch x hx c).1 hc
    have : c ∈ g.ids.filter (fun y => decide (DependsTrans deps x y)) := by
      simp only [List.mem_filter, decide_eq_true_eq]
      exact ⟨h2, TransGen.single h1⟩
    have := List.length_pos_of_mem this
    omega
  | succ n ih =>
    intro x hx hn
    have hne : g.children x ≠ [] := by
      intro hc
      have := (h.lv x).2 ⟨hx, hc⟩
      rw [hl] at this
      cases this
    obtain ⟨c, hc⟩ := List.exists_mem_of_ne_nil _ hne
    obtain ⟨h1, h2⟩ := (h.ch x hx c).1 hc
    refine ih c h2 ?_
    have : (g.ids.filter (fun y => decide (DependsTrans deps c y))).length <
        (g.ids.filter (fun y => decide (DependsTrans deps x y))).length := by
      apply filter_length_lt (a := c) _ _ h2
      · obtain ⟨r, hr, hrc⟩ := h.reach c h2
        simpa using hac r hr c hrc
      · exact decide_eq_true (TransGen.single h1)
      · intro y _ hy
        simp only [decide_eq_true_eq] at hy ⊢
        exact TransGen.head h1 hy
    omega

/-- Number of nodes that are not executing. -/
def waiting (g : Graph) : Nat := (g.ids.filter (fun x => decide (g.state x ≠ .executing))).length

/-- What `findNextTarget` does. -/
structure Found (cfg : Cfg) (s s' : St) : Prop where
  frame : s' = { s with g := s'.g, next := s'.next, log := s'.log }
  inv : LogInv cfg s'
  wait : waiting s'.g + (if s'.next.isSome then 1 else 0) ≤ waiting s.g

theorem waiting_dropped {deps root g g' gone} (h : Dropped deps root g g' gone) : waiting g' ≤ waiting g := by
  unfold waiting
  rw [h.ids, h.state, List.filter_filter]
  apply filter_length_le
  intro x _ hx
  simp only [Bool.and_eq_true] at hx
  exact hx.1

theorem LogInv.dead_congr {cfg s} (h : LogInv cfg s) (n : Option Nat) (hn : s.next = n) :
    LogInv cfg { s with next := n } :=
  h.congr rfl rfl rfl id id hn.symm rfl rfl rfl (fun _ => rfl)

theorem removeLeaf_settle {deps root} {g : Graph} {t : Nat} (h : GInv deps root g) (ht : t ∈ g.ids)
    (hl : g.children t = []) : GInv deps root (removeLeaf g t) ∧ (removeLeaf g t).ids = g.ids.filter (· ∉ [t]) ∧
    (removeLeaf g t).state = g.state := by
  have hrl : removeLeaf g t = removeLeafNode g t := by
    unfold removeLeaf
    rw [if_pos ht]
  obtain ⟨a, b⟩ := removeLeafNode_ids g t (h.paNodup t ht)
  rw [hrl]
  refine ⟨h.removeLeafNode ht hl, ?_, b⟩
  rw [a]
  apply List.filter_congr
  intro x _
  simp

/-- Results of `findNextTarget`. -/
def FindRes (cfg : Cfg) (s : St) (i : Nat) : Except St St → Prop
  | .ok s' => Found cfg s s' ∧
      (s.g.ids.length < i → s'.next = none → ∀ x ∈ s'.g.leaves, s'.g.state x = .executing) ∧
      (s.g.leaves = [] → s' = s)
  | .error s' => Found cfg s s' ∧ s'.next = none ∧ s.g.leaves ≠ []

theorem findNext_spec (cfg : Cfg) (o : Oracle) : ∀ i s, LogInv cfg s → s.aborted = false → s.next = none →
    FindRes cfg s i (findNextTarget cfg o i s) := by
  intro i
  induction i with
  | zero =>
    intro s h _ hn
    simp only [findNextTarget]
    exact ⟨⟨rfl, h, by simp [hn]⟩, fun hc => absurd hc (Nat.not_lt_zero _), fun _ => rfl⟩
  | succ i ih =>
    intro s h hab hn
    simp only [findNextTarget]
    split
    · next hl =>
      have hl' : s.g.leaves = [] := by simpa using hl
      refine ⟨⟨rfl, h.dead_congr none hn, by simp⟩, ?_, fun _ => ?_⟩
      · intro _ _ x hx
        rw [show ({ s with next := none } : St).g = s.g from rfl, hl'] at hx
        cases hx
      · cases s; simp only at hn; subst hn; rfl
    · next hl =>
      have hl' : s.g.leaves ≠ [] := by simpa using hl
      have hd := prune_spec cfg.buildAll (o.upToDate i) h.ginv
      generalize prune cfg.buildAll (o.upToDate i) s.g = pg at *
      obtain ⟨g1, gone⟩ := pg
      simp only at hd ⊢
      have h1 : LogInv cfg { s with g := g1, next := none, log := s.log ++ gone.map (Ev.upToDate s.build ·) } :=
        h.settle (Ev.upToDate s.build) hab hn hd.inv hd.ids (fun x _ => by rw [hd.state]) hd.nodup hd.mem
          (Or.inl fun _ => rfl)
      have hw := waiting_dropped hd
      have hlen : g1.ids.length ≤ s.g.ids.length := by
        rw [hd.ids]; exact List.length_filter_le _ _
      split
      · refine ⟨⟨rfl, h1.dead_congr s.next (by rw [hn]), ?_⟩, hn, hl'⟩
        simp only [hn, Option.isSome_none, Bool.false_eq_true, if_false]
        exact hw
      · obtain ⟨p1, p2, p3, p4, p5, p6, p7⟩ := pick_spec hd.inv
        generalize pick g1 = pp at *
        obtain ⟨g2, r⟩ := pp
        simp only at p1 p2 p3 p4 p5 p6 p7 ⊢
        cases r with
        | none =>
          obtain ⟨rfl, hex⟩ := p6 rfl
          refine ⟨⟨rfl, h1, by simpa using hw⟩, fun _ _ => hex, fun hc => absurd hc hl'⟩
        | some t =>
          obtain ⟨t1, t2, t3, t4, t5, t6⟩ := p7 t rfl
          simp only
          have ht2 : t ∈ g2.ids := by rw [p1]; exact t1
          obtain ⟨q1, q2, q3⟩ := removeLeaf_settle p5 ht2 (by rw [p3]; exact t2)
          have hrec : ∀ ev : Nat → Ev, ((∀ x, ev x = .upToDate s.build x) ∨ (∀ x, ev x = .noCommands s.build x) ∨
              ((∀ x, ev x = .unbuildable s.build x) ∧ ∀ x ∈ [t], g1.state x = .unbuildable)) →
              LogInv cfg { s with g := removeLeaf g2 t, next := none,
                                  log := (s.log ++ gone.map (Ev.upToDate s.build ·)) ++ [ev t] } := by
            intro ev hev
            exact h1.settle (gone := [t]) ev hab rfl q1 (by rw [q2, p1]) (by
              intro x hx
              rw [q2] at hx
              rw [q3]
              apply t4
              simp only [List.mem_filter, List.mem_singleton, decide_eq_true_eq] at hx
              exact hx.2) (by simp) (by
              intro x hx
              rw [List.mem_singleton] at hx
              subst hx
              exact ⟨t1, t3⟩) hev
          have hw2 : waiting (removeLeaf g2 t) ≤ waiting g1 := by
            unfold waiting
            rw [q2, q3, p1, List.filter_filter]
            apply filter_length_le
            intro x _ hx
            simp only [Bool.and_eq_true, decide_eq_true_eq, List.mem_singleton] at hx
            rw [t4 x hx.2] at hx
            simpa using hx.1
          have hlen2 : (removeLeaf g2 t).ids.length < g1.ids.length := by
            rw [q2, p1]
            have := filter_notMem_length (l := g1.ids) (gone := [t]) hd.inv.nodup (by simp) (by simpa using t1)
            simp only [List.length_singleton] at this
            omega
          have hgo : ∀ ev : Nat → Ev, ((∀ x, ev x = .upToDate s.build x) ∨ (∀ x, ev x = .noCommands s.build x) ∨
              ((∀ x, ev x = .unbuildable s.build x) ∧ ∀ x ∈ [t], g1.state x = .unbuildable)) →
              FindRes cfg s (i + 1) (findNextTarget cfg o i
                { s with g := removeLeaf g2 t, next := none,
                         log := (s.log ++ gone.map (Ev.upToDate s.build ·)) ++ [ev t] }) := by
            intro ev hev
            have := ih _ (hrec ev hev) hab rfl
            generalize findNextTarget cfg o i _ = res at this
            cases res with
            | ok s' =>
              obtain ⟨⟨f1, f2, f3⟩, f4, _⟩ := this
              refine ⟨⟨?_, f2, ?_⟩, ?_, fun hc => absurd hc hl'⟩
              · rw [f1]
              · exact Nat.le_trans f3 (Nat.le_trans hw2 hw)
              · intro hi
                apply f4
                simp only
                omega
            | error s' =>
              obtain ⟨⟨f1, f2, f3⟩, f4, _⟩ := this
              refine ⟨⟨?_, f2, ?_⟩, f4, hl'⟩
              · rw [f1]
              · exact Nat.le_trans f3 (Nat.le_trans hw2 hw)
          split
          · exact hgo (Ev.noCommands s.build) (Or.inr (Or.inl fun _ => rfl))
          · split
            · next hu =>
              refine hgo (Ev.unbuildable s.build) (Or.inr (Or.inr ⟨fun _ => rfl, ?_⟩))
              simp only [Bool.and_eq_true, beq_iff_eq] at hu
              intro x hx
              rw [List.mem_singleton] at hx
              subst hx
              by_cases hux : g1.state x = .unbuildable
              · exact hux
              · rw [t6 hux] at hu; cases hu.2
            · next hu =>
              have hnu : g1.state t ≠ .unbuildable := by
                intro hc
                obtain ⟨z, hz, _⟩ := h1.unb t t1 hc
                have hk : cfg.keepGoing = true := by
                  cases hk : cfg.keepGoing with
                  | true => rfl
                  | false =>
                    have hx : s.aborted = true := h1.failAb hk _ _ hz
                    rw [hab] at hx
                    cases hx
                exact hu (by simp [hk, t5 hc])
              have h2 := h1.select (t := t) (g' := g2) rfl p1 p3 p5 t1 t2 t3 hnu hab t4 (t6 hnu)
              refine ⟨⟨rfl, h2, ?_⟩, (fun _ hc => by cases hc), fun hc => absurd hc hl'⟩
              show waiting g2 + 1 ≤ waiting s.g
              have : waiting g2 < waiting g1 := by
                unfold waiting
                rw [p1]
                apply filter_length_lt (a := t) _ _ t1
                · simp [t6 hnu]
                · simpa using t3
                · intro x _ hx
                  simp only [decide_eq_true_eq] at hx ⊢
                  by_cases hxt : x = t
                  · subst hxt; exact t3
                  · rw [t4 x hxt] at hx; exact hx
              omega

/-- The state after a (re)build of the graph. -/
theorem LogInv.rebuilt {cfg s b t rest} (hbusy : s.busy = []) (hn : s.next = none)
    (hroot : cfg.targets[b]? = some t) (hrest : rest = cfg.targets.drop (b + 1))
    (failAb : cfg.keepGoing = false → ∀ b z, Ev.failed b z ∈ s.log → s.aborted = true)
    (allOk : s.allOk = false ↔ ∃ b z, Ev.failed b z ∈ s.log)
    (hset : ∀ k ∈ s.settled, k.1 < b) (hst : ∀ b' t', Ev.started b' t' ∈ s.log → b' < b)
    (settleOnce : s.settled.Nodup) (startOnce : (s.log.filterMap startKey).Nodup)
    (past : AcTo cfg b → ∀ b' < b, ∀ r, cfg.targets[b']? = some r → ∀ x, Reaches (cfg.deps b') r x → (b', x) ∈ s.settled)
    (unbLog : ∀ b x, Ev.unbuildable b x ∈ s.log → ∃ z, Ev.failed b z ∈ s.log ∧ DependsTrans (cfg.deps b) x z)
    (ran : ∀ b x, Ev.succeeded b x ∈ s.log ∨ Ev.failed b x ∈ s.log → Ev.started b x ∈ s.log)
    (notRan : ∀ b x, Ev.started b x ∈ s.log →
      Ev.upToDate b x ∉ s.log ∧ Ev.noCommands b x ∉ s.log ∧ Ev.unbuildable b x ∉ s.log)
    (order : (cfg.keepGoing = true → AcTo cfg b) → OrderOk cfg s.log)
    (quiet : cfg.keepGoing = false → QuietAfterFailure s.log)
    (startReach : ∀ b t, Ev.started b t ∈ s.log → ∃ r, cfg.targets[b]? = some r ∧ Reaches (cfg.deps b) r t) :
    LogInv cfg (rebuild cfg b t rest s) := by
  have hnos : ∀ x, (b, x) ∉ s.settled := by
    intro x hx
    exact absurd (hset _ hx) (Nat.lt_irrefl b)
  have hnof : ∀ z, Ev.failed b z ∉ s.log := by
    intro z hz
    exact hnos z (mem_settled.2 (by simp [hz]))
  have key : ∀ (s' : St), s'.build = b → s'.busy = [] → s'.next = none → s'.log = s.log → s'.aborted = s.aborted →
      s'.allOk = s.allOk → s'.pending = rest →
      GInv (cfg.deps b) (some t) s'.g → (∀ x, s'.g.state x = .unknown) →
      (s'.dead = true ∨ ∀ x, Reaches (cfg.deps b) t x → x ∈ s'.g.ids) → LogInv cfg s' := by
    intro s' e1 e2 e3 e4 e5 e6 e7 hg hunk hr
    have e8 : s'.settled = s.settled := by rw [St.settled, e4]
    constructor
    · rw [e1, hroot]; exact hg
    · right; rw [e2]; intro p hp; cases hp
    · rw [e2]; exact List.nodup_nil
    · intro x _ hx; rw [hunk] at hx; cases hx
    · intro _ x _ hx; rw [hunk] at hx; cases hx
    · intro _ x hx; rw [e3] at hx; cases hx
    · intro x _ hx; rw [hunk] at hx; cases hx
    · intro _ _ z hz; rw [e4, e1] at hz; exact absurd hz (hnof z)
    · rw [e4, e5]; exact failAb
    · rw [e4, e6]; exact allOk
    · rw [e8, e1]; exact fun k hk => Nat.le_of_lt (hset k hk)
    · rw [e4, e1]; exact fun b' t' h => Nat.le_of_lt (hst b' t' h)
    · rw [e8, e1]; exact fun x _ => hnos x
    · rw [e2]; intro p hp; cases hp
    · right
      rcases hr with h1 | h1
      · exact Or.inl h1
      · right
        rw [e1, hroot]
        intro r hr x hx
        cases hr
        exact Or.inl (h1 x hx)
    · rw [e4, e1]; intro x hx; exact absurd (hst _ _ hx) (Nat.lt_irrefl b)
    · rw [e2]; intro p hp; cases hp
    · rw [e8]; exact settleOnce
    · rw [e4]; exact startOnce
    · rw [e8, e1]; exact past
    · rw [e4]; exact unbLog
    · rw [e4]; exact ran
    · rw [e4]; exact notRan
    · rw [e4, e1]; exact order
    · rw [e4]; exact quiet
    · intro _; rw [e7, e1]; exact hrest
    · rw [e4]; exact startReach
  unfold rebuild
  split
  · next g hg =>
    have hb := build_ok hg
    exact key _ rfl hbusy hn rfl rfl rfl rfl hb.ginv hb.wf.unknown (Or.inr fun x hx => (hb.ids x).2 hx)
  · exact key _ rfl hbusy hn rfl rfl rfl rfl (ginv_empty ..) (fun _ => rfl) (Or.inl rfl)

end Jom.Sched
