/- No executor stays idle while a target could be made. -/
import Verif.Proofs.SchedExtra

namespace Jom.Sched

open Jom.Graph Jom.Spec Relation

/-- If no call of `startProcesses` is posted and no token is awaited, all executors are busy or all leaves are
being made. -/
def Full (s : St) : Prop :=
  s.aborted = false → s.dead = false → s.acquiring = false → s.queued = 0 →
    s.avail = [] ∨ ∀ x ∈ s.g.leaves, s.g.state x = .executing

theorem Full.queued {s} (h : 0 < s.queued) : Full s := by
  intro _ _ _ hq
  omega

theorem Full.aborted {s} (h : s.aborted = true) : Full s := by
  intro hab
  rw [h] at hab
  cases hab

theorem Full.acquiring {s} (h : s.acquiring = true) : Full s := by
  intro _ _ hacq
  rw [h] at hacq
  cases hacq

theorem Full.child (cfg : Cfg) (e t : Nat) (f : Bool) (s : St) : Full (childFinished cfg e t f s) := by
  have hc := childFinished_fields cfg e t f s
  by_cases hf : (f && !cfg.keepGoing) = true
  · exact Full.aborted (by rw [hc.aborted, hf]; simp)
  · exact Full.queued (by rw [hc.queued, if_neg hf]; omega)

theorem Full.build {cfg s t} (res : StartRes) (hab : s.aborted = false) (hn : s.next = some t) (hav : s.avail ≠ []) :
    Full (buildNextTarget cfg res s) := by
  cases ha : s.avail with
  | nil => exact absurd ha hav
  | cons e rest =>
    rw [build_eq cfg res hn hab ha]
    cases res with
    | throws => exact Full.aborted rfl
    | running => exact Full.queued (Nat.succ_pos _)
    | sync f => exact Full.queued (Nat.succ_pos _)

theorem Full.start {cfg s} (h : Inv cfg s) (o : Oracle) (q : Nat) :
    Full (startProcesses cfg o { s with queued := q }) := by
  unfold startProcesses
  split
  · next hc =>
    simp only [Bool.or_eq_true, List.isEmpty_iff] at hc
    rcases hc with (hc | hc) | hc
    · exact Full.aborted hc
    · exact Full.acquiring hc
    · exact fun _ _ _ _ => Or.inl hc
  · next hc =>
    simp only [Bool.or_eq_true, List.isEmpty_iff, not_or, Bool.not_eq_true] at hc
    obtain ⟨⟨hab, hacq⟩, hav⟩ := hc
    have hab : s.aborted = false := hab
    have hacq : s.acquiring = false := hacq
    have hav : s.avail ≠ [] := hav
    have hn := h.idle hab hacq
    have hl0 : LogInv cfg { s with queued := q } := h.lg.congr rfl rfl rfl id id rfl rfl rfl rfl (fun _ => rfl)
    have hf := findNext_spec cfg o (s.g.ids.length + 1) { s with queued := q } hl0 hab hn
    simp only [hn, Option.isNone_none, if_true]
    have hf' : FindRes cfg { s with queued := q } (s.g.ids.length + 1)
      (findNextTarget cfg o (s.g.ids.length + 1) { s with queued := q, next := none }) := by
      have e : ({ s with queued := q, next := none } : St) = { s with queued := q } := by
        cases s; simp only at hn; subst hn; rfl
      rw [e]; exact hf
    clear hf
    generalize findNextTarget cfg o (s.g.ids.length + 1) { s with queued := q, next := none } = res at hf'
    cases res with
    | error s1 => exact Full.aborted rfl
    | ok s1 =>
      obtain ⟨⟨f1, f2, f3⟩, f4, f5⟩ := hf'
      have hab1 : s1.aborted = false := by rw [f1]; exact hab
      have hav1 : s1.avail ≠ [] := by rw [f1]; exact hav
      simp only
      split
      · next hns =>
        obtain ⟨t, ht⟩ := Option.isSome_iff_exists.1 hns
        split
        · exact Full.build o.res hab1 ht hav1
        · exact Full.acquiring rfl
      · next hns =>
        have hnone : s1.next = none := by
          cases hx : s1.next with
          | none => rfl
          | some t => rw [hx] at hns; simp at hns
        have hlv := f4 (Nat.lt_succ_self _) hnone
        split
        · split
          · exact fun _ _ _ _ => Or.inr hlv
          · unfold rebuild
            split
            · exact Full.queued (Nat.succ_pos _)
            · intro _ hd
              cases hd
        · exact fun _ _ _ _ => Or.inr hlv

theorem Full.step {cfg s s' ev} (h : Inv cfg s) (hs : step cfg s ev = some s') : Full s' := by
  cases ev with
  | startProcesses o =>
    simp only [Sched.step] at hs
    split at hs
    · simp only [Option.some.injEq] at hs
      subst hs
      exact Full.start h o _
    · cases hs
  | grant =>
    simp only [Sched.step] at hs
    split at hs
    · next hc =>
      simp only [Option.some.injEq] at hs
      subst hs
      exact Full.acquiring hc.2.1
    · cases hs
  | acquired res inWait =>
    simp only [Sched.step] at hs
    split at hs
    · next hc =>
      simp only [Option.some.injEq] at hs
      obtain ⟨hd, hg, hw1, hw2⟩ := hc
      have hacq := h.ex.gr hg
      obtain ⟨t, ht⟩ := Option.isSome_iff_exists.1 (h.ex.acqNext hacq)
      have hb2 : Full (buildNextTarget cfg res { s with acquiring := false, granted := false }) := by
        by_cases hab : s.aborted = false
        · exact Full.build res hab ht (h.ex.acqAvail hacq)
        · rw [build_aborted (s := { s with acquiring := false, granted := false }) cfg res ht (by simpa using hab)]
          exact Full.aborted (by simpa using hab)
      rw [← hs]
      cases inWait
      · exact hb2
      · exact hb2
    · cases hs
  | childFinished e f =>
    simp only [Sched.step] at hs
    split at hs
    · cases hs
    · split at hs
      · simp only [Option.some.injEq] at hs
        subst hs
        exact Full.child cfg e _ f s
      · cases hs
  | abortDone =>
    simp only [Sched.step] at hs
    split at hs
    · simp only [Option.some.injEq] at hs
      subst hs
      exact Full.queued (Nat.succ_pos _)
    · cases hs

theorem Full.init (cfg : Cfg) : Full (init cfg) := by
  unfold Sched.init
  extract_lets s
  split
  · exact Full.queued (Nat.succ_pos _)
  · unfold rebuild
    split
    · exact Full.queued (Nat.succ_pos _)
    · intro _ hd
      cases hd

theorem Full.run {cfg} : ∀ {es s s'}, Full s → Inv cfg s → run cfg s es = some s' → Full s' := by
  intro es
  induction es with
  | nil => intro s s' hb h hr; simp only [Sched.run, Option.some.injEq] at hr; subst hr; exact hb
  | cons e es ih =>
    intro s s' hb h hr
    simp only [Sched.run] at hr
    cases hs : Sched.step cfg s e with
    | none => rw [hs] at hr; cases hr
    | some s1 =>
      rw [hs] at hr
      exact ih (Full.step h hs) (h.step hs) hr

theorem Reachable.full {cfg s} (h : Reachable cfg s) : Full s := by
  obtain ⟨es, he⟩ := h
  exact (Full.init cfg).run (Inv.init cfg) he

/-- In an acyclic graph every node that is no leaf depends on a leaf. -/
theorem GInv.toLeaf {deps root g} (h : GInv deps root g) (hac : ∀ r, root = some r → AcyclicFrom deps r) {x : Nat}
    (hx : x ∈ g.ids) : ∃ y ∈ g.leaves, ReflTransGen (DependsOn deps) x y := by
  classical
  suffices H : ∀ n x, x ∈ g.ids → (g.ids.filter (fun y => decide (DependsTrans deps x y))).length ≤ n →
      ∃ y ∈ g.leaves, ReflTransGen (DependsOn deps) x y from H _ x hx (Nat.le_refl _)
  intro n
  induction n with
  | zero =>
    intro x hx hn
    refine ⟨x, (h.lv x).2 ⟨hx, ?_⟩, .refl⟩
    apply List.eq_nil_iff_forall_not_mem.2
    intro c hc
    obtain ⟨h1, h2⟩ := (h.ch x hx c).1 hc
    have : c ∈ g.ids.filter (fun y => decide (DependsTrans deps x y)) := by
      simp only [List.mem_filter, decide_eq_true_eq]
      exact ⟨h2, TransGen.single h1⟩
    have := List.length_pos_of_mem this
    omega
  | succ n ih =>
    intro x hx hn
    by_cases hne : g.children x = []
    · exact ⟨x, (h.lv x).2 ⟨hx, hne⟩, .refl⟩
    · obtain ⟨c, hc⟩ := List.exists_mem_of_ne_nil _ hne
      obtain ⟨h1, h2⟩ := (h.ch x hx c).1 hc
      have : (g.ids.filter (fun y => decide (DependsTrans deps c y))).length <
          (g.ids.filter (fun y => decide (DependsTrans deps x y))).length := by
        apply filter_length_lt (a := c) _ _ h2
        · obtain ⟨r, hr, hrc⟩ := h.reach c h2
          simpa using hac r hr c hrc
        · exact decide_eq_true (TransGen.single h1)
        · intro y _ hy
          simp only [decide_eq_true_eq] at hy ⊢
          exact TransGen.head h1 hy
      obtain ⟨y, hy, hr⟩ := ih c h2 (by omega)
      exact ⟨y, hy, .head h1 hr⟩

end Jom.Sched
