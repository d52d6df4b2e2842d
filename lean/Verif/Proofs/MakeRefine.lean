/- The joint model refines the scheduler: every step of `Make` is a step of `Sched` with suitable answers, so everything
proved about the scheduler holds for it. -/
import Verif.Model.Make
import Verif.Proofs.SchedSteps

namespace Jom.Make

open Jom.Graph Jom.Sched Jom.UpToDate Jom.Spec

theorem checkLeaves_sub (env : Env) (now : Nat) (asked : Str → Bool) (state : Nat → NState) : ∀ ls m,
    ∀ x ∈ (checkLeaves env now asked state ls m).2, x ∈ ls := by
  intro ls
  induction ls with
  | nil => intro m x hx; simp [checkLeaves] at hx
  | cons l ls ih =>
    intro m x hx
    simp only [checkLeaves] at hx
    split at hx
    · exact List.mem_cons_of_mem _ (ih m x hx)
    · split at hx
      · rcases List.mem_cons.1 hx with rfl | hx
        · exact List.mem_cons_self
        · exact List.mem_cons_of_mem _ (ih _ x hx)
      · exact List.mem_cons_of_mem _ (ih _ x hx)

theorem checkLeaves_eq (env : Env) (now : Nat) (asked : Str → Bool) (state : Nat → NState) : ∀ ls m, ls.Nodup →
    (checkLeaves env now asked state ls m).2 =
      ls.filter fun l => state l ≠ .executing && decide (l ∈ (checkLeaves env now asked state ls m).2) := by
  intro ls
  induction ls with
  | nil => intro m _; simp [checkLeaves]
  | cons l ls ih =>
    intro m hnd
    obtain ⟨hl, hnd⟩ := List.nodup_cons.1 hnd
    simp only [checkLeaves]
    split
    · next hx =>
      rw [List.filter_cons_of_neg (by simp [hx])]
      exact ih m hnd
    · next hx =>
      generalize test env now asked l m = r
      obtain ⟨m1, b⟩ := r
      simp only
      have h1 := ih m1 hnd
      have h2 := checkLeaves_sub env now asked state ls m1
      generalize checkLeaves env now asked state ls m1 = r at h1 h2
      obtain ⟨m2, gone⟩ := r
      simp only at h1 h2 ⊢
      have hlg : l ∉ gone := fun h => hl (h2 l h)
      cases b with
      | false =>
        simp only [Bool.false_eq_true, if_false]
        rw [List.filter_cons_of_neg (by simp [hlg])]
        exact h1
      | true =>
        simp only [if_true]
        rw [List.filter_cons_of_pos (by simp [hx])]
        congr 1
        conv => lhs; rw [h1]
        apply List.filter_congr
        intro x hx'
        have : x ≠ l := fun h => hl (h ▸ hx')
        simp [this]

/-- One round of the loop. -/
theorem round_eq (env : Env) (now : Nat) (asked : Str → Bool) (g : Graph) (m : Mem) (hnd : g.leaves.Nodup) :
    removeUpToDate (fun l => decide (l ∈ (checkLeaves env now asked g.state g.leaves m).2)) g =
      ((checkLeaves env now asked g.state g.leaves m).2.foldl removeLeafNode { g with dirty := false },
       (checkLeaves env now asked g.state g.leaves m).2) := by
  unfold removeUpToDate
  simp only
  rw [← checkLeaves_eq env now asked g.state g.leaves m hnd]

theorem dirtyLoop_refine (env : Env) (now : Nat) (asked : Str → Bool) {deps root} : ∀ fuel g m, GInv deps root g →
    ∃ u : Nat → Nat → Bool, ∀ u', (∀ i < fuel, u' i = u i) →
      Graph.dirtyLoop u' fuel g = ((dirtyLoop env now asked fuel g m).1, (dirtyLoop env now asked fuel g m).2.2) := by
  intro fuel
  induction fuel with
  | zero => intro g m _; exact ⟨fun _ _ => false, fun _ _ => rfl⟩
  | succ fuel ih =>
    intro g m hg
    have hr := round_eq env now asked g m hg.lvNodup
    have hs := removeUpToDate_spec (fun l => decide (l ∈ (checkLeaves env now asked g.state g.leaves m).2)) hg
    rw [hr] at hs
    obtain ⟨u, hu⟩ := ih _ (checkLeaves env now asked g.state g.leaves m).1 hs.1
    refine ⟨fun i => if i = fuel then fun l => decide (l ∈ (checkLeaves env now asked g.state g.leaves m).2) else u i, ?_⟩
    intro u' hu'
    have h1 := hu' fuel (Nat.lt_succ_self _)
    simp only [if_true] at h1
    have h2 := hu u' (fun i hi => by rw [hu' i (by omega)]; simp [Nat.ne_of_lt hi])
    simp only [Graph.dirtyLoop, dirtyLoop]
    split
    · rw [h1, hr]
      simp only
      rw [h2]
    · rfl

theorem prune_refine (env : Env) (now : Nat) (asked : Str → Bool) (ig : Bool) {deps root g} (m : Mem) (hg : GInv deps root g) :
    ∃ u : Nat → Nat → Bool, Graph.prune ig u g = ((prune env now asked ig g m).1, (prune env now asked ig g m).2.2) := by
  unfold Graph.prune prune
  cases ig with
  | true => exact ⟨fun _ _ => false, rfl⟩
  | false =>
    obtain ⟨u, hu⟩ := dirtyLoop_refine env now asked (g.ids.length + 1) g m hg
    exact ⟨u, hu u fun _ _ => rfl⟩

/-- The scheduler part of a result. -/
def sched : Except J J → Except St St
  | .ok j => .ok j.s
  | .error j => .error j.s

theorem findNext_refine (env : Env) (cfg : Cfg) (a : Answers) {deps root} : ∀ i (j : J), GInv deps root j.s.g →
    ∃ o : Oracle, ∀ o' : Oracle, (∀ k < i, o'.upToDate k = o.upToDate k ∧ o'.hasCmds k = o.hasCmds k ∧
      o'.throws k = o.throws k) → Sched.findNextTarget cfg o' i j.s = sched (findNextTarget env cfg a i j) := by
  intro i
  induction i with
  | zero => intro j _; exact ⟨⟨fun _ _ _ => false, fun _ _ => false, fun _ => false, .running⟩, fun _ _ => rfl⟩
  | succ i ih =>
    intro j hg
    by_cases hl : j.s.g.leaves.isEmpty
    · refine ⟨⟨fun _ _ _ => false, fun _ _ => false, fun _ => false, .running⟩, fun o' _ => ?_⟩
      simp only [Sched.findNextTarget, findNextTarget, hl, if_true, sched]
    · obtain ⟨u, hu⟩ := prune_refine env a.now a.asked cfg.buildAll j.m hg
      have hd := prune_spec cfg.buildAll u hg
      rw [hu] at hd
      -- what one iteration needs
      suffices H : ∃ (th : Bool) (hc : Nat → Bool) (o : Oracle), ∀ o' : Oracle, o'.upToDate i = u → o'.throws i = th →
          o'.hasCmds i = hc → (∀ k < i, o'.upToDate k = o.upToDate k ∧ o'.hasCmds k = o.hasCmds k ∧
            o'.throws k = o.throws k) →
          Sched.findNextTarget cfg o' (i + 1) j.s = sched (findNextTarget env cfg a (i + 1) j) by
        obtain ⟨th, hc, o, H⟩ := H
        refine ⟨⟨fun k => if k = i then u else o.upToDate k, fun k => if k = i then hc else o.hasCmds k,
          fun k => if k = i then th else o.throws k, .running⟩, fun o' ho' => H o' ?_ ?_ ?_ ?_⟩
        · simpa using (ho' i (Nat.lt_succ_self _)).1
        · simpa using (ho' i (Nat.lt_succ_self _)).2.2
        · simpa using (ho' i (Nat.lt_succ_self _)).2.1
        · intro k hk
          have := ho' k (by omega)
          simpa [Nat.ne_of_lt hk] using this
      simp only [Sched.findNextTarget, findNextTarget, hl]
      generalize prune env a.now a.asked cfg.buildAll j.s.g j.m = pr at hu hd
      obtain ⟨g, m, gone⟩ := pr
      simp only at hu hd ⊢
      by_cases hth : (a.throws i && g.leaves.any (fun t => !(matching env m t).isEmpty)) = true
      · refine ⟨true, fun _ => false, ⟨fun _ _ _ => false, fun _ _ => false, fun _ => false, .running⟩, ?_⟩
        intro o' h1 h2 _ _
        rw [h1, hu]
        simp only [hth, h2, if_true, Bool.false_eq_true, if_false, sched]
      · have hp := pick_spec hd.inv
        generalize hpk : pick g = pk at hp
        obtain ⟨g2, r⟩ := pk
        simp only at hp
        cases r with
        | none =>
          refine ⟨false, fun _ => false, ⟨fun _ _ _ => false, fun _ _ => false, fun _ => false, .running⟩, ?_⟩
          intro o' h1 h2 _ _
          rw [h1, hu]
          simp only [hth, h2, hpk, Bool.false_eq_true, if_false, sched]
        | some t =>
          obtain ⟨p1, p2, p3, p4, p5, p6, p7⟩ := hp
          obtain ⟨t1, t2, t3, _⟩ := p7 t rfl
          have ht2 : t ∈ g2.ids := by rw [p1]; exact t1
          obtain ⟨q1, q2, q3⟩ := removeLeaf_settle p5 ht2 (by rw [p3]; exact t2)
          let m' := g.leaves.foldl (applyRule env a.choose) m
          let m2 := if cfg.buildAll then (test env a.now a.asked t m').1 else m'
          by_cases hcm : (m2.info t).hasCmds = false
          · obtain ⟨o, ho⟩ := ih { s := { j.s with g := removeLeaf g2 t, next := none,
                                                     log := j.s.log ++ gone.map (.upToDate j.s.build ·) ++
                                                       [.noCommands j.s.build t] }, m := m2 } q1
            refine ⟨false, fun _ => false, o, ?_⟩
            intro o' h1 h2 h3 h4
            have := ho o' h4
            rw [h1, hu]
            simp only [hth, h2, hpk, h3, Bool.false_eq_true, if_false, if_true]
            rw [if_pos hcm]
            exact this
          · by_cases hub : (cfg.keepGoing && g2.state t == .unbuildable) = true
            · obtain ⟨o, ho⟩ := ih { s := { j.s with g := removeLeaf g2 t, next := none,
                                                       log := j.s.log ++ gone.map (.upToDate j.s.build ·) ++
                                                         [.unbuildable j.s.build t] }, m := m2 } q1
              refine ⟨false, fun _ => true, o, ?_⟩
              intro o' h1 h2 h3 h4
              have := ho o' h4
              rw [h1, hu]
              simp only [hth, h2, hpk, h3, Bool.false_eq_true, if_false, if_true, hub, Bool.true_eq_false]
              rw [if_neg hcm]
              exact this
            · refine ⟨false, fun _ => true, ⟨fun _ _ _ => false, fun _ _ => false, fun _ => false, .running⟩, ?_⟩
              intro o' h1 h2 h3 _
              rw [h1, hu]
              simp only [hth, h2, hpk, h3, Bool.false_eq_true, if_false, hub, Bool.true_eq_false]
              rw [if_neg hcm]
              rfl

theorem build_sched (env : Env) (cfg : Cfg) (asked : Str → Bool) (res : StartRes) (writes : List (Str × Option Nat))
    (j : J) : (buildNextTarget env cfg asked res writes j).s = Sched.buildNextTarget cfg res j.s := rfl

theorem start_refine (env : Env) (cfg : Cfg) (a : Answers) {deps root} (j : J) (hg : GInv deps root j.s.g) :
    ∃ o : Oracle, Sched.startProcesses cfg o j.s = (startProcesses env cfg a j).s := by
  obtain ⟨o, ho⟩ := findNext_refine env cfg a (j.s.g.ids.length + 1) j hg
  refine ⟨{ o with res := a.res }, ?_⟩
  have := ho { o with res := a.res } (fun _ _ => ⟨rfl, rfl, rfl⟩)
  unfold Sched.startProcesses startProcesses
  split
  · rfl
  · by_cases hn : j.s.next.isNone = true
    · rw [if_pos hn, if_pos hn, this]
      cases findNextTarget env cfg a (j.s.g.ids.length + 1) j with
      | error j' => rfl
      | ok j' =>
        simp only [sched]
        split
        · split <;> rfl
        · split
          · cases hp : j'.s.pending <;> rfl
          · rfl
    · rw [if_neg hn, if_neg hn]
      simp only
      split
      · split <;> rfl
      · split
        · cases hp : j.s.pending <;> rfl
        · rfl

/-- Steps of the processes and the disk do not concern the scheduler; all others are steps of the scheduler. -/
theorem step_refine {env : Env} {cfg : Cfg} {j j' : J} {e : Event} (hi : Inv cfg j.s) (hs : step env cfg j e = some j') :
    j'.s = j.s ∨ ∃ ev, Sched.step cfg j.s ev = some j'.s := by
  cases e with
  | startProcesses a =>
    simp only [step] at hs
    split at hs
    · next hc =>
      cases hs
      obtain ⟨o, ho⟩ := start_refine env cfg a { j with s := { j.s with queued := j.s.queued - 1 } } hi.lg.ginv
      refine .inr ⟨.startProcesses o, ?_⟩
      simp only [Sched.step]
      rw [if_pos hc]
      exact congrArg some ho
    · cases hs
  | grant =>
    simp only [step] at hs
    split at hs
    · next hc =>
      cases hs
      exact .inr ⟨.grant, by simp only [Sched.step]; rw [if_pos hc]⟩
    · cases hs
  | acquired asked res writes w =>
    simp only [step] at hs
    split at hs
    · next hc =>
      cases hs
      refine .inr ⟨.acquired res w, ?_⟩
      simp only [Sched.step]
      rw [if_pos hc]
      cases w <;> rfl
    · cases hs
  | childFinished ex f =>
    simp only [step] at hs
    split at hs
    · cases hs
    · next hd =>
      cases hf : j.s.busy.find? (·.1 = ex) with
      | none => rw [hf] at hs; cases hs
      | some p =>
        obtain ⟨e', t⟩ := p
        rw [hf] at hs
        cases hs
        refine .inr ⟨.childFinished ex f, ?_⟩
        simp only [Sched.step]
        rw [if_neg hd, hf]
  | abortDone =>
    simp only [step] at hs
    split at hs
    · next hc =>
      cases hs
      refine .inr ⟨.abortDone, ?_⟩
      simp only [Sched.step]
      rw [if_pos hc]
    · cases hs
  | write file value => cases hs; exact .inl rfl

theorem run_snoc {cfg : Cfg} : ∀ (es : List Sched.Event) {s s1 s2 : St} {ev : Sched.Event}, Sched.run cfg s es = some s1 →
    Sched.step cfg s1 ev = some s2 → Sched.run cfg s (es ++ [ev]) = some s2 := by
  intro es
  induction es with
  | nil => intro s s1 s2 ev h1 h2; cases h1; simp [Sched.run, h2]
  | cons e es ih =>
    intro s s1 s2 ev h1 h2
    simp only [Sched.run, List.cons_append] at h1 ⊢
    cases hs : Sched.step cfg s e with
    | none => rw [hs] at h1; cases h1
    | some s' => rw [hs] at h1; exact ih h1 h2

/-- The scheduler of a run is in a state that the scheduler model can reach. -/
theorem Run.reachable {env : Env} {cfg : Cfg} {info : Nat → TInfo} {disk : Str → Option Nat} {ok : J → Event → Prop} {j : J}
    (h : Run env cfg info disk ok j) : Sched.Reachable cfg j.s := by
  induction h with
  | start asked _ _ => exact ⟨[], rfl⟩
  | @step j j' e asked _ _ hs _ _ ih =>
    have hr : Sched.Reachable cfg j'.s := by
      rcases step_refine ih.inv hs with h1 | ⟨ev, h1⟩
      · rw [h1]; exact ih
      · obtain ⟨es, hes⟩ := ih
        exact ⟨es ++ [ev], run_snoc es hes h1⟩
    split
    · exact hr
    · exact hr

end Jom.Make
