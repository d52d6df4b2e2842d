/-
C117: nested joms with job servers of their own.
-/
import Verif.Model.Forest
import Verif.Props.NotParallel

namespace Jom.Forest

open Jom.Sched Jom.Tree

/-- Every group satisfies the invariant of its tree, and is run by an executor of an earlier one. -/
structure GInv (f : List Group) : Prop where
  tree : ∀ G ∈ f, TreeInv G.n G.y ∧ 0 < G.n
  host : ∀ (i : Nat) (G : Group), f[i]? = some G → ∀ g k x, G.host = some (g, k, x) → g < i

theorem GInv.first {n : Nat} {cfg : Cfg} (hn : 0 < n) (hj : 0 < cfg.jobs) : GInv (first n cfg) := by
  constructor
  · intro G hG
    simp only [Forest.first, List.mem_singleton] at hG
    subst hG
    exact ⟨startWith_inv hn hj, hn⟩
  · intro i G hi g k x hh
    have hm := List.mem_of_getElem? hi
    simp only [Forest.first, List.mem_singleton] at hm
    subst hm
    cases hh

theorem GInv.step {f f' : List Group} {e : GEvent} (h : GInv f) (hs : step f e = some f') : GInv f' := by
  cases e with
  | inner g e =>
    simp only [Forest.step] at hs
    split at hs
    · cases hs
    · next G hG =>
      split at hs
      · obtain ⟨y, h1, rfl⟩ := Option.map_eq_some_iff.1 hs
        have hm := List.mem_of_getElem? hG
        constructor
        · intro K hK
          rcases List.mem_or_eq_of_mem_set hK with hK | rfl
          · exact h.tree K hK
          · exact ⟨(h.tree G hm).1.step h1, (h.tree G hm).2⟩
        · intro i K hi
          by_cases hgi : g = i
          · subst hgi
            rw [List.getElem?_set_self (List.getElem?_eq_some_iff.1 hG).1] at hi
            simp only [Option.some.injEq] at hi
            subst hi
            exact h.host g G hG
          · rw [List.getElem?_set_ne hgi] at hi
            exact h.host i K hi
      · cases hs
  | server g k x n cfg =>
    simp only [Forest.step] at hs
    split at hs
    · cases hs
    · next G hG =>
      split at hs
      · next hc =>
        simp only [Option.some.injEq] at hs
        subst hs
        have hlen := (List.getElem?_eq_some_iff.1 hG).1
        constructor
        · intro K hK
          rcases List.mem_append.1 hK with hK | hK
          · exact h.tree K hK
          · rw [List.mem_singleton.1 hK]
            exact ⟨startWith_inv hc.2.2.2.1 hc.2.2.2.2, hc.2.2.2.1⟩
        · intro i K hi g' k' x' hh
          by_cases hl : i < f.length
          · rw [List.getElem?_append_left hl] at hi
            exact h.host i K hi g' k' x' hh
          · rw [List.getElem?_append_right (by omega)] at hi
            have hm := List.mem_of_getElem? hi
            rw [List.mem_singleton] at hm
            subst hm
            simp only [Option.some.injEq, Prod.mk.injEq] at hh
            omega
      · cases hs

theorem GInv.run : ∀ (es : List GEvent) (f f' : List Group), GInv f → run f es = some f' → GInv f'
  | [], f, f', h, hr => by
    simp only [Forest.run, Option.some.injEq] at hr
    subst hr
    exact h
  | e :: es, f, f', h, hr => by
    simp only [Forest.run, Option.bind_eq_some_iff] at hr
    obtain ⟨f1, h1, h2⟩ := hr
    exact GInv.run es f1 f' (h.step h1) h2

theorem Reachable.inv {n : Nat} {cfg : Cfg} {f : List Group} (hn : 0 < n) (hj : 0 < cfg.jobs) (h : Reachable n cfg f) : GInv f := by
  obtain ⟨es, he⟩ := h
  exact GInv.run es _ f (GInv.first hn hj) he

/-- A guest belongs to a later group that is alive. -/
theorem guest_later {f : List Group} (h : GInv f) {g : Nat} {a : Nat × Nat} (ha : a ∈ guests f g) :
    ∃ i G, f[i]? = some G ∧ G.alive = true ∧ g < i := by
  obtain ⟨G, hG, he⟩ := List.mem_filterMap.1 ha
  obtain ⟨i, hi⟩ := List.getElem?_of_mem hG
  split at he
  · cases he
  · next g' k x hh =>
    split at he
    · next hc => exact ⟨i, G, hi, hc.1, hc.2 ▸ h.host i G hi _ _ _ hh⟩
    · cases he

end Jom.Forest

namespace Jom.Props

open Jom.Sched Jom.Tree Jom.Forest

/-- C117: every job server keeps its limit: of the joms that share a job server for `n` jobs, none of which was aborted, at most `n` commands are running that are
not joms of this group (a jom with a server of its own counts as a command here). -/
theorem C117_limits {n : Nat} {cfg : Cfg} (hn : 0 < n) (hj : 0 < cfg.jobs) {f : List Group} (h : Forest.Reachable n cfg f) :
    ∀ G ∈ f, (∀ p ∈ G.y.procs, p.st.aborted = false) → leafProcesses G.y + G.y.sem ≤ G.n :=
  fun G hG hna => tree_limit ((h.inv hn hj).tree G hG).1 hna

/-- C117: no job server waits for another one: a tree of joms that share a job server, whose outermost jom has not ended and none of which was aborted or runs a
jom with a job server of its own, can handle an event, whatever the other trees do. -/
theorem C117_progress_each {n : Nat} {cfg : Cfg} (hn : 0 < n) (hj : 0 < cfg.jobs) {f : List Group} (h : Forest.Reachable n cfg f)
    {g : Nat} {G : Group} (hg : f[g]? = some G) (hna : ∀ p ∈ G.y.procs, p.st.aborted = false)
    (hroot : ∃ p, G.y.procs[0]? = some p ∧ p.st.exits = []) (hgu : guests f g = []) :
    ∃ k ev, (Forest.step f (.inner g (.proc k ev))).isSome = true := by
  obtain ⟨ht, hpos⟩ := (h.inv hn hj).tree G (List.mem_of_getElem? hg)
  obtain ⟨k, ev, hs⟩ := tree_progress hpos ht hna hroot
  refine ⟨k, ev, ?_⟩
  have hal : allowed f g (.proc k ev) = true := by
    cases ev <;> simp [allowed, hgu]
  simp only [Forest.step, hg, hal, if_true, Option.isSome_map]
  exact hs

/-- C117: joms with any number of job servers do not deadlock: as long as the outermost jom has not ended and no build was aborted, some jom can handle an
event. -/
theorem C117_progress {n : Nat} {cfg : Cfg} (hn : 0 < n) (hj : 0 < cfg.jobs) {f : List Group} (h : Forest.Reachable n cfg f)
    (hna : ∀ G ∈ f, ∀ p ∈ G.y.procs, p.st.aborted = false) (hroot : ∃ G p, f[0]? = some G ∧ G.y.procs[0]? = some p ∧ p.st.exits = []) :
    ∃ g k ev, (Forest.step f (.inner g (.proc k ev))).isSome = true := by
  have hi := h.inv hn hj
  have key : ∀ (m g : Nat) (G : Group), f.length ≤ g + m → f[g]? = some G → G.alive = true →
      ∃ g k ev, (Forest.step f (.inner g (.proc k ev))).isSome = true := by
    intro m
    induction m with
    | zero =>
      intro g G hl hg
      have := (List.getElem?_eq_some_iff.1 hg).1
      omega
    | succ m ih =>
      intro g G hl hg ha
      cases hgu : guests f g with
      | cons a as =>
        obtain ⟨i, K, h1, h2, h3⟩ := guest_later hi (g := g) (a := a) (by rw [hgu]; simp)
        exact ih i K (by omega) h1 h2
      | nil =>
        have hr : ∃ p, G.y.procs[0]? = some p ∧ p.st.exits = [] := by
          unfold Group.alive at ha
          split at ha
          · cases ha
          · next p hp =>
            unfold Proc.alive at ha
            exact ⟨p, hp, by simpa using ha⟩
        exact ⟨g, C117_progress_each hn hj h hg (hna G (List.mem_of_getElem? hg)) hr hgu⟩
  obtain ⟨G, p, h1, h2, h3⟩ := hroot
  refine key f.length 0 G (by omega) h1 ?_
  unfold Group.alive
  rw [h2]
  simp [Proc.alive, h3]

/-- C117: the end of a command is handled, with either result, exactly if the command is no live jom, neither one that shares the job server nor one with
a job server of its own. -/
theorem C117_finish {n : Nat} {cfg : Cfg} (hn : 0 < n) (hj : 0 < cfg.jobs) {f : List Group} (h : Forest.Reachable n cfg f)
    {g : Nat} {G : Group} (hg : f[g]? = some G) {k x : Nat} (hs : (k, x) ∈ slots G.y) (failed : Bool) :
    (Forest.step f (.inner g (.proc k (.childFinished x failed)))).isSome = true ↔ (k, x) ∉ hosts G.y ∧ (k, x) ∉ guests f g := by
  obtain ⟨ht, _⟩ := (h.inv hn hj).tree G (List.mem_of_getElem? hg)
  obtain ⟨p, hk, ha, t, hb⟩ := mem_slots.1 hs
  have hd : p.st.dead = false := by
    cases hd : p.st.dead with
    | false => rfl
    | true =>
      have := ((ht.inv p (List.mem_of_getElem? hk)).deadExit hd).1
      unfold Proc.alive at ha
      simp only [List.isEmpty_iff] at ha
      rw [ha] at this; cases this
  have hst : (Sched.step p.cfg p.st (.childFinished x failed)).isSome = true := by
    simp only [Sched.step, hd, Bool.false_eq_true, if_false]
    cases hf : p.st.busy.find? (fun q => decide (q.1 = x)) with
    | some q => rfl
    | none =>
      have := List.find?_eq_none.1 hf (x, t) hb
      simp at this
  obtain ⟨st, hst⟩ := Option.isSome_iff_exists.1 hst
  simp only [Forest.step, hg, allowed, Tree.step, hk, ha, mayFinish, mayGrant, Bool.true_and, Bool.and_true]
  by_cases h1 : (k, x) ∈ guests f g <;> by_cases h2 : (k, x) ∈ hosts G.y <;> simp [h1, h2, hst]

/-! `jom -j1`, whose first command is `jom -j3`: the nested jom runs its three targets at once, and meanwhile the executor that runs it cannot finish. -/

namespace OwnServerCase

def events : List GEvent :=
  let s (g : Nat) : GEvent := .inner g (.proc 0 (.startProcesses exO))
  let i (g : Nat) (e : Event) : GEvent := .inner g (.proc 0 e)
  [s 0, .server 0 0 0 3 (forkCfg 3 false), s 1, s 1, i 1 .grant, i 1 (.acquired .running false), s 1, i 1 .grant, i 1 (.acquired .running false)]

/-- No jom was aborted or has ended. -/
def busyJoms (f : List Group) : Bool := f.all fun G => !G.y.procs.isEmpty && G.y.procs.all fun p => !p.st.aborted && p.st.exits.isEmpty

theorem after : (Forest.run (first 1 (forkCfg 1 false)) events).map (fun f => (f.map (fun G => ((G.n, leafProcesses G.y), G.y.sem)), guests f 0, busyJoms f)) =
    some ([((1, 1), 0), ((3, 3), 0)], [(0, 0)], true) := by decide +kernel

theorem busy {f : List Group} (h : busyJoms f = true) : ∀ G ∈ f, G.y.procs ≠ [] ∧ ∀ p ∈ G.y.procs, p.st.aborted = false ∧ p.st.exits = [] := by
  simpa [busyJoms] using h

/-- The executor that runs the nested jom cannot finish, and cannot start another one. -/
example : (Forest.run (first 1 (forkCfg 1 false)) events).map (fun f => ((Forest.step f (.inner 0 (.proc 0 (.childFinished 0 false)))).isSome,
    (Forest.step f (.server 0 0 0 2 (forkCfg 2 false))).isSome, (Forest.step f (.inner 1 (.proc 0 (.childFinished 0 false)))).isSome)) =
    some (false, false, true) := by decide +kernel

/-- `jom -j2`: while one executor runs `jom -j3`, the other one starts and finishes its target. -/
example : (Forest.run (first 2 (forkCfg 2 false)) [.inner 0 (.proc 0 (.startProcesses exO)), .server 0 0 0 3 (forkCfg 3 false),
    .inner 0 (.proc 0 (.startProcesses exO)), .inner 0 (.proc 0 .grant), .inner 0 (.proc 0 (.acquired .running false)),
    .inner 0 (.proc 0 (.childFinished 1 false))]).isSome = true := by decide +kernel

/-- The theorems apply to these two joms. -/
example : ∃ f, Forest.run (first 1 (forkCfg 1 false)) events = some f ∧ (∀ G ∈ f, leafProcesses G.y + G.y.sem ≤ G.n) ∧
    ∃ g k ev, (Forest.step f (.inner g (.proc k ev))).isSome = true := by
  obtain ⟨f, hf, he⟩ := Option.map_eq_some_iff.1 after
  simp only [Prod.mk.injEq] at he
  obtain ⟨h1, _, h3⟩ := he
  have hq := busy h3
  have hr : Forest.Reachable 1 (forkCfg 1 false) f := ⟨_, hf⟩
  refine ⟨f, hf, fun G hG => C117_limits (by decide) (by decide) hr G hG fun p h => ((hq G hG).2 p h).1,
    C117_progress (by decide) (by decide) hr (fun G hG p h => ((hq G hG).2 p h).1) ?_⟩
  cases f with
  | nil => cases h1
  | cons G f =>
    have hG := hq G List.mem_cons_self
    cases hpr : G.y.procs with
    | nil => exact absurd hpr hG.1
    | cons p ps => exact ⟨G, p, rfl, by rw [hpr]; rfl, (hG.2 p (by rw [hpr]; exact List.mem_cons_self)).2⟩

/-- The nested jom does not wait for the other one. -/
example : ∃ f, Forest.run (first 1 (forkCfg 1 false)) events = some f ∧ ∃ k ev, (Forest.step f (.inner 1 (.proc k ev))).isSome = true := by
  obtain ⟨f, hf, he⟩ := Option.map_eq_some_iff.1 after
  simp only [Prod.mk.injEq] at he
  obtain ⟨h1, _, h3⟩ := he
  have hg : (Forest.run (first 1 (forkCfg 1 false)) events).map (fun f => guests f 1) = some [] := by decide +kernel
  rw [hf] at hg
  simp only [Option.map_some, Option.some.injEq] at hg
  have hl : 1 < f.length := by
    have := congrArg List.length h1
    simp at this
    omega
  have hG := busy h3 f[1] (List.getElem_mem hl)
  refine ⟨f, hf, C117_progress_each (by decide) (by decide) ⟨_, hf⟩ (List.getElem?_eq_getElem hl) (fun p h => (hG.2 p h).1) ?_ hg⟩
  cases hpr : f[1].y.procs with
  | nil => exact absurd hpr hG.1
  | cons p ps => exact ⟨p, rfl, (hG.2 p (by rw [hpr]; exact List.mem_cons_self)).2⟩

/-- Every target of the nested jom can finish, with either result. -/
example : ∃ f G, Forest.run (first 1 (forkCfg 1 false)) events = some f ∧ f[1]? = some G ∧
    ∀ x < 3, ∀ failed, (Forest.step f (.inner 1 (.proc 0 (.childFinished x failed)))).isSome = true := by
  have e : (Forest.run (first 1 (forkCfg 1 false)) events).bind (fun f => f[1]?.map fun G => (slots G.y, hosts G.y, guests f 1)) =
      some ([(0, 2), (0, 1), (0, 0)], [], []) := by decide +kernel
  obtain ⟨f, hf, he⟩ := Option.bind_eq_some_iff.1 e
  obtain ⟨G, hG, he⟩ := Option.map_eq_some_iff.1 he
  simp only [Prod.mk.injEq] at he
  obtain ⟨h1, h2, h3⟩ := he
  refine ⟨f, G, hf, hG, fun x hx failed => (C117_finish (by decide) (by decide) ⟨_, hf⟩ hG ?_ failed).2 ⟨by simp [h2], by simp [h3]⟩⟩
  rw [h1]
  simp
  omega

end OwnServerCase

/-- The claim that the `-j` of the outermost jom bounds the whole build is false if a nested jom has a `-j` of its own: `jom -j1` with three commands at once. -/
theorem C117_outer_limit_refuted : ∃ f, Forest.Reachable 1 (forkCfg 1 false) f ∧ (∀ G ∈ f, ∀ p ∈ G.y.procs, p.st.aborted = false) ∧
    ∃ G ∈ f, leafProcesses G.y = 3 := by
  obtain ⟨f, hf, he⟩ := Option.map_eq_some_iff.1 OwnServerCase.after
  simp only [Prod.mk.injEq] at he
  obtain ⟨h1, _, h3⟩ := he
  have : ((3, 3), 0) ∈ f.map (fun G => ((G.n, leafProcesses G.y), G.y.sem)) := by rw [h1]; simp
  obtain ⟨G, hG, e⟩ := List.mem_map.1 this
  simp only [Prod.mk.injEq] at e
  exact ⟨f, ⟨_, hf⟩, fun G hG p hp => ((OwnServerCase.busy h3 G hG).2 p hp).1, G, hG, e.1.2⟩

end Jom.Props
