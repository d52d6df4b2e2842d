/- Invariants of the dependency graph under the operations of the scheduler. -/
import Verif.Proofs.GraphBuild

namespace Jom.Graph

open Jom.Spec Relation

/-- The graph is the part of the makefile reachable from `root` that has not been completed. -/
structure GInv (deps : Nat → List Dep) (root : Option Nat) (g : Graph) : Prop where
  nodup : g.ids.Nodup
  reach : ∀ x ∈ g.ids, ∃ r, root = some r ∧ Reaches deps r x
  up : ∀ x ∈ g.ids, ∀ p r, root = some r → Reaches deps r p → DependsOn deps p x → p ∈ g.ids
  ch : ∀ x ∈ g.ids, ∀ c, c ∈ g.children x ↔ DependsOn deps x c ∧ c ∈ g.ids
  chNodup : ∀ x ∈ g.ids, (g.children x).Nodup
  pa : ∀ x ∈ g.ids, ∀ p, p ∈ g.parents x ↔ p ∈ g.ids ∧ DependsOn deps p x
  paNodup : ∀ x ∈ g.ids, (g.parents x).Nodup
  lvNodup : g.leaves.Nodup
  lv : ∀ x, x ∈ g.leaves ↔ x ∈ g.ids ∧ g.children x = []

theorem BuildSpec.ginv {deps root g} (h : BuildSpec deps root g) : GInv deps (some root) g where
  nodup := h.wf.nodup
  reach := fun x hx => ⟨root, rfl, (h.ids x).1 hx⟩
  up := by
    intro x _ p r hr hp _
    cases hr
    exact (h.ids p).2 hp
  ch := by
    intro x hx c
    rw [h.children]
    constructor
    · rintro ⟨a, b⟩; exact ⟨b, (h.ids c).2 (a.tail b)⟩
    · rintro ⟨a, _⟩; exact ⟨(h.ids x).1 hx, a⟩
  chNodup := fun x _ => h.wf.cnodup x
  pa := by
    intro x _ p
    rw [← h.wf.sym, h.children, h.ids]
  paNodup := fun x _ => h.wf.pnodup x
  lvNodup := h.leavesNodup
  lv := by
    intro x
    rw [h.leaves, h.ids]
    constructor
    · rintro ⟨a, b⟩
      exact ⟨a, List.eq_nil_iff_forall_not_mem.2 fun c hc => b c ((h.children x c).1 hc).2⟩
    · rintro ⟨a, b⟩
      refine ⟨a, fun c hc => ?_⟩
      have := (h.children x c).2 ⟨a, hc⟩
      rw [b] at this; simp at this

theorem ginv_empty (deps : Nat → List Dep) (root : Option Nat) (b : Bool) :
    GInv deps root { Graph.empty with dirty := b } := by
  constructor <;> simp [Graph.empty]

theorem ginv_clear (deps : Nat → List Dep) (root : Option Nat) (g : Graph) : GInv deps root (clear g) :=
  ginv_empty deps root g.dirty

/-- GInv does not depend on the node states. -/
theorem GInv.withState {deps root g} (h : GInv deps root g) (st : Nat → NState) :
    GInv deps root { g with state := st } :=
  ⟨h.nodup, h.reach, h.up, h.ch, h.chNodup, h.pa, h.paNodup, h.lvNodup, h.lv⟩

theorem GInv.withDirty {deps root g} (h : GInv deps root g) (b : Bool) :
    GInv deps root { g with dirty := b } :=
  ⟨h.nodup, h.reach, h.up, h.ch, h.chNodup, h.pa, h.paNodup, h.lvNodup, h.lv⟩

theorem detach_fold (node : Nat) : ∀ (ps : List Nat) (g : Graph), ps.Nodup →
    let g' := ps.foldl (detachParent node) g
    g'.ids = g.ids ∧ g'.parents = g.parents ∧ g'.state = g.state ∧
    (∀ x, g'.children x = if x ∈ ps then (g.children x).erase node else g.children x) ∧
    g'.leaves = g.leaves ++ ps.filter (fun p => ((g.children p).erase node).isEmpty) ∧
    g'.dirty = (g.dirty || ps.any fun p => ((g.children p).erase node).isEmpty) := by
  intro ps
  induction ps with
  | nil => intro g _; simp
  | cons p ps ih =>
    intro g hnd
    obtain ⟨hp, hnd'⟩ := List.nodup_cons.1 hnd
    simp only [List.foldl_cons]
    obtain ⟨a, b, c, d, e, f⟩ := ih (detachParent node g p) hnd'
    have h1 : (detachParent node g p).ids = g.ids := by simp only [detachParent]; split <;> rfl
    have h2 : (detachParent node g p).parents = g.parents := by simp only [detachParent]; split <;> rfl
    have h3 : (detachParent node g p).state = g.state := by simp only [detachParent]; split <;> rfl
    have h4 : (detachParent node g p).children = upd g.children p ((g.children p).erase node) := by
      simp only [detachParent]; split <;> rfl
    have h4' : ∀ x ∈ ps, (detachParent node g p).children x = g.children x := by
      intro x hx; rw [h4]; exact upd_other _ _ (by rintro rfl; exact hp hx)
    have hf : ps.filter (fun q => (((detachParent node g p).children q).erase node).isEmpty)
        = ps.filter (fun q => ((g.children q).erase node).isEmpty) := by
      apply List.filter_congr; intro x hx; rw [h4' x hx]
    have ha : (ps.any fun q => (((detachParent node g p).children q).erase node).isEmpty)
        = (ps.any fun q => ((g.children q).erase node).isEmpty) := by
      rw [Bool.eq_iff_iff]
      simp only [List.any_eq_true]
      constructor
      · rintro ⟨x, hx, hy⟩; exact ⟨x, hx, by rw [h4' x hx] at hy; exact hy⟩
      · rintro ⟨x, hx, hy⟩; exact ⟨x, hx, by rw [h4' x hx]; exact hy⟩
    refine ⟨by rw [a, h1], by rw [b, h2], by rw [c, h3], ?_, ?_, ?_⟩
    · intro x
      rw [d]
      by_cases hx : x ∈ ps
      · simp [hx, h4' x hx]
      · by_cases hxp : x = p
        · subst hxp; simp [hx, h4]
        · simp [hx, hxp, h4, upd_other _ _ hxp]
    · rw [e, hf, List.filter_cons]
      simp only [detachParent]
      split <;> simp
    · rw [f, ha, List.any_cons]
      simp only [detachParent]
      split
      · next h => simp [h]
      · next h => simp [h]

/-- Effect of removing a leaf. -/
theorem removeLeafNode_ids (g : Graph) (node : Nat) (hnd : (g.parents node).Nodup) :
    (removeLeafNode g node).ids = g.ids.filter (· ≠ node) ∧ (removeLeafNode g node).state = g.state := by
  have := detach_fold node (g.parents node) { g with leaves := g.leaves.filter (· ≠ node) } hnd
  obtain ⟨a, b, c, d, e, f⟩ := this
  simp only [removeLeafNode]
  exact ⟨by rw [a], c⟩

theorem GInv.removeLeafNode {deps root g} (h : GInv deps root g) {node : Nat} (hn : node ∈ g.ids)
    (hl : g.children node = []) : GInv deps root (removeLeafNode g node) := by
  obtain ⟨a, b, c, d, e, f⟩ :=
    detach_fold node (g.parents node) { g with leaves := g.leaves.filter (· ≠ node) } (h.paNodup node hn)
  have hch : ∀ x ∈ g.ids, x ≠ node →
      ∀ y, y ∈ (Graph.removeLeafNode g node).children x ↔ y ∈ g.children x ∧ y ≠ node := by
    intro x hx hxn y
    simp only [Graph.removeLeafNode]
    rw [d]
    by_cases hxp : x ∈ g.parents node
    · simp only [hxp, if_true]
      rw [List.Nodup.mem_erase_iff (h.chNodup x hx)]
      exact and_comm
    · simp only [hxp, if_false]
      constructor
      · intro hy
        refine ⟨hy, ?_⟩
        rintro rfl
        exact hxp ((h.pa _ hn x).2 ⟨hx, ((h.ch x hx _).1 hy).1⟩)
      · exact fun hy => hy.1
  have hids : ∀ x, x ∈ (Graph.removeLeafNode g node).ids ↔ x ∈ g.ids ∧ x ≠ node := by
    intro x
    rw [(removeLeafNode_ids g node (h.paNodup node hn)).1]
    simp
  have hpar : (Graph.removeLeafNode g node).parents = g.parents := by
    simp only [Graph.removeLeafNode]; exact b
  constructor
  · rw [(removeLeafNode_ids g node (h.paNodup node hn)).1]
    exact h.nodup.filter _
  · intro x hx; exact h.reach x ((hids x).1 hx).1
  · intro x hx p r hr hp hd
    obtain ⟨hx1, hx2⟩ := (hids x).1 hx
    refine (hids p).2 ⟨h.up x hx1 p r hr hp hd, ?_⟩
    rintro rfl
    have := (h.ch p hn x).2 ⟨hd, hx1⟩
    rw [hl] at this; simp at this
  · intro x hx y
    obtain ⟨hx1, hx2⟩ := (hids x).1 hx
    rw [hch x hx1 hx2, h.ch x hx1, hids]
    grind
  · intro x hx
    obtain ⟨hx1, hx2⟩ := (hids x).1 hx
    simp only [Graph.removeLeafNode]
    rw [d]
    split
    · exact (h.chNodup x hx1).erase _
    · exact h.chNodup x hx1
  · intro x hx p
    obtain ⟨hx1, hx2⟩ := (hids x).1 hx
    rw [hpar, h.pa x hx1, hids]
    constructor
    · rintro ⟨p1, p2⟩
      refine ⟨⟨p1, ?_⟩, p2⟩
      rintro rfl
      have := (h.ch p hn x).2 ⟨p2, hx1⟩
      rw [hl] at this; simp at this
    · rintro ⟨⟨p1, _⟩, p2⟩; exact ⟨p1, p2⟩
  · intro x hx
    rw [hpar]
    exact h.paNodup x ((hids x).1 hx).1
  · simp only [Graph.removeLeafNode]
    rw [e, List.nodup_append]
    refine ⟨h.lvNodup.filter _, (h.paNodup node hn).filter _, ?_⟩
    intro x hx y hy hxy
    subst hxy
    have hx' : x ∈ g.leaves := (List.mem_filter.1 hx).1
    have hy' : x ∈ g.parents node := (List.mem_filter.1 hy).1
    have hxl := (h.lv x).1 hx'
    have := (h.ch x hxl.1 node).2 ⟨((h.pa node hn x).1 hy').2, hn⟩
    rw [hxl.2] at this; simp at this
  · intro x
    have hL : x ∈ (Graph.removeLeafNode g node).leaves ↔
        (x ∈ g.leaves ∧ x ≠ node) ∨ (x ∈ g.parents node ∧ (g.children x).erase node = []) := by
      simp only [Graph.removeLeafNode]
      rw [e]; simp [List.isEmpty_iff]
    rw [hL, hids]
    have hcx : (Graph.removeLeafNode g node).children x
        = if x ∈ g.parents node then (g.children x).erase node else g.children x := by
      simp only [Graph.removeLeafNode]; rw [d]
    rw [hcx]
    constructor
    · rintro (⟨p, q⟩ | ⟨p, q⟩)
      · obtain ⟨r, s⟩ := (h.lv x).1 p
        refine ⟨⟨r, q⟩, ?_⟩
        split <;> simp [s]
      · have hx := ((h.pa node hn x).1 p)
        refine ⟨⟨hx.1, ?_⟩, by simp [p, q]⟩
        rintro rfl
        have := (h.ch x hn x).2 ⟨hx.2, hn⟩
        rw [hl] at this; simp at this
    · rintro ⟨⟨p, q⟩, r⟩
      by_cases hxp : x ∈ g.parents node
      · right; simp only [hxp, if_true] at r; exact ⟨hxp, r⟩
      · left; simp only [hxp, if_false] at r; exact ⟨(h.lv x).2 ⟨p, r⟩, q⟩

/-- Effect of removing a list of leaves. -/
theorem removeMany {deps root} : ∀ (gone : List Nat) (g : Graph), GInv deps root g → gone.Nodup →
    (∀ x ∈ gone, x ∈ g.ids ∧ g.children x = []) →
    GInv deps root (gone.foldl Graph.removeLeafNode g) ∧
    (gone.foldl Graph.removeLeafNode g).ids = g.ids.filter (· ∉ gone) ∧
    (gone.foldl Graph.removeLeafNode g).state = g.state := by
  intro gone
  induction gone with
  | nil => intro g h _ _; exact ⟨h, (List.filter_eq_self.2 (by simp)).symm, rfl⟩
  | cons n gone ih =>
    intro g h hnd hall
    obtain ⟨hn, hnd'⟩ := List.nodup_cons.1 hnd
    obtain ⟨hni, hnl⟩ := hall n (List.mem_cons_self ..)
    have h' := h.removeLeafNode hni hnl
    obtain ⟨e1, e2⟩ := removeLeafNode_ids g n (h.paNodup n hni)
    simp only [List.foldl_cons]
    have hall' : ∀ x ∈ gone, x ∈ (Graph.removeLeafNode g n).ids ∧ (Graph.removeLeafNode g n).children x = [] := by
      intro x hx
      obtain ⟨p, q⟩ := hall x (List.mem_cons_of_mem _ hx)
      have hxn : x ≠ n := by rintro rfl; exact hn hx
      have hx' : x ∈ (Graph.removeLeafNode g n).ids := by rw [e1]; simp [p, hxn]
      refine ⟨hx', ?_⟩
      apply List.eq_nil_iff_forall_not_mem.2
      intro c hc
      obtain ⟨r, s⟩ := (h'.ch x hx' c).1 hc
      have : c ∈ g.children x := (h.ch x p c).2 ⟨r, by rw [e1] at s; exact (List.mem_filter.1 s).1⟩
      rw [q] at this; simp at this
    obtain ⟨a, b, c⟩ := ih _ h' hnd' hall'
    refine ⟨a, ?_, by rw [c, e2]⟩
    rw [b, e1, List.filter_filter]
    apply List.filter_congr
    intro x _
    simp only [List.mem_cons, not_or, Bool.decide_and, ne_eq]
    exact Bool.and_comm _ _

theorem removeUpToDate_spec {deps root g} (upToDate : Nat → Bool) (h : GInv deps root g) :
    GInv deps root (removeUpToDate upToDate g).1 ∧
    (removeUpToDate upToDate g).1.ids = g.ids.filter (· ∉ (removeUpToDate upToDate g).2) ∧
    (removeUpToDate upToDate g).1.state = g.state ∧
    (removeUpToDate upToDate g).2.Nodup ∧
    (∀ x ∈ (removeUpToDate upToDate g).2, x ∈ g.leaves ∧ g.state x ≠ .executing) := by
  have hnd : (g.leaves.filter fun l => decide (g.state l ≠ .executing) && upToDate l).Nodup := h.lvNodup.filter _
  have hm : ∀ x ∈ (g.leaves.filter fun l => decide (g.state l ≠ .executing) && upToDate l),
      x ∈ g.leaves ∧ g.state x ≠ .executing := by
    intro x hx
    simp only [List.mem_filter, Bool.and_eq_true, decide_eq_true_eq] at hx
    exact ⟨hx.1, hx.2.1⟩
  obtain ⟨a, b, c⟩ := removeMany _ { g with dirty := false } (h.withDirty false) hnd
    (fun x hx => (h.lv x).1 (hm x hx).1)
  exact ⟨a, b, c, hnd, hm⟩

/-- Effect of the loop over the leaves that are up to date. -/
structure Dropped (deps : Nat → List Dep) (root : Option Nat) (g g' : Graph) (gone : List Nat) : Prop where
  inv : GInv deps root g'
  ids : g'.ids = g.ids.filter (· ∉ gone)
  state : g'.state = g.state
  nodup : gone.Nodup
  mem : ∀ x ∈ gone, x ∈ g.ids ∧ g.state x ≠ .executing

theorem Dropped.refl {deps root g} (h : GInv deps root g) : Dropped deps root g g [] :=
  ⟨h, (List.filter_eq_self.2 (by simp)).symm, rfl, by simp, by simp⟩

theorem Dropped.trans {deps root g g1 g2 l1 l2} (h1 : Dropped deps root g g1 l1)
    (h2 : Dropped deps root g1 g2 l2) : Dropped deps root g g2 (l1 ++ l2) := by
  refine ⟨h2.inv, ?_, by rw [h2.state, h1.state], ?_, ?_⟩
  · rw [h2.ids, h1.ids, List.filter_filter]
    apply List.filter_congr
    intro x _
    simp only [List.mem_append, not_or, Bool.decide_and]
    exact Bool.and_comm _ _
  · rw [List.nodup_append]
    refine ⟨h1.nodup, h2.nodup, ?_⟩
    intro x hx y hy hxy
    subst hxy
    have := (h2.mem x hy).1
    rw [h1.ids] at this
    simp at this
    exact this.2 hx
  · intro x hx
    rcases List.mem_append.1 hx with hx | hx
    · exact h1.mem x hx
    · obtain ⟨a, b⟩ := h2.mem x hx
      rw [h1.state] at b
      rw [h1.ids] at a
      exact ⟨(List.mem_filter.1 a).1, b⟩

theorem dirtyLoop_spec {deps root} (upToDate : Nat → Nat → Bool) : ∀ fuel g, GInv deps root g →
    Dropped deps root g (dirtyLoop upToDate fuel g).1 (dirtyLoop upToDate fuel g).2 := by
  intro fuel
  induction fuel with
  | zero => intro g h; exact Dropped.refl h
  | succ fuel ih =>
    intro g h
    simp only [dirtyLoop]
    split
    · obtain ⟨a, b, c, d, e⟩ := removeUpToDate_spec (upToDate fuel) h
      have h1 : Dropped deps root g (removeUpToDate (upToDate fuel) g).1 (removeUpToDate (upToDate fuel) g).2 :=
        ⟨a, b, c, d, fun x hx => ⟨((h.lv x).1 (e x hx).1).1, (e x hx).2⟩⟩
      exact h1.trans (ih _ a)
    · exact Dropped.refl h

theorem prune_spec {deps root g} (ig : Bool) (upToDate : Nat → Nat → Bool) (h : GInv deps root g) :
    Dropped deps root g (prune ig upToDate g).1 (prune ig upToDate g).2 := by
  unfold prune
  split
  · exact Dropped.refl h
  · exact dirtyLoop_spec upToDate _ g h

theorem filter_notMem_length {l gone : List Nat} (hl : l.Nodup) (hg : gone.Nodup) (hsub : ∀ x ∈ gone, x ∈ l) :
    (l.filter (· ∉ gone)).length + gone.length = l.length := by
  induction gone generalizing l with
  | nil => simp
  | cons a gone ih =>
    obtain ⟨ha, hg'⟩ := List.nodup_cons.1 hg
    have hal : a ∈ l := hsub a (List.mem_cons_self ..)
    have h1 := ih (l := l.erase a) (hl.erase a) hg' (by
      intro x hx
      rw [List.Nodup.mem_erase_iff hl]
      exact ⟨by rintro rfl; exact ha hx, hsub x (List.mem_cons_of_mem _ hx)⟩)
    have h2 : l.filter (· ∉ a :: gone) = (l.erase a).filter (· ∉ gone) := by
      rw [hl.erase_eq_filter, List.filter_filter]
      apply List.filter_congr
      intro x _
      simp only [List.mem_cons, not_or, Bool.decide_and]
      rw [Bool.and_comm]
      congr 1
      by_cases hx : x = a <;> simp [hx]
    rw [h2, List.length_cons]
    rw [List.length_erase_of_mem hal] at h1
    have : 0 < l.length := List.length_pos_of_mem hal
    omega

theorem Dropped.length {deps root g g' gone} (h : Dropped deps root g g' gone) (hg : GInv deps root g) :
    g'.ids.length + gone.length = g.ids.length := by
  rw [h.ids]
  exact filter_notMem_length hg.nodup h.nodup (fun x hx => (h.mem x hx).1)

theorem fold_dirty : ∀ (gone : List Nat) (g : Graph), gone = [] → (gone.foldl Graph.removeLeafNode g).dirty = g.dirty := by
  rintro _ g rfl; rfl

/-- The fuel of the loop is sufficient: it ends with a clean flag, as in the C++ code. -/
theorem dirtyLoop_done {deps root} (upToDate : Nat → Nat → Bool) : ∀ fuel g, GInv deps root g →
    g.ids.length < fuel → (dirtyLoop upToDate fuel g).1.dirty = false := by
  intro fuel
  induction fuel with
  | zero => intro g _ h; omega
  | succ fuel ih =>
    intro g h hlt
    simp only [dirtyLoop]
    split
    · obtain ⟨a, b, c, d, e⟩ := removeUpToDate_spec (upToDate fuel) h
      by_cases hgone : (removeUpToDate (upToDate fuel) g).2 = []
      · have hd : (removeUpToDate (upToDate fuel) g).1.dirty = false := by
          have : (removeUpToDate (upToDate fuel) g).1 =
            ((removeUpToDate (upToDate fuel) g).2).foldl Graph.removeLeafNode { g with dirty := false } := rfl
          rw [this, hgone]; rfl
        cases fuel with
        | zero => simp only [dirtyLoop]; exact hd
        | succ fuel => simp only [dirtyLoop, hd]; simpa using hd
      · apply ih _ a
        have h1 : Dropped deps root g (removeUpToDate (upToDate fuel) g).1 (removeUpToDate (upToDate fuel) g).2 :=
          ⟨a, b, c, d, fun x hx => ⟨((h.lv x).1 (e x hx).1).1, (e x hx).2⟩⟩
        have := h1.length h
        have : 0 < (removeUpToDate (upToDate fuel) g).2.length := List.length_pos_iff.2 hgone
        omega
    · next hd => simpa using hd

theorem pick_spec {deps root g} (h : GInv deps root g) :
    (pick g).1.ids = g.ids ∧ (pick g).1.leaves = g.leaves ∧ (pick g).1.children = g.children ∧
    (pick g).1.parents = g.parents ∧ GInv deps root (pick g).1 ∧
    ((pick g).2 = none → (pick g).1 = g ∧ ∀ x ∈ g.leaves, g.state x = .executing) ∧
    (∀ t, (pick g).2 = some t → t ∈ g.ids ∧ g.children t = [] ∧ g.state t ≠ .executing ∧
      (∀ x, x ≠ t → (pick g).1.state x = g.state x) ∧
      (g.state t = .unbuildable → (pick g).1.state t = .unbuildable) ∧
      (g.state t ≠ .unbuildable → (pick g).1.state t = .executing)) := by
  unfold pick
  cases hf : g.leaves.find? (fun l => decide (g.state l ≠ .executing)) with
  | none =>
    refine ⟨rfl, rfl, rfl, rfl, h, ?_, by simp⟩
    intro _
    refine ⟨rfl, fun x hx => ?_⟩
    have := List.find?_eq_none.1 hf x hx
    simpa using this
  | some l =>
    have hm := List.mem_of_find?_eq_some hf
    have hs := List.find?_some hf
    simp only [decide_eq_true_eq] at hs
    simp only
    refine ⟨by split <;> rfl, by split <;> rfl, by split <;> rfl, by split <;> rfl, ?_, by simp, ?_⟩
    · split
      · exact h.withState _
      · exact h
    · intro t ht
      cases ht
      have hl := (h.lv l).1 hm
      refine ⟨hl.1, hl.2, hs, ?_, ?_, ?_⟩
      · intro x hx; split
        · exact upd_other _ _ hx
        · rfl
      · intro hu; simp [hu]
      · intro hu; simp [hu]

/-- Parent relation of the data structure. -/
def Par (g : Graph) (a b : Nat) : Prop := a ∈ g.ids ∧ b ∈ g.parents a

/-- `markParents` changes nothing but states. -/
theorem markParents_frame : ∀ fuel (g : Graph) node,
    (markParents fuel g node).ids = g.ids ∧ (markParents fuel g node).children = g.children ∧
    (markParents fuel g node).parents = g.parents ∧ (markParents fuel g node).leaves = g.leaves ∧
    (markParents fuel g node).dirty = g.dirty := by
  intro fuel
  induction fuel with
  | zero => intro g node; simp [markParents]
  | succ fuel ih =>
    intro g node
    simp only [markParents]
    generalize g.parents node = ps
    induction ps generalizing g with
    | nil => simp
    | cons p ps ihp =>
      simp only [List.foldl_cons]
      obtain ⟨a, b, c, d, e⟩ := ih { g with state := upd g.state p .unbuildable } p
      obtain ⟨a', b', c', d', e'⟩ := ihp (markParents fuel { g with state := upd g.state p .unbuildable } p)
      exact ⟨by rw [a', a], by rw [b', b], by rw [c', c], by rw [d', d], by rw [e', e]⟩

/-- Only ancestors are marked, and marks are never removed. -/
theorem markParents_sound : ∀ fuel (g : Graph) node x, (∀ a ∈ g.ids, ∀ b ∈ g.parents a, b ∈ g.ids) →
    node ∈ g.ids → ((markParents fuel g node).state x = g.state x ∨
      ((markParents fuel g node).state x = .unbuildable ∧ TransGen (Par g) node x)) ∧
    (g.state x = .unbuildable → (markParents fuel g node).state x = .unbuildable) := by
  intro fuel
  induction fuel with
  | zero => intro g node x _ _; simp [markParents]
  | succ fuel ih =>
    intro g node x hin hnode
    simp only [markParents]
    have hsub : ∀ p ∈ g.parents node, Par g node p := fun _ h => ⟨hnode, h⟩
    revert hsub
    generalize g.parents node = ps
    intro hsub
    have key : ∀ (ps : List Nat) (g' : Graph), g'.parents = g.parents → g'.ids = g.ids →
        (∀ p ∈ ps, Par g node p) →
        ((ps.foldl (fun g p => markParents fuel { g with state := upd g.state p .unbuildable } p) g').state x = g'.state x ∨
         ((ps.foldl (fun g p => markParents fuel { g with state := upd g.state p .unbuildable } p) g').state x = .unbuildable
          ∧ TransGen (Par g) node x)) ∧
        (g'.state x = .unbuildable →
          (ps.foldl (fun g p => markParents fuel { g with state := upd g.state p .unbuildable } p) g').state x = .unbuildable) := by
      intro ps
      induction ps with
      | nil => intro g' _ _ _; simp
      | cons p ps ihp =>
        intro g' hp hi hs
        simp only [List.foldl_cons]
        generalize hg1 : ({ g' with state := upd g'.state p .unbuildable } : Graph) = g1
        have hg1p : g1.parents = g.parents := by rw [← hg1]; exact hp
        have hg1i : g1.ids = g.ids := by rw [← hg1]; exact hi
        have hnp : Par g node p := hs p (List.mem_cons_self ..)
        obtain ⟨i1, i2⟩ := ih g1 p x (by rw [hg1p, hg1i]; exact hin) (by rw [hg1i]; exact hin _ hnode _ hnp.2)
        obtain ⟨j1, j2⟩ := ihp (markParents fuel g1 p)
          (by rw [(markParents_frame fuel g1 p).2.2.1, hg1p]) (by rw [(markParents_frame fuel g1 p).1, hg1i])
          (fun q hq => hs q (List.mem_cons_of_mem _ hq))
        have hPar : Par g1 = Par g := by funext a b; simp [Par, hg1p, hg1i]
        rw [hPar] at i1
        have hst : g1.state x = g'.state x ∨ (x = p ∧ g1.state x = .unbuildable) := by
          rw [← hg1]
          by_cases hx : x = p
          · right; subst hx; simp
          · left; exact upd_other _ _ hx
        refine ⟨?_, ?_⟩
        · rcases j1 with j1 | j1
          · rcases i1 with i1 | i1
            · rcases hst with hst | ⟨rfl, hst⟩
              · left; rw [j1, i1, hst]
              · right; exact ⟨by rw [j1, i1, hst], TransGen.single hnp⟩
            · right; exact ⟨by rw [j1, i1.1], TransGen.head hnp i1.2⟩
          · right; exact j1
        · intro hu
          apply j2
          apply i2
          rcases hst with hst | ⟨_, hst⟩
          · rw [hst, hu]
          · exact hst
    exact key ps g rfl rfl hsub

open Classical in
/-- Number of ancestors. -/
noncomputable def ancCount (g : Graph) (node : Nat) : Nat := (g.ids.filter fun x => TransGen (Par g) node x).length

theorem ancCount_lt {g : Graph} {node p : Nat} (hp : Par g node p) (hpi : p ∈ g.ids)
    (hac : ¬ TransGen (Par g) p p) : ancCount g p < ancCount g node := by
  classical
  unfold ancCount
  apply filter_length_lt (a := p) _ _ hpi
  · simpa using hac
  · simpa using TransGen.single hp
  · intro x _ hx
    simp only [decide_eq_true_eq] at hx ⊢
    exact TransGen.head hp hx

/-- With enough fuel all ancestors are marked. -/
theorem markParents_complete : ∀ fuel (g : Graph) node, (∀ a ∈ g.ids, ∀ b ∈ g.parents a, b ∈ g.ids) →
    node ∈ g.ids → (∀ x, ¬ TransGen (Par g) x x) → ancCount g node ≤ fuel →
    ∀ x, TransGen (Par g) node x → (markParents fuel g node).state x = .unbuildable := by
  intro fuel
  induction fuel with
  | zero =>
    intro g node hin _ _ hle x hx
    classical
    exfalso
    have hxi : x ∈ g.ids := by
      cases hx with
      | single h => exact hin _ h.1 _ h.2
      | tail _ h => exact hin _ h.1 _ h.2
    have : x ∈ g.ids.filter fun x => TransGen (Par g) node x := by simp [hxi, hx]
    have := List.length_pos_of_mem this
    unfold ancCount at hle
    omega
  | succ fuel ih =>
    intro g node hin hnode hac hle x hx
    simp only [markParents]
    have key : ∀ (ps : List Nat) (g' : Graph), g'.parents = g.parents → g'.ids = g.ids →
        (∀ p ∈ ps, Par g node p) →
        (∃ p ∈ ps, ReflTransGen (Par g) p x) ∨ g'.state x = .unbuildable →
        (ps.foldl (fun g p => markParents fuel { g with state := upd g.state p .unbuildable } p) g').state x = .unbuildable := by
      intro ps
      induction ps with
      | nil => intro g' _ _ _ h; simpa using h
      | cons p ps ihp =>
        intro g' hp hi hs h
        simp only [List.foldl_cons]
        generalize hg1 : ({ g' with state := upd g'.state p .unbuildable } : Graph) = g1
        have hg1p : g1.parents = g.parents := by rw [← hg1]; exact hp
        have hg1i : g1.ids = g.ids := by rw [← hg1]; exact hi
        have hPar : Par g1 = Par g := by funext a b; simp [Par, hg1p, hg1i]
        have hnp : Par g node p := hs p (List.mem_cons_self ..)
        have hu : ∀ y, g'.state y = .unbuildable → g1.state y = .unbuildable := by
          intro y hy; rw [← hg1]
          by_cases hyp : y = p
          · subst hyp; simp
          · simpa [upd_other _ _ hyp] using hy
        apply ihp
        · rw [(markParents_frame fuel g1 p).2.2.1, hg1p]
        · rw [(markParents_frame fuel g1 p).1, hg1i]
        · exact fun q hq => hs q (List.mem_cons_of_mem _ hq)
        · rcases h with ⟨q, hq, hqx⟩ | h
          · rcases List.mem_cons.1 hq with rfl | hq
            · right
              rcases reflTransGen_iff_eq_or_transGen.1 hqx with rfl | hqx
              · apply (markParents_sound fuel g1 x x (by rw [hg1p, hg1i]; exact hin)
                  (by rw [hg1i]; exact hin _ hnode _ hnp.2)).2
                rw [← hg1]; simp
              · apply ih g1 q (by rw [hg1p, hg1i]; exact hin) (by rw [hg1i]; exact hin _ hnode _ hnp.2) (by rw [hPar]; exact hac)
                · have : ancCount g1 q = ancCount g q := by unfold ancCount; rw [hPar, hg1i]
                  rw [this]
                  have := ancCount_lt hnp (hin _ hnode _ hnp.2) (hac q)
                  omega
                · rw [hPar]; exact hqx
            · left; exact ⟨q, hq, hqx⟩
          · right
            exact (markParents_sound fuel g1 p x (by rw [hg1p, hg1i]; exact hin)
              (by rw [hg1i]; exact hin _ hnode _ hnp.2)).2 (hu x h)
    apply key _ g rfl rfl (fun _ h => ⟨hnode, h⟩)
    left
    obtain ⟨p, hp, hpx⟩ := TransGen.head'_iff.1 hx
    exact ⟨p, hp.2, hpx⟩

theorem ancCount_le (g : Graph) (node : Nat) : ancCount g node ≤ g.ids.length := List.length_filter_le _ _

end Jom.Graph
