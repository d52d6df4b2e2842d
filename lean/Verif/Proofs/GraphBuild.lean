/- Correctness of the graph construction (`internalBuild`). -/
import Verif.Spec.Graph

namespace Jom.Graph

open Jom.Spec

theorem mem_appendNew {l : List Nat} {x y : Nat} : y ∈ appendNew l x ↔ y ∈ l ∨ y = x := by
  unfold appendNew; split <;> grind

theorem nodup_appendNew {l : List Nat} {x : Nat} (h : l.Nodup) : (appendNew l x).Nodup := by
  unfold appendNew; split
  · exact h
  · rw [List.nodup_append]; grind

@[simp] theorem upd_same {α} (f : Nat → α) (i : Nat) (v : α) : upd f i v i = v := by simp [upd]

theorem upd_other {α} (f : Nat → α) {i j : Nat} (v : α) (h : j ≠ i) : upd f i v j = f j := by
  simp [upd, h]

/-- Well-formedness during the construction. -/
structure Wf (g : Graph) : Prop where
  nodup : g.ids.Nodup
  inIds : ∀ p c, c ∈ g.children p → p ∈ g.ids ∧ c ∈ g.ids
  sym : ∀ p c, c ∈ g.children p ↔ p ∈ g.parents c
  cnodup : ∀ p, (g.children p).Nodup
  pnodup : ∀ p, (g.parents p).Nodup
  unknown : ∀ t, g.state t = .unknown
  isDirty : g.dirty = true

theorem Wf.createNode {g : Graph} (h : Wf g) {t : Nat} (ht : t ∉ g.ids) : Wf (createNode g t) := by
  have hc : g.children t = [] := by
    apply List.eq_nil_iff_forall_not_mem.2
    intro c hc; exact ht (h.inIds _ _ hc).1
  have hp : g.parents t = [] := by
    apply List.eq_nil_iff_forall_not_mem.2
    intro c hc; exact ht (h.inIds _ _ ((h.sym _ _).2 hc)).2
  have e1 : upd g.children t [] = g.children := by
    funext j; by_cases hj : j = t <;> simp [upd, hj, hc]
  have e2 : upd g.parents t [] = g.parents := by
    funext j; by_cases hj : j = t <;> simp [upd, hj, hp]
  have e3 : upd g.state t .unknown = g.state := by
    funext j; by_cases hj : j = t <;> simp [upd, hj, h.unknown]
  constructor
  · simp only [Graph.createNode]; rw [List.nodup_append]; have := h.nodup; grind
  · intro p c hpc
    simp only [Graph.createNode, e1] at hpc ⊢
    have := h.inIds _ _ hpc; grind
  · intro p c
    simp only [Graph.createNode, e1, e2]; exact h.sym p c
  · intro p; simp only [Graph.createNode, e1]; exact h.cnodup p
  · intro p; simp only [Graph.createNode, e2]; exact h.pnodup p
  · intro p; simp only [Graph.createNode, e3]; exact h.unknown p
  · exact h.isDirty

theorem createNode_children {g : Graph} (h : Wf g) {t : Nat} (ht : t ∉ g.ids) :
    (Graph.createNode g t).children = g.children := by
  have hc : g.children t = [] := by
    apply List.eq_nil_iff_forall_not_mem.2
    intro c hc; exact ht (h.inIds _ _ hc).1
  funext j; by_cases hj : j = t <;> simp [Graph.createNode, upd, hj, hc]

theorem Wf.addEdge {g : Graph} (h : Wf g) {p c : Nat} (hp : p ∈ g.ids) (hc : c ∈ g.ids) :
    Wf (addEdge g p c) := by
  have hm : ∀ a b, b ∈ (Graph.addEdge g p c).children a ↔ b ∈ g.children a ∨ (a = p ∧ b = c) := by
    intro a b
    simp only [Graph.addEdge]
    by_cases ha : a = p
    · subst ha; simp [mem_appendNew]
    · rw [upd_other _ _ ha]; simp [ha]
  have hm' : ∀ a b, a ∈ (Graph.addEdge g p c).parents b ↔ a ∈ g.parents b ∨ (a = p ∧ b = c) := by
    intro a b
    simp only [Graph.addEdge]
    by_cases ha : b = c
    · subst ha; simp [mem_appendNew]
    · rw [upd_other _ _ ha]; simp [ha]
  constructor
  · exact h.nodup
  · intro a b hab
    rcases (hm a b).1 hab with h1 | ⟨rfl, rfl⟩
    · exact h.inIds a b h1
    · exact ⟨hp, hc⟩
  · intro a b; rw [hm, hm', h.sym]
  · intro a
    simp only [Graph.addEdge]
    by_cases ha : a = p
    · subst ha; rw [upd_same]; exact nodup_appendNew (h.cnodup _)
    · rw [upd_other _ _ ha]; exact h.cnodup a
  · intro a
    simp only [Graph.addEdge]
    by_cases ha : a = c
    · subst ha; rw [upd_same]; exact nodup_appendNew (h.pnodup _)
    · rw [upd_other _ _ ha]; exact h.pnodup a
  · exact h.unknown
  · exact h.isDirty

/-- What a piece of the construction does: `ex` are the nodes still under construction. -/
structure Ext (deps : Nat → List Dep) (root : Nat) (ex : Nat → Prop)
    (seen : List Nat) (g : Graph) (seen' : List Nat) (g' : Graph) : Prop where
  wf : Wf g'
  mono : ∀ x ∈ seen, x ∈ seen'
  ids : ∀ x, x ∈ g'.ids ↔ x ∈ seen'
  newC : ∀ x ∈ seen', x ∉ seen → ∀ c, c ∈ g'.children x ↔ DependsOn deps x c
  newM : ∀ x ∈ seen', x ∉ seen → Dep.missing ∉ deps x
  newS : ∀ x ∈ seen', x ∉ seen → ∀ c, DependsOn deps x c → c ∈ seen'
  newR : ∀ x ∈ seen', x ∉ seen → Reaches deps root x
  old : ∀ x ∈ seen, ¬ ex x → g'.children x = g.children x
  lv : ∃ new, g'.leaves = g.leaves ++ new ∧ new.Nodup ∧
    ∀ x, x ∈ new ↔ x ∈ seen' ∧ x ∉ seen ∧ g'.children x = []

theorem Ext.trans {deps root ex s0 g0 s1 g1 s2 g2} (hex : ∀ x, ex x → x ∈ s0)
    (h1 : Ext deps root ex s0 g0 s1 g1) (h2 : Ext deps root ex s1 g1 s2 g2) :
    Ext deps root ex s0 g0 s2 g2 := by
  have key : ∀ x ∈ s1, x ∉ s0 → g2.children x = g1.children x := fun x hx hn =>
    h2.old x hx (fun h => hn (hex x h))
  constructor
  · exact h2.wf
  · intro x hx; exact h2.mono x (h1.mono x hx)
  · exact h2.ids
  · intro x hx hn c
    by_cases h : x ∈ s1
    · rw [key x h hn]; exact h1.newC x h hn c
    · exact h2.newC x hx h c
  · intro x hx hn
    by_cases h : x ∈ s1
    · exact h1.newM x h hn
    · exact h2.newM x hx h
  · intro x hx hn c hc
    by_cases h : x ∈ s1
    · exact h2.mono _ (h1.newS x h hn c hc)
    · exact h2.newS x hx h c hc
  · intro x hx hn
    by_cases h : x ∈ s1
    · exact h1.newR x h hn
    · exact h2.newR x hx h
  · intro x hx hn
    rw [h2.old x (h1.mono x hx) hn, h1.old x hx hn]
  · obtain ⟨n1, e1, d1, m1⟩ := h1.lv
    obtain ⟨n2, e2, d2, m2⟩ := h2.lv
    refine ⟨n1 ++ n2, by rw [e2, e1, List.append_assoc], ?_, ?_⟩
    · rw [List.nodup_append]
      refine ⟨d1, d2, ?_⟩
      intro a ha b hb hab
      subst hab
      exact ((m2 a).1 hb).2.1 ((m1 a).1 ha).1
    · intro x
      rw [List.mem_append, m1, m2]
      constructor
      · rintro (⟨a, b, c⟩ | ⟨a, b, c⟩)
        · exact ⟨h2.mono x a, b, by rw [key x a b]; exact c⟩
        · exact ⟨a, fun h => b (h1.mono x h), c⟩
      · rintro ⟨a, b, c⟩
        by_cases h : x ∈ s1
        · left; exact ⟨h, b, by rw [← key x h b]; exact c⟩
        · right; exact ⟨a, h, c⟩

/-- The pre- and postcondition of the recursive call. -/
def RecOk (deps : Nat → List Dep)
    (recur : Nat → List Nat × Graph → Except BuildErr (List Nat × Graph)) : Prop :=
  ∀ node seen g seen' g', Wf g → (∀ x, x ∈ g.ids ↔ x ∈ seen ∨ x = node) →
    (node ∉ seen → g.children node = []) →
    recur node (seen, g) = .ok (seen', g') →
    Ext deps node (fun _ => False) seen g seen' g' ∧ node ∈ seen'

theorem depLoop_ok {deps recur} (hr : RecOk deps recur) {node : Nat} :
    ∀ (ds : List Dep) (seen : List Nat) (g : Graph) (seen' : List Nat) (g' : Graph),
      (∀ d ∈ ds, d ∈ deps node) → Wf g → (∀ x, x ∈ g.ids ↔ x ∈ seen) → node ∈ seen →
      depLoop recur node ds (seen, g) = .ok (seen', g') →
      Ext deps node (· = node) seen g seen' g' ∧ Dep.missing ∉ ds ∧
      (∀ c, Dep.node c ∈ ds → c ∈ seen') ∧
      (∀ c, c ∈ g'.children node ↔ c ∈ g.children node ∨ Dep.node c ∈ ds) := by
  intro ds
  induction ds with
  | nil =>
    intro seen g seen' g' _ hw hids hn h
    simp only [depLoop, Except.ok.injEq, Prod.mk.injEq] at h
    obtain ⟨rfl, rfl⟩ := h
    refine ⟨⟨hw, fun _ h => h, hids, ?_, ?_, ?_, ?_, fun _ _ _ => rfl, [], by simp, by simp, ?_⟩, by simp, by simp, by simp⟩
    all_goals grind
  | cons d ds ih =>
    intro seen g seen' g' hds hw hids hn h
    have hds' : ∀ d ∈ ds, d ∈ deps node := fun x hx => hds x (List.mem_cons_of_mem _ hx)
    simp only [depLoop] at h
    cases d with
    | missing => simp [depStep, bind, Except.bind] at h
    | file =>
      simp only [depStep, bind, Except.bind] at h
      obtain ⟨a, b, c, e⟩ := ih seen g seen' g' hds' hw hids hn h
      refine ⟨a, ?_, ?_, ?_⟩
      · simp [b]
      · intro x hx; apply c; simpa using hx
      · intro x; rw [e]; simp
    | node c =>
      simp only [depStep, bind, Except.bind] at h
      generalize hg1 : (if c ∈ g.ids then g else createNode g c) = g1 at h
      have hw1 : Wf g1 := by
        subst hg1; split
        · exact hw
        · next hc => exact hw.createNode hc
      have hids1 : ∀ x, x ∈ g1.ids ↔ x ∈ seen ∨ x = c := by
        intro x; subst hg1; split
        · next hc =>
          rw [hids]
          have := (hids c).1 hc
          constructor
          · intro h; exact Or.inl h
          · rintro (h | rfl); exact h; exact this
        · simp [createNode, hids]
      have hch1 : g1.children = g.children := by
        subst hg1; split
        · rfl
        · next hc => exact createNode_children hw hc
      have hlv1 : g1.leaves = g.leaves := by
        subst hg1; split <;> simp [createNode]
      have hw2 : Wf (addEdge g1 node c) :=
        hw1.addEdge ((hids1 _).2 (Or.inl hn)) ((hids1 _).2 (Or.inr rfl))
      have hids2 : ∀ x, x ∈ (addEdge g1 node c).ids ↔ x ∈ seen ∨ x = c := hids1
      cases hrec : recur c (seen, addEdge g1 node c) with
      | error e => rw [hrec] at h; simp at h
      | ok r =>
        obtain ⟨s1, g3⟩ := r
        rw [hrec] at h
        simp only at h
        have hempty : c ∉ seen → (addEdge g1 node c).children c = [] := by
          intro hc
          have hne : c ≠ node := by rintro rfl; exact hc hn
          have hci : c ∉ g.ids := fun h => hc ((hids c).1 h)
          simp only [addEdge]
          rw [upd_other _ _ hne, hch1]
          apply List.eq_nil_iff_forall_not_mem.2
          intro y hy; exact hci (hw.inIds _ _ hy).1
        obtain ⟨hext, hcs⟩ := hr c seen _ s1 g3 hw2 hids2 hempty hrec
        have hstep : DependsOn deps node c := hds _ (List.mem_cons_self ..)
        have hext1 : Ext deps node (· = node) seen g s1 g3 := by
          refine ⟨hext.wf, hext.mono, hext.ids, hext.newC, hext.newM, hext.newS, ?_, ?_, ?_⟩
          · intro x hx hxn
            exact Relation.ReflTransGen.head hstep (hext.newR x hx hxn)
          · intro x hx hxn
            rw [hext.old x hx (fun h => h)]
            simp only [addEdge]
            rw [upd_other _ _ hxn, hch1]
          · obtain ⟨n, e, d, m⟩ := hext.lv
            exact ⟨n, by rw [e]; simp [addEdge, hlv1], d, m⟩
        obtain ⟨a, b, c', e⟩ := ih s1 g3 seen' g' hds' hext.wf hext.ids (hext.mono _ hn) h
        refine ⟨hext1.trans (by rintro x rfl; exact hn) a, by simp [b], ?_, ?_⟩
        · intro x hx
          rcases List.mem_cons.1 hx with hx | hx
          · cases hx; exact a.mono _ hcs
          · exact c' x hx
        · intro x
          rw [e, hext.old node hn (fun h => h)]
          simp only [addEdge, upd_same, mem_appendNew, hch1, List.mem_cons, Dep.node.injEq]
          grind

theorem internalBuild_ok (deps : Nat → List Dep) : ∀ fuel, RecOk deps (internalBuild deps fuel) := by
  intro fuel
  induction fuel with
  | zero => intro node seen g seen' g' _ _ _ h; simp [internalBuild] at h
  | succ fuel ih =>
    intro node seen g seen' g' hw hids hnil h
    simp only [internalBuild] at h
    split at h
    · next hn =>
      simp only [Except.ok.injEq, Prod.mk.injEq] at h
      obtain ⟨rfl, rfl⟩ := h
      refine ⟨⟨hw, fun _ h => h, ?_, ?_, ?_, ?_, ?_, fun _ _ _ => rfl, [], by simp, by simp, ?_⟩, hn⟩
      all_goals grind
    · next hn =>
      simp only [bind, Except.bind] at h
      cases hl : depLoop (internalBuild deps fuel) node (deps node) (node :: seen, g) with
      | error e => rw [hl] at h; simp at h
      | ok r =>
        obtain ⟨s1, g1⟩ := r
        rw [hl] at h
        simp only [pure, Except.pure, Except.ok.injEq, Prod.mk.injEq] at h
        obtain ⟨rfl, rfl⟩ := h
        have hids' : ∀ x, x ∈ g.ids ↔ x ∈ node :: seen := by
          intro x; rw [hids, List.mem_cons]; exact or_comm
        obtain ⟨a, b, c0, e⟩ := depLoop_ok ih (deps node) (node :: seen) g s1 g1 (fun _ h => h) hw hids'
          (List.mem_cons_self ..) hl
        have hnode : node ∈ s1 := a.mono _ (List.mem_cons_self ..)
        have hch : (addLeaf node g1).children = g1.children := by
          unfold addLeaf; split <;> rfl
        have hid : (addLeaf node g1).ids = g1.ids := by
          unfold addLeaf; split <;> rfl
        have hw' : Wf (addLeaf node g1) := by
          unfold addLeaf; split
          · exact ⟨a.wf.nodup, a.wf.inIds, a.wf.sym, a.wf.cnodup, a.wf.pnodup, a.wf.unknown, a.wf.isDirty⟩
          · exact a.wf
        have hcn : ∀ c, c ∈ g1.children node ↔ DependsOn deps node c := by
          intro c; rw [e, hnil hn]; simp [DependsOn]
        refine ⟨⟨hw', ?_, ?_, ?_, ?_, ?_, ?_, ?_, ?_⟩, hnode⟩
        · intro x hx; exact a.mono _ (List.mem_cons_of_mem _ hx)
        · intro x; rw [hid]; exact a.ids x
        · intro x hx hxn c
          rw [hch]
          by_cases hxe : x = node
          · subst hxe; exact hcn c
          · exact a.newC x hx (by simp [hxe, hxn]) c
        · intro x hx hxn
          by_cases hxe : x = node
          · subst hxe; exact b
          · exact a.newM x hx (by simp [hxe, hxn])
        · intro x hx hxn
          by_cases hxe : x = node
          · subst hxe; exact c0
          · exact a.newS x hx (by simp [hxe, hxn])
        · intro x hx hxn
          by_cases hxe : x = node
          · subst hxe; exact Relation.ReflTransGen.refl
          · exact a.newR x hx (by simp [hxe, hxn])
        · intro x hx _
          rw [hch]
          exact a.old x (List.mem_cons_of_mem _ hx) (by rintro rfl; exact hn hx)
        · obtain ⟨n, en, d, m⟩ := a.lv
          unfold addLeaf
          split
          · next hem =>
            have hem' : g1.children node = [] := List.isEmpty_iff.1 hem
            refine ⟨n ++ [node], by simp [en], ?_, ?_⟩
            · rw [List.nodup_append]
              refine ⟨d, by simp, ?_⟩
              intro y hy z hz hyz
              have : y = node := by rw [hyz]; simpa using hz
              subst this
              exact ((m y).1 hy).2.1 (List.mem_cons_self ..)
            · intro x
              rw [List.mem_append, m]
              simp only [List.mem_cons, List.not_mem_nil, or_false]
              constructor
              · rintro (⟨p, q, r⟩ | rfl)
                · exact ⟨p, fun h => q (Or.inr h), r⟩
                · exact ⟨hnode, hn, hem'⟩
              · rintro ⟨p, q, r⟩
                by_cases hxe : x = node
                · exact Or.inr hxe
                · exact Or.inl ⟨p, by simp [hxe, q], r⟩
          · next hem =>
            have hem' : ¬ g1.children node = [] := fun h => hem (List.isEmpty_iff.2 h)
            refine ⟨n, en, d, ?_⟩
            intro x
            rw [m]
            simp only [List.mem_cons]
            constructor
            · rintro ⟨p, q, r⟩; exact ⟨p, fun h => q (Or.inr h), r⟩
            · rintro ⟨p, q, r⟩
              refine ⟨p, ?_, r⟩
              rintro (rfl | h)
              · exact hem' r
              · exact q h

/-- An error `missing` points to a reachable target with a missing dependent. -/
def RecMissing (deps : Nat → List Dep)
    (recur : Nat → List Nat × Graph → Except BuildErr (List Nat × Graph)) : Prop :=
  ∀ node s, recur node s = .error .missing → ∃ x, Reaches deps node x ∧ Dep.missing ∈ deps x

theorem depLoop_missing {deps recur} (hr : RecMissing deps recur) {node : Nat} :
    ∀ (ds : List Dep) s, (∀ d ∈ ds, d ∈ deps node) →
      depLoop recur node ds s = .error .missing → ∃ x, Reaches deps node x ∧ Dep.missing ∈ deps x := by
  intro ds
  induction ds with
  | nil => intro s _ h; simp [depLoop] at h
  | cons d ds ih =>
    intro s hds h
    have hds' : ∀ d ∈ ds, d ∈ deps node := fun x hx => hds x (List.mem_cons_of_mem _ hx)
    simp only [depLoop, bind, Except.bind] at h
    cases d with
    | missing => exact ⟨node, Relation.ReflTransGen.refl, hds _ (List.mem_cons_self ..)⟩
    | file => simp only [depStep] at h; exact ih _ hds' h
    | node c =>
      obtain ⟨seen, g⟩ := s
      simp only [depStep] at h
      generalize hres : recur c _ = r at h
      cases r with
      | error e =>
        simp only [Except.error.injEq] at h
        subst h
        obtain ⟨x, hx, hm⟩ := hr c _ hres
        exact ⟨x, Relation.ReflTransGen.head (hds _ (List.mem_cons_self ..)) hx, hm⟩
      | ok s' => exact ih _ hds' h

theorem internalBuild_missing (deps : Nat → List Dep) :
    ∀ fuel, RecMissing deps (internalBuild deps fuel) := by
  intro fuel
  induction fuel with
  | zero => intro node s h; simp [internalBuild] at h
  | succ fuel ih =>
    intro node s h
    obtain ⟨seen, g⟩ := s
    simp only [internalBuild] at h
    split at h
    · simp at h
    · simp only [bind, Except.bind] at h
      cases hl : depLoop (internalBuild deps fuel) node (deps node) (node :: seen, g) with
      | error e =>
        rw [hl] at h
        simp only [Except.error.injEq] at h
        subst h
        exact depLoop_missing ih _ _ (fun _ h => h) hl
      | ok r => rw [hl] at h; simp [pure, Except.pure] at h

/-- The seen set only grows. -/
def RecMono (recur : Nat → List Nat × Graph → Except BuildErr (List Nat × Graph)) : Prop :=
  ∀ node s s', recur node s = .ok s' → ∀ x ∈ s.1, x ∈ s'.1

theorem depLoop_mono {recur} (hr : RecMono recur) {node : Nat} :
    ∀ (ds : List Dep) s s', depLoop recur node ds s = .ok s' → ∀ x ∈ s.1, x ∈ s'.1 := by
  intro ds
  induction ds with
  | nil => intro s s' h; simp only [depLoop, Except.ok.injEq] at h; subst h; exact fun _ h => h
  | cons d ds ih =>
    intro s s' h
    simp only [depLoop, bind, Except.bind] at h
    cases d with
    | missing => simp [depStep] at h
    | file => simp only [depStep] at h; exact ih _ _ h
    | node c =>
      obtain ⟨seen, g⟩ := s
      simp only [depStep] at h
      generalize hres : recur c _ = r at h
      cases r with
      | error e => simp at h
      | ok s1 =>
        intro x hx
        exact ih _ _ h x (hr c _ _ hres x hx)

theorem internalBuild_mono (deps : Nat → List Dep) : ∀ fuel, RecMono (internalBuild deps fuel) := by
  intro fuel
  induction fuel with
  | zero => intro node s s' h; simp [internalBuild] at h
  | succ fuel ih =>
    intro node s s' h
    obtain ⟨seen, g⟩ := s
    simp only [internalBuild] at h
    split at h
    · simp only [Except.ok.injEq] at h; subst h; exact fun _ h => h
    · simp only [bind, Except.bind] at h
      cases hl : depLoop (internalBuild deps fuel) node (deps node) (node :: seen, g) with
      | error e => rw [hl] at h; simp at h
      | ok r =>
        rw [hl] at h
        simp only [pure, Except.pure, Except.ok.injEq] at h
        subst h
        intro x hx
        exact depLoop_mono ih _ _ _ hl x (List.mem_cons_of_mem _ hx)

/-- Number of targets not seen yet. -/
def rest (U seen : List Nat) : Nat := (U.filter (· ∉ seen)).length

theorem filter_length_le {α} {p q : α → Bool} (l : List α) (h : ∀ x ∈ l, p x = true → q x = true) :
    (l.filter p).length ≤ (l.filter q).length := by
  induction l with
  | nil => simp
  | cons a l ih =>
    have ih := ih (fun x hx => h x (List.mem_cons_of_mem _ hx))
    have ha := h a (List.mem_cons_self ..)
    simp only [List.filter_cons]
    by_cases hp : p a = true
    · simp [hp, ha hp, ih]
    · by_cases hq : q a = true <;> simp [hp, hq] <;> omega

theorem filter_length_lt {α} {p q : α → Bool} (l : List α) (h : ∀ x ∈ l, p x = true → q x = true)
    {a : α} (ha : a ∈ l) (hp : p a = false) (hq : q a = true) :
    (l.filter p).length < (l.filter q).length := by
  induction l with
  | nil => simp at ha
  | cons b l ih =>
    have hle := filter_length_le l (fun x hx => h x (List.mem_cons_of_mem _ hx))
    have hb := h b (List.mem_cons_self ..)
    simp only [List.filter_cons]
    rcases List.mem_cons.1 ha with rfl | ha
    · simp [hp, hq]; omega
    · have ih := ih (fun x hx => h x (List.mem_cons_of_mem _ hx)) ha
      by_cases hpb : p b = true
      · simp [hpb, hb hpb, ih]
      · by_cases hqb : q b = true <;> simp [hpb, hqb] <;> omega

theorem rest_mono {U s s' : List Nat} (h : ∀ x ∈ s, x ∈ s') : rest U s' ≤ rest U s := by
  apply filter_length_le
  intro x _ hx
  simp only [decide_eq_true_eq] at hx ⊢
  exact fun h' => hx (h x h')

theorem rest_cons {U s : List Nat} {n : Nat} (hn : n ∈ U) (hs : n ∉ s) : rest U (n :: s) < rest U s := by
  apply filter_length_lt (a := n) U _ hn
  · simp
  · simp [hs]
  · intro x _ hx
    simp only [decide_eq_true_eq, List.mem_cons, not_or] at hx ⊢
    exact hx.2

theorem depLoop_fuel {deps recur} {U : List Nat} {m : Nat} (hm : RecMono recur)
    (hU : ∀ x ∈ U, ∀ c, DependsOn deps x c → c ∈ U)
    (hr : ∀ node ∈ U, ∀ s : List Nat × Graph, rest U s.1 < m → recur node s ≠ .error .fuel)
    {node : Nat} (hn : node ∈ U) :
    ∀ (ds : List Dep) (s : List Nat × Graph), (∀ d ∈ ds, d ∈ deps node) → rest U s.1 < m →
      depLoop recur node ds s ≠ .error .fuel := by
  intro ds
  induction ds with
  | nil => intro s _ _; simp [depLoop]
  | cons d ds ih =>
    intro s hds hlt
    have hds' : ∀ d ∈ ds, d ∈ deps node := fun x hx => hds x (List.mem_cons_of_mem _ hx)
    simp only [depLoop, bind, Except.bind]
    cases d with
    | missing => simp [depStep]
    | file => simp only [depStep]; exact ih s hds' hlt
    | node c =>
      obtain ⟨seen, g⟩ := s
      simp only [depStep]
      generalize hres : recur c _ = r
      cases r with
      | error e =>
        have := hr c (hU node hn c (hds _ (List.mem_cons_self ..)))
          (seen, addEdge (if c ∈ g.ids then g else createNode g c) node c) hlt
        rw [hres] at this
        simpa using this
      | ok s1 =>
        exact ih s1 hds' (Nat.lt_of_le_of_lt (rest_mono (hm c _ _ hres)) hlt)

theorem internalBuild_fuel (deps : Nat → List Dep) {U : List Nat}
    (hU : ∀ x ∈ U, ∀ c, DependsOn deps x c → c ∈ U) :
    ∀ fuel, ∀ node ∈ U, ∀ s : List Nat × Graph, rest U s.1 < fuel →
      internalBuild deps fuel node s ≠ .error .fuel := by
  intro fuel
  induction fuel with
  | zero => intro node _ s h; omega
  | succ fuel ih =>
    intro node hn s hlt
    obtain ⟨seen, g⟩ := s
    simp only [internalBuild]
    split
    · simp
    · next hns =>
      simp only [bind, Except.bind]
      have hlt' : rest U (node :: seen) < fuel := by
        have := rest_cons (U := U) hn hns
        simp only at hlt
        omega
      have := depLoop_fuel (internalBuild_mono deps fuel) hU ih hn (deps node) (node :: seen, g)
        (fun _ h => h) hlt'
      cases hl : depLoop (internalBuild deps fuel) node (deps node) (node :: seen, g) with
      | error e => rw [hl] at this; simpa using this
      | ok r => simp [pure, Except.pure]

/-- The specification of a freshly built graph. -/
structure BuildSpec (deps : Nat → List Dep) (root : Nat) (g : Graph) : Prop where
  wf : Wf g
  ids : ∀ x, x ∈ g.ids ↔ Reaches deps root x
  children : ∀ x c, c ∈ g.children x ↔ Reaches deps root x ∧ DependsOn deps x c
  leavesNodup : g.leaves.Nodup
  leaves : ∀ x, x ∈ g.leaves ↔ Reaches deps root x ∧ ∀ c, ¬ DependsOn deps x c
  noMissing : ∀ x, Reaches deps root x → Dep.missing ∉ deps x

theorem build_ok {deps : Nat → List Dep} {fuel root : Nat} {g : Graph}
    (h : build deps fuel root = .ok g) : BuildSpec deps root g := by
  simp only [build, bind, Except.bind] at h
  have hw0 : Wf { Graph.empty with dirty := true } := by
    constructor <;> simp [Graph.empty]
  have hw : Wf (createNode { Graph.empty with dirty := true } root) := hw0.createNode (by simp [Graph.empty])
  have hch : (createNode { Graph.empty with dirty := true } root).children = fun _ => [] := by
    rw [createNode_children hw0 (by simp [Graph.empty])]; rfl
  have hlv : (createNode { Graph.empty with dirty := true } root).leaves = [] := rfl
  have hid : (createNode { Graph.empty with dirty := true } root).ids = [root] := rfl
  generalize createNode { Graph.empty with dirty := true } root = g0 at *
  cases hl : internalBuild deps fuel root ([], g0) with
  | error e => rw [hl] at h; simp at h
  | ok r =>
    obtain ⟨s1, g1⟩ := r
    rw [hl] at h
    simp only [pure, Except.pure, Except.ok.injEq] at h
    subst h
    obtain ⟨a, hr⟩ := internalBuild_ok deps fuel root [] g0 s1 g1 hw (by simp [hid]) (by simp [hch]) hl
    have hreach : ∀ x, Reaches deps root x → x ∈ s1 := by
      intro x hx
      induction hx with
      | refl => exact hr
      | tail _ hbc ih => exact a.newS _ ih (by simp) _ hbc
    have hreach' : ∀ x, x ∈ s1 ↔ Reaches deps root x := fun x =>
      ⟨fun h => a.newR x h (by simp), hreach x⟩
    have hc : ∀ x c, c ∈ g1.children x ↔ Reaches deps root x ∧ DependsOn deps x c := by
      intro x c
      constructor
      · intro hc
        have hx := (a.ids x).1 (a.wf.inIds _ _ hc).1
        exact ⟨(hreach' x).1 hx, (a.newC x hx (by simp) c).1 hc⟩
      · rintro ⟨hx, hd⟩
        exact (a.newC x (hreach x hx) (by simp) c).2 hd
    obtain ⟨n, en, d, m⟩ := a.lv
    rw [hlv, List.nil_append] at en
    refine ⟨a.wf, fun x => by rw [a.ids, hreach'], hc, by rw [en]; exact d, ?_, ?_⟩
    · intro x
      rw [en, m, hreach']
      simp only [List.not_mem_nil, not_false_eq_true, true_and]
      constructor
      · rintro ⟨p, q⟩
        refine ⟨p, fun c hd => ?_⟩
        have := (hc x c).2 ⟨p, hd⟩
        rw [q] at this; simp at this
      · rintro ⟨p, q⟩
        refine ⟨p, List.eq_nil_iff_forall_not_mem.2 fun c hcc => q c ((hc x c).1 hcc).2⟩
    · intro x hx
      exact a.newM x (hreach x hx) (by simp)

theorem build_missing {deps : Nat → List Dep} {fuel root : Nat}
    (h : build deps fuel root = .error .missing) : ∃ x, Reaches deps root x ∧ Dep.missing ∈ deps x := by
  simp only [build, bind, Except.bind] at h
  generalize hres : internalBuild deps fuel root _ = r at h
  cases r with
  | error e =>
    simp only [Except.error.injEq] at h
    subst h
    exact internalBuild_missing deps fuel root _ hres
  | ok s => simp [pure, Except.pure] at h

/-- The fuel of `build` is sufficient as soon as it exceeds the number of targets. -/
theorem build_fuel {deps : Nat → List Dep} {root : Nat} {U : List Nat} (hroot : root ∈ U)
    (hU : ∀ x ∈ U, ∀ c, DependsOn deps x c → c ∈ U) {fuel : Nat} (hf : U.length < fuel) :
    build deps fuel root ≠ .error .fuel := by
  intro h
  simp only [build, bind, Except.bind] at h
  generalize hres : internalBuild deps fuel root _ = r at h
  cases r with
  | error e =>
    simp only [Except.error.injEq] at h
    subst h
    refine internalBuild_fuel deps hU fuel root hroot _ ?_ hres
    exact Nat.lt_of_le_of_lt (List.length_filter_le _ _) hf
  | ok s => simp [pure, Except.pure] at h

end Jom.Graph
