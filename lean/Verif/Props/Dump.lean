import Verif.Model.Dump
import Verif.Spec.Dump
import Verif.Proofs.GraphBuild
import Verif.Props.Graph
import Mathlib.Data.List.Nodup
import Mathlib.Data.List.Perm.Subperm

/-!
C91: the dump of the dependency graph shows the declared dependencies of the requested target.
-/

namespace Jom.Props
open Jom.Graph Jom.Spec

/-- All ways from a target in the order of the dump, see `textDump`. -/
def walk (ch : Nat → List Nat) : Nat → Nat → Option (List (List Nat))
  | 0, _ => none
  | fuel + 1, x => ((ch x).mapM (walk ch fuel)).map fun rest => [x] :: rest.flatten.map (x :: ·)

theorem mapM_map_some {α β γ : Type} (f : α → Option β) (h : β → γ) (l : List α) :
    l.mapM (fun c => (f c).map h) = (l.mapM f).map (List.map h) := by
  induction l with
  | nil => rfl
  | cons a l ih =>
    simp only [List.mapM_cons, ih, bind, pure]
    cases f a with
    | none => rfl
    | some b => cases l.mapM f <;> rfl

theorem mapM_some_mem {α β : Type} {f : α → Option β} {l : List α} {rs : List β} (h : l.mapM f = some rs) :
    (∀ a ∈ l, ∃ b ∈ rs, f a = some b) ∧ ∀ b ∈ rs, ∃ a ∈ l, f a = some b := by
  induction l generalizing rs with
  | nil => cases h; simp
  | cons a l ih =>
    simp only [List.mapM_cons, bind, pure] at h
    cases hf : f a with
    | none => rw [hf] at h; cases h
    | some b =>
      cases hl : l.mapM f with
      | none => rw [hf, hl] at h; cases h
      | some bs =>
        rw [hf, hl] at h
        cases h
        obtain ⟨h1, h2⟩ := ih hl
        constructor
        · intro x hx
          rcases List.mem_cons.1 hx with rfl | hx
          · exact ⟨b, by simp, hf⟩
          · obtain ⟨y, hy, e⟩ := h1 x hx
            exact ⟨y, by simp [hy], e⟩
        · intro y hy
          rcases List.mem_cons.1 hy with rfl | hy
          · exact ⟨a, by simp, hf⟩
          · obtain ⟨x, hx, e⟩ := h2 y hy
            exact ⟨x, by simp [hx], e⟩

theorem walk_ne {ch : Nat → List Nat} {fuel x : Nat} {ps : List (List Nat)} (h : walk ch fuel x = some ps) : ∀ p ∈ ps, p ≠ [] := by
  cases fuel with
  | zero => cases h
  | succ fuel =>
    simp only [walk, Option.map_eq_some_iff] at h
    obtain ⟨rest, _, rfl⟩ := h
    intro p hp
    rcases List.mem_cons.1 hp with rfl | hp
    · simp
    · obtain ⟨q, _, rfl⟩ := List.mem_map.1 hp
      simp

theorem textDump_walk (g : Graph) (name : Nat → Str) (fuel : Nat) : ∀ x indent, textDump g name fuel x indent =
    (walk g.children fuel x).map (fun ps => ps.map fun p => indent ++ outlineLine name p) := by
  induction fuel with
  | zero => intro x indent; rfl
  | succ fuel ih =>
    intro x indent
    simp only [textDump, walk]
    have e : (g.children x).mapM (fun c => textDump g name fuel c (indent ++ [' '])) =
        ((g.children x).mapM (walk g.children fuel)).map (List.map fun ps => ps.map fun p => (indent ++ [' ']) ++ outlineLine name p) := by
      rw [← mapM_map_some]
      congr 1
      funext c
      exact ih c _
    rw [e]
    cases hm : (g.children x).mapM (walk g.children fuel) with
    | none => rfl
    | some rest =>
      simp only [Option.map_some, bind, Option.bind, pure, Option.some.injEq, List.map_cons, List.map_map]
      congr 1
      rw [← List.map_flatten]
      apply List.map_congr_left
      intro p hp
      obtain ⟨ps, h1, h2⟩ := List.mem_flatten.1 hp
      obtain ⟨c, _, h3⟩ := (mapM_some_mem hm).2 ps h1
      have hne := walk_ne h3 p h2
      obtain ⟨y, q, rfl⟩ := List.exists_cons_of_ne_nil hne
      simp [outlineLine, List.replicate_succ, List.getLastD]

/-- The edge at the end of a way, with a way to it. -/
def lastEdge (name : Nat → Str) : Option Str → List Nat → Option Str
  | _, [] => none
  | parent, [x] => parent.map fun p => dotLine p (name x)
  | _, x :: y :: p => lastEdge name (some (name x)) (y :: p)

theorem dotLines_walk (g : Graph) (name : Nat → Str) (fuel : Nat) : ∀ x parent, dotLines g name fuel x parent =
    (walk g.children fuel x).map (fun ps => ps.filterMap fun p => lastEdge name parent p) := by
  induction fuel with
  | zero => intro x indent; rfl
  | succ fuel ih =>
    intro x parent
    simp only [dotLines, walk]
    have e : (g.children x).mapM (fun c => dotLines g name fuel c (some (name x))) =
        ((g.children x).mapM (walk g.children fuel)).map (List.map fun ps => ps.filterMap fun p => lastEdge name (some (name x)) p) := by
      rw [← mapM_map_some]
      congr 1
      funext c
      exact ih c _
    rw [e]
    cases hm : (g.children x).mapM (walk g.children fuel) with
    | none => rfl
    | some rest =>
      simp only [Option.map_some, bind, Option.bind, pure, Option.some.injEq]
      rw [show ([x] :: rest.flatten.map (x :: ·)) = [[x]] ++ rest.flatten.map (x :: ·) from rfl, List.filterMap_append]
      have e1 : [[x]].filterMap (fun p => lastEdge name parent p) = (parent.map fun p => dotLine p (name x)).toList := by
        cases parent <;> rfl
      have e2 : (rest.flatten.map (x :: ·)).filterMap (fun p => lastEdge name parent p) =
          (rest.map fun ps => ps.filterMap fun p => lastEdge name (some (name x)) p).flatten := by
        rw [List.filterMap_map, List.filterMap_flatten]
        congr 1
        apply List.map_congr_left
        intro ps h1
        apply List.filterMap_congr
        intro p h2
        obtain ⟨c, _, h3⟩ := (mapM_some_mem hm).2 ps h1
        have hne := walk_ne h3 p h2
        obtain ⟨y, q, rfl⟩ := List.exists_cons_of_ne_nil hne
        rfl
      rw [e1, e2]

theorem walk_mem {ch : Nat → List Nat} : ∀ {fuel x : Nat} {ps : List (List Nat)}, walk ch fuel x = some ps →
    ∀ p, p ∈ ps ↔ Way (fun a b => b ∈ ch a) x p := by
  intro fuel
  induction fuel with
  | zero => intro x ps h; cases h
  | succ fuel ih =>
    intro x ps h p
    simp only [walk, Option.map_eq_some_iff] at h
    obtain ⟨rest, hm, rfl⟩ := h
    obtain ⟨h1, h2⟩ := mapM_some_mem hm
    constructor
    · intro hp
      rcases List.mem_cons.1 hp with rfl | hp
      · exact .here x
      · obtain ⟨q, hq, rfl⟩ := List.mem_map.1 hp
        obtain ⟨qs, k1, k2⟩ := List.mem_flatten.1 hq
        obtain ⟨c, k3, k4⟩ := h2 qs k1
        exact .through k3 ((ih k4 q).1 k2)
    · intro hw
      cases hw with
      | here => simp
      | @through _ c q hc hq =>
        obtain ⟨qs, k1, k2⟩ := h1 c hc
        refine List.mem_cons_of_mem _ (List.mem_map.2 ⟨q, List.mem_flatten.2 ⟨qs, k1, (ih k2 q).2 hq⟩, rfl⟩)

theorem way_head {R : Nat → Nat → Prop} {x : Nat} {p : List Nat} (h : Way R x p) : p.head? = some x := by
  cases h <;> rfl

theorem walk_nodup {ch : Nat → List Nat} (hn : ∀ x, (ch x).Nodup) : ∀ {fuel x : Nat} {ps : List (List Nat)},
    walk ch fuel x = some ps → ps.Nodup := by
  intro fuel
  induction fuel with
  | zero => intro x ps h; cases h
  | succ fuel ih =>
    intro x ps h
    simp only [walk, Option.map_eq_some_iff] at h
    obtain ⟨rest, hm, rfl⟩ := h
    obtain ⟨h1, h2⟩ := mapM_some_mem hm
    have hflat : rest.flatten.Nodup := by
      have hno := hn x
      generalize ch x = l at hm hno
      clear h1 h2
      induction l generalizing rest with
      | nil => cases hm; simp
      | cons a l ihl =>
        simp only [List.mapM_cons, bind, pure] at hm
        cases hf : walk ch fuel a with
        | none => rw [hf] at hm; cases hm
        | some qs =>
          cases hl : l.mapM (walk ch fuel) with
          | none => rw [hf, hl] at hm; cases hm
          | some qss =>
            rw [hf, hl] at hm
            cases hm
            rw [List.flatten_cons, List.nodup_append]
            refine ⟨ih hf, ihl _ hl (List.nodup_cons.1 hno).2, ?_⟩
            rintro p hp q hq rfl
            obtain ⟨rs, k1, k2⟩ := List.mem_flatten.1 hq
            obtain ⟨b, k3, k4⟩ := (mapM_some_mem hl).2 rs k1
            have e1 := way_head ((walk_mem hf p).1 hp)
            have e2 := way_head ((walk_mem k4 p).1 k2)
            rw [e1] at e2
            cases e2
            exact (List.nodup_cons.1 hno).1 k3
    refine List.nodup_cons.2 ⟨?_, hflat.map fun a b e => (List.cons.inj e).2⟩
    intro hp
    obtain ⟨q, hq, e⟩ := List.mem_map.1 hp
    cases e
    obtain ⟨rs, k1, k2⟩ := List.mem_flatten.1 hq
    obtain ⟨b, k3, k4⟩ := h2 rs k1
    exact walk_ne k4 [] k2 rfl

/-- Ways are no longer than the depth of the recursion. -/
theorem walk_bound {ch : Nat → List Nat} : ∀ {fuel x : Nat}, (∃ ps, walk ch fuel x = some ps) ↔
    ∀ p, Way (fun a b => b ∈ ch a) x p → p.length ≤ fuel := by
  intro fuel
  induction fuel with
  | zero =>
    intro x
    constructor
    · rintro ⟨ps, h⟩; cases h
    · intro h
      have := h _ (.here x)
      simp at this
  | succ fuel ih =>
    intro x
    constructor
    · rintro ⟨ps, h⟩ p hp
      simp only [walk, Option.map_eq_some_iff] at h
      obtain ⟨rest, hm, rfl⟩ := h
      cases hp with
      | here => simp
      | @through _ c q hc hq =>
        obtain ⟨qs, k1, k2⟩ := (mapM_some_mem hm).1 c hc
        have := (ih (x := c)).1 ⟨qs, k2⟩ q hq
        simpa using this
    · intro h
      have hall : ∀ c ∈ ch x, ∃ qs, walk ch fuel c = some qs := by
        intro c hc
        refine ih.2 fun q hq => ?_
        have := h _ (.through hc hq)
        simpa using this
      have : ∃ rest, (ch x).mapM (walk ch fuel) = some rest := by
        clear h
        generalize ch x = l at hall
        induction l with
        | nil => exact ⟨[], rfl⟩
        | cons a l ihl =>
          obtain ⟨qs, e1⟩ := hall a (by simp)
          obtain ⟨r, e2⟩ := ihl fun c hc => hall c (by simp [hc])
          exact ⟨qs :: r, by simp [List.mapM_cons, e1, e2]⟩
      obtain ⟨rest, hr⟩ := this
      exact ⟨_, by simp only [walk, hr, Option.map_some]; rfl⟩

theorem outline_walk {ch : Nat → List Nat} : ∀ {fuel x : Nat} {ps : List (List Nat)}, walk ch fuel x = some ps → Outline ps := by
  intro fuel
  induction fuel with
  | zero => intro x ps h; cases h
  | succ fuel ih =>
    intro x ps h
    simp only [walk, Option.map_eq_some_iff] at h
    obtain ⟨rest, hm, rfl⟩ := h
    have hrest : ∀ qs ∈ rest, Outline qs ∧ ∀ q ∈ qs, q ≠ [] := by
      intro qs hqs
      obtain ⟨c, _, k⟩ := (mapM_some_mem hm).2 qs hqs
      exact ⟨ih k, walk_ne k⟩
    clear hm
    -- entries of the parts: those of length one stand under `x`
    have hflat : ∀ A p C, rest.flatten = A ++ p :: C →
        (p.length = 1) ∨ ∃ A' B, A = A' ++ p.dropLast :: B ∧ ∀ q ∈ B, p.length ≤ q.length := by
      intro A p C
      induction rest generalizing A with
      | nil => intro e; simp at e
      | cons qs rest ihr =>
        intro e
        rw [List.flatten_cons] at e
        rcases List.append_eq_append_iff.1 e with ⟨as, e1, e2⟩ | ⟨bs, e1, e2⟩
        · rcases ihr (fun qs h => hrest qs (by simp [h])) as e2 with h | ⟨A', B, e3, h⟩
          · exact .inl h
          · exact .inr ⟨qs ++ A', B, by rw [e1, e3]; simp, h⟩
        · cases bs with
          | nil =>
            rw [List.append_nil] at e1
            rcases ihr (fun qs h => hrest qs (by simp [h])) [] (by simpa using e2.symm) with h | ⟨A', B, e3, h⟩
            · exact .inl h
            · simp at e3
          | cons b bs =>
            rw [List.cons_append, List.cons.injEq] at e2
            obtain ⟨rfl, e2⟩ := e2
            have hb := (hrest qs (by simp)).2 p (by rw [e1]; simp)
            rcases Nat.lt_or_ge p.length 2 with hl | hl
            · refine .inl ?_
              have := List.length_pos_of_ne_nil hb
              omega
            · exact .inr ((hrest qs (by simp)).1 A p bs e1 hl)
    intro A p C e hl
    cases A with
    | nil =>
      rw [List.nil_append, List.cons.injEq] at e
      rw [← e.1] at hl
      simp at hl
    | cons a A =>
      rw [List.cons_append, List.cons.injEq] at e
      obtain ⟨rfl, e⟩ := e
      obtain ⟨A0, p0, e1, e2, e3⟩ := List.map_eq_append_iff.1 e
      obtain ⟨p1, C0, e4, e5, e6⟩ := List.map_eq_cons_iff.1 e3
      subst e4 e5 e2
      rcases hflat A0 p1 C0 e1 with h | ⟨A', B, h1, h2⟩
      · refine ⟨[], A0.map (x :: ·), ?_, ?_⟩
        · match p1, h with
          | [y], _ => rfl
        · intro q hq
          obtain ⟨q', h1, rfl⟩ := List.mem_map.1 hq
          have hq' : q' ∈ rest.flatten := by rw [e1]; simp [h1]
          obtain ⟨qs, h3, h4⟩ := List.mem_flatten.1 hq'
          have := List.length_pos_of_ne_nil ((hrest qs h3).2 q' h4)
          simp only [List.length_cons]
          omega
      · refine ⟨[x] :: A'.map (x :: ·), B.map (x :: ·), ?_, ?_⟩
        · have hne : p1 ≠ [] := by
            have hp' : p1 ∈ rest.flatten := by rw [e1]; simp
            obtain ⟨qs, h3, h4⟩ := List.mem_flatten.1 hp'
            exact (hrest qs h3).2 p1 h4
          obtain ⟨y, q, rfl⟩ := List.exists_cons_of_ne_nil hne
          rw [h1]
          simp
        · intro q hq
          obtain ⟨q', h3, rfl⟩ := List.mem_map.1 hq
          have := h2 q' h3
          simp only [List.length_cons]
          omega

theorem way_reaches {R : Nat → Nat → Prop} {x : Nat} {p : List Nat} (h : Way R x p) :
    ∀ y ∈ p, Relation.ReflTransGen R x y := by
  induction h with
  | here x =>
    intro y hy
    rw [List.mem_singleton.1 hy]
  | through hc hp ih =>
    intro y hy
    rcases List.mem_cons.1 hy with rfl | hy
    · exact .refl
    · exact .head hc (ih y hy)

theorem way_nodup {R : Nat → Nat → Prop} {x : Nat} (hac : ∀ y, Relation.ReflTransGen R x y → ¬ Relation.TransGen R y y) {p : List Nat}
    (h : Way R x p) : p.Nodup := by
  induction h with
  | here x => simp
  | @through x c p hc hp ih =>
    refine List.nodup_cons.2 ⟨fun hx => ?_, ih fun y hy => hac y (.head hc hy)⟩
    exact hac x .refl (.head' hc (way_reaches hp x hx))

theorem way_append {R : Nat → Nat → Prop} {x y : Nat} (h : Relation.ReflTransGen R x y) {p : List Nat} (hp : Way R y p) :
    ∃ q, Way R x (q ++ p) := by
  induction h using Relation.ReflTransGen.head_induction_on with
  | refl => exact ⟨[], hp⟩
  | @head a c hac _ ih =>
    obtain ⟨q, hq⟩ := ih
    exact ⟨a :: q, .through hac hq⟩

/-- A cycle gives ways of any length. -/
theorem way_long {R : Nat → Nat → Prop} {x : Nat} (h : Relation.TransGen R x x) (n : Nat) : ∃ p, Way R x p ∧ n < p.length := by
  induction n with
  | zero => exact ⟨[x], .here x, by simp⟩
  | succ n ih =>
    obtain ⟨p, hp, hl⟩ := ih
    obtain ⟨c, hc, hx⟩ := Relation.TransGen.head'_iff.1 h
    obtain ⟨q, hq⟩ := way_append hx hp
    exact ⟨x :: (q ++ p), .through hc hq, by simp only [List.length_cons, List.length_append]; omega⟩

section
variable {deps : Nat → List Dep} {root : Nat} {g : Graph}

theorem way_children (h : BuildSpec deps root g) {x : Nat} (hx : Reaches deps root x) {p : List Nat} :
    Way (fun a b => b ∈ g.children a) x p ↔ Way (DependsOn deps) x p := by
  constructor
  · intro hw
    clear hx
    induction hw with
    | here x => exact .here x
    | through hc _ ih => exact .through ((h.children _ _).1 hc).2 ih
  · intro hw
    induction hw with
    | here x => exact .here x
    | through hc _ ih => exact .through ((h.children _ _).2 ⟨hx, hc⟩) (ih (.tail hx hc))

theorem walk_ends (h : BuildSpec deps root g) (hac : AcyclicFrom deps root) {fuel : Nat} (hf : g.ids.length ≤ fuel) :
    ∃ ps, walk g.children fuel root = some ps := by
  refine walk_bound.2 fun p hp => ?_
  have hp' := (way_children h .refl).1 hp
  refine Nat.le_trans (List.Nodup.length_le_of_subset (way_nodup hac hp') (l₂ := g.ids) fun y hy => (h.ids y).2 (way_reaches hp' y hy)) hf

theorem walk_cyclic (h : BuildSpec deps root g) (hac : ¬ AcyclicFrom deps root) (fuel : Nat) : walk g.children fuel root = none := by
  cases hw : walk g.children fuel root with
  | none => rfl
  | some ps =>
    exfalso
    refine hac fun y hy hc => ?_
    obtain ⟨p, hp, hl⟩ := way_long hc fuel
    obtain ⟨q, hq⟩ := way_append hy hp
    have := walk_bound.1 ⟨ps, hw⟩ _ ((way_children h .refl).2 hq)
    simp only [List.length_append] at this
    omega

/-- **C91**, text: the dump ends if and only if no target depends on itself. Then it is an outline of all ways from the requested target
through its dependents: every way is shown in exactly one line, which consists of as many blanks as the way has steps and the name of the
last target, and which stands under the line of the way without the last step. -/
theorem C91_text (name : Nat → Str) {bf : Nat} (hb : build deps bf root = .ok g) :
    (AcyclicFrom deps root → ∀ fuel, g.ids.length ≤ fuel → ∃ ps, dump g name fuel root = some (ps.map (outlineLine name)) ∧
      ps.Nodup ∧ (∀ p, p ∈ ps ↔ Way (DependsOn deps) root p) ∧ Outline ps) ∧
    (¬ AcyclicFrom deps root → ∀ fuel, dump g name fuel root = none) := by
  have h := build_ok hb
  constructor
  · intro hac fuel hf
    obtain ⟨ps, hw⟩ := walk_ends h hac hf
    refine ⟨ps, ?_, walk_nodup h.wf.cnodup hw, fun p => ?_, outline_walk hw⟩
    · simp only [dump, textDump_walk, hw, Option.map_some, List.nil_append]
    · rw [walk_mem hw, way_children h .refl]
  · intro hac fuel
    simp only [dump, textDump_walk, walk_cyclic h hac, Option.map_none]

theorem lastEdge_way {R : Nat → Nat → Prop} (name : Nat → Str) {x : Nat} {p : List Nat} (h : Way R x p) : ∀ par l, lastEdge name par p = some l →
    (∃ q, par = some q ∧ l = dotLine q (name x)) ∨ ∃ y c, Relation.ReflTransGen R x y ∧ R y c ∧ l = dotLine (name y) (name c) := by
  induction h with
  | here x =>
    intro par l e
    simp only [lastEdge, Option.map_eq_some_iff] at e
    obtain ⟨q, h1, h2⟩ := e
    exact .inl ⟨q, h1, h2.symm⟩
  | @through x c p hc hp ih =>
    intro par l e
    have e' : lastEdge name (some (name x)) p = some l := by
      cases hp <;> exact e
    rcases ih _ _ e' with ⟨q, h1, h2⟩ | ⟨y, d, h1, h2, h3⟩
    · cases h1
      exact .inr ⟨x, c, .refl, hc, h2⟩
    · exact .inr ⟨y, d, .head hc h1, h2, h3⟩

theorem lastEdge_append (name : Nat → Str) (y c : Nat) : ∀ (q : List Nat) par, lastEdge name par (q ++ [y, c]) = some (dotLine (name y) (name c)) := by
  intro q
  induction q with
  | nil => intro par; rfl
  | cons x q ih =>
    intro par
    have : ∃ z r, q ++ [y, c] = z :: r := by cases q <;> simp
    obtain ⟨z, r, e⟩ := this
    rw [List.cons_append, e]
    simp only [lastEdge]
    rw [← e]
    exact ih _

/-- **C91**, dot: between the frame, the lines are those of the declared dependencies of the targets that can be reached, no more and no
fewer. -/
theorem C91_dot (name : Nat → Str) {bf : Nat} (hb : build deps bf root = .ok g) (hac : AcyclicFrom deps root) {fuel : Nat}
    (hf : g.ids.length ≤ fuel) :
    ∃ ls, dotDump g name fuel root = some (c!"digraph G {" :: ls ++ [c!"}"]) ∧
      ∀ l, l ∈ ls ↔ ∃ x c, Reaches deps root x ∧ DependsOn deps x c ∧ l = c!"  \"" ++ name x ++ c!"\" -> \"" ++ name c ++ c!"\";" := by
  have h := build_ok hb
  obtain ⟨ps, hw⟩ := walk_ends h hac hf
  refine ⟨ps.filterMap (lastEdge name none), ?_, fun l => ?_⟩
  · simp only [dotDump, dotLines_walk, hw, Option.map_some]
    rfl
  · rw [List.mem_filterMap]
    constructor
    · rintro ⟨p, hp, e⟩
      rcases lastEdge_way name ((way_children h .refl).1 ((walk_mem hw p).1 hp)) _ _ e with ⟨q, h1, _⟩ | ⟨y, c, h1, h2, h3⟩
      · cases h1
      · exact ⟨y, c, h1, h2, h3⟩
    · rintro ⟨x, c, h1, h2, rfl⟩
      obtain ⟨q, hq⟩ := way_append h1 (.through h2 (.here c))
      exact ⟨_, (walk_mem hw _).2 ((way_children h .refl).2 hq), lastEdge_append name x c q none⟩

end

/-- Names without double quotes can be read off a line of the dot dump. -/
theorem C91_names {a b c d : Str} (ha : '"' ∉ a) (hb : '"' ∉ b) (hc : '"' ∉ c) (hd : '"' ∉ d) (h : dotLine a b = dotLine c d) :
    a = c ∧ b = d := by
  have key : ∀ (a c x y : Str), '"' ∉ a → '"' ∉ c → a ++ '"' :: x = c ++ '"' :: y → a = c ∧ x = y := by
    intro a
    induction a with
    | nil =>
      intro c x y _ hc e
      cases c with
      | nil => simpa using e
      | cons z c =>
        simp only [List.nil_append, List.cons_append, List.cons.injEq] at e
        exact absurd (by rw [← e.1]; simp) hc
    | cons z a ih =>
      intro c x y ha hc e
      cases c with
      | nil =>
        simp only [List.nil_append, List.cons_append, List.cons.injEq] at e
        exact absurd (by rw [e.1]; simp) ha
      | cons w c =>
        simp only [List.cons_append, List.cons.injEq] at e
        obtain ⟨h1, h2⟩ := ih c x y (fun m => ha (by simp [m])) (fun m => hc (by simp [m])) e.2
        exact ⟨by rw [e.1, h1], h2⟩
  unfold dotLine at h
  simp only [List.append_assoc, List.cons_append, List.nil_append, List.cons.injEq, true_and] at h
  obtain ⟨h1, h2⟩ := key _ _ _ _ ha hc h
  simp only [List.cons.injEq, true_and] at h2
  exact ⟨h1, (key _ _ _ _ hb hd h2).1⟩

/-- The names of targets are not escaped: with double quotes in names the dot dump is ambiguous. -/
theorem C91_quotes_refuted : ∃ a b c d : Str, a ≠ c ∧ dotLine a b = dotLine c d :=
  ⟨c!"a", c!"b\" -> \"c", c!"a\" -> \"b", c!"c", by decide +kernel, by decide +kernel⟩

/-! ### Shared dependents are shown once for every way to them -/

theorem walk_count {ch : Nat → List Nat} {fuel x v : Nat} (h : ∀ c ∈ ch x, ∃ ps, walk ch fuel c = some ps ∧ ps.length = v) :
    ∃ ps, walk ch (fuel + 1) x = some ps ∧ ps.length = 1 + (ch x).length * v := by
  have : ∃ rest, (ch x).mapM (walk ch fuel) = some rest ∧ rest.flatten.length = (ch x).length * v := by
    generalize ch x = l at h
    induction l with
    | nil => exact ⟨[], rfl, by simp⟩
    | cons a l ih =>
      obtain ⟨ps, h1, h2⟩ := h a (by simp)
      obtain ⟨rest, h3, h4⟩ := ih fun c hc => h c (by simp [hc])
      refine ⟨ps :: rest, by simp [List.mapM_cons, h1, h3], ?_⟩
      rw [List.flatten_cons, List.length_append, h2, h4, List.length_cons, Nat.add_mul]
      omega
  obtain ⟨rest, h1, h2⟩ := this
  exact ⟨_, by simp only [walk, h1, Option.map_some]; rfl, by simp only [List.length_cons, List.length_map]; omega⟩

theorem lastEdge_some (name : Nat → Str) : ∀ (p : List Nat) (q : Str), p ≠ [] → ∃ l, lastEdge name (some q) p = some l := by
  intro p
  induction p with
  | nil => intro q h; exact absurd rfl h
  | cons x p ih =>
    intro q _
    cases p with
    | nil => exact ⟨_, rfl⟩
    | cons y p => exact ih _ (by simp)

theorem dotDump_count {g : Graph} {name : Nat → Str} {fuel x : Nat} {ps : List (List Nat)} (h : walk g.children fuel x = some ps) :
    ∃ ls, dotLines g name fuel x none = some ls ∧ ls.length + 1 = ps.length := by
  refine ⟨_, by rw [dotLines_walk, h]; rfl, ?_⟩
  cases fuel with
  | zero => cases h
  | succ fuel =>
    simp only [walk, Option.map_eq_some_iff] at h
    obtain ⟨rest, hm, rfl⟩ := h
    have hne : ∀ p ∈ rest.flatten, p ≠ [] := by
      intro p hp
      obtain ⟨rs, k1, k2⟩ := List.mem_flatten.1 hp
      obtain ⟨b, k3, k4⟩ := (mapM_some_mem hm).2 rs k1
      exact walk_ne k4 p k2
    show (List.filterMap (fun p => lastEdge name none p) ([x] :: List.map (fun x_1 => x :: x_1) rest.flatten)).length + 1 = _
    rw [List.filterMap_cons_none (show lastEdge name none [x] = none from rfl)]
    simp only [List.length_cons, List.length_map]
    generalize rest.flatten = l at hne
    induction l with
    | nil => rfl
    | cons p l ih =>
      obtain ⟨y, q, rfl⟩ := List.exists_cons_of_ne_nil (hne p (by simp))
      obtain ⟨e, he⟩ := lastEdge_some name (y :: q) (name x) (by simp)
      rw [List.map_cons, List.filterMap_cons_some (show lastEdge name none (x :: y :: q) = some e from he)]
      simp only [List.length_cons]
      have := ih fun p hp => hne p (by simp [hp])
      omega

/-- Layers of two targets each; both depend on both targets of the layer below. -/
def layers (i : Nat) : List Dep := if i < 2 then [] else [.node (2 * (i / 2 - 1)), .node (2 * (i / 2 - 1) + 1)]

theorem layers_dependsOn {i c : Nat} (h : DependsOn layers i c) : c / 2 + 1 = i / 2 := by
  unfold DependsOn layers at h
  split at h
  · cases h
  · simp only [List.mem_cons, Dep.node.injEq, List.not_mem_nil, or_false] at h
    omega

theorem layers_acyclic (root : Nat) : AcyclicFrom layers root := by
  intro x _ h
  have key : ∀ y, DependsTrans layers x y → y / 2 < x / 2 := by
    intro y hy
    induction hy with
    | single h => have := layers_dependsOn h; omega
    | tail _ h ih => have := layers_dependsOn h; omega
  exact Nat.lt_irrefl _ (key x h)

theorem layers_build (root : Nat) : ∃ g, build layers (root + 3) root = .ok g := by
  have h1 := build_fuel (deps := layers) (root := root) (U := List.range (root + 2)) (by simp) (fun x hx c hc => by
    have := layers_dependsOn hc
    simp only [List.mem_range] at hx ⊢
    omega) (fuel := root + 3) (by simp)
  have h2 : build layers (root + 3) root ≠ .error .missing := by
    intro e
    obtain ⟨x, _, h⟩ := build_missing e
    unfold layers at h
    split at h <;> simp at h
  cases h : build layers (root + 3) root with
  | ok g => exact ⟨g, rfl⟩
  | error e => cases e <;> contradiction

theorem layers_children {root : Nat} {g : Graph} (h : BuildSpec layers root g) {x : Nat} (hx : Reaches layers root x) (h2 : 2 ≤ x) :
    (g.children x).length = 2 := by
  have hperm : (g.children x).Perm [2 * (x / 2 - 1), 2 * (x / 2 - 1) + 1] := by
    refine (List.perm_ext_iff_of_nodup (h.wf.cnodup x) (by simp)).2 fun c => ?_
    rw [h.children]
    simp only [DependsOn, layers, if_neg (Nat.not_lt.2 h2), List.mem_cons, Dep.node.injEq, List.not_mem_nil, or_false]
    simp [hx]
  simpa using hperm.length_eq

theorem layers_walk {root : Nat} {g : Graph} (h : BuildSpec layers root g) : ∀ (k x : Nat), Reaches layers root x → x / 2 = k →
    ∃ ps, walk g.children (k + 1) x = some ps ∧ ps.length + 1 = 2 ^ (k + 1) := by
  intro k
  induction k with
  | zero =>
    intro x hx hk
    have hnil : g.children x = [] := by
      cases hc : g.children x with
      | nil => rfl
      | cons c l =>
        have := layers_dependsOn ((h.children x c).1 (by rw [hc]; simp)).2
        omega
    exact ⟨[[x]], by simp [walk, hnil], by simp⟩
  | succ k ih =>
    intro x hx hk
    obtain ⟨ps, h1, h2⟩ := walk_count (ch := g.children) (fuel := k + 1) (x := x) (v := 2 ^ (k + 1) - 1) fun c hc => by
      have hd := ((h.children x c).1 hc).2
      obtain ⟨ps, k1, k2⟩ := ih c (.tail hx hd) (by have := layers_dependsOn hd; omega)
      exact ⟨ps, k1, by omega⟩
    refine ⟨ps, h1, ?_⟩
    rw [h2, layers_children h hx (by omega)]
    have : 0 < 2 ^ (k + 1) := Nat.pow_pos (by omega)
    rw [Nat.pow_succ 2 (k + 1)]
    omega

/-- The claim that every dependency is shown once is false, and the size of the dump is exponential: there are makefiles with at most
`2 n + 2` targets, of which none has more than two dependents, for which the dumps have `2 ^ (n + 1) - 1` and `2 ^ (n + 1)` lines. -/
theorem C91_once_refuted (name : Nat → Str) (n : Nat) : ∃ (deps : Nat → List Dep) (root : Nat) (g : Graph) (text dot : List Str),
    build deps (2 * n + 3) root = .ok g ∧ AcyclicFrom deps root ∧ g.ids.length ≤ 2 * n + 2 ∧ (∀ x, (deps x).length ≤ 2) ∧
    dump g name (n + 1) root = some text ∧ text.length = 2 ^ (n + 1) - 1 ∧
    dotDump g name (n + 1) root = some dot ∧ dot.length = 2 ^ (n + 1) := by
  obtain ⟨g, hg⟩ := layers_build (2 * n)
  have h := build_ok hg
  obtain ⟨ps, h1, h2⟩ := layers_walk h n (2 * n) .refl (by omega)
  obtain ⟨ls, h3, h4⟩ := dotDump_count (name := name) h1
  refine ⟨layers, 2 * n, g, ps.map (outlineLine name), c!"digraph G {" :: ls ++ [c!"}"], hg, layers_acyclic _, ?_, ?_, ?_, ?_, ?_, ?_⟩
  · have : g.ids.length ≤ (List.range (2 * n + 2)).length := by
      refine List.Nodup.length_le_of_subset h.wf.nodup fun x hx => ?_
      have hr := (h.ids x).1 hx
      have : x / 2 ≤ n := by
        clear hx
        induction hr with
        | refl => omega
        | tail _ hd ih => have := layers_dependsOn hd; omega
      simp only [List.mem_range]
      omega
    simpa using this
  · intro x
    unfold layers
    split <;> simp
  · simp only [dump, textDump_walk, h1, Option.map_some, List.nil_append]
  · rw [List.length_map]; omega
  · simp only [dotDump, h3]; rfl
  · simp only [List.length_cons, List.length_append, List.length_nil]; omega

/-! ### Example -/

/-- `all: lib app`, `app: lib`: the dumps show `lib` twice. -/
def dumpDeps : Nat → List Dep
  | 0 => [.node 1, .file, .node 2]
  | 2 => [.node 1]
  | _ => []

def dumpName : Nat → Str
  | 0 => c!"all"
  | 1 => c!"lib"
  | _ => c!"app"

example : (build dumpDeps 4 0).toOption.bind (fun g => dump g dumpName 3 0) = some [c!"all", c!" lib", c!" app", c!"  lib"] := by
  decide +kernel

example : (build dumpDeps 4 0).toOption.bind (fun g => dotDump g dumpName 3 0) = some [c!"digraph G {", c!"  \"all\" -> \"lib\";",
    c!"  \"all\" -> \"app\";", c!"  \"app\" -> \"lib\";", c!"}"] := by
  decide +kernel

theorem dumpDeps_acyclic : AcyclicFrom dumpDeps 0 := by
  have key : ∀ x y, DependsTrans dumpDeps x y → (x = 0 ∧ (y = 1 ∨ y = 2)) ∨ (x = 2 ∧ y = 1) := by
    intro x y h
    have step : ∀ a b, DependsOn dumpDeps a b → (a = 0 ∧ (b = 1 ∨ b = 2)) ∨ (a = 2 ∧ b = 1) := by
      intro a b h
      unfold DependsOn dumpDeps at h
      split at h <;> simp at h <;> omega
    induction h with
    | single h => exact step _ _ h
    | tail _ h ih => have := step _ _ h; omega
  intro x _ h
  have := key _ _ h
  omega

/-- The theorem applies: the way from `all` over `app` to `lib` has its line. -/
example : ∃ g ps, build dumpDeps 4 0 = .ok g ∧ dump g dumpName 3 0 = some (ps.map (outlineLine dumpName)) ∧ ps.Nodup ∧
    (∀ p, p ∈ ps ↔ Way (DependsOn dumpDeps) 0 p) ∧ Outline ps := by
  have hl : (build dumpDeps 4 0).toOption.map (fun g => g.ids.length) = some 3 := by decide +kernel
  cases h : build dumpDeps 4 0 with
  | error e => rw [h] at hl; cases hl
  | ok g =>
    rw [h] at hl
    simp only [Except.toOption, Option.map_some, Option.some.injEq] at hl
    obtain ⟨ps, h1⟩ := (C91_text dumpName h).1 dumpDeps_acyclic 3 (by omega)
    exact ⟨g, ps, rfl, h1⟩

end Jom.Props
