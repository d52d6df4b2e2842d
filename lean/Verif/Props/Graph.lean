/-
Properties of the target table, the cycle check and the construction of the dependency graph
(C24, C25, C29).
-/
import Verif.Proofs.Cycle

namespace Jom.Props

open Jom.Graph Jom.Spec Relation

/-- Spec: the table has the target `t` under the key `k`; the first entry counts. -/
def TableEntry (h : List (Str × Nat)) (k : Str) (t : Nat) : Prop :=
  ∃ pre post, h = pre ++ (k, t) :: post ∧ ∀ e ∈ pre, e.1 ≠ k

/-- Spec: `name` denotes the target `t`, in whatever case; if there is no such target, slashes may stand for backslashes. -/
def Denotes (m : Makefile) (name : Str) (t : Nat) : Prop :=
  TableEntry m.hash (toLower name) t ∨
  (∀ u, ¬ TableEntry m.hash (toLower name) u) ∧ TableEntry m.hash ((toLower name).map fun c => if c = '/' then '\\' else c) t

theorem tableEntry_iff {h : List (Str × Nat)} {k : Str} {t : Nat} : TableEntry h k t ↔ hashValue h k = some t := by
  unfold TableEntry hashValue
  constructor
  · rintro ⟨pre, post, rfl, hp⟩
    rw [List.find?_append, List.find?_eq_none.2 (fun e he => by simpa using hp e he)]
    simp
  · intro e
    obtain ⟨a, ha, rfl⟩ := Option.map_eq_some_iff.1 e
    obtain ⟨h1, pre, post, rfl, h2⟩ := List.find?_eq_some_iff_append.1 ha
    obtain ⟨k', t'⟩ := a
    have h1 : k' = k := by simpa using h1
    subst h1
    exact ⟨pre, post, rfl, fun e he => by simpa using h2 e he⟩

theorem denotes_iff {m : Makefile} {name : Str} {t : Nat} : Denotes m name t ↔ m.target name = some t := by
  unfold Denotes Makefile.target
  simp only [tableEntry_iff]
  cases hashValue m.hash (toLower name) <;> simp

theorem denotes_none {m : Makefile} {name : Str} : (∀ u, ¬ Denotes m name u) ↔ m.target name = none := by
  simp only [denotes_iff, ← Option.ne_none_iff_exists', ← not_exists]
  cases m.target name <;> simp

/-- Spec: target `x` declares the target `c` as dependent. -/
def Declares (m : Makefile) (x c : Nat) : Prop := ∃ name ∈ m.dependents x, Denotes m name c

/-- Spec: a cycle of declared dependents can be reached from `t`. -/
def CycleFrom (m : Makefile) (t : Nat) : Prop :=
  ∃ x, ReflTransGen (Declares m) t x ∧ TransGen (Declares m) x x

theorem edge_declares (m : Makefile) : Edge m.cycleLook = Declares m := by
  funext x c
  simp [Edge, Makefile.cycleLook, Declares, denotes_iff, eq_comm]

theorem hashValue_mem {h : List (Str × Nat)} {k : Str} {t : Nat} (e : hashValue h k = some t) :
    t ∈ h.map (·.2) := by
  simp only [hashValue, Option.map_eq_some_iff] at e
  obtain ⟨a, ha, rfl⟩ := e
  exact List.mem_map_of_mem (List.mem_of_find?_eq_some ha)

theorem target_mem {m : Makefile} {name : Str} {t : Nat} (e : m.target name = some t) :
    t ∈ m.hash.map (·.2) := by
  simp only [Makefile.target] at e
  split at e
  · next h => cases e; exact hashValue_mem h
  · exact hashValue_mem e

/-- The check of the requested targets as `Parser::apply` runs it (parser.cpp 147-151). -/
def parserCheck (m : Makefile) (active : List Str) : Except CycleErr (List Nat × List Nat) :=
  checkAll m.cycleLook (m.hash.length + 1) (active.map m.target)

theorem parserCheck_fuel (m : Makefile) (active : List Str) : parserCheck m active ≠ .error .fuel := by
  have hU : ∀ x ∈ m.hash.map (·.2), ∀ c, Edge m.cycleLook x c → c ∈ m.hash.map (·.2) := by
    intro x _ c hc
    rw [edge_declares] at hc
    obtain ⟨n, _, hn⟩ := hc
    exact target_mem (denotes_iff.1 hn)
  refine cycleLoop_fuel (U := m.hash.map (·.2)) (m := m.hash.length + 1) (checkForCycles_ok _ _)
    (checkForCycles_fuel _ hU _) _ _ ?_ (markInv_nil _) ?_
  · intro t ht
    obtain ⟨n, _, hn⟩ := List.mem_map.1 ht
    exact target_mem hn
  · refine Nat.lt_succ_of_le (Nat.le_trans (List.length_filter_le _ _) ?_)
    simp

theorem cycleLoop_reported {look : Nat → List (Option Nat)} {fuel : Nat} :
    ∀ ds s x, s.1 = [] → MarkInv look s → cycleLoop (checkForCycles look fuel) ds s = .error (.cycle x) →
      ∃ t, some t ∈ ds ∧ ReflTransGen (Edge look) t x ∧ TransGen (Edge look) x x := by
  intro ds
  induction ds with
  | nil => intro s x _ _ h; simp [cycleLoop] at h
  | cons d ds ih =>
    intro s x hv hs h
    simp only [cycleLoop, bind, Except.bind] at h
    cases hd : checkForCycles look fuel d s with
    | error e =>
      rw [hd] at h
      simp only [Except.error.injEq] at h
      subst h
      cases d with
      | none => rw [checkForCycles_none] at hd; simp at hd
      | some t =>
        have := checkForCycles_err look fuel t s x (by simp [hv]) hd hs
        exact ⟨t, List.mem_cons_self .., this⟩
    | ok s1 =>
      rw [hd] at h
      obtain ⟨a, b, _, _⟩ := checkForCycles_ok look fuel d s s1 hs hd
      obtain ⟨t, ht, r⟩ := ih s1 x (by rw [b, hv]) a h
      exact ⟨t, List.mem_cons_of_mem _ ht, r⟩

/-- C24: for every makefile and every list of requested targets the parser reports a cycle exactly if a
cycle of declared dependents can be reached from a requested target; a reported target lies on such a cycle;
otherwise the check succeeds (it always terminates). -/
theorem C24_cycle_check_exact (m : Makefile) (active : List Str) :
    ((∃ x, parserCheck m active = .error (.cycle x)) ↔
      ∃ a ∈ active, ∃ t, Denotes m a t ∧ CycleFrom m t) ∧
    (∀ x, parserCheck m active = .error (.cycle x) → TransGen (Declares m) x x) ∧
    ((∃ s, parserCheck m active = .ok s) ↔
      ∀ a ∈ active, ∀ t, Denotes m a t → ¬ CycleFrom m t) := by
  simp only [denotes_iff]
  have hrep : ∀ x, parserCheck m active = .error (.cycle x) →
      ∃ t, some t ∈ active.map m.target ∧ ReflTransGen (Declares m) t x ∧ TransGen (Declares m) x x := by
    intro x h
    have := cycleLoop_reported _ _ x rfl (markInv_nil _) h
    rwa [edge_declares] at this
  have hok : ∀ s, parserCheck m active = .ok s → ∀ a ∈ active, ∀ t, m.target a = some t → ¬ CycleFrom m t := by
    intro s h a ha t ht ⟨x, hx, hc⟩
    obtain ⟨i, _, _, e⟩ := cycleLoop_ok (checkForCycles_ok m.cycleLook _) _ _ _ (markInv_nil _) h
    have htm : t ∈ s.2 := e t (by rw [← ht]; exact List.mem_map_of_mem ha)
    rw [← edge_declares] at hx hc
    exact i.acyclic t htm x hx hc
  have h1 : (∃ x, parserCheck m active = .error (.cycle x)) →
      ∃ a ∈ active, ∃ t, m.target a = some t ∧ CycleFrom m t := by
    rintro ⟨x, h⟩
    obtain ⟨t, ht, r⟩ := hrep x h
    obtain ⟨a, ha, hat⟩ := List.mem_map.1 ht
    exact ⟨a, ha, t, hat, x, r⟩
  refine ⟨⟨h1, ?_⟩, ?_, ?_, ?_⟩
  · rintro ⟨a, ha, t, ht, hc⟩
    cases h : parserCheck m active with
    | ok s => exact absurd hc (hok s h a ha t ht)
    | error e =>
      cases e with
      | cycle x => exact ⟨x, rfl⟩
      | fuel => exact absurd h (parserCheck_fuel m active)
  · intro x h; exact (hrep x h).choose_spec.2.2
  · rintro ⟨s, h⟩; exact hok s h
  · intro hno
    cases h : parserCheck m active with
    | ok s => exact ⟨s, rfl⟩
    | error e =>
      cases e with
      | cycle x =>
        obtain ⟨a, ha, t, ht, hc⟩ := h1 ⟨x, h⟩
        exact absurd hc (hno a ha t ht)
      | fuel => exact absurd h (parserCheck_fuel m active)

/-- `all: a b`, `a: b`, `b: B/X`, `b/x` with an upper-case spelling and the other separator:
the cycle `a → b → b\x → A`. -/
def cyclicMakefile : Makefile where
  hash := [(c!"all", 0), (c!"a", 1), (c!"b", 2), (c!"b\\x", 3)]
  dependents := fun t => match t with
    | 0 => [c!"b", c!"a"] | 1 => [c!"b"] | 2 => [c!"B/X", c!"main.c"] | 3 => [c!"A"] | _ => []
  dirPath := c!"C:/src"

/-- A diamond without cycle. -/
def diamondMakefile : Makefile where
  hash := [(c!"all", 0), (c!"a", 1), (c!"b", 2), (c!"c", 3)]
  dependents := fun t => match t with
    | 0 => [c!"a", c!"b", c!"a"] | 1 => [c!"c"] | 2 => [c!"C", c!"x.h"] | _ => []
  dirPath := c!"C:/src"

example : parserCheck cyclicMakefile [c!"ALL"] = .error (.cycle 1) := by decide +kernel
example : (parserCheck diamondMakefile [c!"all"]).toOption.isSome = true := by decide +kernel

/-- Spec: `name` among the dependents stands for the target `t`: it denotes `t`, or nothing, and `t` has this name in the directory of the
makefile. -/
def StandsFor (m : Makefile) (name : Str) (t : Nat) : Prop :=
  Denotes m name t ∨ (∀ u, ¬ Denotes m name u) ∧ Denotes m (m.dirPath ++ c!"\\" ++ name) t

/-- Spec: target `c` is needed for `x`. -/
def Needs (m : Makefile) (x c : Nat) : Prop := ∃ name ∈ m.dependents x, StandsFor m name c

/-- Spec: a dependent of `x` is neither a target nor a file. -/
def Lacks (m : Makefile) (fileExists : Str → Bool) (x : Nat) : Prop :=
  ∃ name ∈ m.dependents x, (∀ t, ¬ StandsFor m name t) ∧ fileExists name = false

theorem graphDep_node {m : Makefile} {fileExists : Str → Bool} {name : Str} {t : Nat} :
    m.graphDep fileExists name = .node t ↔ StandsFor m name t := by
  unfold Makefile.graphDep StandsFor
  rw [denotes_none, denotes_iff, denotes_iff]
  show _ ↔ _ ∨ _ ∧ m.target (m.dirPath ++ ['\\'] ++ name) = some t
  cases m.target name <;> cases m.target (m.dirPath ++ ['\\'] ++ name) <;> simp
  split <;> simp

theorem graphDep_missing {m : Makefile} {fileExists : Str → Bool} {name : Str} :
    m.graphDep fileExists name = .missing ↔ (∀ t, ¬ StandsFor m name t) ∧ fileExists name = false := by
  simp only [← graphDep_node (fileExists := fileExists)]
  unfold Makefile.graphDep
  cases m.target name <;> cases m.target (m.dirPath ++ ['\\'] ++ name) <;> simp
  cases fileExists name <;> simp

theorem dependsOn_needs (m : Makefile) (fileExists : Str → Bool) : DependsOn (m.graphDeps fileExists) = Needs m := by
  funext x c
  simp only [DependsOn, Makefile.graphDeps, List.mem_map, graphDep_node, Needs]

theorem missing_lacks {m : Makefile} {fileExists : Str → Bool} {x : Nat} : Dep.missing ∈ m.graphDeps fileExists x ↔ Lacks m fileExists x := by
  simp only [Makefile.graphDeps, List.mem_map, graphDep_missing, Lacks]

/-- C25, full claim: a makefile that passes the cycle check gives an acyclic build graph. -/
def C25_claim : Prop :=
  ∀ (m : Makefile) (active : List Str) (a : Str) (t : Nat),
    (∃ s, parserCheck m active = .ok s) → a ∈ active → Denotes m a t →
    ∀ x, ReflTransGen (Needs m) t x → ¬ TransGen (Needs m) x x

/-- Target `C:\src\a` with dependent `a`: found only with the directory in front. -/
def fallbackMakefile : Makefile where
  hash := [(c!"c:\\src\\a", 0)]
  dependents := fun t => match t with | 0 => [c!"a"] | _ => []
  dirPath := c!"C:/src"

/-- C25 is false in general: the graph builder also looks up a dependent with the makefile's directory in front
(dependencygraph.cpp 192-195), the cycle check does not. The target then waits for itself. -/
theorem C25_refuted_directory_lookup : ¬ C25_claim := by
  intro h
  have h1 := h fallbackMakefile [c!"c:\\src\\a"] c!"c:\\src\\a" 0
    ⟨([], [0]), by decide +kernel⟩ (by simp) (denotes_iff.2 (by decide +kernel)) 0 ReflTransGen.refl
  apply h1
  apply TransGen.single
  rw [← dependsOn_needs _ fun _ => true]
  show Dep.node 0 ∈ fallbackMakefile.graphDeps (fun _ => true) 0
  decide +kernel

/-- No dependent of a target is known only with the makefile's directory in front. -/
def NoDirectoryLookup (m : Makefile) : Prop :=
  ∀ t, ∀ name ∈ m.dependents t, (∀ u, ¬ Denotes m name u) → ∀ u, ¬ Denotes m (m.dirPath ++ c!"\\" ++ name) u

theorem needs_declares {m : Makefile} (h : NoDirectoryLookup m) : Needs m = Declares m := by
  funext x c
  refine propext ⟨?_, fun ⟨n, hn, e⟩ => ⟨n, hn, .inl e⟩⟩
  rintro ⟨n, hn, e | ⟨e1, e2⟩⟩
  · exact ⟨n, hn, e⟩
  · exact absurd e2 (h x n hn e1 c)

/-- C25 under the exact side condition: if no dependent is found only through the makefile's directory, then a
makefile that passes the check gives an acyclic build graph for every requested target.
Missing: makefiles where that lookup matters (there the claim is false, see above). -/
theorem C25_acyclic_graph_partial (m : Makefile) (active : List Str) (a : Str) (t : Nat)
    (hno : NoDirectoryLookup m) (hok : ∃ s, parserCheck m active = .ok s) (ha : a ∈ active)
    (ht : Denotes m a t) : ∀ x, ReflTransGen (Needs m) t x → ¬ TransGen (Needs m) x x := by
  rw [needs_declares hno]
  exact fun x hx hc => ((C24_cycle_check_exact m active).2.2.1 hok) a ha t ht ⟨x, hx, hc⟩

example : NoDirectoryLookup diamondMakefile := by
  intro t name hn h
  rw [denotes_none] at h ⊢
  rcases t with _ | _ | _ | t
  all_goals simp [diamondMakefile] at hn
  · rcases hn with rfl | rfl | rfl <;> revert h <;> decide +kernel
  · subst hn; revert h; decide +kernel
  · rcases hn with rfl | rfl <;> revert h <;> decide +kernel

/-- C29: the graph built for a target. For every makefile, every file system and every target of the makefile:
if some reachable target has a dependent that is neither a target nor a file, jom ends with exit code 2;
otherwise the graph has exactly the reachable targets as nodes (each once), the children of a node are exactly its
dependents that are targets (each once), the parents are the inverse of the children, and the leaves are
exactly the nodes without such dependents (each once). -/
theorem C29_graph_exact (m : Makefile) (fileExists : Str → Bool) (a : Str) (root : Nat)
    (hroot : Denotes m a root) :
    let needed := ReflTransGen (Needs m) root
    let result := build (m.graphDeps fileExists) (m.hash.length + 1) root
    ((∃ x, needed x ∧ Lacks m fileExists x) ∧ result = .error .missing) ∨
    ((¬ ∃ x, needed x ∧ Lacks m fileExists x) ∧ ∃ g, result = .ok g ∧
      g.ids.Nodup ∧ (∀ x, x ∈ g.ids ↔ needed x) ∧
      (∀ x c, x ∈ g.ids → (c ∈ g.children x ↔ Needs m x c)) ∧ (∀ x, (g.children x).Nodup) ∧
      (∀ x p, x ∈ g.ids → (p ∈ g.parents x ↔ p ∈ g.ids ∧ x ∈ g.children p)) ∧ (∀ x, (g.parents x).Nodup) ∧
      g.leaves.Nodup ∧ (∀ x, x ∈ g.leaves ↔ x ∈ g.ids ∧ ∀ c, ¬ Needs m x c)) := by
  rw [denotes_iff] at hroot
  simp only [← missing_lacks, ← dependsOn_needs m fileExists]
  let deps := m.graphDeps fileExists
  show ((∃ x, Reaches deps root x ∧ Dep.missing ∈ deps x) ∧ _) ∨ ((¬ ∃ x, Reaches deps root x ∧ Dep.missing ∈ deps x) ∧ _)
  generalize hresult : build (m.graphDeps fileExists) (m.hash.length + 1) root = result
  have hU : ∀ x ∈ m.hash.map (·.2), ∀ c, DependsOn deps x c → c ∈ m.hash.map (·.2) := by
    intro x _ c hc
    simp only [DependsOn, deps, Makefile.graphDeps, List.mem_map] at hc
    obtain ⟨n, _, hn⟩ := hc
    simp only [Makefile.graphDep] at hn
    split at hn
    · next t h => cases hn; exact target_mem h
    · split at hn
      · next t h => cases hn; exact target_mem h
      · split at hn <;> cases hn
  have hf := build_fuel (deps := deps) (root := root) (U := m.hash.map (·.2)) (target_mem hroot) hU
    (fuel := m.hash.length + 1) (by simp)
  rw [show build deps (m.hash.length + 1) root = result from hresult] at hf
  cases hres : result with
  | error e =>
    cases e with
    | fuel => exact absurd hres hf
    | missing => left; exact ⟨build_missing (hresult.trans hres), rfl⟩
  | ok g =>
    right
    have s := build_ok (hresult.trans hres)
    refine ⟨?_, g, rfl, s.wf.nodup, s.ids, ?_, s.wf.cnodup, ?_, s.wf.pnodup, s.leavesNodup, ?_⟩
    · rintro ⟨x, hx, hm⟩; exact s.noMissing x hx hm
    · intro x c hx
      rw [s.children]
      exact ⟨fun h => h.2, fun h => ⟨(s.ids x).1 hx, h⟩⟩
    · intro x p _
      rw [← s.wf.sym]
      exact ⟨fun h => ⟨(s.wf.inIds _ _ h).1, h⟩, fun h => h.2⟩
    · intro x; rw [s.leaves, s.ids]

example : ((build (diamondMakefile.graphDeps fun n => n = c!"x.h") 5 0).toOption.map fun g =>
    (g.ids, g.leaves, [0, 1, 2, 3].map g.children, [0, 1, 2, 3].map g.parents)) =
    some ([0, 1, 3, 2], [3], [[1, 2], [3], [3], []], [[], [0], [0], [1, 2]]) := by decide +kernel
example : (match build (diamondMakefile.graphDeps fun _ => false) 5 0 with
    | .error e => some e | .ok _ => none) = some .missing := by decide +kernel

end Jom.Props
