/- From the table of targets to the graph of a build. -/
import Verif.Proofs.MakeRecords
import Verif.Proofs.PrepareTable

namespace Jom.Prepare

open Jom.Blocks Jom.Inference Jom.Graph Jom.Make Jom.Sched Relation
open Jom.Spec
open Jom.Spec.Blocks (canon Described)
open Jom.Spec.Setup

/-- The target with a number. -/
def Tab.entry (t : Tab) (k : Nat) : Option Described := (t.table.targets[k]?).map fun e => describe e.2

variable {t : Tab} {F : Str → List Rule}

theorem Tidy.noSlash (h : Tidy t F) : ∀ k b, find t.table.targets k = some b → '/' ∉ k := by
  intro k b hb
  obtain ⟨rfl, h1⟩ := h.keys k b hb
  exact fun hx => h1 (toLower_slash.1 hx)

theorem Tidy.target (h : Tidy t F) (n : Str) : t.target n = (find t.table.targets (canon n)).map describe := by
  rw [Tab.target, target_eq _ _ h.noSlash]

theorem Tidy.canon_congr (h : Tidy t F) {n n' : Str} (e : canon n = canon n') : t.target n = t.target n' := by
  rw [h.target, h.target, e]

theorem Tidy.entry (h : Tidy t F) {k : Nat} {e : Str × DBlock} (he : t.table.targets[k]? = some e) :
    e.1 = canon e.2.name ∧ t.target e.2.name = some (describe e.2) := by
  have h1 := find_of_mem h.nodup (List.mem_of_getElem? he)
  obtain ⟨e1, e2⟩ := h.keys _ _ h1
  have h2 : e.1 = canon e.2.name := by rw [canon_native e2]; exact e1
  exact ⟨h2, by rw [h.target, ← h2, h1]; rfl⟩

theorem Tidy.candidates (h : Tidy t F) {k : Nat} {e : Str × DBlock} (he : t.table.targets[k]? = some e) {n : Str} (hn : canon n = e.1) :
    t.candidates n = (find t.rules e.1).getD [] := by
  have h1 := find_of_mem h.nodup (List.mem_of_getElem? he)
  rw [Tab.candidates, key_eq _ _ h.noSlash, hn, h1]
  rfl

theorem Tidy.find_entry (h : Tidy t F) {n : Str} {d : Described} (hn : t.target n = some d) :
    ∃ (k : Nat) (e : Str × DBlock), t.table.targets[k]? = some e ∧ e.1 = canon n ∧ describe e.2 = d := by
  rw [h.target] at hn
  cases hf : find t.table.targets (canon n) with
  | none => rw [hf] at hn; cases hn
  | some b =>
    rw [hf] at hn
    obtain ⟨k, hk⟩ := List.getElem?_of_mem (find_mem hf)
    exact ⟨k, _, hk, rfl, by simpa using hn⟩

theorem info_entry {k : Nat} {e : Str × DBlock} (he : t.table.targets[k]? = some e) :
    info t k = { name := e.2.name, fileExists := false, time := 0, deps := e.2.deps, hasCmds := decide (e.2.cmds ≠ [])
                 rules := ((find t.rules e.1).getD []).map fun r => inferredDependent r e.2.name } := by
  simp only [info, he]

theorem env_lookup (h : Tidy t F) (dir : Str) (abs : Str → Str) (n : Str) (k : Nat) :
    (env t dir abs).lookup n = some k ↔ ∃ e, t.table.targets[k]? = some e ∧ e.1 = canon n :=
  target_id dir h.noSlash h.nodup n k

theorem entry_iff {k : Nat} {d : Described} : t.entry k = some d ↔ ∃ e, t.table.targets[k]? = some e ∧ describe e.2 = d := by
  simp [Tab.entry]

theorem Tidy.entry_target (h : Tidy t F) {k : Nat} {d : Described} (hk : t.entry k = some d) : t.target d.name = some d := by
  obtain ⟨e, h1, rfl⟩ := entry_iff.1 hk
  exact (h.entry h1).2

theorem Tidy.target_entry (h : Tidy t F) {n : Str} {d : Described} (hn : t.target n = some d) : ∃ k, t.entry k = some d := by
  obtain ⟨k, e, h1, _, h2⟩ := h.find_entry hn
  exact ⟨k, entry_iff.2 ⟨e, h1, h2⟩⟩

theorem Tidy.target_name (h : Tidy t F) {n : Str} {d : Described} (hn : t.target n = some d) : canon d.name = canon n := by
  obtain ⟨k, e, h1, h2, rfl⟩ := h.find_entry hn
  exact (h.entry h1).1.symm.trans h2

theorem Tidy.entry_inj (h : Tidy t F) {i j : Nat} {d : Described} (hi : t.entry i = some d) (hj : t.entry j = some d) : i = j := by
  obtain ⟨e, h1, rfl⟩ := entry_iff.1 hi
  obtain ⟨e', h2, h3⟩ := entry_iff.1 hj
  have h6 : e'.2.name = e.2.name := congrArg Described.name h3
  have h4 : (t.table.targets.map (·.1))[i]? = some e.1 := by simp [h1]
  have h5 : (t.table.targets.map (·.1))[j]? = some e.1 := by simp [h2, (h.entry h1).1, (h.entry h2).1, h6]
  exact (List.getElem?_inj (by simpa using (List.getElem?_eq_some_iff.1 h1).1) h.nodup).1 (h4.trans h5.symm)

theorem lookup_iff (h : Tidy t F) (dir : Str) (abs : Str → Str) (n : Str) (k : Nat) :
    (env t dir abs).lookup n = some k ↔ ∃ d, t.target n = some d ∧ t.entry k = some d := by
  rw [env_lookup h]
  constructor
  · rintro ⟨e, h1, h2⟩
    refine ⟨describe e.2, ?_, entry_iff.2 ⟨e, h1, rfl⟩⟩
    rw [h.target, ← h2, find_of_mem h.nodup (List.mem_of_getElem? h1)]; rfl
  · rintro ⟨d, h1, h2⟩
    obtain ⟨e, h3, rfl⟩ := entry_iff.1 h2
    exact ⟨e, h3, (h.entry h3).1.trans (h.target_name h1)⟩

theorem lookup_none (h : Tidy t F) (dir : Str) (abs : Str → Str) (n : Str) : (env t dir abs).lookup n = none ↔ t.target n = none := by
  constructor
  · intro hn
    cases ht : t.target n with
    | none => rfl
    | some d =>
      obtain ⟨k, hk⟩ := h.target_entry ht
      rw [(lookup_iff h dir abs n k).2 ⟨d, ht, hk⟩] at hn
      cases hn
  · intro hn
    cases hl : (env t dir abs).lookup n with
    | none => rfl
    | some k =>
      obtain ⟨d, h1, _⟩ := (lookup_iff h dir abs n k).1 hl
      rw [hn] at h1
      cases h1

theorem resolve_iff (h : Tidy t F) (dir : Str) (abs : Str → Str) (f : FileInfo.St) (n : Str) (k : Nat) :
    resolve (env t dir abs) f n = .node k ↔ ∃ d, Means t.target dir n = some d ∧ t.entry k = some d := by
  unfold resolve Means
  cases hx : (env t dir abs).lookup n with
  | some k' =>
    obtain ⟨d, h1, h2⟩ := (lookup_iff h dir abs n k').1 hx
    simp only [h1, Option.some_or, Dep.node.injEq]
    constructor
    · rintro rfl; exact ⟨d, rfl, h2⟩
    · rintro ⟨d', rfl', h3⟩
      cases rfl'
      exact h.entry_inj h2 h3
  | none =>
    rw [(lookup_none h dir abs n).1 hx, Option.none_or]
    cases hy : (env t dir abs).lookup ((env t dir abs).dir ++ '\\' :: n) with
    | some k' =>
      obtain ⟨d, h1, h2⟩ := (lookup_iff h dir abs _ k').1 hy
      have h1 : t.target (dir ++ '\\' :: n) = some d := h1
      simp only [h1, Dep.node.injEq]
      constructor
      · rintro rfl; exact ⟨d, rfl, h2⟩
      · rintro ⟨d', rfl', h3⟩
        cases rfl'
        exact h.entry_inj h2 h3
    | none =>
      have h1 : t.target (dir ++ '\\' :: n) = none := (lookup_none h dir abs _).1 hy
      simp only [h1]
      split <;> simp

theorem resolve_missing_iff (h : Tidy t F) (dir : Str) (abs : Str → Str) (disk : Str → Option Nat) (n : Str) :
    resolve (env t dir abs) { disk := disk, cache := [] } n = .missing ↔ Means t.target dir n = none ∧ disk (abs n) = none := by
  unfold resolve Means
  cases hx : (env t dir abs).lookup n with
  | some k' =>
    obtain ⟨d, h1, h2⟩ := (lookup_iff h dir abs n k').1 hx
    simp [h1]
  | none =>
    rw [(lookup_none h dir abs n).1 hx, Option.none_or]
    cases hy : (env t dir abs).lookup ((env t dir abs).dir ++ '\\' :: n) with
    | some k' =>
      obtain ⟨d, h1, h2⟩ := (lookup_iff h dir abs _ k').1 hy
      have h1 : t.target (dir ++ '\\' :: n) = some d := h1
      simp [h1]
    | none =>
      have h1 : t.target (dir ++ '\\' :: n) = none := (lookup_none h dir abs _).1 hy
      simp only [h1, true_and]
      have : (FileInfo.query (env t dir abs).abs n { disk := disk, cache := [] }).2 = disk (abs n) := (query_ok (by intro e k he; cases he) n).1
      rw [this]
      cases disk (abs n) <;> simp

variable {dir : Str} {abs : Str → Str} {cfg : Cfg} {m : Mem} {b : Nat}

/-- What an edge of the graph comes from. -/
theorem edge_from (h : Tidy t F) (hm : ∀ k, Grown (info t k) (m.info k)) (hn : DepsNow (env t dir abs) cfg m b) {i j : Nat}
    (hij : DependsOn (cfg.deps b) i j) :
    ∃ d d' x, t.entry i = some d ∧ t.entry j = some d' ∧ Means t.target dir x = some d' ∧
      (x ∈ d.deps ∨ ∃ r ∈ t.candidates d.name, x = inferredDependent r d.name) := by
  obtain ⟨x, hx, hr⟩ := (depsNow_mem hn _).1 hij
  obtain ⟨d', he', hc⟩ := (resolve_iff h dir abs _ _ _).1 hr
  have hx' := (hm i).inferred hx
  cases he : t.table.targets[i]? with
  | none => simp [info, he, noInfo] at hx'
  | some e =>
    rw [info_entry he] at hx'
    refine ⟨describe e.2, d', x, entry_iff.2 ⟨e, he, rfl⟩, hc, he', ?_⟩
    show x ∈ e.2.deps ∨ ∃ r ∈ t.candidates e.2.name, x = inferredDependent r e.2.name
    rw [h.candidates he (h.entry he).1.symm]
    rcases hx' with hx' | hx'
    · exact .inl hx'
    · obtain ⟨r, hr', rfl⟩ := List.mem_map.1 hx'
      exact .inr ⟨r, hr', rfl⟩

/-- Declared dependents are in the graph. -/
theorem edge_to (h : Tidy t F) (hm : ∀ k, Grown (info t k) (m.info k)) (hn : DepsNow (env t dir abs) cfg m b) {i j : Nat}
    {d d' : Described} (he : t.entry i = some d) (he' : t.entry j = some d') {x : Str} (hx : x ∈ d.deps)
    (hc : Means t.target dir x = some d') : DependsOn (cfg.deps b) i j := by
  obtain ⟨e, h1, rfl⟩ := entry_iff.1 he
  refine (depsNow_mem hn _).2 ⟨x, (hm i).deps (by rw [info_entry h1]; exact hx), ?_⟩
  exact (resolve_iff h dir abs _ _ _).2 ⟨d', hc, he'⟩

/-- The sources of candidate rules. -/
def Sources (t : Tab) : Prop := ∀ d r, t.target d.name = some d → r ∈ t.candidates d.name → Source r d.name (inferredDependent r d.name)

/-- What is in the graph is needed. -/
theorem reaches_needed (h : Tidy t F) (hs : Sources t) (hm : ∀ k, Grown (info t k) (m.info k))
    (hn : DepsNow (env t dir abs) cfg m b) {names : List Str} {i j : Nat} {d : Described} (he : t.entry i = some d)
    (hne : Needed t.target t.candidates dir names d) (hr : Reaches (cfg.deps b) i j) :
    ∃ d', t.entry j = some d' ∧ Needed t.target t.candidates dir names d' := by
  induction hr with
  | refl => exact ⟨d, he, hne⟩
  | tail _ hl ih =>
    obtain ⟨d1, h1, h2⟩ := ih
    obtain ⟨d2, d3, x, h4, h5, h6, h7⟩ := edge_from h hm hn hl
    rw [h1] at h4
    cases h4
    refine ⟨d3, h5, ?_⟩
    rcases h7 with h7 | ⟨r, hr, rfl⟩
    · exact .dependent h2 h7 h6
    · exact .inferred h2 hr (hs d1 r (h.entry_target h1) hr) h6

/-- What is named is in the graph, if it is a target. -/
theorem named_reaches (h : Tidy t F) (hm : ∀ k, Grown (info t k) (m.info k)) (hn : DepsNow (env t dir abs) cfg m b)
    {a : Str} {i : Nat} {d : Described} (he : t.entry i = some d) (hc : t.target a = some d) {n : Str} (hne : Named t.target [a] n)
    {j : Nat} {d' : Described} (hj : t.entry j = some d') (hc' : t.target n = some d') : Reaches (cfg.deps b) i j := by
  induction hne generalizing j d' with
  | @requested x hx =>
    have hx : x = a := by simpa using hx
    subst hx
    rw [hc] at hc'
    cases hc'
    rw [h.entry_inj he hj]
    exact .refl
  | @dependent x d1 y _ hd' hy ih =>
    obtain ⟨k, hk⟩ := h.target_entry hd'
    exact (ih hk hd').tail (edge_to h hm hn hk hj hy (by rw [Means, hc']; rfl))

/-- Nothing is found by looking into the directory of the makefile. -/
def NoDir (t : Tab) (dir : Str) : Prop := ∀ n, t.target (dir ++ '\\' :: n) = none

/-- If sources are declared, edges of the graph are dependents of the makefile. -/
theorem edge_leads (h : Tidy t F) (hs : Sources t) (hd : NoDir t dir) (hm : ∀ k, Grown (info t k) (m.info k))
    (hn : DepsNow (env t dir abs) cfg m b) {names : List Str} (hdecl : SourcesDeclared t.target t.candidates dir names) {i j : Nat}
    {d : Described} (he : t.entry i = some d) (hne : Needed t.target t.candidates dir names d) (hij : DependsOn (cfg.deps b) i j) :
    ∃ d', t.entry j = some d' ∧ Leads t.target d.name d'.name := by
  obtain ⟨d2, d3, x, h4, h5, h6, h7⟩ := edge_from h hm hn hij
  rw [he] at h4
  cases h4
  have h6 : t.target x = some d3 := by rw [Means, hd x, Option.or_none] at h6; exact h6
  have h8 := h.target_name h6
  refine ⟨d3, h5, d, h.entry_target he, ?_, by rw [h.entry_target h5]; simp⟩
  rcases h7 with h7 | ⟨r, hr, rfl⟩
  · exact ⟨x, h7, h8.symm⟩
  · obtain ⟨y, hy, hy'⟩ := hdecl d r _ hne hr (hs d r (h.entry_target he) hr) (by rw [h6]; simp)
    exact ⟨y, hy, hy'.trans h8.symm⟩

/-- Then there are no cycles. -/
theorem graph_acyclic (h : Tidy t F) (hs : Sources t) (hd : NoDir t dir) (hm : ∀ k, Grown (info t k) (m.info k))
    (hn : DepsNow (env t dir abs) cfg m b) {names : List Str} (hdecl : SourcesDeclared t.target t.candidates dir names)
    (hcyc : ¬ Cyclic t.target names) {a : Str} (ha : a ∈ names) {i : Nat} {d : Described} (he : t.entry i = some d)
    (hc : t.target a = some d) : AcyclicFrom (cfg.deps b) i := by
  have step : ∀ k l d2, Reaches (cfg.deps b) i k → t.entry k = some d2 → DependsOn (cfg.deps b) k l →
      ∃ d3, t.entry l = some d3 ∧ Leads t.target d2.name d3.name := by
    intro k l d2 hk h3 hl
    obtain ⟨d2', h3', h4⟩ := reaches_needed h hs hm hn he (.requested ha hc) hk
    rw [h3] at h3'
    cases h3'
    exact edge_leads h hs hd hm hn hdecl h3 h4 hl
  have path : ∀ j, Reaches (cfg.deps b) i j → ∃ d', t.entry j = some d' ∧ ReflTransGen (Leads t.target) d.name d'.name := by
    intro j hj
    induction hj with
    | refl => exact ⟨d, he, .refl⟩
    | @tail k l hk hl ih =>
      obtain ⟨d1, h1, h2⟩ := ih
      obtain ⟨d2, h6, h7⟩ := step k l d1 hk h1 hl
      exact ⟨d2, h6, h2.tail h7⟩
  intro x hx hxx
  obtain ⟨d1, h1, h2⟩ := path x hx
  have loop : ∀ j, DependsTrans (cfg.deps b) x j → ∃ d', t.entry j = some d' ∧ TransGen (Leads t.target) d1.name d'.name := by
    intro j hj
    induction hj with
    | single hl =>
      obtain ⟨d3, h4, h5⟩ := step _ _ _ hx h1 hl
      exact ⟨d3, h4, .single h5⟩
    | tail hk hl ih =>
      obtain ⟨d2, h3, h4⟩ := ih
      obtain ⟨d3, h5, h6⟩ := step _ _ _ (hx.trans hk.to_reflTransGen) h3 hl
      exact ⟨d3, h5, h4.tail h6⟩
  obtain ⟨d2, h3, h4⟩ := loop x hxx
  rw [h1] at h3
  cases h3
  refine hcyc ⟨a, ha, d1.name, ?_, h4⟩
  -- the requested name and the name of its target
  have hlead : ∀ c, Leads t.target d.name c → Leads t.target a c := by
    rintro c ⟨d', h5, h6⟩
    exact ⟨d', by rw [← h.canon_congr (h.target_name hc)]; exact h5, h6⟩
  rcases ReflTransGen.cases_head h2 with h5 | ⟨c, h5, h6⟩
  · obtain ⟨c, h6, h7⟩ := TransGen.head'_iff.1 h4
    exact .head (hlead c (by rw [h5]; exact h6)) h7
  · exact .head (hlead c h5) h6

end Jom.Prepare
