/- Rules in batch mode whose groups have one target each do the same as rules that are not in batch mode. -/
import Verif.Model.MakeBatch
import Verif.Proofs.MakeRecords
import Verif.Props.Inference

namespace Jom.MakeBatch

open Jom.Graph Jom.Sched Jom.UpToDate Jom.Make
open Jom.Inference (addDep filesPerBatch batches)

/-- The record of a target to which a rule with the inferred dependent `d` has been applied. -/
def done (x : TInfo) (d : Str) : TInfo := { x with rules := [], deps := addDep x.deps d, hasCmds := true }

theorem done_done (x : TInfo) (d : Str) : done (done x d) d = done x d := by
  unfold done addDep
  split <;> simp [*]

theorem applyRule_eq {env : Env} {choose : Nat → Str} {m : Mem} {t : Nat} {r : Str} {rs : List Str}
    (h : matching env m t = r :: rs) : applyRule env choose m t =
      { m with info := upd m.info t (done (m.info t) (if choose t ∈ r :: rs then choose t else r)) } := by
  unfold applyRule done addDep
  rw [h]

theorem applyRule_nil {env : Env} {choose : Nat → Str} {m : Mem} {t : Nat} (h : matching env m t = []) :
    applyRule env choose m t = m := by
  unfold applyRule
  rw [h]

/-- The records after the rules have been noted, compared with those after they have been applied at once. -/
structure Noted (M : Mem) (x : Mem × List Waiting) : Prop where
  files : M.files = x.1.files
  nodup : (x.2.map (·.2.1)).Nodup
  other : ∀ t, t ∉ x.2.map (·.2.1) → M.info t = x.1.info t
  noted : ∀ p ∈ x.2, M.info p.2.1 = done (x.1.info p.2.1) p.2.2 ∧ (x.1.info p.2.1).rules = []

theorem Noted.exists {M : Mem} {x : Mem × List Waiting} (h : Noted M x) (k : Nat) :
    (M.info k).fileExists = (x.1.info k).fileExists ∧ (M.info k).rules = (x.1.info k).rules := by
  by_cases hk : k ∈ x.2.map (·.2.1)
  · obtain ⟨p, hp, rfl⟩ := List.mem_map.1 hk
    obtain ⟨h1, h2⟩ := h.noted p hp
    rw [h1, h2]
    exact ⟨rfl, rfl⟩
  · rw [h.other k hk]; exact ⟨rfl, rfl⟩

theorem Noted.matching {env : Env} {M : Mem} {x : Mem × List Waiting} (h : Noted M x) (t : Nat) :
    matching env M t = matching env x.1 t := by
  unfold Make.matching there
  rw [(h.exists t).2, h.files]
  simp only [(h.exists _).1]

theorem Noted.note {env : Env} {rule : Nat → Str → Option Nat} {choose : Nat → Str} {M : Mem} {x : Mem × List Waiting}
    (h : Noted M x) (t : Nat) : Noted (applyRule env choose M t) (note env rule choose x t) := by
  have hm := h.matching (env := env) t
  unfold MakeBatch.note
  cases hr : Make.matching env x.1 t with
  | nil => rw [applyRule_nil (hm.trans hr)]; exact h
  | cons r rs =>
    have ht : t ∉ x.2.map (·.2.1) := by
      intro ht
      obtain ⟨p, hp, rfl⟩ := List.mem_map.1 ht
      have := (h.noted p hp).2
      unfold Make.matching at hr
      rw [this] at hr
      cases hr
    have hi := h.other t ht
    rw [applyRule_eq (hm.trans hr), applyRule_eq hr, hi]
    simp only
    generalize (if choose t ∈ r :: rs then choose t else r) = d
    have hne : ∀ p ∈ x.2, p.2.1 ≠ t := fun p hp e => ht (List.mem_map.2 ⟨p, hp, e⟩)
    split
    · refine ⟨h.files, h.nodup, fun k hk => ?_, fun p hp => ?_⟩
      · simp only [upd]
        split
        · rfl
        · exact h.other k hk
      · simp only [upd, if_neg (hne p hp)]
        exact h.noted p hp
    · refine ⟨h.files, ?_, fun k hk => ?_, fun p hp => ?_⟩
      · rw [List.map_append, List.nodup_append]
        refine ⟨h.nodup, by simp, ?_⟩
        intro a ha b hb
        obtain rfl : b = t := by simpa using hb
        exact fun e => ht (e ▸ ha)
      · rw [List.map_append, List.mem_append] at hk
        have hk1 : k ≠ t := fun e => hk (.inr (by simp [e]))
        simp only [upd, if_neg hk1]
        exact h.other k (fun e => hk (.inl e))
      · rcases List.mem_append.1 hp with hp | hp
        · simp only [upd, if_neg (hne p hp)]
          exact h.noted p hp
        · obtain rfl : p = _ := by simpa using hp
          simp only [upd, if_true]
          exact ⟨rfl, trivial⟩

theorem noted_all {env : Env} {rule : Nat → Str → Option Nat} {choose : Nat → Str} : ∀ (ls : List Nat) {M : Mem}
    {x : Mem × List Waiting}, Noted M x → Noted (ls.foldl (applyRule env choose) M) (ls.foldl (note env rule choose) x) := by
  intro ls
  induction ls with
  | nil => intro M x h; exact h
  | cons l ls ih => intro M x h; exact ih (h.note l)

/-- Records of which some have been completed. -/
structure Part (M m0 : Mem) (q : List Waiting) (m : Mem) : Prop where
  files : M.files = m.files
  other : ∀ t, t ∉ q.map (·.2.1) → M.info t = m.info t
  either : ∀ p ∈ q, m.info p.2.1 = m0.info p.2.1 ∨ m.info p.2.1 = M.info p.2.1

theorem part_group {M m0 m : Mem} {q : List Waiting} (hN : Noted M (m0, q)) (h : Part M m0 q m) {p : Waiting} (hp : p ∈ q) :
    Part M m0 q (applyGroup m [p.2]) ∧ (applyGroup m [p.2]).info p.2.1 = M.info p.2.1 ∧
    ∀ k, m.info k = M.info k → (applyGroup m [p.2]).info k = M.info k := by
  obtain ⟨h1, h2⟩ := hN.noted p hp
  have h2 : (m0.info p.2.1).rules = [] := h2
  have h1 : M.info p.2.1 = done (m0.info p.2.1) p.2.2 := h1
  have e : applyGroup m [p.2] = { m with info := upd m.info p.2.1 (M.info p.2.1) } := by
    obtain ⟨k, t, d⟩ := p
    unfold applyGroup
    simp only [List.foldl_cons, List.foldl_nil]
    congr 2
    rcases h.either _ hp with h3 | h3
    · simp only at h1 h2 h3 ⊢
      rw [h1, h3]
      unfold done
      rw [← h2]
    · simp only at h1 h2 h3 ⊢
      rw [h3, h1]
      have := done_done (m0.info t) d
      unfold done at this ⊢
      exact this
  rw [e]
  refine ⟨⟨h.files, fun t ht => ?_, fun p' hp' => ?_⟩, by simp [upd], fun k hk => ?_⟩
  · have : t ≠ p.2.1 := fun e => ht (List.mem_map.2 ⟨p, hp, e.symm⟩)
    simp only [upd, if_neg this]
    exact h.other t ht
  · simp only [upd]
    split
    · next e => right; rw [e]
    · exact h.either p' hp'
  · simp only [upd]
    split
    · next e => rw [e]
    · exact hk

theorem part_groups {M m0 : Mem} {q : List Waiting} (hN : Noted M (m0, q)) : ∀ (gs : List (List (Nat × Str))) (m : Mem),
    Part M m0 q m → (∀ g ∈ gs, ∃ p ∈ q, g = [p.2]) →
    Part M m0 q (gs.foldl applyGroup m) ∧ (∀ g ∈ gs, ∀ x ∈ g, (gs.foldl applyGroup m).info x.1 = M.info x.1) ∧
    ∀ k, m.info k = M.info k → (gs.foldl applyGroup m).info k = M.info k := by
  intro gs
  induction gs with
  | nil => intro m h _; exact ⟨h, by simp, fun k hk => hk⟩
  | cons g gs ih =>
    intro m h hg
    obtain ⟨p, hp, rfl⟩ := hg g (by simp)
    obtain ⟨h1, h2, h3⟩ := part_group hN h hp
    obtain ⟨i1, i2, i3⟩ := ih _ h1 (fun g hg' => hg g (by simp [hg']))
    refine ⟨i1, fun g hg' x hx => ?_, fun k hk => i3 k (h3 k hk)⟩
    rcases List.mem_cons.1 hg' with rfl | hg'
    · obtain rfl : x = p.2 := by simpa using hx
      exact i3 _ h2
    · exact i2 g hg' x hx

/-- Few targets wait for the same rule. -/
def Alone (jobs : Nat) (q : List Waiting) : Prop := ∀ k, 2 * (ofRule k q).length < 3 * jobs

theorem singles {jobs : Nat} {q : List Waiting} (ha : Alone jobs q) (k : Nat) (hk : k ∈ q.map (·.1)) :
    (∀ g ∈ batches (filesPerBatch (ofRule k q).length jobs) ((ofRule k q).length + 1) (ofRule k q), ∃ p ∈ q, g = [p.2]) ∧
    ∀ p ∈ q, p.1 = k → [p.2] ∈ batches (filesPerBatch (ofRule k q).length jobs) ((ofRule k q).length + 1) (ofRule k q) := by
  have hl := ha k
  have hper : filesPerBatch (ofRule k q).length jobs = 1 := by
    unfold filesPerBatch
    have : (2 * (ofRule k q).length + jobs) / (2 * jobs) < 2 := by
      rw [Nat.div_lt_iff_lt_mul (by omega)]; omega
    omega
  rw [hper]
  obtain ⟨h1, h2, h3, _⟩ := Props.batches_flatten 1 (by decide) ((ofRule k q).length + 1) (ofRule k q) (by omega)
  have hne : ofRule k q ≠ [] := by
    obtain ⟨p, hp, rfl⟩ := List.mem_map.1 hk
    intro e
    have : p.2 ∈ ofRule p.1 q := List.mem_map.2 ⟨p, List.mem_filter.2 ⟨hp, by simp⟩, rfl⟩
    rw [e] at this
    cases this
  have hone : ∀ g ∈ batches 1 ((ofRule k q).length + 1) (ofRule k q), ∃ x, g = [x] := by
    intro g hg
    have a := h2 hne g hg
    have b := h3 g hg
    cases g with
    | nil => exact absurd rfl a
    | cons x g => cases g with
      | nil => exact ⟨x, rfl⟩
      | cons y g => simp at b
  refine ⟨fun g hg => ?_, fun p hp e => ?_⟩
  · obtain ⟨x, rfl⟩ := hone g hg
    have : x ∈ ofRule k q := by rw [← h1]; exact List.mem_flatten.2 ⟨_, hg, by simp⟩
    obtain ⟨p, hp, rfl⟩ := List.mem_map.1 this
    exact ⟨p, (List.mem_filter.1 hp).1, rfl⟩
  · have : p.2 ∈ ofRule k q := List.mem_map.2 ⟨p, List.mem_filter.2 ⟨hp, by simp [e]⟩, rfl⟩
    rw [← h1] at this
    obtain ⟨g, hg, hx⟩ := List.mem_flatten.1 this
    obtain ⟨x, rfl⟩ := hone g hg
    rwa [show p.2 = x by simpa using hx]

theorem part_rules {M m0 : Mem} {q : List Waiting} {jobs : Nat} (hN : Noted M (m0, q)) (ha : Alone jobs q) :
    ∀ (ks : List Nat) (m : Mem), Part M m0 q m → (∀ k ∈ ks, k ∈ q.map (·.1)) →
    let m' := ks.foldl (fun m k =>
      (batches (filesPerBatch (ofRule k q).length jobs) ((ofRule k q).length + 1) (ofRule k q)).foldl applyGroup m) m
    Part M m0 q m' ∧ (∀ p ∈ q, p.1 ∈ ks → m'.info p.2.1 = M.info p.2.1) ∧ ∀ k, m.info k = M.info k → m'.info k = M.info k := by
  intro ks
  induction ks with
  | nil => intro m h _; exact ⟨h, by simp, fun k hk => hk⟩
  | cons k ks ih =>
    intro m h hk
    obtain ⟨s1, s2⟩ := singles ha k (hk k (by simp))
    obtain ⟨h1, h2, h3⟩ := part_groups hN _ m h s1
    obtain ⟨i1, i2, i3⟩ := ih _ h1 (fun k' hk' => hk k' (by simp [hk']))
    refine ⟨i1, fun p hp hpk => ?_, fun k' hk' => i3 k' (h3 k' hk')⟩
    rcases List.mem_cons.1 hpk with e | hpk
    · exact i3 _ (h2 _ (s2 p hp e) p.2 (by simp))
    · exact i2 p hp hpk

theorem mem_ext {m m' : Mem} (h : m.files = m'.files) (h' : ∀ k, m.info k = m'.info k) : m = m' := by
  cases m; cases m'
  simp only at h h'
  rw [h, funext h']

theorem applyAll_eq {env : Env} {rule : Nat → Str → Option Nat} {jobs : Nat} {choose : Nat → Str} {leaves : List Nat} {m : Mem}
    (ha : Alone jobs (leaves.foldl (note env rule choose) (m, [])).2) :
    applyAll env rule jobs choose leaves m = leaves.foldl (applyRule env choose) m := by
  have hN : Noted (leaves.foldl (applyRule env choose) m) (leaves.foldl (note env rule choose) (m, [])) :=
    noted_all leaves ⟨rfl, by simp, fun _ _ => rfl, fun p hp => by cases hp⟩
  unfold applyAll applyWaiting
  revert ha hN
  generalize leaves.foldl (note env rule choose) (m, []) = x
  obtain ⟨m0, q⟩ := x
  intro ha hN
  obtain ⟨h1, h2, _⟩ := part_rules hN ha (q.map (·.1)).eraseDups m0
    ⟨hN.files, hN.other, fun p _ => .inl rfl⟩ (fun k hk => by simpa using hk)
  refine (mem_ext h1.files fun k => ?_).symm
  by_cases hk : k ∈ q.map (·.2.1)
  · obtain ⟨p, hp, rfl⟩ := List.mem_map.1 hk
    exact (h2 p hp (List.mem_eraseDups.2 (List.mem_map.2 ⟨p, hp, rfl⟩))).symm
  · exact h1.other k hk

/-- What waits are different targets with candidate rules in batch mode. -/
structure From (rule : Nat → Str → Option Nat) (m : Mem) (x : Mem × List Waiting) : Prop where
  nodup : (x.2.map (·.2.1)).Nodup
  rules : ∀ t, (x.1.info t).rules = (m.info t).rules ∨ (x.1.info t).rules = []
  gone : ∀ p ∈ x.2, (x.1.info p.2.1).rules = [] ∧ p.2.2 ∈ (m.info p.2.1).rules ∧ rule p.2.1 p.2.2 = some p.1

theorem From.note {env : Env} {rule : Nat → Str → Option Nat} {choose : Nat → Str} {m : Mem} {x : Mem × List Waiting}
    (h : From rule m x) (t : Nat) : From rule m (note env rule choose x t) := by
  unfold MakeBatch.note
  cases hr : Make.matching env x.1 t with
  | nil => exact h
  | cons r rs =>
    have ht : t ∉ x.2.map (·.2.1) := by
      intro ht
      obtain ⟨p, hp, rfl⟩ := List.mem_map.1 ht
      have := (h.gone p hp).1
      unfold Make.matching at hr
      rw [this] at hr
      cases hr
    have hne : ∀ p ∈ x.2, p.2.1 ≠ t := fun p hp e => ht (List.mem_map.2 ⟨p, hp, e⟩)
    have hd : (if choose t ∈ r :: rs then choose t else r) ∈ (m.info t).rules := by
      have h1 : (if choose t ∈ r :: rs then choose t else r) ∈ Make.matching env x.1 t := by
        rw [hr]; split
        · assumption
        · simp
      have h2 := (List.mem_filter.1 h1).1
      rcases h.rules t with h3 | h3
      · rwa [h3] at h2
      · rw [h3] at h2; cases h2
    rw [applyRule_eq hr]
    simp only
    revert hd
    generalize (if choose t ∈ r :: rs then choose t else r) = d
    intro hd
    split
    · refine ⟨h.nodup, fun k => ?_, fun p hp => ?_⟩
      · simp only [upd]
        split
        · right; rfl
        · exact h.rules k
      · simp only [upd, if_neg (hne p hp)]
        exact h.gone p hp
    · next k hk =>
      refine ⟨?_, fun k' => ?_, fun p hp => ?_⟩
      · rw [List.map_append, List.nodup_append]
        refine ⟨h.nodup, by simp, ?_⟩
        intro a ha b hb
        obtain rfl : b = t := by simpa using hb
        exact fun e => ht (e ▸ ha)
      · simp only [upd]
        split
        · right; rfl
        · exact h.rules k'
      · rcases List.mem_append.1 hp with hp | hp
        · simp only [upd, if_neg (hne p hp)]
          exact h.gone p hp
        · obtain rfl : p = _ := by simpa using hp
          simp only [upd, if_true]
          exact ⟨trivial, hd, hk⟩

theorem from_all {env : Env} {rule : Nat → Str → Option Nat} {choose : Nat → Str} {m : Mem} : ∀ (ls : List Nat)
    {x : Mem × List Waiting}, From rule m x → From rule m (ls.foldl (note env rule choose) x) := by
  intro ls
  induction ls with
  | nil => intro x h; exact h
  | cons l ls ih => intro x h; exact ih (h.note l)

/-- For every rule in batch mode fewer than one and a half times as many targets as jobs have it among their candidates. -/
def FewPerRule (rule : Nat → Str → Option Nat) (jobs : Nat) (info : Nat → TInfo) : Prop :=
  ∀ k (ts : List Nat), ts.Nodup → (∀ t ∈ ts, ∃ r ∈ (info t).rules, rule t r = some k) → 2 * ts.length < 3 * jobs

theorem alone {env : Env} {rule : Nat → Str → Option Nat} {jobs : Nat} {choose : Nat → Str} {leaves : List Nat} {m : Mem}
    {info : Nat → TInfo} (hf : FewPerRule rule jobs info) (hg : ∀ k, Grown (info k) (m.info k)) :
    Alone jobs (leaves.foldl (note env rule choose) (m, [])).2 := by
  have hF : From rule m (leaves.foldl (note env rule choose) (m, [])) :=
    from_all leaves ⟨by simp, fun _ => .inl rfl, fun p hp => by cases hp⟩
  revert hF
  generalize leaves.foldl (note env rule choose) (m, []) = x
  obtain ⟨m0, q⟩ := x
  intro hF k
  have e : (ofRule k q).length = ((ofRule k q).map (·.1)).length := by simp
  rw [e]
  refine hf k _ ?_ ?_
  · unfold ofRule
    rw [List.map_map]
    exact hF.nodup.sublist (List.Sublist.map _ List.filter_sublist)
  · intro t ht
    unfold ofRule at ht
    rw [List.map_map] at ht
    obtain ⟨p, hp, rfl⟩ := List.mem_map.1 ht
    obtain ⟨hp, hk⟩ := List.mem_filter.1 hp
    obtain ⟨_, h2, h3⟩ := hF.gone p hp
    obtain rfl : p.1 = k := by simpa using hk
    refine ⟨p.2.2, ?_, h3⟩
    rcases (hg p.2.1).2 with h | h
    · show p.2.2 ∈ (info p.2.1).rules
      rw [← h.2.2]
      exact h2
    · obtain ⟨_, _, h, _⟩ := h
      have h2 : p.2.2 ∈ (m.info p.2.1).rules := h2
      rw [h] at h2
      cases h2

theorem findNext_eq {env : Env} {cfg : Cfg} {rule : Nat → Str → Option Nat} {info : Nat → TInfo}
    (hf : FewPerRule rule cfg.jobs info) (a : Answers) : ∀ i (j : J), (∀ k, Grown (info k) (j.m.info k)) →
    findNextTarget env cfg rule a i j = Make.findNextTarget env cfg a i j := by
  intro i
  induction i with
  | zero => intro j _; rfl
  | succ i ih =>
    intro j hg
    rw [findNextTarget, Make.findNextTarget]
    split
    · rfl
    · have hp := prune_grow env a.now a.asked cfg.buildAll j.s.g j.m
      revert hp
      generalize prune env a.now a.asked cfg.buildAll j.s.g j.m = x
      obtain ⟨g, m, gone⟩ := x
      intro hp
      have hgm : ∀ k, Grown (info k) (m.info k) := fun k => (hg k).trans (hp k)
      simp only
      rw [applyAll_eq (alone hf hgm)]
      split
      · rfl
      · generalize pick g = y
        obtain ⟨g', r⟩ := y
        cases r with
        | none => rfl
        | some t =>
          simp only
          have ht : ∀ k, Grown (info k) ((if cfg.buildAll then (test env a.now a.asked t (g.leaves.foldl (applyRule env a.choose) m)).1
              else g.leaves.foldl (applyRule env a.choose) m).info k) := by
            intro k
            have h1 := (hgm k).trans (applyRules_grow env a.choose g.leaves m k)
            split
            · exact h1.trans (test_static _ _ _ k)
            · exact h1
          revert ht
          generalize (if cfg.buildAll then (test env a.now a.asked t (g.leaves.foldl (applyRule env a.choose) m)).1
            else g.leaves.foldl (applyRule env a.choose) m) = m2
          intro ht
          split
          · exact ih _ ht
          · split
            · exact ih _ ht
            · rfl

theorem step_eq {env : Env} {cfg : Cfg} {rule : Nat → Str → Option Nat} {info : Nat → TInfo}
    (hf : FewPerRule rule cfg.jobs info) {j : J} (hg : ∀ k, Grown (info k) (j.m.info k)) (e : Make.Event) :
    step env cfg rule j e = Make.step env cfg j e := by
  cases e with
  | startProcesses a =>
    have h : ∀ j : J, (∀ k, Grown (info k) (j.m.info k)) → startProcesses env cfg rule a j = Make.startProcesses env cfg a j := by
      intro j hg
      unfold startProcesses Make.startProcesses
      rw [findNext_eq hf a _ j hg]
      rfl
    unfold step Make.step
    simp only
    rw [h { j with s := { j.s with queued := j.s.queued - 1 } } hg]
  | _ => rfl

/-- A run with few targets per rule in batch mode is a run without batch mode. -/
theorem Run.plain {env : Env} {cfg : Cfg} {rule : Nat → Str → Option Nat} {info : Nat → TInfo} {disk : Str → Option Nat}
    {ok : J → Make.Event → Prop} (hf : FewPerRule rule cfg.jobs info) {j : J} (h : Run env cfg rule info disk ok j) :
    Make.Run env cfg info disk ok j := by
  induction h with
  | start asked h1 h2 => exact .start asked h1 h2
  | step asked _ hok hs hb ha ih =>
    rw [step_eq hf ih.recorded.grown] at hs
    exact .step asked ih hok hs hb ha

theorem Run.batch {env : Env} {cfg : Cfg} {rule : Nat → Str → Option Nat} {info : Nat → TInfo} {disk : Str → Option Nat}
    {ok : J → Make.Event → Prop} (hf : FewPerRule rule cfg.jobs info) {j : J} (h : Make.Run env cfg info disk ok j) :
    Run env cfg rule info disk ok j := by
  induction h with
  | start asked h1 h2 => exact .start asked h1 h2
  | step asked h0 hok hs hb ha ih =>
    rw [← step_eq hf h0.recorded.grown] at hs
    exact .step asked ih hok hs hb ha

/-! ### Nothing to do -/

theorem note_quiet {env : Env} {rule : Nat → Str → Option Nat} {choose : Nat → Str} {x : Mem × List Waiting} : ∀ (ls : List Nat),
    (∀ l ∈ ls, matching env x.1 l = []) → ls.foldl (note env rule choose) x = x := by
  intro ls
  induction ls with
  | nil => intro _; rfl
  | cons l ls ih =>
    intro h
    have : note env rule choose x l = x := by unfold note; rw [h l (by simp)]
    rw [List.foldl_cons, this]
    exact ih fun l hl => h l (by simp [hl])

theorem applyAll_quiet {env : Env} {rule : Nat → Str → Option Nat} {jobs : Nat} {choose : Nat → Str} {ls : List Nat} {m : Mem}
    (h : ∀ l ∈ ls, matching env m l = []) :
    applyAll env rule jobs choose ls m = ls.foldl (applyRule env choose) m := by
  unfold applyAll
  rw [note_quiet (x := (m, [])) ls h]
  have : ∀ (ls : List Nat), (∀ l ∈ ls, matching env m l = []) → ls.foldl (applyRule env choose) m = m := by
    intro ls
    induction ls with
    | nil => intro _; rfl
    | cons l ls ih =>
      intro h
      rw [List.foldl_cons, applyRule_nil (h l (by simp))]
      exact ih fun l hl => h l (by simp [hl])
  rw [this ls h]
  rfl

variable {env : Env} {db : Spec.Build.Db} {disk : Str → Option Nat}

theorem findNext_calm {deps root} (c : Ctx env db disk deps root) (cfg : Cfg) (rule : Nat → Str → Option Nat) (hba : cfg.buildAll = false)
    (a : Answers) : ∀ i (j : J), NInv env db disk deps root j.s.g j.m →
    findNextTarget env cfg rule a i j = Make.findNextTarget env cfg a i j := by
  intro i
  induction i with
  | zero => intro j _; rfl
  | succ i ih =>
    intro j h
    rw [findNextTarget, Make.findNextTarget]
    split
    · rfl
    · rw [hba]
      obtain ⟨h1, h2, _⟩ := h.prune c a.now a.asked
      revert h1 h2
      generalize prune env a.now a.asked false j.s.g j.m = x
      obtain ⟨g, m, gone⟩ := x
      intro h1 h2
      simp only at h1 h2 ⊢
      have hq := h1.quiet c h2
      rw [applyAll_quiet hq]
      have he : g.leaves.foldl (applyRule env a.choose) m = m := by
        rw [← applyAll_quiet (rule := fun _ _ => none) (jobs := 1) hq]
        unfold applyAll
        rw [note_quiet (x := (m, [])) _ hq]
        rfl
      rw [he]
      split
      · rfl
      · cases hpk : pick g with
        | mk g2 r =>
          cases r with
          | none => rfl
          | some t =>
            obtain ⟨hcm, hn, _⟩ := h1.next h2 hpk
            simp only [Bool.false_eq_true, if_false, hcm, if_true]
            exact ih _ hn

theorem Run.calm {cfg : Cfg} {rule : Nat → Str → Option Nat} (h : Assum env cfg db disk) {j : J}
    (hr : Run env cfg rule (fun k => record (db.target k)) disk (fun _ e => ∀ f v, e ≠ .write f v) j) :
    Make.Run env cfg (fun k => record (db.target k)) disk (fun _ e => ∀ f v, e ≠ .write f v) j := by
  induction hr with
  | start asked h1 h2 => exact .start asked h1 h2
  | @step j j' e asked _ hok hs hb ha ih =>
    have hc := Make.Run.calm h ih
    have he : MakeBatch.step env cfg rule j e = Make.step env cfg j e := by
      cases e with
      | startProcesses a =>
        have h' : ∀ j : J, NInv env db disk (cfg.deps j.s.build) cfg.targets[j.s.build]? j.s.g j.m →
            (∀ t k, Spec.DependsOn (cfg.deps j.s.build) t k ↔ Spec.Build.Needs db t k) →
            startProcesses env cfg rule a j = Make.startProcesses env cfg a j := by
          intro j hj hn
          unfold startProcesses Make.startProcesses
          rw [findNext_calm (h.ctx hn) cfg rule h.all a _ j hj]
          rfl
        unfold MakeBatch.step Make.step
        simp only
        rw [h' { j with s := { j.s with queued := j.s.queued - 1 } } hc.ninv hc.needs]
      | _ => rfl
    rw [he] at hs
    exact .step asked ih hok hs hb ha

end Jom.MakeBatch
