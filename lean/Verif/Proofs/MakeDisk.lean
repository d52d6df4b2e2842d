/- jom itself writes no files. -/
import Verif.Proofs.MakeRecords

namespace Jom.Make

open Jom.Graph Jom.Sched Jom.UpToDate Jom.Spec Jom.Spec.Build Relation

/-! ### jom itself writes no files -/

theorem query_disk (abs : Str → Str) (n : Str) (s : FileInfo.St) : (FileInfo.query abs n s).1.disk = s.disk := by
  unfold FileInfo.query
  split
  · rfl
  · split <;> rfl

theorem remember_disk (env : Env) (asked : Str → Bool) (names : List Str) (s : FileInfo.St) : (remember env asked names s).disk = s.disk := by
  unfold remember
  induction names.filter asked generalizing s with
  | nil => rfl
  | cons n ns ih => rw [List.foldl_cons, ih, query_disk]

theorem checkLeaves_disk (env : Env) (now : Nat) (asked : Str → Bool) (state : Nat → NState) : ∀ ls m,
    (checkLeaves env now asked state ls m).1.files.disk = m.files.disk := by
  intro ls
  induction ls with
  | nil => intro m; rfl
  | cons l ls ih =>
    intro m
    simp only [checkLeaves]
    split
    · exact ih m
    · exact (ih _).trans (remember_disk ..)

theorem dirtyLoop_disk (env : Env) (now : Nat) (asked : Str → Bool) : ∀ fuel g m,
    (dirtyLoop env now asked fuel g m).2.1.files.disk = m.files.disk := by
  intro fuel
  induction fuel with
  | zero => intro g m; rfl
  | succ n ih =>
    intro g m
    simp only [dirtyLoop]
    split
    · exact (ih _ _).trans (checkLeaves_disk ..)
    · rfl

theorem prune_disk (env : Env) (now : Nat) (asked : Str → Bool) (ig : Bool) (g : Graph) (m : Mem) :
    (prune env now asked ig g m).2.1.files.disk = m.files.disk := by
  unfold prune
  split
  · rfl
  · exact dirtyLoop_disk ..

theorem applyRules_disk (env : Env) (choose : Nat → Str) : ∀ (ls : List Nat) m,
    (ls.foldl (applyRule env choose) m).files.disk = m.files.disk := by
  intro ls
  induction ls with
  | nil => intro m; rfl
  | cons l ls ih =>
    intro m
    rw [List.foldl_cons, ih]
    unfold applyRule
    split <;> rfl

/-- The files are the same, nothing has ended and nothing is forgotten. -/
structure Onward (j j' : J) : Prop where
  disk : j'.m.files.disk = j.m.files.disk
  busy : ∀ q ∈ j.s.busy, q ∈ j'.s.busy
  log : ∀ e ∈ j.s.log, e ∈ j'.s.log
  allOk : j'.s.allOk = true → j.s.allOk = true
  aborted : j'.s.aborted = false → j.s.aborted = false

theorem Onward.refl (j : J) : Onward j j := ⟨rfl, fun _ h => h, fun _ h => h, id, id⟩

theorem Onward.trans {j j' j'' : J} (h : Onward j j') (h' : Onward j' j'') : Onward j j'' :=
  ⟨h'.disk.trans h.disk, fun q hq => h'.busy q (h.busy q hq), fun q hq => h'.log q (h.log q hq), fun ho => h.allOk (h'.allOk ho),
    fun ha => h.aborted (h'.aborted ha)⟩

theorem findNext_onward (env : Env) (cfg : Cfg) (a : Answers) : ∀ i (j : J), Onward j (outcome (findNextTarget env cfg a i j)) := by
  intro i
  induction i with
  | zero => intro j; exact .refl j
  | succ i ih =>
    intro j
    simp only [findNextTarget]
    split
    · exact ⟨rfl, fun _ h => h, fun _ h => h, id, id⟩
    · have hp := prune_disk env a.now a.asked cfg.buildAll j.s.g j.m
      generalize prune env a.now a.asked cfg.buildAll j.s.g j.m = pr at hp ⊢
      obtain ⟨g, m, gone⟩ := pr
      simp only at hp ⊢
      split
      · exact ⟨hp, fun _ h => h, fun _ h => List.mem_append_left _ h, id, id⟩
      · have hr := (applyRules_disk env a.choose g.leaves m).trans hp
        generalize List.foldl (applyRule env a.choose) m g.leaves = m1 at hr ⊢
        generalize pick g = pk
        obtain ⟨g1, r⟩ := pk
        cases r with
        | none => exact ⟨hr, fun _ h => h, fun _ h => List.mem_append_left _ h, id, id⟩
        | some t =>
          simp only
          have h2 : (if cfg.buildAll = true then (test env a.now a.asked t m1).1 else m1).files.disk = j.m.files.disk := by
            split
            · exact (remember_disk ..).trans hr
            · exact hr
          generalize (if cfg.buildAll = true then (test env a.now a.asked t m1).1 else m1) = m2 at h2 ⊢
          split
          · refine Onward.trans ?_ (ih _)
            exact ⟨h2, fun _ h => h, fun _ h => List.mem_append_left _ (List.mem_append_left _ h), id, id⟩
          · split
            · refine Onward.trans ?_ (ih _)
              exact ⟨h2, fun _ h => h, fun _ h => List.mem_append_left _ (List.mem_append_left _ h), id, id⟩
            · exact ⟨h2, fun _ h => h, fun _ h => List.mem_append_left _ h, id, id⟩

end Jom.Make
