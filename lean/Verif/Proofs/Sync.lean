/-
`.SYNC`: what is recorded while blocks are parsed, and what becomes of it (C26).
-/
import Verif.Proofs.Blocks
import Verif.Model.CycleCheck

namespace Jom.Blocks

/-! ### Recording -/

/-- Append to the entries of a table. -/
def record (sp : List (Str × List Str)) : List (Str × List Str) → List (Str × List Str)
  | [] => sp
  | a :: adds => record (put sp a.1 ((find sp a.1).getD [] ++ a.2)) adds

/-- What the loop records: `sd` is what the elements of the current group wait for, `cur` the current group so far. -/
def adds (sd cur : List Str) : List Str → List (Str × List Str)
  | [] => []
  | d :: b => if d = syncName then (if b = [] then [] else adds cur [] b) else (d, sd) :: adds sd (cur ++ [d]) b

theorem syncLoop_record : ∀ (n : Nat) (a b : List Str) (k : Nat) (sd : List Str) (sp : List (Str × List Str)), b.length < n → k ≤ a.length →
    (syncLoop n (a ++ b) a.length k sd sp).2 = record sp (adds sd (a.drop k) b) := by
  intro n
  induction n with
  | zero => intro _ _ _ _ _ h; omega
  | succ n ih =>
    intro a b k sd sp h hk
    cases b with
    | nil => simp [syncLoop, adds, record]
    | cons d b =>
      have hg : (a ++ d :: b)[a.length]? = some d := by simp
      simp only [syncLoop, hg]
      by_cases hd : d = syncName
      · subst hd
        simp only [if_true, removeAt_length, adds]
        by_cases hb : b = []
        · subst hb; simp [record]
        · have : ¬ (a ++ b).length = a.length := by
            have := List.length_pos_iff.2 hb
            simp; omega
          simp only [this, hb, if_false]
          rw [ih _ _ _ _ _ (by simp at h; omega) (Nat.le_refl _)]
          have h1 : ((a ++ b).drop k).take (a.length - k) = a.drop k := by
            rw [List.drop_append_of_le_length hk, List.take_append_of_le_length (by simp)]
            exact List.take_of_length_le (by simp)
          rw [h1]
          simp
      · simp only [hd, if_false, adds]
        have := ih (a ++ [d]) b k sd (put sp d ((find sp d).getD [] ++ sd)) (by simp at h; omega) (by simp; omega)
        simp only [List.append_assoc, List.singleton_append, List.length_append, List.length_singleton] at this
        rw [this]
        simp [record, List.drop_append_of_le_length hk]

theorem sync_record (deps : List Str) (sp : List (Str × List Str)) :
    (syncLoop (deps.length + 1) deps 0 0 [] sp).2 = record sp (adds [] [] deps) := by
  have := syncLoop_record (deps.length + 1) [] deps 0 [] sp (by omega) (by simp)
  simpa using this

theorem record_mono (x y : Str) : ∀ (as : List (Str × List Str)) (sp : List (Str × List Str)), x ∈ (find sp y).getD [] →
    x ∈ (find (record sp as) y).getD [] := by
  intro as
  induction as with
  | nil => intro _ h; exact h
  | cons a as ih =>
    intro sp h
    refine ih _ ?_
    rw [find_put]
    split
    · rename_i e; subst e; simp [h]
    · exact h

theorem record_mem (x y : Str) : ∀ (as : List (Str × List Str)) (sp : List (Str × List Str)) (l : List Str), (y, l) ∈ as → x ∈ l →
    x ∈ (find (record sp as) y).getD [] := by
  intro as
  induction as with
  | nil => intro _ _ h; simp at h
  | cons a as ih =>
    intro sp l h hx
    rcases List.mem_cons.1 h with rfl | h
    · refine record_mono x y as _ ?_
      rw [find_put_same]; simp [hx]
    · exact ih _ l h hx

/-- Everything in the table has been recorded. -/
theorem record_origin (x y : Str) : ∀ (as : List (Str × List Str)) (sp : List (Str × List Str)), x ∈ (find (record sp as) y).getD [] →
    x ∈ (find sp y).getD [] ∨ ∃ l, (y, l) ∈ as ∧ x ∈ l := by
  intro as
  induction as with
  | nil => intro _ h; exact Or.inl h
  | cons a as ih =>
    intro sp h
    rcases ih _ h with h0 | ⟨l, h1, h2⟩
    · rw [find_put] at h0
      split at h0
      · rename_i e
        simp only [Option.getD_some, List.mem_append] at h0
        rcases h0 with h0 | h0
        · exact Or.inl (by rw [e]; exact h0)
        · exact Or.inr ⟨a.2, by rw [e]; simp, h0⟩
      · exact Or.inl h0
    · exact Or.inr ⟨l, by simp [h1], h2⟩

theorem put_keys (l : List (Str × α)) (k : Str) (v : α) : ∀ e ∈ put l k v, e.1 = k ∨ e.1 ∈ l.map (·.1) := by
  induction l with
  | nil => simp [put]
  | cons x l ih =>
    intro e he
    simp only [put] at he
    split at he
    · rcases List.mem_cons.1 he with rfl | he
      · exact Or.inl rfl
      · exact Or.inr (by simp only [List.map_cons, List.mem_cons, List.mem_map]; exact Or.inr ⟨e, he, rfl⟩)
    · rcases List.mem_cons.1 he with rfl | he
      · exact Or.inr (by simp)
      · rcases ih e he with h | h
        · exact Or.inl h
        · exact Or.inr (by simp only [List.map_cons, List.mem_cons]; exact Or.inr h)

theorem record_keys : ∀ (as : List (Str × List Str)) (sp : List (Str × List Str)), ∀ e ∈ record sp as, e.1 ∈ as.map (·.1) ∨ e.1 ∈ sp.map (·.1) := by
  intro as
  induction as with
  | nil => intro sp e he; exact Or.inr (List.mem_map_of_mem he)
  | cons a as ih =>
    intro sp e he
    rcases ih _ e he with h | h
    · exact Or.inl (by simp only [List.map_cons, List.mem_cons]; exact Or.inr h)
    · obtain ⟨e', he', h'⟩ := List.mem_map.1 h
      rcases put_keys _ _ _ e' he' with h1 | h1
      · left; rw [← h', h1]; simp
      · right; rw [← h']; exact h1

theorem adds_keys : ∀ (b sd cur : List Str), ∀ e ∈ adds sd cur b, e.1 ∈ b ∧ e.1 ≠ syncName := by
  intro b
  induction b with
  | nil => intro _ _ e he; simp [adds] at he
  | cons d b ih =>
    intro sd cur e he
    simp only [adds] at he
    split at he
    · split at he
      · simp at he
      · have := ih _ _ e he; exact ⟨by simp [this.1], this.2⟩
    · rename_i hd
      rcases List.mem_cons.1 he with rfl | he
      · exact ⟨by simp, hd⟩
      · have := ih _ _ e he; exact ⟨by simp [this.1], this.2⟩

/-- What is recorded for a line given by its groups. -/
def groupAdds (sd : List Str) : List (List Str) → List (Str × List Str)
  | [] => []
  | g :: gs => g.map (fun d => (d, sd)) ++ groupAdds g gs

theorem adds_group : ∀ (g sd cur rest : List Str), syncName ∉ g →
    adds sd cur (g ++ rest) = g.map (fun d => (d, sd)) ++ adds sd (cur ++ g) rest := by
  intro g
  induction g with
  | nil => intro sd cur rest _; simp
  | cons d g ih =>
    intro sd cur rest h
    simp only [List.mem_cons, not_or] at h
    simp only [List.cons_append, adds, Ne.symm h.1, if_false, List.map_cons]
    rw [ih _ _ _ h.2]
    simp

theorem intercalate_cons2 (s : List α) (g g' : List α) (gs : List (List α)) :
    s.intercalate (g :: g' :: gs) = g ++ s ++ s.intercalate (g' :: gs) := by
  simp [List.intercalate, List.intersperse]

theorem adds_groups : ∀ (gs : List (List Str)) (sd : List Str), (∀ g ∈ gs, syncName ∉ g) →
    adds sd [] ([syncName].intercalate gs) = groupAdds sd gs := by
  intro gs
  induction gs with
  | nil => intro sd _; simp [List.intercalate, adds, groupAdds]
  | cons g gs ih =>
    intro sd h
    cases gs with
    | nil =>
      have := adds_group g sd [] [] (h g (by simp))
      simp only [List.append_nil] at this
      simp [List.intercalate, List.intersperse, this, adds, groupAdds]
    | cons g' gs =>
      rw [intercalate_cons2, List.append_assoc, adds_group g sd [] _ (h g (by simp))]
      rw [groupAdds, ← ih g (fun x hx => h x (by simp [hx]))]
      congr 1
      simp only [List.nil_append, List.singleton_append, adds, if_true]
      split
      · rename_i he
        rw [he]
        rfl
      · rfl

theorem groupAdds_next : ∀ (gs : List (List Str)) (sd : List Str) (i : Nat) (g g' : List Str), gs[i]? = some g → gs[i + 1]? = some g' →
    ∀ y ∈ g', (y, g) ∈ groupAdds sd gs := by
  intro gs
  induction gs with
  | nil => intro _ i g g' h; simp at h
  | cons g0 gs ih =>
    intro sd i g g' h h' y hy
    simp only [groupAdds, List.mem_append]
    right
    cases i with
    | zero =>
      simp only [List.getElem?_cons_zero, Option.some.injEq] at h
      subst h
      simp only [List.getElem?_cons_succ] at h'
      cases gs with
      | nil => simp at h'
      | cons g1 gs =>
        simp only [List.getElem?_cons_zero, Option.some.injEq] at h'
        subst h'
        simp [groupAdds, hy]
    | succ i =>
      simp only [List.getElem?_cons_succ] at h h'
      exact ih g0 i g g' h h' y hy

theorem groupAdds_origin : ∀ (gs : List (List Str)) (sd : List Str) (y : Str) (l : List Str), (y, l) ∈ groupAdds sd gs →
    (l = sd ∧ y ∈ (gs[0]?).getD []) ∨ ∃ i g', gs[i]? = some l ∧ gs[i + 1]? = some g' ∧ y ∈ g' := by
  intro gs
  induction gs with
  | nil => intro _ _ _ h; simp [groupAdds] at h
  | cons g0 gs ih =>
    intro sd y l h
    simp only [groupAdds, List.mem_append, List.mem_map, Prod.mk.injEq] at h
    rcases h with ⟨d, hd, rfl, rfl⟩ | h
    · left; simp [hd]
    · right
      rcases ih g0 y l h with ⟨rfl, hy⟩ | ⟨i, g', h1, h2, h3⟩
      · cases hg : gs[0]? with
        | none => rw [hg] at hy; simp at hy
        | some g' => rw [hg] at hy; exact ⟨0, g', by simp, by simp [hg], hy⟩
      · exact ⟨i + 1, g', by simp [h1], by simp [h2], h3⟩

/-! ### Blocks -/

theorem addTarget_sync {n : Nat} {deps : List Str} {dbl : Bool} {cmds : List Inference.Command} {mk mk' : Mk} {t : Str}
    (h : addTarget n deps dbl cmds mk t = .ok mk') : mk'.sync = mk.sync := by
  unfold addTarget at h
  split at h
  · cases h; rfl
  · split at h
    · split at h
      · cases h; rfl
      · split at h
        · cases h
        · generalize addDeps _ _ _ = r at h
          cases r with
          | error e => cases h
          | ok b => cases h; rfl
    · generalize addDeps _ _ _ = r at h
      cases r with
      | error e => cases h
      | ok b => cases h; rfl

theorem addTargets_sync {n : Nat} {deps : List Str} {dbl : Bool} {cmds : List Inference.Command} : ∀ (ts : List Str) {mk mk' : Mk},
    addTargets n deps dbl cmds mk ts = .ok mk' → mk'.sync = mk.sync := by
  intro ts
  induction ts with
  | nil => intro mk mk' h; cases h; rfl
  | cons t ts ih =>
    intro mk mk' h
    simp only [addTargets] at h
    generalize hr : addTarget _ _ _ _ _ _ = r at h
    cases r with
    | error e => cases h
    | ok m => rw [ih h, addTarget_sync hr]

theorem addBlocks_sync {n : Nat} : ∀ (bs : List Block) {mk mk' : Mk}, addBlocks n mk bs = .ok mk' →
    mk'.sync = record mk.sync (bs.flatMap fun b => adds [] [] b.deps) := by
  intro bs
  induction bs with
  | nil => intro mk mk' h; cases h; rfl
  | cons b bs ih =>
    intro mk mk' h
    simp only [addBlocks] at h
    generalize hr : addBlock _ _ _ = r at h
    cases r with
    | error e => cases h
    | ok m =>
      have h1 := ih h
      have h2 := addTargets_sync _ hr
      rw [h1, h2]
      simp only [sync_record, List.flatMap_cons]
      generalize adds [] [] b.deps = as
      generalize mk.sync = sp
      generalize (bs.flatMap fun b => adds [] [] b.deps) = bs'
      induction as generalizing sp with
      | nil => rfl
      | cons a as ih => exact ih _

/-! ### Translation -/

theorem removeDuplicates_mem : ∀ (l seen : List Str) (x : Str), x ∈ removeDuplicates seen l ↔ x ∈ l ∧ x ∉ seen := by
  intro l
  induction l with
  | nil => simp [removeDuplicates]
  | cons s l ih =>
    intro seen x
    simp only [removeDuplicates]
    split
    · rename_i h
      rw [ih]
      constructor
      · rintro ⟨h1, h2⟩; exact ⟨by simp [h1], h2⟩
      · rintro ⟨h1, h2⟩
        rcases List.mem_cons.1 h1 with rfl | h1
        · exact absurd h h2
        · exact ⟨h1, h2⟩
    · rename_i h
      simp only [List.mem_cons, ih, not_or]
      grind

theorem key_some {mk : Mk} {name key : Str} (h : mk.key name = some key) : ∃ b, find mk.targets key = some b := by
  simp only [Mk.key] at h
  split at h
  · rename_i b hb; cases h; exact ⟨b, hb⟩
  · cases hf : find mk.targets ((toLower name).map fun c => if c = '/' then '\\' else c) with
    | none => rw [hf] at h; cases h
    | some b => rw [hf] at h; cases h; exact ⟨b, hf⟩

theorem key_put {mk : Mk} {key : Str} {b : DBlock} (h : find mk.targets key = some b) (b' : DBlock) (name : Str) :
    ({ mk with targets := put mk.targets key b' } : Mk).key name = mk.key name := by
  have hs : ∀ k, (find (put mk.targets key b') k).isSome = (find mk.targets k).isSome := by
    intro k
    rw [find_put]
    split
    · rename_i e; subst e; rw [h]; rfl
    · rfl
  have hm : ∀ (k : Str), ((find (put mk.targets key b') k).map fun _ => k) = (find mk.targets k).map fun _ => k := by
    intro k
    have := hs k
    cases h1 : find (put mk.targets key b') k <;> cases h2 : find mk.targets k <;> simp [h1, h2] at this ⊢
  simp only [Mk.key]
  have h1 := hs (toLower name)
  cases e1 : find (put mk.targets key b') (toLower name) <;> cases e2 : find mk.targets (toLower name) <;> simp [e1, e2] at h1 ⊢
  exact hm _

/-- One round if the target exists. -/
theorem applySync_cons {mk : Mk} {name key : Str} {deps : List Str} {b : DBlock} (order : List (Str × List Str)) (hk : mk.key name = some key)
    (hb : find mk.targets key = some b) : applySync mk ((name, deps) :: order) =
      applySync { mk with targets := put mk.targets key { b with deps := removeDuplicates [] (b.deps ++ deps) } } order := by
  simp only [applySync, hk, hb]

/-- If all names are targets, the dependents of a target are afterwards those it had and those recorded for its names. -/
theorem applySync_mem : ∀ (order : List (Str × List Str)) (mk : Mk), (∀ e ∈ order, mk.key e.1 ≠ none) →
    (∀ name, (applySync mk order).key name = mk.key name) ∧
    ∀ k b, find mk.targets k = some b → ∃ b', find (applySync mk order).targets k = some b' ∧ b'.name = b.name ∧ b'.cmds = b.cmds ∧
      ∀ x, x ∈ b'.deps ↔ x ∈ b.deps ∨ ∃ e ∈ order, mk.key e.1 = some k ∧ x ∈ e.2 := by
  intro order
  induction order with
  | nil => intro mk _; exact ⟨fun _ => rfl, fun k b hb => ⟨b, hb, rfl, rfl, by simp⟩⟩
  | cons e order ih =>
    intro mk h
    obtain ⟨name, deps⟩ := e
    cases hk : mk.key name with
    | none => exact absurd hk (h (name, deps) (by simp))
    | some key =>
      obtain ⟨b, hb⟩ := key_some hk
      rw [applySync_cons order hk hb]
      have hkp := key_put hb { b with deps := removeDuplicates [] (b.deps ++ deps) }
      obtain ⟨h1, h2⟩ := ih { mk with targets := put mk.targets key { b with deps := removeDuplicates [] (b.deps ++ deps) } }
        (fun e he => by rw [hkp]; exact h e (by simp [he]))
      refine ⟨fun nm => by rw [h1, hkp], fun k bk hbk => ?_⟩
      by_cases hkk : k = key
      · subst hkk
        rw [hb] at hbk
        cases hbk
        obtain ⟨b', e1, e2, e3, e4⟩ := h2 k _ (find_put_same _ _ _)
        refine ⟨b', e1, e2, e3, fun x => ?_⟩
        rw [e4]
        simp only [removeDuplicates_mem, List.mem_append, List.not_mem_nil, not_false_eq_true, and_true, List.mem_cons, exists_eq_or_imp, hk,
          true_and, hkp]
        exact or_assoc
      · obtain ⟨b', e1, e2, e3, e4⟩ := h2 k bk (by rw [find_put_other _ _ hkk]; exact hbk)
        refine ⟨b', e1, e2, e3, fun x => ?_⟩
        rw [e4]
        simp only [List.mem_cons, exists_eq_or_imp, hk, Option.some.injEq, Ne.symm hkk, false_and, false_or, hkp]

/-- What is needed of sync points: in the table after parsing. -/
theorem target_of_key {mk : Mk} {name key : Str} {b : DBlock} (h : mk.key name = some key) (hb : find mk.targets key = some b) :
    mk.target name = some b := by
  simp [Mk.target, h, hb]

theorem key_of_target {mk : Mk} {name : Str} {b : DBlock} (h : mk.target name = some b) : ∃ key, mk.key name = some key ∧ find mk.targets key = some b := by
  simp only [Mk.target, Option.bind_eq_some_iff] at h
  exact h

theorem find_mem {l : List (Str × α)} {k : Str} {v : α} (h : find l k = some v) : (k, v) ∈ l := by
  simp only [find, Option.map_eq_some_iff] at h
  obtain ⟨e, he, rfl⟩ := h
  have h1 := List.mem_of_find?_eq_some he
  have h2 := List.find?_some he
  simp only [decide_eq_true_eq] at h2
  rw [← h2]; exact h1

theorem find_of_mem {l : List (Str × α)} (hn : (l.map (·.1)).Nodup) {e : Str × α} (h : e ∈ l) : find l e.1 = some e.2 := by
  induction l with
  | nil => simp at h
  | cons a l ih =>
    simp only [List.map_cons, List.nodup_cons] at hn
    rcases List.mem_cons.1 h with rfl | h
    · simp [find]
    · have : a.1 ≠ e.1 := fun he => hn.1 (he ▸ List.mem_map_of_mem h)
      have := ih hn.2 h
      simp_all [find]

theorem put_nodup {l : List (Str × α)} (k : Str) (v : α) (h : (l.map (·.1)).Nodup) : ((put l k v).map (·.1)).Nodup := by
  induction l with
  | nil => simp [put]
  | cons a l ih =>
    simp only [List.map_cons, List.nodup_cons] at h
    simp only [put]
    split
    · rename_i e
      simp only [List.map_cons, List.nodup_cons]
      rw [← e]
      exact h
    · rename_i e
      simp only [List.map_cons, List.nodup_cons]
      refine ⟨fun hm => ?_, ih h.2⟩
      obtain ⟨x, hx, hx'⟩ := List.mem_map.1 hm
      rcases put_keys _ _ _ x hx with h1 | h1
      · exact e (by rw [← hx', h1])
      · exact h.1 (hx' ▸ h1)

theorem record_nodup' : ∀ (as : List (Str × List Str)) (sp : List (Str × List Str)), (sp.map (·.1)).Nodup → ((record sp as).map (·.1)).Nodup := by
  intro as
  induction as with
  | nil => intro _ h; exact h
  | cons a as ih => intro sp h; exact ih _ (put_nodup _ _ h)

theorem record_nodup {n : Nat} (bs : List Block) {mk : Mk} (h : addBlocks n {} bs = .ok mk) : (mk.sync.map (·.1)).Nodup := by
  rw [addBlocks_sync bs h]
  exact record_nodup' _ _ (by simp)

theorem mem_intercalate {s : List α} : ∀ {gs : List (List α)} {g : List α} {x : α}, g ∈ gs → x ∈ g → x ∈ s.intercalate gs := by
  intro gs
  induction gs with
  | nil => intro g x h; simp at h
  | cons g0 gs ih =>
    intro g x hg hx
    cases gs with
    | nil =>
      simp only [List.mem_singleton] at hg
      subst hg
      simpa [List.intercalate, List.intersperse] using hx
    | cons g1 gs =>
      rw [intercalate_cons2]
      rcases List.mem_cons.1 hg with rfl | hg
      · simp [hx]
      · exact List.mem_append.2 (Or.inr (ih hg hx))

/-! ### The makefile as the graph builder sees it -/

theorem hashValue_numbered : ∀ (l : List (Str × DBlock)) (i : Nat) (k : Str),
    (Graph.hashValue (numbered l i) k = none ↔ find l k = none) ∧
    ∀ j, Graph.hashValue (numbered l i) k = some j → i ≤ j ∧ ∃ e, l[j - i]? = some e ∧ e.1 = k ∧ find l k = some e.2 := by
  intro l
  induction l with
  | nil => intro i k; simp [numbered, Graph.hashValue, find]
  | cons e l ih =>
    intro i k
    obtain ⟨k', b⟩ := e
    by_cases hk : k' = k
    · subst hk
      simp [numbered, Graph.hashValue, find]
    · have hf : find ((k', b) :: l) k = find l k := by simp [find, hk]
      have hh : Graph.hashValue (numbered ((k', b) :: l) i) k = Graph.hashValue (numbered l (i + 1)) k := by
        simp [numbered, Graph.hashValue, hk]
      rw [hf, hh]
      refine ⟨(ih (i + 1) k).1, fun j hj => ?_⟩
      obtain ⟨h1, e, h2, h3, h4⟩ := (ih (i + 1) k).2 j hj
      refine ⟨by omega, e, ?_, h3, h4⟩
      obtain ⟨m, hm⟩ : ∃ m, j - i = m + 1 := ⟨j - (i + 1), by omega⟩
      rw [hm, List.getElem?_cons_succ]
      have : m = j - (i + 1) := by omega
      rw [this]; exact h2

/-- The two lookups agree. -/
theorem makefile_target (mk : Mk) (dirPath name : Str) :
    ((mk.makefile dirPath).target name = none ↔ mk.key name = none) ∧
    ∀ j, (mk.makefile dirPath).target name = some j → ∃ key b, mk.key name = some key ∧ find mk.targets key = some b ∧
      (mk.makefile dirPath).dependents j = b.deps := by
  have hv := hashValue_numbered mk.targets 0
  simp only [Graph.Makefile.target, Mk.makefile, Mk.key]
  obtain ⟨n1, s1⟩ := hv (toLower name)
  obtain ⟨n2, s2⟩ := hv ((toLower name).map fun c => if c = '/' then '\\' else c)
  cases h1 : Graph.hashValue (numbered mk.targets 0) (toLower name) with
  | some j =>
    obtain ⟨_, e, e1, e2, e3⟩ := s1 j h1
    simp only [e3]
    refine ⟨by simp, fun j' hj => ?_⟩
    cases hj
    refine ⟨_, _, rfl, e3, ?_⟩
    simp only [Nat.sub_zero] at e1
    simp [e1]
  | none =>
    rw [n1.1 h1]
    simp only [Option.map_eq_none_iff]
    refine ⟨n2, fun j hj => ?_⟩
    obtain ⟨_, e, e1, e2, e3⟩ := s2 j hj
    refine ⟨_, _, by rw [e3]; rfl, e3, ?_⟩
    simp only [Nat.sub_zero] at e1
    simp [e1]

end Jom.Blocks
