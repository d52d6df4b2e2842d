import Verif.Model.Main
import Verif.Props.Parser
import Verif.Proofs.OptionsMacros
import Verif.Proofs.PPLine

/-! What happens to the environment of the commands. -/

namespace Jom.Main
open Parse Props Cmd Spec.Cmd

/-! ### Reading a makefile leaves it alone -/

theorem basicRead_table (s : PP.St) : (PP.basicReadLine s).2.table = s.table := by
  unfold PP.basicReadLine
  split <;> rfl

theorem completeF_table : ∀ (n : Nat) (l : MLine) (s : PP.St), (PP.completeF n l s).2.table = s.table := by
  intro n
  induction n with
  | zero => intro l s; rfl
  | succ n ih =>
    intro l s
    unfold PP.completeF
    split
    · rfl
    · simp only
      split
      · exact basicRead_table s
      · rw [ih]; exact basicRead_table s

theorem skipF_table : ∀ (n d : Nat) (s s' : PP.St), PP.skipF n d s = .ok s' → s'.table = s.table := by
  intro n
  induction n with
  | zero => intro d s s' h; cases h
  | succ n ih =>
    intro d s s' h
    unfold PP.skipF at h
    simp only at h
    have hc : (PP.completeDirective (PP.basicReadLine s).1 (PP.basicReadLine s).2).2.table = s.table := by
      unfold PP.completeDirective
      split
      · unfold PP.complete; rw [completeF_table]; exact basicRead_table s
      · exact basicRead_table s
    split at h
    · cases h; exact basicRead_table s
    · split at h
      · cases h
      · rw [ih _ _ _ h, hc]
      · rw [ih _ _ _ h, hc]
      · split at h
        · cases h; exact hc
        · rw [ih _ _ _ h, hc]
      · split at h
        · unfold PP.exitConditional at h
          split at h
          · cases h
          · cases h; exact hc
        · rw [ih _ _ _ h, hc]

theorem onDirective_env {w : PP.World} {d v : Str} {s s' : PP.St} (h : PP.onDirective w d v s = .ok s') : s'.table.env = s.table.env := by
  have hif : ∀ d, PP.onIf w d v s = .ok s' → s'.table.env = s.table.env := by
    intro d h
    unfold PP.onIf at h
    split at h
    · cases h
    · simp only at h
      split at h
      · cases h; rfl
      · rw [skipF_table _ _ _ _ h]
  have helse : ∀ d, PP.onElseIf w d v s = .ok s' → s'.table.env = s.table.env := by
    intro d h
    unfold PP.onElseIf at h
    split at h
    · cases h
    · rw [skipF_table _ _ _ _ h]
    · split at h
      · cases h
      · split at h
        · cases h; rfl
        · rw [skipF_table _ _ _ _ h]
  unfold PP.onDirective at h
  split at h
  · cases h; rfl
  · cases h
  · cases h; rfl
  · split at h
    · cases h
    · unfold PP.openFile at h
      split at h
      · cases h
      · split at h
        · cases h
        · split at h
          · cases h
          · cases h; rfl
  · exact hif _ h
  · exact hif _ h
  · exact hif _ h
  · unfold PP.onElse at h
    split at h
    · cases h
    · split at h
      · cases h; rfl
      · rw [skipF_table _ _ _ _ h]
  · exact helse _ h
  · exact helse _ h
  · exact helse _ h
  · unfold PP.exitConditional at h
    split at h
    · cases h
    · cases h; rfl
  · cases h; rfl
  · cases h

theorem parseDirective_env {w : PP.World} {l : Str} {s s' : PP.St} (h : PP.parseDirective w l s = .ok (some s')) :
    s'.table.env = s.table.env := by
  unfold PP.parseDirective at h
  split at h
  · cases h
  · cases h
  · split at h
    · rename_i ho
      cases h
      exact onDirective_env ho
    · cases h

theorem round_env {w : PP.World} {l : MLine} {s : PP.St} {r : (MLine × PP.St) ⊕ (Option Str × PP.St)} (h : PP.round w l s = .ok r) :
    (r.elim (fun x => x.2.table.env) (fun x => x.2.table.env)) = s.table.env := by
  unfold PP.round at h
  simp only at h
  generalize (if PP.isComplete l then (PP.basicReadLine s).1 else PP.joinLines l (PP.basicReadLine s).1) = l' at h
  have hb := congrArg MacroTable.env (basicRead_table s)
  have hc : (PP.complete (PP.basicReadLine s).1 (PP.basicReadLine s).2).2.table.env = s.table.env := by
    unfold PP.complete; rw [completeF_table]; exact hb
  split at h
  · split at h
    · cases h
    · cases h; exact hc
    · rename_i hp
      cases h
      rw [← hc]; exact parseDirective_env hp
  · split at h
    · cases h; exact hb
    · split at h
      · cases h
      · rename_i t ht
        cases h
        split at ht
        · cases ht
        · unfold PP.parseMacro at ht
          split at ht
          · cases ht
          · split at ht
            · rename_i hs
              cases ht
              obtain ⟨_, _, _, h3, _⟩ := setImpl_ok (by decide) hs
              rw [← hb]; exact h3
            · cases ht
      · split at h
        · cases h
        · rename_i hp
          cases h
          rw [← hb]; exact parseDirective_env hp
        · cases h; exact hb

theorem ppRead_env {w : PP.World} : ∀ (n : Nat) (l : MLine) (s : PP.St) (r : Option Str × PP.St), PP.readLineF w n l s = .ok r →
    r.2.table.env = s.table.env := by
  intro n
  induction n with
  | zero => intro l s r h; cases h
  | succ n ih =>
    intro l s r h
    unfold PP.readLineF at h
    split at h
    · cases h
    · rename_i hr
      rw [ih _ _ _ h]
      exact round_env hr
    · rename_i hr
      split at h
      · cases h
      · cases h
        exact round_env hr

theorem next_env {w : PP.World} {fuel : Nat} {b : Bool} {s s' : PP.St} {o : Option Str} (h : (ppSource w fuel).next b s = .ok (o, s')) :
    s'.table.env = s.table.env := by
  simp only [ppSource] at h
  split at h
  · rename_i hr
    cases h
    exact ppRead_env _ _ _ _ hr
  · cases h

theorem parse_env {w : PP.World} {fuel : Nat} {glob : Str → List Str} {silent stop : Bool} {s : PP.St} {n : Nat} {p : PSt PP.St}
    (h : parse (ppSource w fuel) glob n silent stop s = .ok p) : p.src.table.env = s.table.env := by
  obtain ⟨cut, ls, is, e, hb, _, _, hc⟩ := C62_accepted_text (fl := { silent := silent, ignore := !stop }) (by simpa using h)
  have hd : ∀ {s z : PP.St} {ls : List Spec.Makefile.Line}, Delivers (ppSource w fuel) s ls z → z.table.env = s.table.env := by
    intro s z ls h
    induction h with
    | nil => rfl
    | cons h1 _ _ ih => rw [ih]; exact next_env h1
  obtain ⟨z, h1, E, h2, h3, he⟩ := hb
  rw [hc.src, he, ← hd h1]
  have := h3 false cut
  rw [next_env this]
  exact next_env h2

/-! ### Single variables -/

theorem envKeyEq_iff {a b : Str} : envKeyEq a b = true ↔ toLower a = toLower b := by simp [envKeyEq]

theorem lookup_envSet (n v name : Str) : ∀ env : List (Str × Str),
    envLookup name (envSet n v env) = if toLower n = toLower name then some v else envLookup name env
  | [] => by simp [envSet, envLookup, envKeyEq]
  | (k, x) :: env => by
    have ih := lookup_envSet n v name env
    unfold envSet
    by_cases h : toLower k = toLower n
    · simp only [envKeyEq_iff.2 h, if_true, envLookup]
      by_cases h2 : toLower n = toLower name
      · simp [envKeyEq, h, h2]
      · simp [envKeyEq, h, h2]
    · have hk : envKeyEq k n = false := by simpa [envKeyEq] using h
      simp only [hk, Bool.false_eq_true, if_false, envLookup]
      by_cases h2 : toLower k = toLower name
      · have : ¬ toLower n = toLower name := fun e => h (h2.trans e.symm)
        simp [envKeyEq, h2, this]
      · simp only [show envKeyEq k name = false by simpa [envKeyEq] using h2, Bool.false_eq_true, if_false, ih]

theorem lookup_insert (name : Str) (e : Str × Str) : ∀ (l : List (Str × Str)), (∀ x ∈ l, toLower x.1 ≠ toLower e.1) →
    envLookup name (insertEntry e l) = if toLower e.1 = toLower name then some e.2 else envLookup name l
  | [], _ => by simp [insertEntry, envLookup, envKeyEq]
  | x :: l, h => by
    unfold insertEntry
    split
    · simp only [envLookup, lookup_insert name e l (fun y hy => h y (by simp [hy]))]
      by_cases h1 : toLower x.1 = toLower name
      · have h2 : toLower e.1 ≠ toLower name := fun h2 => h x (by simp) (h1.trans h2.symm)
        simp [envKeyEq, h1, h2]
      · simp [envKeyEq, h1]
    · simp [envLookup, envKeyEq]

theorem mem_insert (e y : Str × Str) : ∀ l : List (Str × Str), y ∈ insertEntry e l ↔ y = e ∨ y ∈ l
  | [] => by simp [insertEntry]
  | x :: l => by
    unfold insertEntry
    split
    · simp only [List.mem_cons, mem_insert e y l]; grind
    · simp

theorem mem_sort (y : Str × Str) : ∀ l : List (Str × Str), y ∈ sortEntries l ↔ y ∈ l
  | [] => by simp [sortEntries]
  | x :: l => by
    have := mem_sort y l
    unfold sortEntries at this ⊢
    rw [List.foldr_cons, mem_insert, this]
    simp

/-- No two entries for the same variable. -/
def Distinct (l : List (Str × Str)) : Prop := l.Pairwise fun a b => toLower a.1 ≠ toLower b.1

theorem lookup_sort (name : Str) : ∀ {l : List (Str × Str)}, Distinct l → envLookup name (sortEntries l) = envLookup name l
  | [], _ => rfl
  | x :: l, h => by
    have hd := List.pairwise_cons.1 h
    have ih := lookup_sort name (l := l) hd.2
    have : sortEntries (x :: l) = insertEntry x (sortEntries l) := rfl
    rw [this, lookup_insert name x _ (fun y hy => (hd.1 y ((mem_sort y l).1 hy)).symm), ih]
    simp only [envLookup, envKeyEq, beq_iff_eq]

theorem envSet_keys (n v : Str) : ∀ (l : List (Str × Str)) (y : Str × Str), y ∈ envSet n v l →
    toLower y.1 = toLower n ∨ ∃ z ∈ l, z.1 = y.1
  | [], y, h => by simp [envSet] at h; left; rw [h]
  | (k, x) :: l, y, h => by
    unfold envSet at h
    split at h
    · rename_i hk
      rcases List.mem_cons.1 h with rfl | h
      · exact Or.inl (envKeyEq_iff.1 hk)
      · exact Or.inr ⟨y, by simp [h], rfl⟩
    · rcases List.mem_cons.1 h with rfl | h
      · exact Or.inr ⟨(k, x), by simp, rfl⟩
      · rcases envSet_keys n v l y h with h | ⟨z, hz, e⟩
        · exact Or.inl h
        · exact Or.inr ⟨z, by simp [hz], e⟩

theorem distinct_envSet (n v : Str) : ∀ {l : List (Str × Str)}, Distinct l → Distinct (envSet n v l)
  | [], _ => by simp [envSet, Distinct]
  | (k, x) :: l, h => by
    have hd := List.pairwise_cons.1 h
    unfold envSet
    split
    · exact List.pairwise_cons.2 ⟨hd.1, hd.2⟩
    · rename_i hk
      refine List.pairwise_cons.2 ⟨?_, distinct_envSet n v hd.2⟩
      intro y hy
      rcases envSet_keys n v l y hy with e | ⟨z, hz, e⟩
      · intro e2
        exact hk (envKeyEq_iff.2 (e2.trans e))
      · rw [← e]; exact hd.1 z hz

theorem distinct_foldl : ∀ (es : List Str) {m : List (Str × Str)}, Distinct m → Distinct (es.foldl addEntry m)
  | [], _, h => h
  | e :: es, m, h => by
    refine distinct_foldl es ?_
    unfold addEntry
    split
    · exact h
    · exact distinct_envSet _ _ h

theorem lookup_setEnvironment (name : Str) (es : List Str) :
    envLookup name (setEnvironment es) = envLookup name (es.foldl addEntry []) :=
  lookup_sort name (distinct_foldl es (by simp [Distinct]))

end Jom.Main
