import Verif.Model.MacroTable

/-! Helper lemmas: the fuel of `expandF` is sufficient and irrelevant. -/

namespace Jom

theorem splitClose_eq {s inner after : Str} (h : splitClose s = some (inner, after)) :
    s = inner ++ ')' :: after ∧ ')' ∉ inner := by
  induction s generalizing inner with
  | nil => simp [splitClose] at h
  | cons c s ih =>
    unfold splitClose at h
    split at h
    · rename_i hc
      simp only [Option.some.injEq, Prod.mk.injEq] at h
      obtain ⟨rfl, rfl⟩ := h
      simp at hc
      simp [hc]
    · rename_i hc
      cases hs : splitClose s with
      | none => simp [hs] at h
      | some p =>
        obtain ⟨a, b⟩ := p
        simp only [hs, Option.map_some, Option.some.injEq, Prod.mk.injEq] at h
        obtain ⟨rfl, rfl⟩ := h
        have := ih hs
        simp at hc
        constructor
        · simpa using this.1
        · intro hm
          simp only [List.mem_cons] at hm
          rcases hm with hm | hm
          · exact hc hm.symm
          · exact this.2 hm

theorem splitClose_append {inner : Str} (after : Str) (h : ')' ∉ inner) :
    splitClose (inner ++ ')' :: after) = some (inner, after) := by
  induction inner with
  | nil => simp [splitClose]
  | cons c s ih =>
    simp only [List.mem_cons, not_or] at h
    have hc : (c == ')') = false := by simpa using fun e => h.1 e.symm
    simp [splitClose, hc, ih h.2]

theorem splitClose_none {s : Str} (h : ')' ∉ s) : splitClose s = none := by
  induction s with
  | nil => rfl
  | cons c s ih =>
    simp only [List.mem_cons, not_or] at h
    have hc : (c == ')') = false := by simpa using fun e => h.1 e.symm
    simp [splitClose, hc, ih h.2]

theorem parseSubst_length {s : Str} {sub : Substitution} {rest : Str}
    (h : parseSubst s = .ok (sub, rest)) : rest.length < s.length + 1 := by
  unfold parseSubst at h
  split at h
  · simp only [Except.ok.injEq, Prod.mk.injEq] at h
    rw [← h.2]; simp; omega
  · cases h

theorem unusedSize_cons_le (m : Macros) (n : Str) (used : List Str) :
    unusedSize m (n :: used) ≤ unusedSize m used := by
  induction m with
  | nil => simp [unusedSize]
  | cons kd m ih =>
    obtain ⟨k, d⟩ := kd
    simp only [unusedSize, List.mem_cons]
    by_cases h1 : k ∈ used <;> by_cases h2 : k = n <;> simp [h1, h2] <;> omega

theorem unusedSize_cons_lt (m : Macros) (n : Str) (used : List Str) (hn : n ∉ used) (d : MacroData)
    (hd : alookup n m = some d) :
    d.value.length + 2 + unusedSize m (n :: used) ≤ unusedSize m used := by
  induction m with
  | nil => simp [alookup] at hd
  | cons kd m ih =>
    obtain ⟨k, d'⟩ := kd
    simp only [unusedSize, List.mem_cons]
    unfold alookup at hd
    split at hd
    · rename_i hk
      have hkn : k = n := hk
      simp only [Option.some.injEq] at hd
      subst hd; subst hkn
      have := unusedSize_cons_le m k used
      simp [hn]; omega
    · rename_i hk
      have hkn : ¬ k = n := hk
      have := ih hd
      by_cases h1 : k ∈ used <;> simp [h1, hkn] <;> omega

/-- The nested call on the value of an unused macro needs less fuel. -/
theorem need_value (m : Macros) (used : List Str) (n : Str) (hn : n ∉ used) :
    need m (n :: used) (macroValue m n) ≤ 1 + unusedSize m used := by
  unfold need macroValue
  split
  · rename_i d hd
    have := unusedSize_cons_lt m n used hn d hd
    omega
  · have := unusedSize_cons_le m n used
    simp; omega

/-- More fuel does not change a result that is not "out of fuel". -/
theorem expandF_mono (m : Macros) (dep : Bool) (f : Nat) (used : List Str) (s : Str)
    (h : expandF m dep f used s ≠ .error .fuel) :
    expandF m dep (f + 1) used s = expandF m dep f used s := by
  induction f generalizing used s with
  | zero => simp [expandF] at h
  | succ f ih =>
    match s with
    | [] => simp [expandF]
    | [c] => simp [expandF]
    | c :: d :: s =>
      have key : ∀ (g : Str → Except MacroErr Str) (u : List Str) (t : Str),
          (expandF m dep f u t >>= g) ≠ .error .fuel →
          (expandF m dep (f + 1) u t >>= g) = (expandF m dep f u t >>= g) := by
        intro g u t hh
        rw [ih u t]
        intro he
        rw [he] at hh
        exact hh rfl
      unfold expandF at h ⊢
      split
      · rename_i hc
        simp only [hc, if_true] at h
        exact key _ _ _ h
      · rename_i hc
        simp only [hc] at h
        split
        · rename_i hd
          simp only [hd, if_true] at h
          split
          · rfl
          · rename_i inner after hsp
            simp only [hsp] at h
            split
            · rfl
            · rename_i n0 ns htw
              simp only [htw] at h
              split
              · rename_i hf
                simp only [hf, if_true] at h
                exact key _ _ _ h
              · rename_i hf
                simp only [hf] at h
                split
                · rfl
                · rename_i hu
                  simp only [hu] at h
                  -- first the value
                  have h1 : expandF m dep (f + 1) ((n0 :: ns) :: used) (macroValue m (n0 :: ns)) =
                      expandF m dep f ((n0 :: ns) :: used) (macroValue m (n0 :: ns)) := by
                    apply ih
                    intro he
                    rw [he] at h
                    exact h rfl
                  rw [h1]
                  cases hv : expandF m dep f ((n0 :: ns) :: used) (macroValue m (n0 :: ns)) with
                  | error e => rfl
                  | ok v =>
                    rw [hv] at h
                    simp only [Bool.false_eq_true, if_false, bind, Except.bind] at h ⊢
                    split
                    · rename_i hcol
                      simp only [hcol, if_true] at h
                      cases hp : parseSubst (s.drop ((n0 :: ns).length + 1)) with
                      | error e => rfl
                      | ok p =>
                        rw [hp] at h
                        exact key _ _ _ h
                    · rename_i hcol
                      simp only [hcol] at h
                      exact key _ _ _ h
        · rename_i hd
          simp only [hd] at h
          split
          · rename_i hdd
            simp only [hdd, if_true] at h
            split
            · exact key _ _ _ h
            · exact key _ _ _ h
            · rename_i h1 h2
              refine key _ _ _ ?_
              intro he
              apply h
              simp only [Bool.false_eq_true, if_false]
              exact he
          · rename_i hdd
            simp only [hdd] at h
            split
            · rename_i hl
              simp only [hl, if_true] at h
              split
              · rfl
              · rename_i hu
                simp only [hu] at h
                have h1 : expandF m dep (f + 1) ([d] :: used) (macroValue m [d]) =
                    expandF m dep f ([d] :: used) (macroValue m [d]) := by
                  apply ih
                  intro he
                  rw [he] at h
                  exact h rfl
                rw [h1]
                cases hv : expandF m dep f ([d] :: used) (macroValue m [d]) with
                | error e => rfl
                | ok v =>
                  rw [hv] at h
                  exact key _ _ _ h
            · rename_i hl
              simp only [hl] at h
              split
              · rename_i hf
                simp only [hf, if_true] at h
                exact key _ _ _ h
              · rfl

/-- `need` is enough fuel. -/
theorem expandF_enough (m : Macros) (dep : Bool) (f : Nat) (used : List Str) (s : Str)
    (hf : need m used s ≤ f) : expandF m dep f used s ≠ .error .fuel := by
  induction f generalizing used s with
  | zero => simp [need] at hf
  | succ f ih =>
    have key : ∀ (g : Str → Str) (u : List Str) (t : Str), need m u t ≤ f →
        (expandF m dep f u t >>= fun r => .ok (g r)) ≠ .error .fuel := by
      intro g u t hh he
      have := ih u t hh
      cases hx : expandF m dep f u t with
      | error e =>
        rw [hx] at he
        simp only [bind, Except.bind, Except.error.injEq] at he
        rw [hx, he] at this
        exact this rfl
      | ok v => rw [hx] at he; cases he
    match s with
    | [] => simp [expandF]
    | [c] => simp [expandF]
    | c :: d :: s =>
      simp only [need, List.length_cons] at hf
      unfold expandF
      split
      · exact key _ _ _ (by simp [need]; omega)
      · split
        · split
          · simp
          · rename_i inner after hsp
            have hlen := congrArg List.length (splitClose_eq hsp).1
            simp only [List.length_append, List.length_cons] at hlen
            split
            · simp
            · rename_i n0 ns htw
              split
              · exact key _ _ _ (by simp [need]; omega)
              · split
                · simp
                · rename_i hu
                  have hv := ih ((n0 :: ns) :: used) (macroValue m (n0 :: ns))
                    (by have := need_value m used (n0 :: ns) hu; omega)
                  cases hv' : expandF m dep f ((n0 :: ns) :: used) (macroValue m (n0 :: ns)) with
                  | error e =>
                    rw [hv'] at hv
                    simp only [bind, Except.bind]
                    simpa using hv
                  | ok v =>
                    simp only [bind, Except.bind]
                    split
                    · cases hp : parseSubst (s.drop ((n0 :: ns).length + 1)) with
                      | error e =>
                        simp only [ne_eq, Except.error.injEq]
                        intro he
                        subst he
                        unfold parseSubst at hp
                        split at hp <;> simp at hp
                      | ok p =>
                        obtain ⟨sub, rest⟩ := p
                        have := parseSubst_length hp
                        simp only [List.length_drop] at this
                        exact key _ _ _ (by simp [need]; omega)
                    · exact key _ _ _ (by simp [need]; omega)
        · split
          · split
            · exact key _ _ _ (by simp [need] at *; omega)
            · exact key _ _ _ (by simp [need] at *; omega)
            · exact key _ _ _ (by simp [need]; omega)
          · split
            · split
              · simp
              · rename_i hu
                have hv := ih ([d] :: used) (macroValue m [d])
                    (by have := need_value m used [d] hu; omega)
                cases hv' : expandF m dep f ([d] :: used) (macroValue m [d]) with
                | error e =>
                  rw [hv'] at hv
                  simp only [bind, Except.bind]
                  simpa using hv
                | ok v => exact key _ _ _ (by simp [need]; omega)
            · split
              · exact key _ _ _ (by simp [need]; omega)
              · simp

/-- Any amount of fuel beyond `need` gives the result of `expandU`. -/
theorem expandF_eq_expandU (m : Macros) (dep : Bool) (f : Nat) (used : List Str) (s : Str)
    (hf : need m used s ≤ f) : expandF m dep f used s = expandU m dep used s := by
  obtain ⟨k, rfl⟩ := Nat.exists_eq_add_of_le hf
  clear hf
  induction k with
  | zero => rfl
  | succ k ih =>
    rw [← ih, ← Nat.add_assoc]
    apply expandF_mono
    exact expandF_enough m dep _ used s (by omega)

end Jom
