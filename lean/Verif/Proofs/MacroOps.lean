import Verif.Proofs.Replace

/-! Lemmas about the mutators of the macro table. -/

namespace Jom
open Spec

theorem alookup_aset {β : Type} (k k' : Str) (v : β) (l : List (Str × β)) :
    alookup k (aset k' v l) = if k' = k then some v else alookup k l := by
  induction l with
  | nil => simp [aset, alookup]
  | cons x l ih =>
    obtain ⟨a, b⟩ := x
    by_cases h : a = k'
    · subst h
      simp only [aset, if_true, alookup]
      split <;> rfl
    · simp only [aset, h, if_false, alookup, ih]
      by_cases h1 : a = k
      · subst h1
        have : ¬ k' = a := fun e => h e.symm
        simp [this]
      · simp [h1]

theorem alookup_aerase {β : Type} (k k' : Str) (l : List (Str × β)) :
    alookup k (aerase k' l) = if k' = k then none else alookup k l := by
  induction l with
  | nil => simp [aerase, alookup]
  | cons x l ih =>
    obtain ⟨a, b⟩ := x
    by_cases h : a = k'
    · subst h
      simp only [aerase, if_true, ih, alookup]
      split <;> rfl
    · simp only [aerase, h, if_false, alookup, ih]
      by_cases h1 : a = k
      · subst h1
        have : ¬ k' = a := fun e => h e.symm
        simp [this]
      · simp [h1]

theorem alookup_modify (t : MacroTable) (n k : Str) (f : MacroData → MacroData) :
    alookup k (modifyEntry t n f).macros =
      if n = k then (alookup n t.macros).map f else alookup k t.macros := by
  unfold modifyEntry
  split
  · rename_i d hd
    rw [alookup_aset]
    simp [hd]
  · rename_i hd
    by_cases h : n = k
    · subst h; simp [hd]
    · simp [h]

@[simp] theorem modifyEntry_env (t : MacroTable) (n : Str) (f : MacroData → MacroData) :
    (modifyEntry t n f).env = t.env := by
  unfold modifyEntry
  split <;> rfl

/-- A text without `$` expands to itself. -/
theorem expandMacros_plain (m : Macros) (dep : Bool) (s : Str) (h : '$' ∉ s) :
    expandMacros m s dep = .ok s := by
  unfold expandMacros
  induction s with
  | nil => simp
  | cons c s ih =>
    simp only [List.mem_cons, not_or] at h
    rw [expandU_lit m dep [] c s (fun e => h.1 e.symm), ih h.2]
    rfl

theorem valid_noDollar {n : Str} (h : isMacroNameValid n = true) : '$' ∉ n := by
  intro hm
  simp only [isMacroNameValid, Bool.and_eq_true, List.all_eq_true] at h
  have := h.2 _ hm
  revert this
  decide

/-- What `internalSetMacroValue` does. -/
theorem internalSet_ok {t : MacroTable} {name value : Str} {ign : Bool} {t' : MacroTable} {n : Str}
    (h : internalSet t name value ign = .ok (some (t', n))) :
    expandMacros t.macros name = .ok n ∧ isMacroNameValid n = true ∧ t'.env = t.env ∧
    (∀ k, k ≠ n → alookup k t'.macros = alookup k t.macros) ∧
    alookup n t'.macros = some (
      let d := (alookup n t.macros).getD {}
      if ign || !d.isReadOnly then
        { d with value := replaceAll (instantiated n) (macroValue t.macros n) value } else d) := by
  unfold internalSet at h
  obtain ⟨n', hn', h⟩ := bind_ok h
  split at h
  · cases h
  · rename_i hv
    simp only [Except.ok.injEq, Option.some.injEq, Prod.mk.injEq] at h
    obtain ⟨rfl, rfl⟩ := h
    refine ⟨hn', by simpa using hv, rfl, ?_, ?_⟩
    · intro k hk
      rw [alookup_aset, if_neg (fun e => hk e.symm)]
    · rw [alookup_aset, if_pos rfl]
      simp [replaceLazy]

theorem setImpl_ok {t t' : MacroTable} {name value : Str} {src : MacroSource} (hs : src ≠ .environment)
    (h : setMacroValueImpl t name value src = .ok t') :
    ∃ n, expandMacros t.macros name = .ok n ∧ isMacroNameValid n = true ∧ t'.env = t.env ∧
    (∀ k, k ≠ n → alookup k t'.macros = alookup k t.macros) ∧
    alookup n t'.macros = some (
      let d := (alookup n t.macros).getD {}
      if d.isReadOnly then { d with source := src } else
        { d with value := replaceAll (instantiated n) (macroValue t.macros n) value, source := src }) := by
  unfold setMacroValueImpl at h
  obtain ⟨o, ho, h⟩ := bind_ok h
  cases o with
  | none => cases h
  | some p =>
    obtain ⟨t1, n⟩ := p
    obtain ⟨h1, h2, h3, h4, h5⟩ := internalSet_ok ho
    simp only [hs, if_false, Except.ok.injEq] at h
    subst h
    refine ⟨n, h1, h2, by simp [h3], ?_, ?_⟩
    · intro k hk
      rw [alookup_modify, if_neg (fun e => hk e.symm)]
      exact h4 k hk
    · rw [alookup_modify, if_pos rfl, h5]
      cases hro : ((alookup n t.macros).getD {}).isReadOnly <;> simp [hro]

theorem cmdImpl_ok {t t' : MacroTable} {name value : Str} {src : MacroSource}
    (h : defineCommandLineImpl t name value src = .ok t') :
    ∃ n, expandMacros t.macros name = .ok n ∧ t'.env = t.env ∧
    ((isMacroNameValid n = false ∧ t' = t) ∨ (isMacroNameValid n = true ∧
      (∀ k, k ≠ n → alookup k t'.macros = alookup k t.macros) ∧
      alookup n t'.macros = some
        { value := replaceAll (instantiated n) (macroValue t.macros n) value, source := src, isReadOnly := true })) := by
  unfold defineCommandLineImpl at h
  obtain ⟨o, ho, h⟩ := bind_ok h
  cases o with
  | none =>
    cases h
    unfold internalSet at ho
    obtain ⟨n, hn, ho⟩ := bind_ok ho
    refine ⟨n, hn, rfl, Or.inl ⟨?_, rfl⟩⟩
    split at ho
    · rename_i hv; simpa using hv
    · cases ho
  | some p =>
    obtain ⟨t1, n⟩ := p
    obtain ⟨h1, h2, h3, h4, h5⟩ := internalSet_ok ho
    simp only [Except.ok.injEq] at h
    subst h
    refine ⟨n, h1, by simp [h3], Or.inr ⟨h2, ?_, ?_⟩⟩
    · intro k hk
      rw [alookup_modify, if_neg (fun e => hk e.symm)]
      exact h4 k hk
    · rw [alookup_modify, if_pos rfl, h5]
      simp

theorem env_ok {t t' : MacroTable} {name value : Str} {ro : Bool}
    (h : defineEnvironmentMacroValue t name value ro = .ok t') :
    (∀ k, k ≠ toUpper name → '$' ∉ toUpper name → alookup k t'.macros = alookup k t.macros) ∧
    (∀ k d, alookup k t.macros = some d → d.isReadOnly = true →
      ∃ d', alookup k t'.macros = some d' ∧ d'.value = d.value ∧
        (d'.isReadOnly = true ∨ ('$' ∈ toUpper name ∧ d'.isReadOnly = ro))) ∧
    (∀ d, alookup (toUpper name) t.macros = some d →
      ∃ d', alookup (toUpper name) t'.macros = some d' ∧ d'.value = d.value ∧ d'.isReadOnly = d.isReadOnly) := by
  unfold defineEnvironmentMacroValue at h
  simp only at h
  split at h
  · rename_i md hmd
    split at h
    · obtain ⟨v, hv, h⟩ := bind_ok h
      simp only [Except.ok.injEq] at h
      subst h
      have key : ∀ k d, alookup k t.macros = some d → ∃ d', alookup k (setEnvironmentVariable
          (modifyEntry t (toUpper name) fun d => { d with source := .environment }) (toUpper name) v).macros = some d' ∧
          d'.value = d.value ∧ d'.isReadOnly = d.isReadOnly := by
        intro k d hd
        simp only [setEnvironmentVariable, alookup_modify]
        by_cases hk : toUpper name = k
        · subst hk
          rw [hmd] at hd; cases hd
          exact ⟨{ md with source := .environment }, by simp [hmd], rfl, rfl⟩
        · exact ⟨d, by simp [hk, hd], rfl, rfl⟩
      refine ⟨?_, ?_, fun d hd => key _ d hd⟩
      · intro k hk _
        simp only [setEnvironmentVariable, alookup_modify]
        rw [if_neg (fun e => hk e.symm)]
      · intro k d hd hro
        obtain ⟨d', h1, h2, h3⟩ := key k d hd
        exact ⟨d', h1, h2, Or.inl (by rw [h3, hro])⟩
    · cases h
      exact ⟨fun _ _ _ => rfl, fun k d hd hro => ⟨d, hd, rfl, Or.inl hro⟩, fun d hd => ⟨d, hd, rfl, rfl⟩⟩
  · rename_i hnone
    split at h
    · cases h
      exact ⟨fun _ _ _ => rfl, fun k d hd hro => ⟨d, hd, rfl, Or.inl hro⟩, fun d hd => ⟨d, hd, rfl, rfl⟩⟩
    · rename_i ev hev
      obtain ⟨o, ho, h⟩ := bind_ok h
      cases o with
      | none =>
        cases h
        exact ⟨fun _ _ _ => rfl, fun k d hd hro => ⟨d, hd, rfl, Or.inl hro⟩, fun d hd => ⟨d, hd, rfl, rfl⟩⟩
      | some p =>
        obtain ⟨t1, n⟩ := p
        obtain ⟨h1, h2, h3, h4, h5⟩ := internalSet_ok ho
        simp only [Except.ok.injEq] at h
        subst h
        have hplain : '$' ∉ toUpper name → n = toUpper name := by
          intro hd
          rw [expandMacros_plain _ _ _ hd] at h1
          cases h1; rfl
        refine ⟨?_, ?_, ?_⟩
        · intro k hk hd
          have := hplain hd
          subst this
          simp only [setEnvironmentVariable, alookup_modify]
          rw [if_neg (fun e => hk e.symm)]
          exact h4 k hk
        · intro k d hd hro
          simp only [setEnvironmentVariable, alookup_modify]
          by_cases hk : n = k
          · subst hk
            rw [if_pos rfl, h5]
            refine ⟨_, rfl, ?_, Or.inr ⟨?_, rfl⟩⟩
            · simp [hd, hro]
            · false_or_by_contra
              rename_i hdol
              rw [hplain hdol, hnone] at hd
              cases hd
          · rw [if_neg hk, h4 k (fun e => hk e.symm)]
            exact ⟨d, hd, rfl, Or.inl hro⟩
        · intro d hd; rw [hnone] at hd; cases hd

/-! ### Read-only macros -/

/-- `n` is defined, read-only and has the value `v`. -/
def Frozen (n v : Str) (t : MacroTable) : Prop :=
  ∃ d, alookup n t.macros = some d ∧ d.isReadOnly = true ∧ d.value = v

theorem Frozen.value {n v : Str} {t : MacroTable} (h : Frozen n v t) : macroValue t.macros n = v := by
  obtain ⟨d, h1, _, h2⟩ := h
  simp [macroValue, h1, h2]

theorem setImpl_frozen {n v : Str} {t t' : MacroTable} {name value : Str} {src : MacroSource}
    (hs : src ≠ .environment) (h : setMacroValueImpl t name value src = .ok t') (hf : Frozen n v t) :
    Frozen n v t' := by
  obtain ⟨k, h1, h2, h3, h4, h5⟩ := setImpl_ok hs h
  obtain ⟨d, hd, hro, hv⟩ := hf
  by_cases hk : n = k
  · subst hk
    rw [hd] at h5
    simp [hro] at h5
    exact ⟨_, h5, by simp, by simpa using hv⟩
  · exact ⟨d, by rw [h4 n hk]; exact hd, hro, hv⟩

theorem cmd_frozen {n v : Str} {t t' : MacroTable} {name value : Str} {src : MacroSource}
    (hne : name ≠ n) (hd : '$' ∉ name)
    (h : (defineCommandLineImpl t name value src >>= fun t =>
      expandMacros t.macros value >>= fun w => .ok (setEnvironmentVariable t name w)) = .ok t')
    (hf : Frozen n v t) : Frozen n v t' := by
  obtain ⟨t1, h1, h⟩ := bind_ok h
  obtain ⟨w, hw, h⟩ := bind_ok h
  cases h
  obtain ⟨k, hk, _, hc⟩ := cmdImpl_ok h1
  rw [expandMacros_plain _ _ _ hd] at hk
  cases hk
  obtain ⟨d, hl, hro, hv⟩ := hf
  rcases hc with ⟨_, rfl⟩ | ⟨_, h4, _⟩
  · exact ⟨d, hl, hro, hv⟩
  · exact ⟨d, by simp only [setEnvironmentVariable]; rw [h4 n (fun e => hne e.symm)]; exact hl, hro, hv⟩

/-- The definition of a command-line macro freezes it. -/
theorem cmd_freezes {t t' : MacroTable} {n value : Str} {src : MacroSource}
    (hn : isMacroNameValid n = true)
    (h : (defineCommandLineImpl t n value src >>= fun t =>
      expandMacros t.macros value >>= fun w => .ok (setEnvironmentVariable t n w)) = .ok t') :
    Frozen n (replaceAll (instantiated n) (macroValue t.macros n) value) t' := by
  obtain ⟨t1, h1, h⟩ := bind_ok h
  obtain ⟨w, hw, h⟩ := bind_ok h
  cases h
  obtain ⟨k, hk, _, hc⟩ := cmdImpl_ok h1
  rw [expandMacros_plain _ _ _ (valid_noDollar hn)] at hk
  cases hk
  rcases hc with ⟨hx, _⟩ | ⟨_, _, h5⟩
  · rw [hn] at hx; cases hx
  · exact ⟨_, h5, rfl, rfl⟩

end Jom
