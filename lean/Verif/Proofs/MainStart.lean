import Verif.Proofs.MainMacros

/-! The macros before the first line of the makefile. -/

namespace Jom.Main
open Parse Props Cmd Spec.Cmd PP

/-! ### The command line -/

theorem plainStep_keeps {l l' : Line} {arg k : Str} (hno : ∀ name value, Defines arg name value → name ≠ k ∧ toUpper name ≠ k)
    (h : plainStep l arg = .ok l') : alookup k l'.table.macros = alookup k l.table.macros := by
  unfold plainStep at h
  split at h
  · rename_i idx hi
    obtain ⟨hv, t1, h1, h2⟩ := macroArg_ok rfl rfl h
    obtain ⟨hne, hd⟩ := hno _ _ (defines_iff.2 ⟨idx, hi, rfl, hv, rfl⟩)
    have hdol := valid_noDollar hv
    have e1 : alookup k t1.macros = alookup k l.table.macros := by
      rcases h1 with ⟨_, rfl, _⟩ | ⟨_, hx, _⟩
      · rfl
      · exact define_other hdol (Ne.symm hne) (.inl hx)
    rcases h2 with e | ⟨_, _, hx⟩
    · rw [e, e1]
    · rw [define_other (noDollar_upper hdol) (fun e => hd e.symm) (.inr hx), e1]
  · cases h
    split <;> rfl

theorem args_keeps {items : List Item} {plain args : List Str} (h : Args items plain args) {k : Str} {x : Option MacroData}
    (hno : ∀ p ∈ plain, ∀ name value, Defines p name value → name ≠ k ∧ toUpper name ≠ k) {n : Nat} {l l' : Line} (hn : args.length ≤ n)
    (hl : argLoop n l args = .ok l') (hx : alookup k l.table.macros = x) : alookup k l'.table.macros = x :=
  (args_inv h (I := fun rest l => (∀ p ∈ rest, ∀ name value, Defines p name value → name ≠ k ∧ toUpper name ≠ k) ∧ alookup k l.table.macros = x)
    (fun _ _ _ h => h)
    (fun p rest l l' h hp => ⟨fun q hq => h.1 q (by simp [hq]), by rw [plainStep_keeps (h.1 p (by simp)) hp]; exact h.2⟩) n l l' hn hl ⟨hno, hx⟩).2

theorem set_other {t t' : MacroTable} {name value k : Str} {src : MacroSource} (hs : src ≠ .environment) (hd : '$' ∉ name) (hk : k ≠ name)
    (h : setMacroValueImpl t name value src = .ok t') : alookup k t'.macros = alookup k t.macros := by
  obtain ⟨n, h1, _, _, h2, _⟩ := setImpl_ok hs h
  rw [expandMacros_plain _ _ _ hd] at h1
  cases h1
  exact h2 k hk

theorem set_value {t t' : MacroTable} {name value : Str} {src : MacroSource} (hs : src ≠ .environment) (hd : '$' ∉ name) (hv : '$' ∉ value)
    (h : setMacroValueImpl t name value src = .ok t') (hro : ∀ d, alookup name t.macros = some d → d.isReadOnly = false) :
    ∃ d, alookup name t'.macros = some d ∧ d.value = value ∧ d.isReadOnly = false := by
  obtain ⟨n, h1, _, _, _, h2⟩ := setImpl_ok hs h
  rw [expandMacros_plain _ _ _ hd] at h1
  cases h1
  have hrep : replaceAll (instantiated name) (macroValue t.macros name) value = value :=
    replaceAll_noOcc (by simp [instantiated]) (fun x y e => hv (by rw [e]; simp [instantiated]))
  have hro' : ((alookup name t.macros).getD {}).isReadOnly = false := by
    cases hx : alookup name t.macros with
    | none => rfl
    | some d => exact hro d hx
  simp only [hro', Bool.false_eq_true, if_false, hrep] at h2
  exact ⟨_, h2, rfl, rfl⟩

/-- A read-only macro keeps its value. -/
theorem set_keeps {t t' : MacroTable} {name value k v : Str} {src : MacroSource} (hs : src ≠ .environment)
    (h : setMacroValueImpl t name value src = .ok t') (hf : Frozen k v t) : Frozen k v t' := setImpl_frozen hs h hf

/-! ### The environment -/

theorem envDefine_other {t t' : MacroTable} {k v : Str} {ro : Bool} (hd : '$' ∉ k) (h : defineEnvironmentMacroValue t k v ro = .ok t') {n : Str}
    (hn : n ≠ toUpper k) : alookup n t'.macros = alookup n t.macros := by
  have hdu := noDollar_upper hd
  unfold defineEnvironmentMacroValue at h
  simp only at h
  split at h
  · split at h
    · obtain ⟨u, hu, h⟩ := bind_ok h
      simp only [Except.ok.injEq] at h
      subst h
      simp only [setEnvironmentVariable, alookup_modify, if_neg (Ne.symm hn)]
    · cases h; rfl
  · split at h
    · cases h; rfl
    · obtain ⟨o, ho, h⟩ := bind_ok h
      cases o with
      | none => cases h; rfl
      | some q =>
        obtain ⟨t1, n'⟩ := q
        obtain ⟨h1, h2, h3, h4, h5⟩ := internalSet_ok ho
        rw [expandMacros_plain _ _ _ hdu] at h1
        cases h1
        simp only [Except.ok.injEq] at h
        subst h
        simp only [setEnvironmentVariable, alookup_modify, if_neg (Ne.symm hn)]
        exact h4 n hn

theorem envDefine_old {t t' : MacroTable} {k v : Str} {ro : Bool} {d : MacroData} (hl : alookup (toUpper k) t.macros = some d)
    (h : defineEnvironmentMacroValue t k v ro = .ok t') :
    ∃ d', alookup (toUpper k) t'.macros = some d' ∧ d'.value = d.value ∧ d'.isReadOnly = d.isReadOnly := by
  unfold defineEnvironmentMacroValue at h
  simp only [hl] at h
  split at h
  · obtain ⟨u, hu, h⟩ := bind_ok h
    simp only [Except.ok.injEq] at h
    subst h
    simp only [setEnvironmentVariable, alookup_modify, if_true, hl, Option.map_some]
    exact ⟨_, rfl, rfl, rfl⟩
  · cases h; exact ⟨d, hl, rfl, rfl⟩

theorem envDefine_new {t t' : MacroTable} {k v : Str} {ro : Bool} (hd : '$' ∉ k) (hval : isMacroNameValid (toUpper k) = true) (hv : '$' ∉ v)
    (hl : alookup (toUpper k) t.macros = none) (h : defineEnvironmentMacroValue t k v ro = .ok t') :
    ∃ d, alookup (toUpper k) t'.macros = some d ∧ d.value = v ∧ d.isReadOnly = ro := by
  have hdu := noDollar_upper hd
  unfold defineEnvironmentMacroValue at h
  simp only [hl] at h
  rw [expandMacros_plain _ _ _ hv] at h
  simp only at h
  obtain ⟨o, ho, h⟩ := bind_ok h
  cases o with
  | none =>
    exfalso
    unfold internalSet at ho
    rw [expandMacros_plain _ _ _ hdu] at ho
    simp [bind, Except.bind, hval] at ho
  | some q =>
    obtain ⟨t1, n'⟩ := q
    obtain ⟨h1, h2, h3, h4, h5⟩ := internalSet_ok ho
    rw [expandMacros_plain _ _ _ hdu] at h1
    cases h1
    simp only [Except.ok.injEq] at h
    subst h
    have hrep : replaceAll (instantiated (toUpper k)) (macroValue t.macros (toUpper k)) v = v :=
      replaceAll_noOcc (by simp [instantiated]) (fun x y e => hv (by rw [e]; simp [instantiated]))
    simp only [hl, Option.getD_none, hrep, Bool.false_or] at h5
    simp only [setEnvironmentVariable, alookup_modify, if_true, h5, Option.map_some]
    exact ⟨_, rfl, rfl, rfl⟩

/-- A macro from the environment is read-only exactly with `/E`. -/
theorem envDefine_readOnly {t t' : MacroTable} {k v : Str} {ro : Bool} (hd : '$' ∉ k) (h : defineEnvironmentMacroValue t k v ro = .ok t')
    (hi : ∀ d, alookup (toUpper k) t.macros = some d → d.isReadOnly = ro) : ∀ d, alookup (toUpper k) t'.macros = some d → d.isReadOnly = ro := by
  have hdu := noDollar_upper hd
  intro d hl
  unfold defineEnvironmentMacroValue at h
  simp only at h
  split at h
  · rename_i md hmd
    split at h
    · obtain ⟨u, hu, h⟩ := bind_ok h
      simp only [Except.ok.injEq] at h
      subst h
      simp only [setEnvironmentVariable, alookup_modify, if_true, hmd, Option.map_some, Option.some.injEq] at hl
      rw [← hl]
      exact hi md hmd
    · cases h; exact hi d hl
  · split at h
    · cases h; exact hi d hl
    · obtain ⟨o, ho, h⟩ := bind_ok h
      cases o with
      | none => cases h; exact hi d hl
      | some q =>
        obtain ⟨t1, n'⟩ := q
        obtain ⟨h1, h2, h3, h4, h5⟩ := internalSet_ok ho
        rw [expandMacros_plain _ _ _ hdu] at h1
        cases h1
        simp only [Except.ok.injEq] at h
        subst h
        simp only [setEnvironmentVariable, alookup_modify, if_true, h5, Option.map_some, Option.some.injEq] at hl
        rw [← hl]

theorem upper_eq_iff {a b : Str} : toUpper a = toUpper b ↔ toLower a = toLower b :=
  ⟨fun h => by rw [← toLower_toUpper a, h, toLower_toUpper], same_upper⟩

theorem readEnvironment_other {ro : Bool} {n : Str} : ∀ {l : List (Str × Str)} {t t' : MacroTable}, (∀ e ∈ l, '$' ∉ e.1) →
    (∀ e ∈ l, n ≠ toUpper e.1) → readEnvironment ro l t = .ok t' → alookup n t'.macros = alookup n t.macros
  | [], t, t', _, _, h => by cases h; rfl
  | (k, v) :: l, t, t', hd, hn, h => by
    unfold readEnvironment at h
    obtain ⟨t1, h1, h⟩ := bind_ok h
    rw [readEnvironment_other (fun e he => hd e (by simp [he])) (fun e he => hn e (by simp [he])) h]
    exact envDefine_other (hd (k, v) (by simp)) h1 (hn (k, v) (by simp))

theorem readEnvironment_old {ro : Bool} {n : Str} {x : Str} {r : Bool} : ∀ {l : List (Str × Str)} {t t' : MacroTable}, (∀ e ∈ l, '$' ∉ e.1) →
    readEnvironment ro l t = .ok t' → (∃ d, alookup n t.macros = some d ∧ d.value = x ∧ d.isReadOnly = r) →
    ∃ d, alookup n t'.macros = some d ∧ d.value = x ∧ d.isReadOnly = r
  | [], t, t', _, h, hi => by cases h; exact hi
  | (k, v) :: l, t, t', hd, h, hi => by
    unfold readEnvironment at h
    obtain ⟨t1, h1, h⟩ := bind_ok h
    refine readEnvironment_old (fun e he => hd e (by simp [he])) h ?_
    obtain ⟨d, h2, h3, h4⟩ := hi
    by_cases e : n = toUpper k
    · subst e
      obtain ⟨d', g1, g2, g3⟩ := envDefine_old h2 h1
      exact ⟨d', g1, by rw [g2, h3], by rw [g3, h4]⟩
    · exact ⟨d, by rw [envDefine_other (hd (k, v) (by simp)) h1 e]; exact h2, h3, h4⟩

theorem readEnvironment_new {ro : Bool} {k x : Str} : ∀ {l : List (Str × Str)} {t t' : MacroTable}, (∀ e ∈ l, '$' ∉ e.1) → Distinct l →
    readEnvironment ro l t = .ok t' → isMacroNameValid (toUpper k) = true → '$' ∉ x → envLookup k l = some x → alookup (toUpper k) t.macros = none →
    ∃ d, alookup (toUpper k) t'.macros = some d ∧ d.value = x ∧ d.isReadOnly = ro
  | [], t, t', _, _, h, _, _, hl, _ => by cases hl
  | (k', v) :: l, t, t', hd, hdis, h, hval, hv, hl, hn => by
    unfold readEnvironment at h
    obtain ⟨t1, h1, h⟩ := bind_ok h
    have hp := List.pairwise_cons.1 hdis
    unfold envLookup at hl
    by_cases e : toLower k' = toLower k
    · have he : envKeyEq k' k = true := by simpa [envKeyEq] using e
      rw [he] at hl
      simp only [if_true, Option.some.injEq] at hl
      subst hl
      have hu := same_upper e
      rw [← hu] at hval hn
      have := envDefine_new (hd (k', v) (by simp)) hval hv hn h1
      rw [hu] at this
      exact readEnvironment_old (fun e he => hd e (by simp [he])) h this
    · have he : envKeyEq k' k = false := by simpa [envKeyEq] using e
      rw [he] at hl
      simp only [Bool.false_eq_true, if_false] at hl
      refine readEnvironment_new (fun e he => hd e (by simp [he])) hp.2 h hval hv hl ?_
      rw [envDefine_other (hd (k', v) (by simp)) h1 (fun hx => e (upper_eq_iff.1 hx.symm))]
      exact hn

theorem readEnvironment_readOnly {ro : Bool} {n : Str} : ∀ {l : List (Str × Str)} {t t' : MacroTable}, (∀ e ∈ l, '$' ∉ e.1) →
    readEnvironment ro l t = .ok t' → (∀ d, alookup n t.macros = some d → d.isReadOnly = ro) → ∀ d, alookup n t'.macros = some d → d.isReadOnly = ro
  | [], t, t', _, h, hi => by cases h; exact hi
  | (k, v) :: l, t, t', hd, h, hi => by
    unfold readEnvironment at h
    obtain ⟨t1, h1, h⟩ := bind_ok h
    refine readEnvironment_readOnly (fun e he => hd e (by simp [he])) h ?_
    by_cases e : n = toUpper k
    · subst e
      exact envDefine_readOnly (hd (k, v) (by simp)) h1 hi
    · rw [envDefine_other (hd (k, v) (by simp)) h1 e]
      exact hi

/-! ### The predefined macros -/

theorem predefineAll_other {n : Str} : ∀ {l : List (Str × Str)} {t t' : MacroTable}, (∀ e ∈ l, '$' ∉ e.1) → (∀ e ∈ l, n ≠ e.1) →
    predefineAll l t = .ok t' → alookup n t'.macros = alookup n t.macros
  | [], t, t', _, _, h => by cases h; rfl
  | (k, v) :: l, t, t', hd, hn, h => by
    unfold predefineAll at h
    obtain ⟨t1, h1, h⟩ := bind_ok h
    rw [predefineAll_other (fun e he => hd e (by simp [he])) (fun e he => hn e (by simp [he])) h]
    exact set_other (by decide) (hd (k, v) (by simp)) (hn (k, v) (by simp)) h1

theorem predefineAll_frozen {n x : Str} : ∀ {l : List (Str × Str)} {t t' : MacroTable}, predefineAll l t = .ok t' → Frozen n x t → Frozen n x t'
  | [], t, t', h, hi => by cases h; exact hi
  | (k, v) :: l, t, t', h, hi => by
    unfold predefineAll at h
    obtain ⟨t1, h1, h⟩ := bind_ok h
    exact predefineAll_frozen h (set_keeps (by decide) h1 hi)

theorem predefineAll_new {n x : Str} : ∀ {l : List (Str × Str)} {t t' : MacroTable}, (∀ e ∈ l, '$' ∉ e.1) → (l.map (·.1)).Nodup →
    predefineAll l t = .ok t' → (n, x) ∈ l → '$' ∉ x → (∀ d, alookup n t.macros = some d → d.isReadOnly = false) → macroValue t'.macros n = x
  | [], t, t', _, _, h, hm, _, _ => by cases hm
  | (k, v) :: l, t, t', hd, hnd, h, hm, hx, hi => by
    unfold predefineAll at h
    obtain ⟨t1, h1, h2⟩ := bind_ok h
    rw [List.map_cons, List.nodup_cons] at hnd
    have hd' : ∀ e ∈ l, '$' ∉ e.1 := fun e he => hd e (by simp [he])
    rcases List.mem_cons.1 hm with hm2 | hm2
    · cases hm2
      obtain ⟨d, g1, g2, g3⟩ := set_value (by decide) (hd (n, x) (by simp)) hx h1 hi
      have : alookup n t'.macros = some d := by
        rw [predefineAll_other hd' ?_ h2, g1]
        intro e he hn
        exact hnd.1 (List.mem_map.2 ⟨e, he, hn.symm⟩)
      simp [macroValue, this, g2]
    · have hne : n ≠ k := by
        rintro rfl
        exact hnd.1 (List.mem_map.2 ⟨(n, x), hm2, rfl⟩)
      refine predefineAll_new hd' hnd.2 h2 hm2 hx ?_
      rw [set_other (by decide) (hd (k, v) (by simp)) hne h1]
      exact hi

theorem predefined_names (a c : Str) : (predefined a c).map (·.1) = [c!"MAKE", c!"MAKEDIR", c!"AS", c!"ASFLAGS", c!"BC", c!"BCFLAGS", c!"CC", c!"CCFLAGS",
    c!"COBOL", c!"COBOLFLAGS", c!"CPP", c!"CPPFLAGS", c!"CXX", c!"CXXFLAGS", c!"FOR", c!"FORFLAGS", c!"PASCAL", c!"PASCALFLAGS", c!"RC", c!"RCFLAGS"] := rfl

theorem predefined_nodup (a c : Str) : ((predefined a c).map (·.1)).Nodup := by rw [predefined_names]; decide +kernel

theorem predefined_plain (a c : Str) : ∀ e ∈ predefined a c, '$' ∉ e.1 := by
  intro e he
  have : e.1 ∈ (predefined a c).map (·.1) := List.mem_map.2 ⟨e, he, rfl⟩
  rw [predefined_names] at this
  revert this
  generalize e.1 = x
  revert x
  decide

/-! ### Names of variables -/

theorem foldl_keys {P : Str → Prop} : ∀ {es : List Str} {m : List (Str × Str)}, (∀ t ∈ es, ∀ i, indexOf? ['='] t = some i → P (t.take i)) →
    (∀ e ∈ m, P e.1) → (∀ a b, toLower a = toLower b → P a → P b) → ∀ e ∈ es.foldl addEntry m, P e.1
  | [], m, _, hm, _ => hm
  | t :: es, m, h, hm, hc => by
    rw [List.foldl_cons]
    refine foldl_keys (fun t ht => h t (by simp [ht])) ?_ hc
    unfold addEntry
    split
    · exact hm
    · rename_i idx hi
      intro e he
      rcases envSet_keys _ _ _ e he with hk | ⟨z, hz, e'⟩
      · exact hc _ _ hk.symm (h t (by simp) idx hi)
      · rw [← e']; exact hm z hz

end Jom.Main
