import Verif.Proofs.MainEnv

/-! The environment of the commands: command line, environment of jom, predefined macros. -/

namespace Jom.Main
open Parse Props Cmd Spec.Cmd PP

theorem toUpper_toLower (s : Str) : toUpper (toLower s) = toUpper s := by
  unfold toUpper toLower
  rw [List.map_map]
  apply List.map_congr_left
  intro c _
  simp only [Function.comp_def, toUpperC, toLowerC]
  by_cases h : 65 ≤ c.toNat ∧ c.toNat ≤ 90
  · have h1 : ¬ (97 ≤ c.toNat ∧ c.toNat ≤ 122) := by omega
    have h2 : (Char.ofNat (c.toNat + 32)).toNat = c.toNat + 32 := toNat_ofNat_ascii (by omega)
    simp only [h, h1, h2, if_true, if_false, and_self]
    have h3 : 97 ≤ c.toNat + 32 ∧ c.toNat + 32 ≤ 122 := by omega
    simp only [h3, and_self, if_true, Nat.add_sub_cancel]
    exact Char.ofNat_toNat c
  · simp only [h, if_false]

theorem same_upper {a b : Str} (h : toLower a = toLower b) : toUpper a = toUpper b := by
  rw [← toUpper_toLower a, h, toUpper_toLower]

/-! ### The macro table -/

/-- The steps of a definition on the command line. -/
theorem define_ok {t t' : MacroTable} {name value : Str}
    (h : defineCommandLineMacroValue t name value = .ok t' ∨ defineImplicitCommandLineMacroValue t name value = .ok t') :
    ∃ t1 w src, defineCommandLineImpl t name value src = .ok t1 ∧ expandMacros t1.macros value = .ok w ∧
      t' = setEnvironmentVariable t1 name w ∧ (src = .commandLine ∨ src = .commandLineImplicit) := by
  have go : ∀ src, (src = .commandLine ∨ src = .commandLineImplicit) → (defineCommandLineImpl t name value src >>= fun t =>
      expandMacros t.macros value >>= fun w => .ok (setEnvironmentVariable t name w)) = .ok t' → ∃ t1 w src,
      defineCommandLineImpl t name value src = .ok t1 ∧ expandMacros t1.macros value = .ok w ∧
      t' = setEnvironmentVariable t1 name w ∧ (src = .commandLine ∨ src = .commandLineImplicit) := by
    intro src hs h
    obtain ⟨t1, h1, h⟩ := ebind_ok h
    obtain ⟨w, hw, h⟩ := ebind_ok h
    cases h
    exact ⟨t1, w, src, h1, hw, rfl, hs⟩
  rcases h with h | h
  · exact go _ (.inl rfl) h
  · exact go _ (.inr rfl) h

/-- No definition on the command line for this variable. -/
def NoCmd (name : Str) (t : MacroTable) : Prop :=
  ∀ k d, alookup k t.macros = some d → d.source = .commandLine → toLower k ≠ toLower name

/-- The variable has this value, and it is not defined on the command line. -/
def Inherits (name : Str) (x : Option Str) (t : MacroTable) : Prop := envLookup name t.env = x ∧ NoCmd name t

/-- The variable has the value of its definition on the command line. -/
structure Defined (name v : Str) (t : MacroTable) : Prop where
  env : envLookup name t.env = some v
  value : ∀ k d, alookup k t.macros = some d → d.source = .commandLine → toLower k = toLower name → d.value = v
  known : ∃ d, alookup (toUpper name) t.macros = some d

theorem define_inherits {name : Str} {x : Option Str} {t t' : MacroTable} {n value : Str} (hd : '$' ∉ n) (hn : toLower n ≠ toLower name)
    (h : defineCommandLineMacroValue t n value = .ok t' ∨ defineImplicitCommandLineMacroValue t n value = .ok t')
    (hi : Inherits name x t) : Inherits name x t' := by
  have hk := fun k hk => define_other (k := k) hd hk h
  obtain ⟨t1, w, src, h1, hw, rfl, _⟩ := define_ok h
  obtain ⟨_, _, henv, _⟩ := cmdImpl_ok h1
  refine ⟨?_, ?_⟩
  · simp only [setEnvironmentVariable, lookup_envSet, hn, if_false, henv]
    exact hi.1
  · intro k d hl hs hc
    by_cases e : k = n
    · exact hn (e ▸ hc)
    · rw [hk k e] at hl
      exact hi.2 k d hl hs hc

theorem define_defined {name v : Str} {t t' : MacroTable} {n value : Str} (hd : '$' ∉ n) (hn : toLower n ≠ toLower name)
    (h : defineCommandLineMacroValue t n value = .ok t' ∨ defineImplicitCommandLineMacroValue t n value = .ok t')
    (hi : Defined name v t) : Defined name v t' := by
  have hk := fun k hk => define_other (k := k) hd hk h
  obtain ⟨t1, w, src, h1, hw, rfl, _⟩ := define_ok h
  obtain ⟨_, _, henv, _⟩ := cmdImpl_ok h1
  refine ⟨?_, ?_, ?_⟩
  · simp only [setEnvironmentVariable, lookup_envSet, hn, if_false, henv]
    exact hi.env
  · intro k d hl hs hc
    by_cases e : k = n
    · exact absurd (e ▸ hc) hn
    · rw [hk k e] at hl
      exact hi.value k d hl hs hc
  · obtain ⟨d, hd⟩ := hi.known
    refine ⟨d, ?_⟩
    rw [hk _ ?_, hd]
    intro e
    exact hn (by rw [← e, toLower_toUpper])

/-- A definition of the variable itself. -/
theorem define_defines {name v : Str} {t t' : MacroTable} {n : Str} (hval : isMacroNameValid n = true) (hn : toLower n = toLower name)
    (hv : '$' ∉ v) (h : defineCommandLineMacroValue t n v = .ok t' ∨ defineImplicitCommandLineMacroValue t n v = .ok t')
    (hi : ∀ k d, alookup k t.macros = some d → d.source = .commandLine → toLower k = toLower name → d.value = v) :
    envLookup name t'.env = some v ∧
    (∀ k d, alookup k t'.macros = some d → d.source = .commandLine → toLower k = toLower name → d.value = v) ∧
    (∃ d, alookup n t'.macros = some d) ∧ ∀ k, k ≠ n → alookup k t'.macros = alookup k t.macros := by
  have hd := valid_noDollar hval
  have hk := fun k hk => define_other (k := k) hd hk h
  obtain ⟨t1, w, src, h1, hw, rfl, _⟩ := define_ok h
  obtain ⟨n', hn', henv, hc⟩ := cmdImpl_ok h1
  rw [expandMacros_plain _ _ _ hd] at hn'
  cases hn'
  rcases hc with ⟨hc, _⟩ | ⟨_, _, hself⟩
  · rw [hval] at hc; cases hc
  rw [expandMacros_plain _ _ _ hv] at hw
  cases hw
  have hrep : replaceAll (instantiated n) (macroValue t.macros n) v = v :=
    replaceAll_noOcc (by simp [instantiated]) (fun x y e => hv (by rw [e]; simp [instantiated]))
  rw [hrep] at hself
  refine ⟨?_, ?_, ⟨_, hself⟩, hk⟩
  · simp only [setEnvironmentVariable, lookup_envSet, hn, if_true]
  · intro k d hl hs hc
    by_cases e : k = n
    · subst e
      have : alookup k (setEnvironmentVariable t1 k v).macros = alookup k t1.macros := rfl
      rw [this, hself] at hl
      cases hl; rfl
    · rw [hk k e] at hl
      exact hi k d hl hs hc

/-! ### The arguments -/

theorem args_inv {items : List Item} {plain args : List Str} (h : Args items plain args) {I : List Str → Line → Prop}
    (hst : ∀ rest l st, I rest l → I rest { l with st := st })
    (hstep : ∀ p rest l l', I (p :: rest) l → plainStep l p = .ok l' → I rest l') :
    ∀ (n : Nat) (l l' : Line), args.length ≤ n → argLoop n l args = .ok l' → I plain l → I [] l' := by
  induction h with
  | nil => intro n l l' _ h hi; rw [argLoop_nil] at h; cases h; exact hi
  | @opt d body items items' more plain rest hd hb _ ih =>
    intro n l l' hn h hi
    obtain ⟨n, rfl⟩ : ∃ k, n = k + 1 := ⟨n - 1, by simp at hn; omega⟩
    rw [argLoop_opt hd, handleOption_body hb] at h
    simp only [List.length_cons, List.length_append] at hn
    cases ha : applyItems l.st items with
    | error e => rw [ha] at h; cases h
    | ok s =>
      rw [ha] at h
      exact ih n { l with st := s } l' (by omega) h (hst _ _ _ hi)
  | @plain c a items plain rest h1 h2 _ ih =>
    intro n l l' hn h hi
    obtain ⟨n, rfl⟩ : ∃ k, n = k + 1 := ⟨n - 1, by simp at hn; omega⟩
    rw [argLoop_plain h1 h2] at h
    obtain ⟨l1, hp, h⟩ := ebind_ok h
    exact ih n l1 l' (by simpa using hn) h (hstep _ _ _ _ hi hp)

/-- The argument does not define this variable. -/
def Spares (name p : Str) : Prop := ∀ n v, Defines p n v → toLower n ≠ toLower name

theorem plainStep_inherits {name : Str} {x : Option Str} {l l' : Line} {p : Str} (hp : Spares name p) (h : plainStep l p = .ok l')
    (hi : Inherits name x l.table) : Inherits name x l'.table := by
  unfold plainStep at h
  split at h
  · rename_i idx hidx
    obtain ⟨hval, t1, h1, h2⟩ := macroArg_ok rfl rfl h
    have hn := hp _ _ (defines_iff.2 ⟨idx, hidx, rfl, hval, rfl⟩)
    have hdol := valid_noDollar hval
    have e1 : Inherits name x t1 := by
      rcases h1 with ⟨_, rfl, _⟩ | ⟨_, hx, _⟩
      · exact hi
      · exact define_inherits hdol hn (.inl hx) hi
    rcases h2 with e | ⟨_, _, hx⟩
    · rw [e]; exact e1
    · exact define_inherits (noDollar_upper hdol) (by rw [toLower_toUpper]; exact hn) (.inr hx) e1
  · cases h
    split <;> exact hi

theorem plainStep_defined {name v : Str} {l l' : Line} {p : Str} (hp : Spares name p) (h : plainStep l p = .ok l')
    (hi : Defined name v l.table) : Defined name v l'.table := by
  unfold plainStep at h
  split at h
  · rename_i idx hidx
    obtain ⟨hval, t1, h1, h2⟩ := macroArg_ok rfl rfl h
    have hn := hp _ _ (defines_iff.2 ⟨idx, hidx, rfl, hval, rfl⟩)
    have hdol := valid_noDollar hval
    have e1 : Defined name v t1 := by
      rcases h1 with ⟨_, rfl, _⟩ | ⟨_, hx, _⟩
      · exact hi
      · exact define_defined hdol hn (.inl hx) hi
    rcases h2 with e | ⟨_, _, hx⟩
    · rw [e]; exact e1
    · exact define_defined (noDollar_upper hdol) (by rw [toLower_toUpper]; exact hn) (.inr hx) e1
  · cases h
    split <;> exact hi

theorem plainStep_spares {name : Str} {l l' : Line} {p : Str} (hp : Spares name p) (h : plainStep l p = .ok l')
    (hi : ∀ e ∈ l.explicit, toLower e ≠ toLower name) : ∀ e ∈ l'.explicit, toLower e ≠ toLower name := by
  unfold plainStep at h
  split at h
  · rename_i idx hidx
    obtain ⟨hval, t1, h1, _⟩ := macroArg_ok rfl rfl h
    have hn := hp _ _ (defines_iff.2 ⟨idx, hidx, rfl, hval, rfl⟩)
    rcases h1 with ⟨_, _, he⟩ | ⟨_, _, he⟩
    · rw [he]; exact hi
    · rw [he]
      intro e he
      rcases List.mem_cons.1 he with rfl | he
      · exact hn
      · exact hi e he
  · cases h
    split <;> exact hi

theorem upper_valid {n : Str} (h : isMacroNameValid n = true) : isMacroNameValid (toUpper n) = true := by
  have hw : ∀ c, (isWordChar c || c == '.') = true → (isWordChar (toUpperC c) || toUpperC c == '.') = true := by
    intro c hc
    unfold toUpperC
    split
    · rename_i h
      have : (Char.ofNat (c.toNat - 32)).toNat = c.toNat - 32 := toNat_ofNat_ascii (by omega)
      simp only [isWordChar, isLetterOrNumber, isLetter, this, Bool.or_eq_true, Bool.and_eq_true, decide_eq_true_eq]
      left; left; left
      omega
    · exact hc
  simp only [isMacroNameValid, Bool.and_eq_true, List.all_eq_true] at h ⊢
  refine ⟨by simpa [toUpper] using h.1, ?_⟩
  intro c hc
  simp only [toUpper, List.mem_map] at hc
  obtain ⟨c', hc', rfl⟩ := hc
  exact hw c' (h.2 c' hc')

theorem plainStep_defines {n v : Str} {x : Option Str} {l l' : Line} {p : Str} (hp : Defines p n v) (hv : '$' ∉ v) (h : plainStep l p = .ok l')
    (hi : Inherits n x l.table) (he : ∀ e ∈ l.explicit, toLower e ≠ toLower n) : Defined n v l'.table := by
  obtain ⟨idx, hidx, hn, hval, hval2⟩ := defines_iff.1 hp
  unfold plainStep at h
  rw [hidx] at h
  obtain ⟨_, t1, h1, h2⟩ := macroArg_full hn hval2 h
  rcases h1 with ⟨hc, _, _⟩ | ⟨_, hx, hex⟩
  · rw [List.contains_iff_mem] at hc
    exact absurd rfl (he n hc)
  · obtain ⟨g1, g2, ⟨d, g3⟩, g4⟩ := define_defines hval rfl hv (.inl hx) (fun k d hl hs hc => absurd hc (hi.2 k d hl hs))
    have hdol := valid_noDollar hval
    by_cases hup : toUpper n = n
    · have : l'.table = t1 := by
        rcases h2 with ⟨_, e⟩ | ⟨hne, _, _⟩
        · exact e
        · exact absurd hup hne
      rw [this]
      exact ⟨g1, g2, ⟨d, by rw [hup]; exact g3⟩⟩
    · have hnc : l'.explicit.contains (toUpper n) = false := by
        rw [Bool.eq_false_iff]
        intro hc
        rw [List.contains_iff_mem, hex] at hc
        rcases List.mem_cons.1 hc with hc | hc
        · exact hup hc
        · exact he _ hc (toLower_toUpper n)
      rcases h2 with ⟨hc, _⟩ | ⟨_, _, hx2⟩
      · rw [hnc] at hc
        rcases hc with hc | hc
        · exact absurd hc hup
        · cases hc
      · obtain ⟨k1, k2, ⟨d', k3⟩, k4⟩ := define_defines (upper_valid hval) (toLower_toUpper n) hv (.inr hx2) g2
        exact ⟨k1, k2, ⟨d', k3⟩⟩

/-! ### What follows the command line -/

theorem finish_table {l l' : Line} (h : Cmd.finish l = .ok l') : setMacroValue l.table c!"MAKEFLAGS" l.st.makeflags = .ok l'.table := by
  unfold Cmd.finish at h
  simp only at h
  obtain ⟨t, ht, h⟩ := ebind_ok h
  cases h
  exact liftMacro_ok ht

theorem set_inherits {name : Str} {x : Option Str} {t t' : MacroTable} {n v : Str} {src : MacroSource} (hs : src ≠ .environment)
    (hs2 : src ≠ .commandLine) (h : setMacroValueImpl t n v src = .ok t') (hi : Inherits name x t) : Inherits name x t' := by
  obtain ⟨n', _, _, henv, hk, hn⟩ := setImpl_ok hs h
  refine ⟨by rw [henv]; exact hi.1, ?_⟩
  intro k d hl hd
  by_cases e : k = n'
  · subst e
    rw [hn] at hl
    simp only at hl
    cases hl
    exfalso
    split at hd <;> exact hs2 hd
  · rw [hk k e] at hl
    exact hi.2 k d hl hd

theorem set_defined {name v : Str} {t t' : MacroTable} {n w : Str} {src : MacroSource} (hs : src ≠ .environment)
    (hs2 : src ≠ .commandLine) (h : setMacroValueImpl t n w src = .ok t') (hi : Defined name v t) : Defined name v t' := by
  obtain ⟨n', _, _, henv, hk, hn⟩ := setImpl_ok hs h
  refine ⟨by rw [henv]; exact hi.env, ?_, ?_⟩
  · intro k d hl hd
    by_cases e : k = n'
    · subst e
      rw [hn] at hl
      simp only at hl
      cases hl
      exfalso
      split at hd <;> exact hs2 hd
    · rw [hk k e] at hl
      exact hi.value k d hl hd
  · by_cases e : toUpper name = n'
    · exact ⟨_, e ▸ hn⟩
    · rw [hk _ e]; exact hi.known

theorem envDefine_inherits {name : Str} {x : Option Str} {t t' : MacroTable} {k v : Str} {ro : Bool}
    (hv : toLower k = toLower name → x = some v ∧ '$' ∉ v) (h : defineEnvironmentMacroValue t k v ro = .ok t')
    (hi : Inherits name x t) : Inherits name x t' := by
  unfold defineEnvironmentMacroValue at h
  simp only at h
  split at h
  · rename_i md hmd
    split at h
    · rename_i hsrc
      obtain ⟨u, hu, h⟩ := bind_ok h
      simp only [Except.ok.injEq] at h
      subst h
      have hne : toLower (toUpper k) ≠ toLower name := hi.2 _ _ hmd hsrc
      refine ⟨?_, ?_⟩
      · simp only [setEnvironmentVariable, lookup_envSet, hne, if_false, modifyEntry_env]
        exact hi.1
      · intro k' d hl hd
        simp only [setEnvironmentVariable, alookup_modify] at hl
        split at hl
        · rw [hmd] at hl
          cases hl
          cases hd
        · exact hi.2 k' d hl hd
    · cases h; exact hi
  · split at h
    · cases h; exact hi
    · rename_i ev hev
      obtain ⟨o, ho, h⟩ := bind_ok h
      cases o with
      | none => cases h; exact hi
      | some q =>
        obtain ⟨t1, n⟩ := q
        obtain ⟨h1, h2, h3, h4, h5⟩ := internalSet_ok ho
        simp only [Except.ok.injEq] at h
        subst h
        refine ⟨?_, ?_⟩
        · simp only [setEnvironmentVariable, lookup_envSet, modifyEntry_env, h3, toLower_toUpper]
          split
          · rename_i e
            obtain ⟨rfl, hd⟩ := hv e
            rw [expandMacros_plain _ _ _ hd] at hev
            cases hev; rfl
          · exact hi.1
        · intro k' d hl hd
          simp only [setEnvironmentVariable, alookup_modify] at hl
          split at hl
          · rw [h5] at hl
            cases hl
            cases hd
          · rename_i hne
            rw [h4 k' (fun e => hne e.symm)] at hl
            exact hi.2 k' d hl hd

theorem envDefine_defined {name v : Str} (hv : '$' ∉ v) {t t' : MacroTable} {k w : Str} {ro : Bool}
    (h : defineEnvironmentMacroValue t k w ro = .ok t') (hi : Defined name v t) : Defined name v t' := by
  unfold defineEnvironmentMacroValue at h
  simp only at h
  split at h
  · rename_i md hmd
    split at h
    · rename_i hsrc
      obtain ⟨u, hu, h⟩ := bind_ok h
      simp only [Except.ok.injEq] at h
      subst h
      refine ⟨?_, ?_, ?_⟩
      · simp only [setEnvironmentVariable, lookup_envSet, modifyEntry_env]
        split
        · rename_i e
          have := hi.value _ _ hmd hsrc e
          rw [this, expandMacros_plain _ _ _ hv] at hu
          cases hu; rfl
        · exact hi.env
      · intro k' d hl hd
        simp only [setEnvironmentVariable, alookup_modify] at hl
        split at hl
        · rw [hmd] at hl
          cases hl
          cases hd
        · exact hi.value k' d hl hd
      · obtain ⟨d, hd⟩ := hi.known
        simp only [setEnvironmentVariable, alookup_modify]
        split
        · rw [hmd]; exact ⟨_, rfl⟩
        · exact ⟨d, hd⟩
    · cases h; exact hi
  · rename_i hnone
    have hne : toLower k ≠ toLower name := by
      intro e
      obtain ⟨d, hd⟩ := hi.known
      rw [← same_upper e, hnone] at hd
      cases hd
    split at h
    · cases h; exact hi
    · rename_i ev hev
      obtain ⟨o, ho, h⟩ := bind_ok h
      cases o with
      | none => cases h; exact hi
      | some q =>
        obtain ⟨t1, n⟩ := q
        obtain ⟨h1, h2, h3, h4, h5⟩ := internalSet_ok ho
        simp only [Except.ok.injEq] at h
        subst h
        refine ⟨?_, ?_, ?_⟩
        · simp only [setEnvironmentVariable, lookup_envSet, modifyEntry_env, h3, toLower_toUpper, hne, if_false]
          exact hi.env
        · intro k' d hl hd
          simp only [setEnvironmentVariable, alookup_modify] at hl
          split at hl
          · rw [h5] at hl
            cases hl
            cases hd
          · rename_i hne
            rw [h4 k' (fun e => hne e.symm)] at hl
            exact hi.value k' d hl hd
        · obtain ⟨d, hd⟩ := hi.known
          simp only [setEnvironmentVariable, alookup_modify]
          split
          · rw [h5]; exact ⟨_, rfl⟩
          · rename_i hne
            rw [h4 _ (fun e => hne e.symm)]
            exact ⟨d, hd⟩

theorem readEnvironment_inherits {name : Str} {x : Option Str} {ro : Bool} : ∀ {l : List (Str × Str)} {t t' : MacroTable},
    (∀ e ∈ l, toLower e.1 = toLower name → x = some e.2 ∧ '$' ∉ e.2) → readEnvironment ro l t = .ok t' → Inherits name x t → Inherits name x t'
  | [], t, t', _, h, hi => by cases h; exact hi
  | (k, v) :: l, t, t', hl, h, hi => by
    unfold readEnvironment at h
    obtain ⟨t1, h1, h⟩ := bind_ok h
    exact readEnvironment_inherits (fun e he => hl e (by simp [he])) h (envDefine_inherits (hl (k, v) (by simp)) h1 hi)

theorem readEnvironment_defined {name v : Str} (hv : '$' ∉ v) {ro : Bool} : ∀ {l : List (Str × Str)} {t t' : MacroTable},
    readEnvironment ro l t = .ok t' → Defined name v t → Defined name v t'
  | [], t, t', h, hi => by cases h; exact hi
  | (k, w) :: l, t, t', h, hi => by
    unfold readEnvironment at h
    obtain ⟨t1, h1, h⟩ := bind_ok h
    exact readEnvironment_defined hv h (envDefine_defined hv h1 hi)

theorem predefineAll_env : ∀ {l : List (Str × Str)} {t t' : MacroTable}, predefineAll l t = .ok t' → t'.env = t.env
  | [], t, t', h => by cases h; rfl
  | (k, v) :: l, t, t', h => by
    unfold predefineAll at h
    obtain ⟨t1, h1, h⟩ := bind_ok h
    obtain ⟨_, _, _, he, _⟩ := setImpl_ok (by decide) h1
    rw [predefineAll_env h, he]

theorem initial_env {w : Outside} {o : Opts} {t t' : MacroTable} (h : initialMacros w o t = .ok t') :
    ∃ t1, readEnvironment o.overrideEnvVarMacros (setEnvironment w.environment) t = .ok t1 ∧ t'.env = t1.env := by
  unfold initialMacros at h
  obtain ⟨t1, h1, h⟩ := bind_ok h
  refine ⟨t1, h1, ?_⟩
  split at h
  · cases h; rfl
  · exact predefineAll_env h

theorem lookup_mem {name : Str} : ∀ {l : List (Str × Str)}, Distinct l → ∀ e ∈ l, toLower e.1 = toLower name → envLookup name l = some e.2
  | [], _, e, he, _ => by cases he
  | x :: l, hd, e, he, hn => by
    have hp := List.pairwise_cons.1 hd
    rcases List.mem_cons.1 he with rfl | he
    · simp [envLookup, envKeyEq, hn]
    · have : toLower x.1 ≠ toLower name := fun h => hp.1 e he (h.trans hn.symm)
      have h2 : envKeyEq x.1 name = false := by simpa [envKeyEq] using this
      simp only [envLookup, h2, Bool.false_eq_true, if_false]
      exact lookup_mem hp.2 e he hn

/-- What `main` has done when the build begins. -/
theorem main_build {w : Outside} {args : List Str} {b : Build} (h : main w args = .build b) :
    ∃ t s, readLine w args = .ok b.line ∧ b.line.st.opts.showUsageAndExit = false ∧ b.line.st.opts.showVersionAndExit = false ∧
      initialMacros w b.line.st.opts b.line.table = .ok t ∧ b.dir = w.dirOf (b.line.st.makefile.getD []) ∧
      PP.openFile w.world (b.line.st.makefile.getD []) { table := t } = .ok s ∧
      Whole.read w.world w.fuel w.entries b.dir b.line.st.opts.suppressOutputMessages b.line.st.opts.stopOnErrors s = .ok b.p ∧
      Prepare.prepare b.p.rules b.p.suffixes (w.order b.p.table.sync) (w.keys b.p.rules) b.line.targets b.p.table = .ok b.tab ∧
      Prepare.requested b.tab b.line.targets = .ok b.ids ∧
      b.jobs = Blocks.jobsOf b.p.table b.line.st.jobs.toNat ∧
      (b.env = b.p.src.table.env ∨ ∃ k c, b.env = envSet c!"_JOMJOBCOUNT_" c (envSet c!"_JOMSRVKEY_" k b.p.src.table.env)) := by
  unfold main at h
  split at h
  · cases h
  · cases h
  · cases h
  · cases h
  · rename_i line hline
    simp only at h
    split at h
    · cases h
    · rename_i hex
      simp only [Bool.or_eq_true, not_or, Bool.not_eq_true] at hex
      split at h
      · cases h
      · split at h
        · cases h
        · rename_i t ht
          unfold makefile at h
          simp only at h
          split at h
          · cases h
          · rename_i s hs
            split at h
            · cases h
            · rename_i p hp
              split at h
              · cases h
              · cases h
              · cases h
              · rename_i tab htab
                unfold start at h
                simp only at h
                generalize hserver : initJobServer (envLookup c!"_JOMSRVKEY_" (setEnvironment w.environment)).isSome
                  ((envLookup c!"_JOMJOBCOUNT_" p.src.table.env).getD []) line.st.jobs line.st.jobsSet = server at h
                split at h
                · cases h
                · split at h
                  · cases h
                  · split at h
                    · cases h
                    · cases h
                    · rename_i ids hids
                      cases h
                      refine ⟨t, s, hline, hex.1, hex.2, ht, rfl, hs, hp, htab, hids, rfl, ?_⟩
                      simp only
                      split
                      · exact .inr ⟨_, _, rfl⟩
                      · exact .inl rfl

end Jom.Main
