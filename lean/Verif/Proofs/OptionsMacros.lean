/-
Macro definitions on the command line.
-/
import Verif.Proofs.OptionsArgs
import Verif.Proofs.Replace
import Verif.Proofs.PathLemmas

namespace Jom.Cmd
open Jom.Spec.Cmd Jom.Spec

theorem valid_chars {n : Str} (h : isMacroNameValid n = true) : ∀ c ∈ n, isSpace c = false := by
  intro c hc
  simp only [isMacroNameValid, Bool.and_eq_true, List.all_eq_true] at h
  have := h.2 c hc
  cases hs : isSpace c
  · rfl
  · simp only [isSpace, Bool.or_eq_true, Bool.and_eq_true, decide_eq_true_eq, beq_iff_eq] at hs
    simp only [isWordChar, isLetterOrNumber, isLetter, isDigit, Bool.or_eq_true, Bool.and_eq_true, decide_eq_true_eq,
      beq_iff_eq] at this
    rcases hs with rfl | hs
    · revert this; decide
    · exfalso
      rcases this with ((h | h) | h) | h
      · omega
      · omega
      · subst h; revert hs; decide
      · subst h; revert hs; decide

theorem valid_ne_nil {n : Str} (h : isMacroNameValid n = true) : n ≠ [] := by
  rintro rfl; cases h

/-- Cutting a definition at its first `=`. -/
theorem indexOf_eq : ∀ {arg : Str} {idx : Nat}, indexOf? ['='] arg = some idx →
    arg = arg.take idx ++ '=' :: arg.drop (idx + 1) ∧ '=' ∉ arg.take idx := by
  intro arg
  induction arg with
  | nil => intro idx h; cases h
  | cons c r ih =>
    intro idx h
    simp only [indexOf?] at h
    split at h
    · rename_i hp
      cases h
      simp [List.isPrefixOf] at hp
      subst hp
      simp
    · rename_i hp
      cases hr : indexOf? ['='] r with
      | none => rw [hr] at h; cases h
      | some i =>
        rw [hr] at h
        simp only [Option.map_some, Option.some.injEq] at h
        subst h
        obtain ⟨h1, h2⟩ := ih hr
        refine ⟨?_, ?_⟩
        · simp only [List.take_succ_cons, List.drop_succ_cons, List.cons_append]
          rw [← h1]
        · simp only [List.take_succ_cons, List.mem_cons, not_or]
          refine ⟨?_, h2⟩
          rintro rfl
          simp [List.isPrefixOf] at hp

theorem trimLeft_pad {b v : Str} (hb : b.all isSpace = true) (hv : ∀ c r, v = c :: r → isSpace c = false) :
    trimLeft (b ++ v) = v := by
  induction b with
  | nil =>
    cases v with
    | nil => rfl
    | cons c r => simp only [List.nil_append, trimLeft, List.dropWhile_cons, hv c r rfl, Bool.false_eq_true, if_false]
  | cons a b ih =>
    simp only [List.all_cons, Bool.and_eq_true] at hb
    simp only [trimLeft, List.cons_append, List.dropWhile_cons, hb.1, if_true]
    exact ih hb.2

/-- The model reads a definition as specified. -/
theorem defines_iff {arg name value : Str} : Defines arg name value ↔
    ∃ idx, indexOf? ['='] arg = some idx ∧ name = trimmed (arg.take idx) ∧ isMacroNameValid name = true ∧
      value = trimLeft (arg.drop (idx + 1)) := by
  constructor
  · rintro ⟨b1, b2, b3, rfl, h1, h2, h3, hn, hv, hval⟩
    have hno : '=' ∉ b1 ++ name ++ b2 := by
      have hb : ∀ b : Str, b.all isSpace = true → '=' ∉ b := by
        intro b hb hm
        have := List.all_eq_true.1 hb _ hm
        revert this; decide
      simp only [List.mem_append, not_or]
      exact ⟨⟨hb b1 h1, hn⟩, hb b2 h2⟩
    refine ⟨(b1 ++ name ++ b2).length, indexOf?_char hno, ?_, hv, ?_⟩
    · rw [List.take_left]
      refine (PP.trimmed_pad (by simpa [Spaces] using h1) (by simpa [Spaces] using h2) ?_).symm
      constructor
      · intro c r e; exact valid_chars hv c (by rw [e]; simp)
      · intro c r e; exact valid_chars hv c (by rw [e]; simp)
    · have : (b1 ++ name ++ b2 ++ '=' :: (b3 ++ value)).drop ((b1 ++ name ++ b2).length + 1) = b3 ++ value := by
        rw [List.drop_append]
        simp
      rw [this]
      exact (trimLeft_pad h3 hval).symm
  · rintro ⟨idx, hi, rfl, hv, rfl⟩
    obtain ⟨h1, h2⟩ := indexOf_eq hi
    obtain ⟨a, b, hs, ha, hb⟩ := trimmed_split (arg.take idx)
    refine ⟨a, b, (arg.drop (idx + 1)).takeWhile isSpace, ?_, by simpa using ha, by simpa using hb, List.all_takeWhile,
      ?_, hv, ?_⟩
    · rw [trimLeft, List.takeWhile_append_dropWhile, ← hs, ← h1]
    · intro hm
      apply h2
      rw [hs]
      simp [hm]
    · intro c r e
      exact PP.dropWhile_head e

theorem toUpperC_dollar {c : Char} (h : toUpperC c = '$') : c = '$' := by
  unfold toUpperC at h
  split at h
  · rename_i hc
    have := congrArg Char.toNat h
    rw [toNat_ofNat_ascii (by omega)] at this
    have h2 : '$'.toNat = 36 := rfl
    omega
  · exact h

theorem noDollar_upper {n : Str} (h : '$' ∉ n) : '$' ∉ toUpper n := by
  intro hm
  simp only [toUpper, List.mem_map] at hm
  obtain ⟨c, hc, e⟩ := hm
  rw [toUpperC_dollar e] at hc
  exact h hc

theorem liftMacro_ok {α : Type} {x : Except MacroErr α} {a : α} (h : liftMacro x = .ok a) : x = .ok a := by
  cases x with
  | error e => cases h
  | ok b => cases h; rfl

/-- What a definition does. -/
theorem macroArg_full {l l' : Line} {arg name value : Str} {idx : Nat}
    (hn : name = trimmed (arg.take idx)) (hv : value = trimLeft (arg.drop (idx + 1)))
    (h : macroArg l arg idx = .ok l') :
    isMacroNameValid name = true ∧ ∃ t1 : MacroTable,
      (l.explicit.contains name = true ∧ t1 = l.table ∧ l'.explicit = l.explicit ∨
        l.explicit.contains name = false ∧ defineCommandLineMacroValue l.table name value = .ok t1 ∧
          l'.explicit = name :: l.explicit) ∧
      ((toUpper name = name ∨ l'.explicit.contains (toUpper name) = true) ∧ l'.table = t1 ∨ toUpper name ≠ name ∧ l'.explicit.contains (toUpper name) = false ∧
        defineImplicitCommandLineMacroValue t1 (toUpper name) value = .ok l'.table) := by
  unfold macroArg at h
  simp only [← hn, ← hv] at h
  split at h
  · cases h
  · rename_i hval
    refine ⟨by simpa using hval, ?_⟩
    obtain ⟨l1, h1, h⟩ := ebind_ok h
    have key : (l.explicit.contains name = true ∧ l1.table = l.table ∧ l1.explicit = l.explicit ∨
        l.explicit.contains name = false ∧ defineCommandLineMacroValue l.table name value = .ok l1.table ∧
          l1.explicit = name :: l.explicit) := by
      split at h1
      · rename_i hc; cases h1; exact .inl ⟨hc, rfl, rfl⟩
      · rename_i hc
        obtain ⟨t, ht, h1⟩ := ebind_ok h1
        cases h1
        exact .inr ⟨by simpa using hc, liftMacro_ok ht, rfl⟩
    refine ⟨l1.table, ?_⟩
    split at h
    · rename_i hc
      obtain ⟨t, ht, h⟩ := ebind_ok h
      cases h
      simp only [Bool.and_eq_true, bne_iff_ne, Bool.not_eq_true'] at hc
      exact ⟨key, .inr ⟨hc.1, hc.2, liftMacro_ok ht⟩⟩
    · rename_i hc
      cases h
      refine ⟨key, .inl ⟨?_, rfl⟩⟩
      simp only [Bool.and_eq_true, bne_iff_ne, Bool.not_eq_true', not_and, Bool.not_eq_false] at hc
      by_cases e : toUpper name = name
      · exact .inl e
      · exact .inr (hc e)

theorem macroArg_ok {l l' : Line} {arg name value : Str} {idx : Nat}
    (hn : name = trimmed (arg.take idx)) (hv : value = trimLeft (arg.drop (idx + 1)))
    (h : macroArg l arg idx = .ok l') :
    isMacroNameValid name = true ∧ ∃ t1 : MacroTable,
      (l.explicit.contains name = true ∧ t1 = l.table ∧ l'.explicit = l.explicit ∨
        l.explicit.contains name = false ∧ defineCommandLineMacroValue l.table name value = .ok t1 ∧
          l'.explicit = name :: l.explicit) ∧
      (l'.table = t1 ∨ toUpper name ≠ name ∧ l'.explicit.contains (toUpper name) = false ∧
        defineImplicitCommandLineMacroValue t1 (toUpper name) value = .ok l'.table) := by
  obtain ⟨hv, t1, h1, h2⟩ := macroArg_full hn hv h
  exact ⟨hv, t1, h1, h2.imp (·.2) id⟩

/-- Definitions of other names leave a macro alone. -/
theorem define_other {t t' : MacroTable} {name value k : Str} (hd : '$' ∉ name) (hk : k ≠ name)
    (h : defineCommandLineMacroValue t name value = .ok t' ∨ defineImplicitCommandLineMacroValue t name value = .ok t') :
    alookup k t'.macros = alookup k t.macros := by
  have go : ∀ src, (defineCommandLineImpl t name value src >>= fun t =>
      expandMacros t.macros value >>= fun w => .ok (setEnvironmentVariable t name w)) = .ok t' →
      alookup k t'.macros = alookup k t.macros := by
    intro src h
    obtain ⟨t1, h1, h⟩ := ebind_ok h
    obtain ⟨w, hw, h⟩ := ebind_ok h
    cases h
    obtain ⟨n, hn, _, hc⟩ := cmdImpl_ok h1
    rw [expandMacros_plain _ _ _ hd] at hn
    cases hn
    rcases hc with ⟨_, rfl⟩ | ⟨_, h4, _⟩
    · rfl
    · exact h4 k hk
  rcases h with h | h
  · exact go _ h
  · exact go _ h

theorem plainStep_other {l l' : Line} {arg k : Str} (hk : toUpper k = k)
    (hno : ∀ name value, Defines arg name value → toUpper name ≠ k) (h : plainStep l arg = .ok l') :
    alookup k l'.table.macros = alookup k l.table.macros := by
  unfold plainStep at h
  split at h
  · rename_i idx hi
    obtain ⟨hv, t1, h1, h2⟩ := macroArg_ok rfl rfl h
    have hd := hno _ _ (defines_iff.2 ⟨idx, hi, rfl, hv, rfl⟩)
    have hdol := valid_noDollar hv
    have hne : k ≠ trimmed (arg.take idx) := by rintro e; rw [← e] at hd; exact hd hk
    have e1 : alookup k t1.macros = alookup k l.table.macros := by
      rcases h1 with ⟨_, rfl, _⟩ | ⟨_, hx, _⟩
      · rfl
      · exact define_other hdol hne (.inl hx)
    rcases h2 with e | ⟨_, _, hx⟩
    · rw [e, e1]
    · rw [define_other (noDollar_upper hdol) (fun e => hd e.symm) (.inr hx), e1]
  · cases h
    split <;> rfl

theorem args_other {items : List Item} {plain args : List Str} (h : Args items plain args) {k : Str}
    (hk : toUpper k = k) (hno : ∀ p ∈ plain, ∀ name value, Defines p name value → toUpper name ≠ k) :
    ∀ (n : Nat) (l l' : Line), args.length ≤ n → argLoop n l args = .ok l' →
      alookup k l'.table.macros = alookup k l.table.macros := by
  induction h with
  | nil => intro n l l' _ h; rw [argLoop_nil] at h; cases h; rfl
  | @opt d body items items' more plain rest hd hb _ ih =>
    intro n l l' hn h
    obtain ⟨n, rfl⟩ : ∃ k, n = k + 1 := ⟨n - 1, by simp at hn; omega⟩
    rw [argLoop_opt hd, handleOption_body hb] at h
    simp only [List.length_cons, List.length_append] at hn
    cases ha : applyItems l.st items with
    | error e => rw [ha] at h; cases h
    | ok s =>
      rw [ha] at h
      exact ih hno n { l with st := s } l' (by omega) h
  | @plain c a items plain rest h1 h2 _ ih =>
    intro n l l' hn h
    obtain ⟨n, rfl⟩ : ∃ k, n = k + 1 := ⟨n - 1, by simp at hn; omega⟩
    rw [argLoop_plain h1 h2] at h
    obtain ⟨l1, hp, h⟩ := ebind_ok h
    rw [ih (fun p hp => hno p (by simp [hp])) n l1 l' (by simpa using hn) h]
    exact plainStep_other hk (hno _ (by simp)) hp

/-! ### The first definition counts -/

/-- `n` is explicitly defined and frozen with the value `v`. -/
def Fixed (n v : Str) (l : Line) : Prop := l.explicit.contains n = true ∧ Frozen n v l.table

theorem replaceAll_noOcc {b a s : Str} (hb : b ≠ []) (h : ∀ x y, s ≠ x ++ b ++ y) : replaceAll b a s = s := by
  have h1 := replaceAll_spec b a s hb
  have h2 : Replaces b a s s := .none h
  exact replaces_det h1 h2

theorem plainStep_fixed {l l' : Line} {arg n v : Str} (h : plainStep l arg = .ok l') (hf : Fixed n v l) :
    Fixed n v l' := by
  unfold plainStep at h
  split at h
  · rename_i idx hi
    obtain ⟨hval, t1, h1, h2⟩ := macroArg_ok rfl rfl h
    obtain ⟨hex, hfr⟩ := hf
    have hdol := valid_noDollar hval
    have e1 : l'.explicit.contains n = true ∧ Frozen n v t1 := by
      rcases h1 with ⟨_, rfl, he⟩ | ⟨hc, hx, he⟩
      · rw [he]; exact ⟨hex, hfr⟩
      · rw [he]
        refine ⟨by simp only [List.contains_cons, hex, Bool.or_true], ?_⟩
        have hne : trimmed (arg.take idx) ≠ n := by rintro e; rw [e, hex] at hc; cases hc
        exact cmd_frozen hne hdol hx hfr
    refine ⟨e1.1, ?_⟩
    rcases h2 with e | ⟨_, hc, hx⟩
    · rw [e]; exact e1.2
    · have hne : toUpper (trimmed (arg.take idx)) ≠ n := by rintro e; rw [e, e1.1] at hc; cases hc
      exact cmd_frozen hne (noDollar_upper hdol) hx e1.2
  · cases h
    split <;> exact hf

theorem plainStep_fixes {l l' : Line} {arg n v : Str} (hd : Defines arg n v)
    (hself : ∀ x y, v ≠ x ++ instantiated n ++ y) (hne : l.explicit.contains n = false)
    (h : plainStep l arg = .ok l') : Fixed n v l' := by
  obtain ⟨idx, hi, hn, hval, hv⟩ := defines_iff.1 hd
  unfold plainStep at h
  rw [hi] at h
  obtain ⟨_, t1, h1, h2⟩ := macroArg_ok hn hv h
  rcases h1 with ⟨hc, _⟩ | ⟨_, hx, he⟩
  · rw [hne] at hc; cases hc
  have hfr := cmd_freezes hval hx
  rw [replaceAll_noOcc (by simp [instantiated]) hself] at hfr
  have hex : l'.explicit.contains n = true := by rw [he]; simp
  refine ⟨hex, ?_⟩
  rcases h2 with e | ⟨hup, _, hx⟩
  · rw [e]; exact hfr
  · exact cmd_frozen hup (noDollar_upper (valid_noDollar hval)) hx hfr

theorem plainStep_explicit {l l' : Line} {arg n : Str} (hno : ∀ v, ¬ Defines arg n v) (h : plainStep l arg = .ok l') :
    l'.explicit.contains n = l.explicit.contains n := by
  unfold plainStep at h
  split at h
  · rename_i idx hi
    obtain ⟨hval, t1, h1, _⟩ := macroArg_ok rfl rfl h
    rcases h1 with ⟨_, _, he⟩ | ⟨_, _, he⟩
    · rw [he]
    · rw [he]
      have : (n == trimmed (arg.take idx)) = false := by
        cases hb : n == trimmed (arg.take idx)
        · rfl
        · have e := eq_of_beq hb
          exact absurd (defines_iff.2 ⟨idx, hi, e, e ▸ hval, rfl⟩) (hno _)
      simp only [List.contains_cons, this, Bool.false_or]
  · cases h
    split <;> rfl

theorem args_fixed {items : List Item} {plain args : List Str} (h : Args items plain args) {n v : Str} :
    ∀ (k : Nat) (l l' : Line), args.length ≤ k → argLoop k l args = .ok l' → Fixed n v l → Fixed n v l' := by
  induction h with
  | nil => intro k l l' _ h hf; rw [argLoop_nil] at h; cases h; exact hf
  | @opt d body items items' more plain rest hd hb _ ih =>
    intro k l l' hn h hf
    obtain ⟨k, rfl⟩ : ∃ j, k = j + 1 := ⟨k - 1, by simp at hn; omega⟩
    rw [argLoop_opt hd, handleOption_body hb] at h
    simp only [List.length_cons, List.length_append] at hn
    cases ha : applyItems l.st items with
    | error e => rw [ha] at h; cases h
    | ok s =>
      rw [ha] at h
      exact ih k { l with st := s } l' (by omega) h hf
  | @plain c a items plain rest h1 h2 _ ih =>
    intro k l l' hn h hf
    obtain ⟨k, rfl⟩ : ∃ j, k = j + 1 := ⟨k - 1, by simp at hn; omega⟩
    rw [argLoop_plain h1 h2] at h
    obtain ⟨l1, hp, h⟩ := ebind_ok h
    exact ih k l1 l' (by simpa using hn) h (plainStep_fixed hp hf)

theorem args_first {items : List Item} {plain args : List Str} (h : Args items plain args) {n v : Str} :
    ∀ {pre post : List Str} {arg : Str}, plain = pre ++ arg :: post → Defines arg n v →
    (∀ x y, v ≠ x ++ instantiated n ++ y) → (∀ p ∈ pre, ∀ w, ¬ Defines p n w) →
    ∀ (k : Nat) (l l' : Line), args.length ≤ k → l.explicit.contains n = false → argLoop k l args = .ok l' →
      Fixed n v l' := by
  induction h with
  | nil => intro pre post arg e; simp at e
  | @opt d body items items' more plain rest hd hb _ ih =>
    intro pre post arg e hdef hself hpre k l l' hn hex h
    obtain ⟨k, rfl⟩ : ∃ j, k = j + 1 := ⟨k - 1, by simp at hn; omega⟩
    rw [argLoop_opt hd, handleOption_body hb] at h
    simp only [List.length_cons, List.length_append] at hn
    cases ha : applyItems l.st items with
    | error e => rw [ha] at h; cases h
    | ok s =>
      rw [ha] at h
      exact ih e hdef hself hpre k { l with st := s } l' (by omega) hex h
  | @plain c a items plain rest h1 h2 hargs ih =>
    intro pre post arg e hdef hself hpre k l l' hn hex h
    obtain ⟨k, rfl⟩ : ∃ j, k = j + 1 := ⟨k - 1, by simp at hn; omega⟩
    rw [argLoop_plain h1 h2] at h
    obtain ⟨l1, hp, h⟩ := ebind_ok h
    cases pre with
    | nil =>
      simp only [List.nil_append, List.cons.injEq] at e
      obtain ⟨rfl, rfl⟩ := e
      exact args_fixed hargs k l1 l' (by simpa using hn) h (plainStep_fixes hdef hself hex hp)
    | cons p pre =>
      simp only [List.cons_append, List.cons.injEq] at e
      obtain ⟨rfl, e⟩ := e
      have hex1 := plainStep_explicit (hpre _ (by simp)) hp
      exact ih e hdef hself (fun q hq => hpre q (by simp [hq])) k l1 l' (by simpa using hn) (by rw [hex1]; exact hex) h

/-! ### Targets -/

theorem indexOf_none {arg : Str} (h : indexOf? ['='] arg = none) : '=' ∉ arg := by
  induction arg with
  | nil => simp
  | cons c r ih =>
    simp only [indexOf?] at h
    split at h
    · cases h
    · rename_i hp
      rw [Option.map_eq_none_iff] at h
      rintro hm
      rcases List.mem_cons.1 hm with e | hm
      · subst e; exact hp rfl
      · exact ih h hm

theorem finish_targets {l l' : Line} (h : finish l = .ok l') : l'.targets = l.targets := by
  unfold finish at h
  obtain ⟨t, _, h⟩ := ebind_ok h
  cases h
  rfl

theorem macroArg_targets {l l' : Line} {arg : Str} {idx : Nat} (h : macroArg l arg idx = .ok l') :
    l'.targets = l.targets := by
  unfold macroArg at h
  simp only at h
  split at h
  · cases h
  · obtain ⟨l1, h1, h⟩ := ebind_ok h
    have e1 : l1.targets = l.targets := by
      split at h1
      · cases h1; rfl
      · obtain ⟨t, _, h1⟩ := ebind_ok h1
        cases h1; rfl
    split at h
    · obtain ⟨t, _, h⟩ := ebind_ok h
      cases h; exact e1
    · cases h; exact e1

theorem args_targets {items : List Item} {plain args : List Str} (h : Args items plain args) :
    ∀ (k : Nat) (l l' : Line), args.length ≤ k → argLoop k l args = .ok l' →
      l'.targets = l.targets ++ ((((plain.filter fun p => decide ('=' ∉ p)).map trimmed).removeAll l.targets).eraseDups) := by
  induction h with
  | nil =>
    intro k l l' _ h
    cases k <;> (simp only [argLoop] at h; cases h; simp [List.removeAll])
  | @opt d body items items' more plain rest hd hb _ ih =>
    intro k l l' hn h
    obtain ⟨k, rfl⟩ : ∃ j, k = j + 1 := ⟨k - 1, by simp at hn; omega⟩
    rw [argLoop_opt hd, handleOption_body hb] at h
    simp only [List.length_cons, List.length_append] at hn
    cases ha : applyItems l.st items with
    | error e => rw [ha] at h; cases h
    | ok s =>
      rw [ha] at h
      exact ih k { l with st := s } l' (by omega) h
  | @plain c a items plain rest h1 h2 hargs ih =>
    intro k l l' hn h
    obtain ⟨k, rfl⟩ : ∃ j, k = j + 1 := ⟨k - 1, by simp at hn; omega⟩
    rw [argLoop_plain h1 h2] at h
    obtain ⟨l1, hp, h⟩ := ebind_ok h
    rw [ih k l1 l' (by simpa using hn) h]
    unfold plainStep at hp
    cases hi : indexOf? ['='] (c :: a) with
    | some idx =>
      have hmem : '=' ∈ c :: a := by rw [(indexOf_eq hi).1]; simp
      rw [hi] at hp
      rw [macroArg_targets hp, List.filter_cons_of_neg (by simp only [hmem, not_true, decide_false]; decide)]
    | none =>
      have hmem : '=' ∉ c :: a := indexOf_none hi
      rw [hi] at hp
      cases hp
      rw [List.filter_cons_of_pos (by simpa using hmem), List.map_cons]
      by_cases hc : l.targets.contains (trimmed (c :: a)) = true
      · simp only [hc, if_true]
        simp only [List.removeAll, List.elem_eq_contains, hc, Bool.not_true, Bool.false_eq_true, not_false_eq_true,
          List.filter_cons_of_neg]
      · simp only [hc, Bool.false_eq_true, if_false, List.append_assoc]
        simp only [Bool.not_eq_true] at hc
        simp only [List.removeAll, List.elem_eq_contains, List.filter_cons, hc, Bool.not_false, if_true,
          List.eraseDups_cons, List.singleton_append, List.filter_filter]
        congr 3
        apply List.filter_congr
        intro x _
        have e : (x == trimmed (c :: a)) = decide (x = trimmed (c :: a)) := by
          by_cases hx : x = trimmed (c :: a) <;> simp [hx]
        simp [Bool.and_comm, e]

end Jom.Cmd
