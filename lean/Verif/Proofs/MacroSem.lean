import Verif.Proofs.MacroFuel
import Verif.Spec.Macro

/-! Helper lemmas: one-step equations of `expandU` and its equivalence with the big-step semantics. -/

namespace Jom
open Spec

theorem expandU_succ (m : Macros) (dep : Bool) (used : List Str) (s : Str) :
    expandU m dep used s = expandF m dep (need m used s + 1) used s :=
  (expandF_eq_expandU m dep _ used s (by omega)).symm

@[simp] theorem expandU_nil (m : Macros) (dep : Bool) (used : List Str) :
    expandU m dep used [] = .ok [] := by
  rw [expandU_succ]; simp [expandF]

@[simp] theorem expandU_single (m : Macros) (dep : Bool) (used : List Str) (c : Char) :
    expandU m dep used [c] = .ok [c] := by
  rw [expandU_succ]; simp [expandF]

theorem expandU_lit (m : Macros) (dep : Bool) (used : List Str) (c : Char) (s : Str) (hc : c ≠ '$') :
    expandU m dep used (c :: s) = (expandU m dep used s >>= fun r => .ok (c :: r)) := by
  match s with
  | [] => simp [bind, Except.bind]
  | d :: s =>
    rw [expandU_succ]
    unfold expandF
    simp only [bne_iff_ne, ne_eq, hc, not_false_eq_true, if_true]
    rw [expandF_eq_expandU]
    simp [need]

theorem expandU_noClosing (m : Macros) (dep : Bool) (used : List Str) (s : Str) (h : ')' ∉ s) :
    expandU m dep used ('$' :: '(' :: s) = .error .noClosing := by
  rw [expandU_succ]; unfold expandF
  simp [splitClose_none h]

theorem takeWhile_noColon {n rest : Str} (h : ':' ∉ n) :
    (n ++ ':' :: rest).takeWhile (· != ':') = n := by
  induction n with
  | nil => simp
  | cons c n ih =>
    simp only [List.mem_cons, not_or] at h
    have : c ≠ ':' := fun e => h.1 e.symm
    simp [this, ih h.2]

theorem takeWhile_noColon' {n : Str} (h : ':' ∉ n) : n.takeWhile (· != ':') = n := by
  induction n with
  | nil => simp
  | cons c n ih =>
    simp only [List.mem_cons, not_or] at h
    have : c ≠ ':' := fun e => h.1 e.symm
    simp [this, ih h.2]

theorem isFileMacroChar_iff (c : Char) : isFileMacroChar c = true ↔ c ∈ fileStart := by
  simp [isFileMacroChar, fileStart]; grind

theorem expandU_fileParen (m : Macros) (dep : Bool) (used : List Str) (t s : Str)
    (h1 : ∃ c r, t = c :: r ∧ c ∈ fileStart) (h2 : ')' ∉ t) :
    expandU m dep used ('$' :: '(' :: (t ++ ')' :: s)) =
      (expandU m dep used s >>= fun r => .ok (magicEscape :: '(' :: (t ++ ')' :: r))) := by
  obtain ⟨c, r, rfl, hc⟩ := h1
  rw [expandU_succ]; unfold expandF
  have hcol : c ≠ ':' := by rintro rfl; simp [fileStart] at hc
  have htw : (c :: r).takeWhile (· != ':') = c :: r.takeWhile (· != ':') := by simp [hcol]
  simp only [splitClose_append s h2, htw]
  simp only [(isFileMacroChar_iff c).2 hc]
  rw [expandF_eq_expandU m dep _ used s]
  · simp
  · simp [need] <;> omega

theorem expandU_ref (m : Macros) (dep : Bool) (used : List Str) (n s : Str) (hn : NameOK n) :
    expandU m dep used ('$' :: '(' :: (n ++ ')' :: s)) =
      if n ∈ used then .error (.cycle n)
      else (do
        let v ← expandU m dep (n :: used) (macroValue m n)
        let r ← expandU m dep used s
        .ok (v ++ r)) := by
  obtain ⟨⟨c, r, rfl, hc⟩, hcol, hpar⟩ := hn
  rw [expandU_succ]; unfold expandF
  have hf : isFileMacroChar c = false := by
    cases h : isFileMacroChar c with
    | false => rfl
    | true => exact absurd ((isFileMacroChar_iff c).1 h) hc
  have hcont : (c :: r).contains ':' = false := by
    simpa using hcol
  simp only [splitClose_append s hpar, takeWhile_noColon' hcol, hf, hcont]
  by_cases hu : (c :: r) ∈ used
  · simp [hu]
  · rw [expandF_eq_expandU m dep _ used s, expandF_eq_expandU m dep _ ((c :: r) :: used)]
    · simp [hu]
    · have := need_value m used _ hu
      simp only [need, List.length_cons] at this ⊢
      omega
    · simp [need] <;> omega

theorem expandU_sub (m : Macros) (dep : Bool) (used : List Str) (n t : Str) (hn : NameOK n)
    (ht : ')' ∈ t) :
    expandU m dep used ('$' :: '(' :: (n ++ ':' :: t)) =
      if n ∈ used then .error (.cycle n)
      else (do
        let v ← expandU m dep (n :: used) (macroValue m n)
        let (sub, rest) ← parseSubst t
        let r ← expandU m dep used rest
        .ok (applySubst sub v ++ r)) := by
  obtain ⟨⟨c, r, rfl, hc⟩, hcol, hpar⟩ := hn
  obtain ⟨t1, t2, rfl, ht1⟩ : ∃ t1 t2, t = t1 ++ ')' :: t2 ∧ ')' ∉ t1 := by
    obtain ⟨t1, t2, h1, h2⟩ := List.eq_append_cons_of_mem ht
    exact ⟨t1, t2, h1, h2⟩
  rw [expandU_succ]; unfold expandF
  have hf : isFileMacroChar c = false := by
    cases h : isFileMacroChar c with
    | false => rfl
    | true => exact absurd ((isFileMacroChar_iff c).1 h) hc
  have e : (c :: r) ++ ':' :: (t1 ++ ')' :: t2) = ((c :: r) ++ ':' :: t1) ++ ')' :: t2 := by simp
  have hp : ')' ∉ ((c :: r) ++ ':' :: t1) := by
    simp only [List.mem_append, List.mem_cons, not_or]
    simp only [List.mem_cons, not_or] at hpar
    exact ⟨hpar, by decide, ht1⟩
  have hcont : ((c :: r) ++ ':' :: t1).contains ':' = true := by simp
  have hdrop : ((c :: r) ++ ':' :: (t1 ++ ')' :: t2)).drop ((c :: r).length + 1) = t1 ++ ')' :: t2 := by
    rw [List.drop_append]; simp
  have hs : splitClose ((c :: r) ++ ':' :: (t1 ++ ')' :: t2)) = some ((c :: r) ++ ':' :: t1, t2) := by
    rw [e, splitClose_append t2 hp]
  simp only [hs, takeWhile_noColon hcol, hf, hcont]
  by_cases hu : (c :: r) ∈ used
  · simp [hu]
  · rw [expandF_eq_expandU m dep _ ((c :: r) :: used)]
    · simp only [hu]
      simp only [Bool.false_eq_true, if_false, if_true, bne_self_eq_false, beq_self_eq_true]
      congr 1
      funext v
      rw [hdrop]
      cases hps : parseSubst (t1 ++ ')' :: t2) with
      | error e => rfl
      | ok p =>
        obtain ⟨sub, rest⟩ := p
        simp only [bind, Except.bind]
        rw [expandF_eq_expandU]
        have := parseSubst_length hps
        simp [need] at this ⊢
        omega
    · have := need_value m used _ hu
      simp only [need, List.length_cons] at this ⊢
      omega

theorem expandU_dollar (m : Macros) (dep : Bool) (used : List Str) (s : Str) (h : dollarOK dep s) :
    expandU m dep used ('$' :: '$' :: s) = (expandU m dep used s >>= fun r => .ok ('$' :: r)) := by
  rw [expandU_succ]; unfold expandF
  simp only [bne_self_eq_false, Bool.false_eq_true, if_false]
  have : ('$' == '(') = false := by decide
  simp only [this, Bool.false_eq_true, if_false, beq_self_eq_true, if_true]
  split
  · exact absurd rfl ((h rfl).1 _)
  · exact absurd rfl ((h rfl).2 _)
  · rw [expandF_eq_expandU]; simp [need] <;> omega

theorem expandU_depAt (m : Macros) (used : List Str) (s : Str) :
    expandU m true used ('$' :: '$' :: '@' :: s) =
      (expandU m true used s >>= fun r => .ok (magicEscape :: '@' :: r)) := by
  rw [expandU_succ]; unfold expandF
  have : ('$' == '(') = false := by decide
  simp only [bne_self_eq_false, this, Bool.false_eq_true, if_false, beq_self_eq_true, if_true]
  rw [expandF_eq_expandU]; simp [need] <;> omega

theorem expandU_depAtP (m : Macros) (used : List Str) (s : Str) :
    expandU m true used ('$' :: '$' :: '(' :: '@' :: s) =
      (expandU m true used s >>= fun r => .ok (magicEscape :: '(' :: '@' :: r)) := by
  rw [expandU_succ]; unfold expandF
  have : ('$' == '(') = false := by decide
  simp only [bne_self_eq_false, this, Bool.false_eq_true, if_false, beq_self_eq_true, if_true]
  rw [expandF_eq_expandU]; simp [need] <;> omega

theorem letter_not_special {d : Char} (h : isLetterOrNumber d = true) : d ≠ '(' ∧ d ≠ '$' := by
  constructor <;> rintro rfl <;> revert h <;> decide

theorem expandU_char (m : Macros) (dep : Bool) (used : List Str) (d : Char) (s : Str)
    (h : isLetterOrNumber d = true) :
    expandU m dep used ('$' :: d :: s) =
      if [d] ∈ used then .error (.cycle [d])
      else (do
        let v ← expandU m dep ([d] :: used) (macroValue m [d])
        let r ← expandU m dep used s
        .ok (v ++ r)) := by
  rw [expandU_succ]; unfold expandF
  have h1 : (d == '(') = false := by simpa using (letter_not_special h).1
  have h2 : (d == '$') = false := by simpa using (letter_not_special h).2
  simp only [bne_self_eq_false, h1, h2, h, Bool.false_eq_true, if_false, if_true]
  by_cases hu : [d] ∈ used
  · simp [hu]
  · rw [expandF_eq_expandU m dep _ used s, expandF_eq_expandU m dep _ ([d] :: used)]
    · have := need_value m used _ hu
      simp only [need, List.length_cons] at this ⊢
      omega
    · simp [need] <;> omega

theorem expandU_fileChar (m : Macros) (dep : Bool) (used : List Str) (d : Char) (s : Str)
    (h : d ∈ fileStart) :
    expandU m dep used ('$' :: d :: s) =
      (expandU m dep used s >>= fun r => .ok (magicEscape :: d :: r)) := by
  rw [expandU_succ]; unfold expandF
  have h0 := (isFileMacroChar_iff d).2 h
  have h1 : (d == '(') = false ∧ (d == '$') = false ∧ isLetterOrNumber d = false := by
    simp only [fileStart, List.mem_cons, List.not_mem_nil, or_false] at h
    rcases h with rfl | rfl | rfl | rfl <;> decide
  simp only [bne_self_eq_false, h1.1, h1.2.1, h1.2.2, h0, Bool.false_eq_true, if_false, if_true]
  rw [expandF_eq_expandU]; simp [need] <;> omega

theorem expandU_invalid (m : Macros) (dep : Bool) (used : List Str) (d : Char) (s : Str)
    (h1 : d ≠ '(') (h2 : d ≠ '$') (h3 : isLetterOrNumber d = false) (h4 : d ∉ fileStart) :
    expandU m dep used ('$' :: d :: s) = .error .invalid := by
  rw [expandU_succ]; unfold expandF
  have h5 : isFileMacroChar d = false := by
    cases h : isFileMacroChar d with
    | false => rfl
    | true => exact absurd ((isFileMacroChar_iff d).1 h) h4
  simp [h1, h2, h3, h5]

theorem expandU_noName (m : Macros) (dep : Bool) (used : List Str) (inner after : Str)
    (h1 : ')' ∉ inner) (h2 : inner.takeWhile (· != ':') = []) :
    expandU m dep used ('$' :: '(' :: (inner ++ ')' :: after)) = .error .noName := by
  rw [expandU_succ]; unfold expandF
  simp [splitClose_append after h1, h2]

/-! ### Substitution statements -/

theorem scanSubst_stmt (st rest : Str) (i : Nat) (eq : Option Nat) (q : Bool) (qs : List Nat)
    (h : quotedOK q st = true) :
    scanSubst (st ++ ')' :: rest) i eq q qs = (some (i + st.length), (scanSubst st i eq q qs).2) := by
  induction st generalizing i eq q qs with
  | nil =>
    simp only [quotedOK, Bool.not_eq_true'] at h
    simp [scanSubst, h]
  | cons c st ih =>
    unfold quotedOK at h
    split at h
    · rename_i heq; simp at heq
    · rename_i s heq
      simp only [List.cons.injEq] at heq
      obtain ⟨rfl, rfl⟩ := heq
      simp only [Bool.and_eq_true] at h
      have h1 : (')' == '=') = false := by decide
      have h2 : (')' == '^') = false := by decide
      simp only [List.cons_append, scanSubst, h1, h2, h.1, Bool.false_eq_true, if_false, Bool.not_true,
        Bool.and_false]
      rw [ih _ _ _ _ h.2]
      simp only [List.length_cons, Prod.mk.injEq, Option.some.injEq, and_true]
      omega
    · rename_i c' s hne heq
      simp only [List.cons.injEq] at heq
      obtain ⟨rfl, rfl⟩ := heq
      have hc : (c == ')') = false := by
        simp only [beq_eq_false_iff_ne, ne_eq]
        intro e
        exact hne e
      simp only [List.cons_append, scanSubst, hc, Bool.false_and, Bool.false_eq_true, if_false]
      split
      · rename_i he
        have : c ≠ '^' := by rintro rfl; revert he; decide
        have hf : (c == '^') = false := by simpa using this
        rw [hf] at h
        rw [ih _ _ _ _ h]
        simp; omega
      · split
        · rename_i he
          rw [he] at h
          rw [ih _ _ _ _ h]
          simp; omega
        · rename_i he
          have hf : (c == '^') = false := by simpa using he
          rw [hf] at h
          rw [ih _ _ _ _ h]
          simp; omega

theorem scanSubst_some {t : Str} {i : Nat} {eq : Option Nat} {q : Bool} {qs : List Nat} {e : Nat}
    {eq' : Option Nat} {qs' : List Nat} (h : scanSubst t i eq q qs = (some e, eq', qs')) :
    ∃ st rest, t = st ++ ')' :: rest ∧ e = i + st.length ∧ quotedOK q st = true := by
  induction t generalizing i eq q qs with
  | nil => simp [scanSubst] at h
  | cons c t ih =>
    unfold scanSubst at h
    split at h
    · rename_i hc
      obtain ⟨st, rest, rfl, rfl, hq⟩ := ih h
      refine ⟨c :: st, rest, by simp, by simp; omega, ?_⟩
      simp only [beq_iff_eq] at hc
      subst hc
      simpa [quotedOK] using hq
    · split at h
      · rename_i hc
        simp only [Bool.and_eq_true, beq_iff_eq, Bool.not_eq_true'] at hc
        simp only [Prod.mk.injEq, Option.some.injEq] at h
        exact ⟨[], t, by simp [hc.1], by simp [h.1], by simp [quotedOK, hc.2]⟩
      · rename_i hc
        split at h
        · rename_i hcar
          obtain ⟨st, rest, rfl, rfl, hq⟩ := ih h
          refine ⟨c :: st, rest, by simp, by simp; omega, ?_⟩
          simp only [beq_iff_eq] at hcar
          subst hcar
          simpa [quotedOK] using hq
        · rename_i hcar
          obtain ⟨st, rest, rfl, rfl, hq⟩ := ih h
          refine ⟨c :: st, rest, by simp, by simp; omega, ?_⟩
          by_cases hp : c = ')'
          · subst hp
            simp only [beq_self_eq_true, Bool.true_and, Bool.not_eq_true', Bool.not_eq_false] at hc
            simp [quotedOK, hc, hq]
          · have hf : (c == '^') = false := by simpa using hcar
            unfold quotedOK
            split
            · rename_i heq; simp at heq
            · rename_i s heq; simp only [List.cons.injEq] at heq; exact absurd heq.1 hp
            · rename_i heq
              simp only [List.cons.injEq] at heq
              rw [← heq.1, ← heq.2, hf]; exact hq

theorem scanSubst_eq (st : Str) (i : Nat) (eq : Option Nat) (q : Bool) (qs : List Nat) :
    (scanSubst st i eq q qs).2.1 = eq ∨
      ∃ k, (scanSubst st i eq q qs).2.1 = some k ∧ i ≤ k ∧ k < i + st.length := by
  induction st generalizing i eq q qs with
  | nil => simp [scanSubst]
  | cons c st ih =>
    unfold scanSubst
    split
    · rcases ih (i + 1) (some i) false qs with h | ⟨k, h, h1, h2⟩
      · exact Or.inr ⟨i, h, by omega, by simp⟩
      · exact Or.inr ⟨k, h, by omega, by simp; omega⟩
    · split
      · exact Or.inl rfl
      · split
        · rcases ih (i + 1) eq true (i :: qs) with h | ⟨k, h, h1, h2⟩
          · exact Or.inl h
          · exact Or.inr ⟨k, h, by omega, by simp; omega⟩
        · rcases ih (i + 1) eq false qs with h | ⟨k, h, h1, h2⟩
          · exact Or.inl h
          · exact Or.inr ⟨k, h, by omega, by simp; omega⟩

theorem scanSubst_isSome (st : Str) (i : Nat) (eq : Option Nat) (q : Bool) (qs : List Nat)
    (hq : quotedOK q st = true) :
    (scanSubst st i eq q qs).2.1.isSome = true ↔ (eq.isSome = true ∨ '=' ∈ st) := by
  induction st generalizing i eq q qs with
  | nil => simp [scanSubst]
  | cons c st ih =>
    unfold scanSubst
    unfold quotedOK at hq
    split at hq
    · rename_i heq; simp at heq
    · rename_i s heq
      simp only [List.cons.injEq] at heq
      obtain ⟨rfl, rfl⟩ := heq
      simp only [Bool.and_eq_true] at hq
      have h1 : (')' == '=') = false := by decide
      have h2 : (')' == '^') = false := by decide
      have h3 : ¬ ('=' = ')') := by decide
      simp only [h1, h2, hq.1, Bool.false_eq_true, if_false, Bool.not_true, Bool.and_false]
      rw [ih _ _ _ _ hq.2]
      simp
    · rename_i c' s hne heq
      simp only [List.cons.injEq] at heq
      obtain ⟨rfl, rfl⟩ := heq
      have hc : (c == ')') = false := by
        simp only [beq_eq_false_iff_ne, ne_eq]
        intro e
        exact hne e
      simp only [hc, Bool.false_and, Bool.false_eq_true, if_false]
      split
      · rename_i he
        simp only [beq_iff_eq] at he
        subst he
        rw [ih _ _ _ _ (by simpa using hq)]
        simp
      · rename_i he
        have he' : ¬ ('=' = c) := fun e => he (by simp [← e])
        split
        · rename_i hcar
          rw [hcar] at hq
          rw [ih _ _ _ _ hq]
          simp [he']
        · rename_i hcar
          have hf : (c == '^') = false := by simpa using hcar
          rw [hf] at hq
          rw [ih _ _ _ _ hq]
          simp [he']

/-- The effect of a substitution statement according to the model. -/
def substEffect (st v : Str) : Str :=
  match parseSubst (st ++ [')']) with
  | .ok (sub, _) => applySubst sub v
  | .error _ => v

theorem parseSubst_stmt (st rest : Str) (hq : quotedOK false st = true) (he : '=' ∈ st) :
    ∃ sub, parseSubst (st ++ ')' :: rest) = .ok (sub, rest) ∧
      ∀ v, applySubst sub v = substEffect st v := by
  have hs := (scanSubst_isSome st 0 none false [] hq).2 (Or.inr he)
  obtain ⟨q, hqq⟩ := Option.isSome_iff_exists.1 hs
  have hlt : q < st.length := by
    rcases scanSubst_eq st 0 none false [] with h | ⟨k, h, h1, h2⟩
    · rw [hqq] at h; cases h
    · rw [hqq] at h; cases h; omega
  have e1 : ∀ rest, parseSubst (st ++ ')' :: rest) = .ok
      ({ before := st.take q,
         after := (scanSubst st 0 none false []).2.2.foldl
            (fun (a : Str) (p : Nat) => removeAt1 a ((p : Int) - q - 1)) ((st.drop (q + 1)).take (st.length - q - 1)) }, rest) := by
    intro rest
    unfold parseSubst
    rw [scanSubst_stmt st rest 0 none false [] hq]
    have : (scanSubst st 0 none false []).2 = (some q, (scanSubst st 0 none false []).2.2) := by
      rw [← hqq]
    rw [this]
    simp only [Except.ok.injEq, Prod.mk.injEq, Substitution.mk.injEq, Nat.zero_add]
    refine ⟨⟨?_, ?_⟩, ?_⟩
    · rw [List.take_append_of_le_length (by omega)]
    · congr 1
      rw [List.drop_append_of_le_length (by omega), List.take_append_of_le_length (by simp; omega)]
    · rw [show st ++ ')' :: rest = (st ++ [')']) ++ rest by simp]
      rw [List.drop_left' (by simp)]
  refine ⟨_, e1 rest, ?_⟩
  intro v
  unfold substEffect
  rw [e1 []]

theorem parseSubst_ok {t : Str} {sub : Substitution} {rest : Str} (h : parseSubst t = .ok (sub, rest)) :
    ∃ st, t = st ++ ')' :: rest ∧ quotedOK false st = true ∧ '=' ∈ st := by
  unfold parseSubst at h
  split at h
  · rename_i e q qs hs
    obtain ⟨st, rest', rfl, rfl, hq⟩ := scanSubst_some hs
    simp only [Except.ok.injEq, Prod.mk.injEq] at h
    have hr : rest = rest' := by
      rw [← h.2, show st ++ ')' :: rest' = (st ++ [')']) ++ rest' by simp]
      rw [List.drop_left' (by simp)]
    subst hr
    refine ⟨st, rfl, hq, ?_⟩
    have h1 : (scanSubst st 0 none false []).2.1 = some q := by
      rw [scanSubst_stmt st rest 0 none false [] hq] at hs
      simp only [Prod.mk.injEq] at hs
      rw [hs.2]
    have h2 := (scanSubst_isSome st 0 none false [] hq).1 (by rw [h1]; rfl)
    simpa using h2
  · cases h

end Jom
