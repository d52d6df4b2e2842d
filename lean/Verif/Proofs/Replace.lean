import Verif.Proofs.MacroEquiv

/-! Helper lemmas about `QString::replace` and substitution statements. -/

namespace Jom
open Spec

theorem isPrefixOf_iff_append {p s : Str} : p.isPrefixOf s = true ↔ ∃ t, s = p ++ t := by
  rw [List.isPrefixOf_iff_prefix]
  exact ⟨fun ⟨t, h⟩ => ⟨t, h.symm⟩, fun ⟨t, h⟩ => ⟨t, h.symm⟩⟩

theorem replaceGo_skip (b a x s : Str) : replaceGo b a x.length (x ++ s) = replaceGo b a 0 s := by
  induction x with
  | nil => simp
  | cons c x ih => simpa [replaceGo] using ih

/-- `replaceGo` performs leftmost non-overlapping replacement. -/
theorem replaceGo_spec (b a : Str) (hb : b ≠ []) : ∀ (k : Nat) (s : Str), s.length ≤ k →
    ∀ x : Str, (∀ x' y', x ++ s = x' ++ b ++ y' → x.length ≤ x'.length) →
      Replaces b a (x ++ s) (x ++ replaceGo b a 0 s) := by
  intro k
  induction k with
  | zero =>
    intro s hs x hx
    have : s = [] := List.eq_nil_of_length_eq_zero (by omega)
    subst this
    simp only [List.append_nil, replaceGo] at hx ⊢
    refine .none ?_
    intro x' y' e
    have h1 := hx x' y' e
    have h2 := congrArg List.length e
    have h3 : b.length ≠ 0 := by simpa using hb
    simp at h2; omega
  | succ k ih =>
    intro s hs x hx
    cases s with
    | nil =>
      simp only [List.append_nil, replaceGo] at hx ⊢
      refine .none ?_
      intro x' y' e
      have h1 := hx x' y' e
      have h2 := congrArg List.length e
      have h3 : b.length ≠ 0 := by simpa using hb
      simp at h2; omega
    | cons c s =>
      unfold replaceGo
      split
      · rename_i hp
        obtain ⟨t, ht⟩ := isPrefixOf_iff_append.1 hp
        obtain ⟨b0, b', rfl⟩ := List.exists_cons_of_ne_nil hb
        have hs' : s = b' ++ t := by simpa using (List.cons.inj ht).2
        rw [ht]
        have hgo : replaceGo (b0 :: b') a ((b0 :: b').length - 1) s = replaceGo (b0 :: b') a 0 t := by
          rw [hs']; simpa using replaceGo_skip (b0 :: b') a b' t
        rw [hgo]
        have := ih t (by rw [hs'] at hs; simp at hs; omega) [] (by simp)
        simp only [List.nil_append] at this
        rw [← List.append_assoc, ← List.append_assoc]
        exact Replaces.some (by rw [ht, ← List.append_assoc] at hx; exact hx) this
      · rename_i hp
        have e : x ++ c :: replaceGo b a 0 s = (x ++ [c]) ++ replaceGo b a 0 s := by simp
        have e' : x ++ c :: s = (x ++ [c]) ++ s := by simp
        rw [e, e']
        apply ih s (by simp at hs; omega)
        intro x' y' heq
        have h1 := hx x' y' (by rw [e']; exact heq)
        rcases Nat.lt_or_ge x.length x'.length with h | h
        · simp; omega
        · exfalso
          have hl : x.length = x'.length := by omega
          rw [List.append_assoc, List.append_assoc] at heq
          have := List.append_inj heq hl
          apply hp
          rw [isPrefixOf_iff_append]
          exact ⟨y', by simpa using this.2⟩

theorem replaceAll_spec (b a s : Str) (hb : b ≠ []) : Replaces b a s (replaceAll b a s) := by
  have h : b.isEmpty = false := by simpa using hb
  have := replaceGo_spec b a hb s.length s (Nat.le_refl _) [] (by simp)
  simpa [replaceAll, h] using this

/-- `Replaces` is functional, so it determines the result. -/
theorem replaces_det {b a : Str} {s t : Str} (H : Replaces b a s t) :
    ∀ {t'}, Replaces b a s t' → t = t' := by
  induction H with
  | none h =>
    intro t' H'
    cases H' with
    | none _ => rfl
    | some _ _ => exact absurd rfl (h _ _)
  | @some x s t h1 _ ih =>
    intro t' H'
    generalize hS : x ++ b ++ s = S at H'
    cases H' with
    | none h => exact absurd hS.symm (h _ _)
    | @some x2 s2 t2 h2 D =>
      have l1 := h1 x2 s2 hS
      have l2 := h2 x s hS.symm
      have hl : x.length = x2.length := by omega
      rw [List.append_assoc, List.append_assoc] at hS
      obtain ⟨rfl, h⟩ := List.append_inj hS hl
      have := List.append_cancel_left h
      subst this
      rw [ih D]

/-! ### The quoting of substitution statements -/

/-- Positions of `^`, last one first, starting with index `i`. -/
def carets : Str → Nat → List Nat
  | [], _ => []
  | c :: s, i => carets s (i + 1) ++ (if c == '^' then [i] else [])

theorem scanSubst_carets (st : Str) (i : Nat) (eq : Option Nat) (q : Bool) (qs : List Nat)
    (h : quotedOK q st = true) : (scanSubst st i eq q qs).2.2 = carets st i ++ qs := by
  induction st generalizing i eq q qs with
  | nil => simp [scanSubst, carets]
  | cons c st ih =>
    unfold scanSubst
    unfold quotedOK at h
    split at h
    · rename_i heq; simp at heq
    · rename_i s heq
      simp only [List.cons.injEq] at heq
      obtain ⟨rfl, rfl⟩ := heq
      simp only [Bool.and_eq_true] at h
      have h1 : (')' == '=') = false := by decide
      have h2 : (')' == '^') = false := by decide
      simp only [h1, h2, h.1, Bool.false_eq_true, if_false, Bool.not_true, Bool.and_false]
      rw [ih _ _ _ _ h.2]
      simp [carets]
    · rename_i c' s hne heq
      simp only [List.cons.injEq] at heq
      obtain ⟨rfl, rfl⟩ := heq
      have hc : (c == ')') = false := by
        simp only [beq_eq_false_iff_ne, ne_eq]
        intro e
        exact hne e
      simp only [hc, Bool.false_and, Bool.false_eq_true, if_false]
      split
      · rename_i he
        have : c ≠ '^' := by rintro rfl; revert he; decide
        have hf : (c == '^') = false := by simpa using this
        rw [hf] at h
        rw [ih _ _ _ _ h]
        simp [carets, this]
      · split
        · rename_i hcar
          rw [hcar] at h
          rw [ih _ _ _ _ h]
          simp [carets, hcar]
        · rename_i hcar
          have hf : (c == '^') = false := by simpa using hcar
          rw [hf] at h
          rw [ih _ _ _ _ h]
          simp [carets, hcar]

theorem carets_noCaret {s : Str} (h : '^' ∉ s) (i : Nat) : carets s i = [] := by
  induction s generalizing i with
  | nil => rfl
  | cons c s ih =>
    simp only [List.mem_cons, not_or] at h
    have : c ≠ '^' := fun e => h.1 e.symm
    simp [carets, ih h.2, this]

theorem carets_append (s t : Str) (i : Nat) : carets (s ++ t) i = carets t (i + s.length) ++ carets s i := by
  induction s generalizing i with
  | nil => simp [carets]
  | cons c s ih =>
    simp only [List.cons_append, carets, ih, List.length_cons, List.append_assoc]
    congr 2
    omega

/-- Removing the carets one by one from the end is filtering. -/
theorem foldl_removeAt1 (raw : Str) (pre : Str) (q : Nat) :
    (carets raw (q + 1 + pre.length)).foldl
      (fun (a : Str) (p : Nat) => removeAt1 a ((p : Int) - q - 1)) (pre ++ raw) =
    pre ++ raw.filter (· != '^') := by
  induction raw generalizing pre with
  | nil => simp [carets]
  | cons c raw ih =>
    have e : pre ++ c :: raw = (pre ++ [c]) ++ raw := by simp
    have hlen : q + 1 + (pre ++ [c]).length = q + 1 + pre.length + 1 := by simp; omega
    have := ih (pre ++ [c])
    rw [hlen] at this
    simp only [carets, List.foldl_append]
    rw [e, this]
    by_cases hc : c = '^'
    · subst hc
      simp only [beq_self_eq_true, if_true, List.foldl_cons, List.foldl_nil, removeAt1]
      have h1 : ((q + 1 + pre.length : Nat) : Int) - q - 1 = pre.length := by omega
      rw [h1]
      have h2 : ¬ ((pre.length : Int) < 0) := by omega
      simp only [h2, if_false]
      have h3 : ¬ ((pre.length : Int) < 0 ∨
          (((pre ++ ['^'] ++ List.filter (fun x => x != '^') raw).length : Nat) : Int) ≤ pre.length) := by
        simp; omega
      rw [if_neg (by simpa using h3)]
      rw [show pre ++ ['^'] ++ List.filter (fun x => x != '^') raw =
        pre ++ ('^' :: List.filter (fun x => x != '^') raw) by simp]
      rw [List.eraseIdx_append_of_length_le (by simp)]
      simp
    · simp [hc]

theorem scanSubst_lastEq (b raw : Str) (i : Nat) (eq : Option Nat) (q : Bool) (qs : List Nat)
    (h : quotedOK q (b ++ '=' :: raw) = true) (hraw : '=' ∉ raw) :
    (scanSubst (b ++ '=' :: raw) i eq q qs).2.1 = some (i + b.length) := by
  induction b generalizing i eq q qs with
  | nil =>
    simp only [List.nil_append, scanSubst, beq_self_eq_true, if_true, List.length_nil, Nat.add_zero]
    have hq : quotedOK false raw = true := by simpa [quotedOK] using h
    clear h
    generalize false = q at hq
    generalize hj : i + 1 = j
    clear hj
    induction raw generalizing j q qs with
    | nil => simp [scanSubst]
    | cons c raw ih =>
      simp only [List.mem_cons, not_or] at hraw
      have hne : (c == '=') = false := by simpa using fun e => hraw.1 e.symm
      unfold scanSubst
      unfold quotedOK at hq
      split at hq
      · rename_i heq; simp at heq
      · rename_i s heq
        simp only [List.cons.injEq] at heq
        obtain ⟨rfl, rfl⟩ := heq
        simp only [Bool.and_eq_true] at hq
        have h2 : (')' == '^') = false := by decide
        simp only [hne, h2, hq.1, Bool.false_eq_true, if_false, Bool.not_true, Bool.and_false]
        exact ih hraw.2 _ _ hq.2 _
      · rename_i c' s hn heq
        simp only [List.cons.injEq] at heq
        obtain ⟨rfl, rfl⟩ := heq
        have hc : (c == ')') = false := by
          simp only [beq_eq_false_iff_ne, ne_eq]
          intro e; exact hn e
        simp only [hne, hc, Bool.false_and, Bool.false_eq_true, if_false]
        split
        · rename_i hcar
          rw [hcar] at hq
          exact ih hraw.2 _ _ hq _
        · rename_i hcar
          have hf : (c == '^') = false := by simpa using hcar
          rw [hf] at hq
          exact ih hraw.2 _ _ hq _
  | cons c b ih =>
    simp only [List.cons_append] at h ⊢
    unfold scanSubst
    unfold quotedOK at h
    split at h
    · rename_i heq; simp at heq
    · rename_i s heq
      simp only [List.cons.injEq] at heq
      obtain ⟨rfl, rfl⟩ := heq
      simp only [Bool.and_eq_true] at h
      have h1 : (')' == '=') = false := by decide
      have h2 : (')' == '^') = false := by decide
      simp only [h1, h2, h.1, Bool.false_eq_true, if_false, Bool.not_true, Bool.and_false]
      rw [ih _ _ _ _ h.2]
      simp; omega
    · rename_i c' s hne heq
      simp only [List.cons.injEq] at heq
      obtain ⟨rfl, rfl⟩ := heq
      have hc : (c == ')') = false := by
        simp only [beq_eq_false_iff_ne, ne_eq]
        intro e; exact hne e
      simp only [hc, Bool.false_and, Bool.false_eq_true, if_false]
      split
      · rename_i he
        have : c ≠ '^' := by rintro rfl; revert he; decide
        have hf : (c == '^') = false := by simpa using this
        rw [hf] at h
        rw [ih _ _ _ _ h]
        simp; omega
      · split
        · rename_i hcar
          rw [hcar] at h
          rw [ih _ _ _ _ h]
          simp; omega
        · rename_i hcar
          have hf : (c == '^') = false := by simpa using hcar
          rw [hf] at h
          rw [ih _ _ _ _ h]
          simp; omega

/-- A substitution statement without `^` in front of its last `=`. -/
theorem parseSubst_plain (b raw rest : Str) (hq : quotedOK false (b ++ '=' :: raw) = true)
    (hraw : '=' ∉ raw) (hb : '^' ∉ b) :
    parseSubst (b ++ '=' :: raw ++ ')' :: rest) =
      .ok ({ before := b, after := raw.filter (· != '^') }, rest) := by
  unfold parseSubst
  rw [scanSubst_stmt _ rest 0 none false [] hq]
  have h1 := scanSubst_lastEq b raw 0 none false [] hq hraw
  have h2 := scanSubst_carets (b ++ '=' :: raw) 0 none false [] hq
  have : (scanSubst (b ++ '=' :: raw) 0 none false []).2 =
      (some b.length, carets raw (b.length + 1)) := by
    rw [← Prod.eta (scanSubst (b ++ '=' :: raw) 0 none false []).2, h1, h2]
    have hce : ('=' == '^') = false := by decide
    simp [carets_append, carets, carets_noCaret hb]
  rw [this]
  simp only [Except.ok.injEq, Prod.mk.injEq, Substitution.mk.injEq, Nat.zero_add]
  refine ⟨⟨?_, ?_⟩, ?_⟩
  · simp [List.append_assoc]
  · have hd : (b ++ '=' :: raw ++ ')' :: rest).drop (b.length + 1) = raw ++ ')' :: rest := by
      rw [List.append_assoc, List.drop_append]; simp
    rw [hd]
    have ht : (raw ++ ')' :: rest).take ((b ++ '=' :: raw).length - b.length - 1) = raw := by
      have hl : (b ++ '=' :: raw).length - b.length - 1 = raw.length := by
        simp only [List.length_append, List.length_cons]; omega
      rw [hl, List.take_left']
      rfl
    rw [ht]
    have := foldl_removeAt1 raw [] b.length
    simpa using this
  · rw [show b ++ '=' :: raw ++ ')' :: rest = (b ++ '=' :: raw ++ [')']) ++ rest by simp]
    rw [List.drop_left' (by simp; omega)]

end Jom
