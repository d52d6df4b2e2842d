/-
Preprocessor expressions: C20, C21, C22.
-/
import Verif.Proofs.ExprRun
import Verif.Proofs.ExprLex

namespace Jom.Props
open Jom.Expr Jom.Spec

/-! ### C20: exactly the documented grammar -/

theorem parse_eq {w : List Item} (hi : ∀ i ∈ w, Given i) : parse w =
    match arun (40 * w.length + 100) ([(0, .num 0)], w) with
    | .error e => .error e
    | .ok (.num n) => .ok n
    | .ok (.str _) => .error .ub := by
  unfold parse
  rw [run_initial _ hi]
  cases arun (40 * w.length + 100) ([(0, .num 0)], w) with
  | error e => rfl
  | ok v => cases v <;> rfl

/-- The value of a sentence, or the error in its evaluation. -/
theorem C20_value {w : List Item} (hw : ∀ i ∈ w, Proper i) {o : Except Err Int} (h : Parses .expression w o) : parse w = o := by
  have hi : ∀ i ∈ w, Given i := fun i h => .inr (hw i h)
  rw [parse_eq hi]
  have hl := leads h 0 (.num 0) [] [] (by decide) (by decide) hw (by intro i hi; cases hi) fol_start
  rw [List.append_nil] at hl
  cases o with
  | error e =>
    obtain ⟨k, hk⟩ := hl
    have := hk (40 * w.length + 100)
    rw [Nat.add_assoc, arun_enough hi] at this
    rw [this]
  | ok n =>
    obtain ⟨k, hk⟩ := hl
    have := hk (40 * w.length + 100)
    rw [arun_enough hi] at this
    rw [this]
    unfold arun
    have hs : astep ((ntAction 0 (code .expression - 25), Value.num n) :: [(0, Value.num 0)], []) = .ok (.inr (.num n)) := by
      unfold astep
      simp only [topState, topValue, aact]
      rw [show ntAction 0 (code .expression - 25) = 7 from goto_start, accept7, if_pos rfl]
    rw [hs]

/-- The parser accepts exactly the sentences of the grammar, with their values. -/
theorem C20_grammar {w : List Item} (hw : ∀ i ∈ w, Proper i) (n : Int) : parse w = .ok n ↔ Parses .expression w (.ok n) := by
  refine ⟨fun h => ?_, C20_value hw⟩
  have hi : ∀ i ∈ w, Given i := fun i h => .inr (hw i h)
  rw [parse_eq hi] at h
  have hwt : weight [(0, Value.num 0)] = 24 := by decide
  have hs := arun_sound (40 * w.length + 100) (c := ([(0, .num 0)], w)) (.base _) (by simp) hi (by simp only [hwt]; omega)
  cases hr : arun (40 * w.length + 100) ([(0, .num 0)], w) with
  | error e => rw [hr] at h; cases h
  | ok v =>
    rw [hr] at h hs
    simp only [List.nil_append] at hs
    obtain ⟨m, rfl, _, hp⟩ := hs
    cases h
    exact hp

/-- The parse is unique as far as the outcome is concerned. -/
theorem C20_unique {w : List Item} (hw : ∀ i ∈ w, Proper i) {o o' : Except Err Int} (h : Parses .expression w o)
    (h' : Parses .expression w o') : o = o' := by
  rw [← C20_value hw h, C20_value hw h']

/-- Errors: a syntax error is reported for sequences that are no sentences only; any other error comes from the evaluation of
a part of the expression or from the scanner. The parser always ends. -/
theorem C20_error {w : List Item} (hi : ∀ i ∈ w, i = .fault ∨ Proper i) {e : Err} (h : parse w = .error e) :
    (e = .syntax ∧ (Item.fault ∉ w → ∀ o, ¬ Parses .expression w o)) ∨ (e = .ub ∧ Item.fault ∈ w) ∨
    ((e = .ub ∨ e = .divByZero) ∧ ∃ N u, u <:+: w ∧ Parses N u (.error e)) := by
  have h0 := h
  rw [parse_eq hi] at h
  have hwt : weight [(0, Value.num 0)] = 24 := by decide
  have hs := arun_sound (40 * w.length + 100) (c := ([(0, .num 0)], w)) (.base _) (by simp) hi (by simp only [hwt]; omega)
  cases hr : arun (40 * w.length + 100) ([(0, .num 0)], w) with
  | ok v =>
    rw [hr] at h hs
    simp only [List.nil_append] at hs
    obtain ⟨m, rfl, _, hp⟩ := hs
    cases h
  | error e' =>
    rw [hr] at h hs
    cases h
    simp only [List.nil_append] at hs
    rcases hs with rfl | hs | ⟨N, u, hu, hp⟩
    · refine .inl ⟨rfl, fun hf o ho => ?_⟩
      have hw : ∀ i ∈ w, Proper i := by
        intro i hm
        rcases hi i hm with rfl | h
        · exact absurd hm hf
        · exact h
      have := C20_value hw ho
      rw [h0] at this
      subst this
      rcases Parses.err ho _ rfl with h | h <;> cases h
    · exact .inr (.inl hs)
    · exact .inr (.inr ⟨Parses.err hp _ rfl, N, u, hu, hp⟩)

/-- The states the parser goes through. -/
inductive Reached (w : List Item) : St → Prop
  | start : Reached w { stack := [(0, .num 0)], yylval := .num 0, input := w }
  | step (s s' : St) : Reached w s → step s = .ok (.inl s') → Reached w s'

theorem reached_inv {w : List Item} (hi : ∀ i ∈ w, i = .fault ∨ Proper i) {s : St} (h : Reached w s) :
    ∃ inp u, Buffered s inp ∧ Stk s.stack u ∧ (∀ i ∈ u, Proper i) ∧ (∀ i ∈ inp, Given i) := by
  induction h with
  | start => exact ⟨w, [], .inl ⟨rfl, rfl⟩, .base _, by simp, hi⟩
  | step s s' _ hst ih =>
    obtain ⟨inp, u, hb, hs, hu, hin⟩ := ih
    have h1 := step_astep hb hs hin
    have h2 := astep_sound (c := (s.stack, inp)) hs hu hin
    cases ha : astep (s.stack, inp) with
    | error e => rw [ha] at h1; simp only [Same] at h1; rw [h1] at hst; cases hst
    | ok x =>
      rw [ha] at h1 h2
      cases x with
      | inr v => simp only [Same] at h1; rw [h1] at hst; cases hst
      | inl c =>
        simp only [Same] at h1 h2
        obtain ⟨s'', h3, h4, h5⟩ := h1
        obtain ⟨u', h6, _, h7, h8, _⟩ := h2
        rw [h3] at hst
        cases hst
        exact ⟨c.2, u', h5, by rw [h4]; exact h6, h7, h8⟩

theorem stk_past {stk : List (Nat × Value)} {u : List Item} (h : Stk stk u) : (past (topState stk)).length < stk.length := by
  induction h with
  | base v =>
    show (past 0).length < 1
    decide
  | push s s' X v v' st w u _ _ _ _ _ _ _ _ hp _ ih =>
    have := hp.length_le
    simp only [topState, List.length_cons] at this ih ⊢
    omega

theorem index_bound : ∀ s < 61, ∀ t < 25, (actionIndex.getD s 0 + ((t : Nat) : Int)).toNat < actionCheck.length ∧
    (actionIndex.getD s 0 + ((t : Nat) : Int)).toNat < actionInfo.length := by decide +kernel
theorem goto_index_bound : ∀ s < 61, ∀ X < 10, 166 + (actionIndex.getD (61 + s) 0 + ((X : Nat) : Int)).toNat < actionCheck.length ∧
    166 + (actionIndex.getD (61 + s) 0 + ((X : Nat) : Int)).toNat < actionInfo.length := by decide +kernel

/-- The parser never reads outside of its tables and never pops more than there is on the stack. -/
theorem C20_bounds {w : List Item} (hi : ∀ i ∈ w, i = .fault ∨ Proper i) {s : St} (h : Reached w s) :
    topState s.stack < 61 ∧ -1 ≤ s.yytoken ∧ s.yytoken < 25 ∧
    (actionIndex.getD (topState s.stack) 0 + s.yytoken).toNat < actionCheck.length ∧
    (actionIndex.getD (topState s.stack) 0 + s.yytoken).toNat < actionInfo.length ∧
    ∀ s1, lex s = .ok s1 → tAction (topState s.stack) s1.yytoken < 0 →
      rhsTab.getD (-tAction (topState s.stack) s1.yytoken - 1).toNat 0 < s.stack.length := by
  obtain ⟨inp, u, hb, hs, hu, hin⟩ := reached_inv hi h
  obtain ⟨stk, tk, yl, input⟩ := s
  obtain ⟨⟨q, v⟩, st, rfl⟩ : ∃ x st, stk = x :: st := by
    simp only at hs
    cases hs <;> exact ⟨_, _, rfl⟩
  have htop := hs.top
  simp only [topState]
  have hshow : ∀ t : Int, -1 ≤ t → t < 25 →
      (actionIndex.getD q 0 + t).toNat < actionCheck.length ∧ (actionIndex.getD q 0 + t).toNat < actionInfo.length := by
    intro t h1 h2
    by_cases ht : t = -1
    · have hb := index_bound q htop.1 0 (by decide)
      subst ht
      simp only [Int.natCast_zero, Int.add_zero] at hb
      omega
    · obtain ⟨n, rfl⟩ := Int.eq_ofNat_of_zero_le (a := t) (by omega)
      exact index_bound q htop.1 n (by omega)
  have htk : -1 ≤ tk ∧ tk < 25 := by
    rcases hb with h | h | ⟨id, h, h1, h2, _⟩
    · have : tk = -1 := h.1
      omega
    · have : tk = 0 := h.1
      omega
    · have : tk = id := h
      omega
  refine ⟨htop.1, htk.1, htk.2, (hshow tk htk.1 htk.2).1, (hshow tk htk.1 htk.2).2, ?_⟩
  intro s1 hlex hneg
  have hpast := stk_past hs
  have hfin : ∀ q < 61, q ≠ 34 → ∀ t < 25, tAction q ((t : Nat) : Int) < 0 →
      rhsTab.getD (-tAction q ((t : Nat) : Int) - 1).toNat 0 ≤ (past q).length := by decide +kernel
  have h1 : -1 ≤ s1.yytoken ∧ s1.yytoken < 25 := by
    unfold lex at hlex
    split at hlex
    · split at hlex
      · cases hlex; simp only; omega
      · cases hlex
        rename_i hc _ id x rest heq
        simp only at hc heq
        rcases hb with h | h | ⟨id', h, h1, h2, _⟩
        · rcases hin (.tok id x) (by rw [show inp = input from h.2, heq]; simp) with h | h
          · cases h
          · have := h.1
            have := h.2.1
            simp only
            omega
        · have : tk = 0 := h.1
          omega
        · have : tk = id' := h
          omega
      · cases hlex
    · cases hlex
      exact htk
  simp only [topState] at hpast
  by_cases ht : s1.yytoken = -1
  · rw [ht] at hneg ⊢
    have h25 : actionIndex.getD q 0 = -25 := by
      by_cases h25 : actionIndex.getD q 0 = -25
      · exact h25
      · exfalso
        unfold lex at hlex
        split at hlex
        · split at hlex
          · cases hlex; simp only at ht; omega
          · cases hlex; simp only at ht; omega
          · cases hlex
        · rename_i hc
          cases hlex
          exact hc ⟨ht, h25⟩
    have heq := default_all q htop.1 h25 0 (by decide)
    have := hfin q htop.1 htop.2 0 (by decide) (by rw [heq]; exact hneg)
    rw [heq] at this
    omega
  · obtain ⟨n, hn⟩ := Int.eq_ofNat_of_zero_le (a := s1.yytoken) (by omega)
    rw [hn] at hneg ⊢
    have := hfin q htop.1 htop.2 n (by omega) hneg
    omega

/-- `1 + 2 * 3` and `(1 + 2) * 3`. -/
def exSum : List Item := [.tok 1 (.num 1), .tok 15 (.num 1), .tok 1 (.num 2), .tok 17 (.num 2), .tok 1 (.num 3)]

example : parse exSum = .ok 7 := by decide +kernel
example : parse ([.tok 22 (.num 0)] ++ exSum.take 3 ++ [.tok 23 (.num 0)] ++ exSum.drop 3) = .ok 9 := by decide +kernel
example : ∀ i ∈ exSum, Proper i := by
  intro i hi
  simp only [exSum, List.mem_cons, List.not_mem_nil, or_false] at hi
  rcases hi with rfl | rfl | rfl | rfl | rfl <;> simp [Proper]

/-- Operators of one level group to the left, and a level binds as the grammar says: `a < b == c` is `(a < b) == c`, and
`a & b && c` is `(a & b) && c`. -/
example : parse [.tok 1 (.num 3), .tok 9 (.num 0), .tok 1 (.num 2), .tok 7 (.num 0), .tok 1 (.num 0)] = .ok 1 := by decide +kernel

/-- There is no operator that consists of two prefix operators: `!!1` is no expression. -/
example : parse [.tok 21 (.num 0), .tok 21 (.num 0), .tok 1 (.num 1)] = .error .syntax := by decide +kernel

/-! ### C21: arithmetic errors -/

/-- A division by zero is reported wherever it is the first error. -/
theorem C21_division {w : List Item} (hw : ∀ i ∈ w, Proper i) (h : Parses .expression w (.error .divByZero)) :
    parse w = .error .divByZero := C20_value hw h

theorem C21_division_direct {l r : List Item} {v : Value} {a : Int} (hl : ∀ i ∈ l, Proper i) (hr : ∀ i ∈ r, Proper i)
    (h1 : Parses .term5 l (.ok a)) (h2 : Parses .term6 r (.ok 0)) : parse (l ++ .tok 18 v :: r) = .error .divByZero := by
  refine C20_value ?_ ?_
  · intro i hi
    simp only [List.mem_append, List.mem_cons] at hi
    rcases hi with hi | rfl | hi
    · exact hl i hi
    · exact ⟨by decide, by decide, by simp, by simp⟩
    · exact hr i hi
  · have h := Parses.bin _ _ _ _ l r v _ _ BinOp.div h1 h2
    simp only [apply2, if_true] at h
    exact .sub _ _ _ _ .expression (.sub _ _ _ _ .term0 (.sub _ _ _ _ .term1 (.sub _ _ _ _ .term2
      (.sub _ _ _ _ .term3 (.sub _ _ _ _ .term4 h)))))

/-- The operations that C++ leaves undefined. -/
def Undefined (op : Nat) (a b : Int) : Prop :=
  (op = 13 ∧ (a < 0 ∨ b < 0 ∨ 32 ≤ b ∨ 2 ^ 32 ≤ a * 2 ^ b.toNat)) ∨ (op = 14 ∧ (b < 0 ∨ 32 ≤ b)) ∨
  (op = 15 ∧ (a + b < -2 ^ 31 ∨ 2 ^ 31 ≤ a + b)) ∨ (op = 16 ∧ (a - b < -2 ^ 31 ∨ 2 ^ 31 ≤ a - b)) ∨
  (op = 17 ∧ (a * b < -2 ^ 31 ∨ 2 ^ 31 ≤ a * b)) ∨ (op = 18 ∧ b ≠ 0 ∧ (a.tdiv b < -2 ^ 31 ∨ 2 ^ 31 ≤ a.tdiv b)) ∨
  (op = 19 ∧ (b = 0 ∨ a = -2147483648 ∧ b = -1))

theorem undefined_origin {N : NT} {u : List Item} {o : Except Err Int} (h : Parses N u o) (he : o = .error .ub) :
    (∃ X Y op l r v a b, Parses X l (.ok a) ∧ Parses Y r (.ok b) ∧ l ++ .tok op v :: r <:+: u ∧ Undefined op a b) ∨
    (∃ r v a, Parses .primary r (.ok a) ∧ .tok 16 v :: r <:+: u ∧ (-a < -2 ^ 31 ∨ 2 ^ 31 ≤ -a)) := by
  induction h with
  | sub _ _ _ _ _ _ ih => exact ih he
  | bin X Y op f l r x a b hb ha hb' iha ihb =>
    have left : l <:+: l ++ .tok op x :: r := ⟨[], .tok op x :: r, by simp⟩
    have right : r <:+: l ++ .tok op x :: r := ⟨l ++ [.tok op x], [], by simp⟩
    cases a with
    | error e =>
      rcases iha he with ⟨X', Y', op', l', r', v', a', b', h1, h2, h3, h4⟩ | ⟨r', v', a', h1, h2, h3⟩
      · exact .inl ⟨X', Y', op', l', r', v', a', b', h1, h2, h3.trans left, h4⟩
      · exact .inr ⟨r', v', a', h1, h2.trans left, h3⟩
    | ok a =>
      cases b with
      | error e =>
        rcases ihb he with ⟨X', Y', op', l', r', v', a', b', h1, h2, h3, h4⟩ | ⟨r', v', a', h1, h2, h3⟩
        · exact .inl ⟨X', Y', op', l', r', v', a', b', h1, h2, h3.trans right, h4⟩
        · exact .inr ⟨r', v', a', h1, h2.trans right, h3⟩
      | ok b =>
        refine .inl ⟨X, Y, op, l, r, x, a, b, ha, hb', List.infix_rfl, ?_⟩
        simp only [apply2] at he
        unfold Undefined
        cases hb <;> simp only [reduceCtorEq, exact, shl, shr] at he <;> grind
  | pre op f x w a hb ha ih =>
    have right : w <:+: .tok op x :: w := ⟨[.tok op x], [], by simp⟩
    cases a with
    | error e =>
      rcases ih he with ⟨X', Y', op', l', r', v', a', b', h1, h2, h3, h4⟩ | ⟨r', v', a', h1, h2, h3⟩
      · exact .inl ⟨X', Y', op', l', r', v', a', b', h1, h2, h3.trans right, h4⟩
      · exact .inr ⟨r', v', a', h1, h2.trans right, h3⟩
    | ok a =>
      simp only [apply1] at he
      cases hb with
      | neg =>
        refine .inr ⟨w, x, a, ha, List.infix_rfl, ?_⟩
        simp only [exact] at he
        grind
      | bitNot => cases he
      | not => cases he
  | number => cases he
  | paren u v w o _ ih =>
    have inner : w <:+: .tok 22 u :: (w ++ [.tok 23 v]) := ⟨[.tok 22 u], [.tok 23 v], by simp⟩
    rcases ih he with ⟨X', Y', op', l', r', v', a', b', h1, h2, h3, h4⟩ | ⟨r', v', a', h1, h2, h3⟩
    · exact .inl ⟨X', Y', op', l', r', v', a', b', h1, h2, h3.trans inner, h4⟩
    · exact .inr ⟨r', v', a', h1, h2.trans inner, h3⟩
  | strEq => cases he
  | strNe => cases he

/-- What holds of C21: an expression has undefined behaviour only if some operation in it leaves the range of `int`, shifts by
an impossible amount, or computes a remainder modulo 0 (or `INT_MIN % -1`). Everything else ends with a value or a reported error.
Missing: for these operations the property is false, see `C21_refuted`. -/
theorem C21_undefined_partial {w : List Item} (hw : ∀ i ∈ w, Proper i) (h : parse w = .error .ub) :
    (∃ X Y op l r v a b, Parses X l (.ok a) ∧ Parses Y r (.ok b) ∧ l ++ .tok op v :: r <:+: w ∧ Undefined op a b) ∨
    (∃ r v a, Parses .primary r (.ok a) ∧ .tok 16 v :: r <:+: w ∧ (-a < -2 ^ 31 ∨ 2 ^ 31 ≤ -a)) := by
  rcases C20_error (fun i hi => .inr (hw i hi)) h with ⟨h1, _⟩ | ⟨_, hf⟩ | ⟨_, N, u, hu, hp⟩
  · cases h1
  · exact absurd (hw _ hf) (by simp [Proper])
  · rcases undefined_origin hp rfl with ⟨X', Y', op', l', r', v', a', b', h1, h2, h3, h4⟩ | ⟨r', v', a', h1, h2, h3⟩
    · exact .inl ⟨X', Y', op', l', r', v', a', b', h1, h2, h3.trans hu, h4⟩
    · exact .inr ⟨r', v', a', h1, h2.trans hu, h3⟩

def noOracle : Oracle := ⟨fun _ => false, fun _ => false, fun _ => 0⟩

/-- C21 does not hold: `1 % 0` is not reported, it is undefined behaviour. -/
theorem C21_refuted : (parseText noOracle .initial (.num 0) c!"1 % 0").1 = .error .ub ∧
    (parseText noOracle .initial (.num 0) c!"1 / 0").1 = .error .divByZero := by decide +kernel

/-- Nor is an overflow, in particular not that of a division. -/
theorem C21_overflow_refuted : (parseText noOracle .initial (.num 0) c!"(0-2147483647-1) / -1").1 = .error .ub := by decide +kernel

/-! ### C22: EXIST and DEFINED -/

/-- Every text is turned into tokens that the theorems above apply to. -/
theorem C20_text (w : Oracle) (start : Start) (yl : Value) (text : Str) (n : Int) :
    (parseText w start yl text).1 = .ok n →
      Parses .expression ((lexAll w ⟨start, yl, text⟩).1.map Prod.fst) (.ok n) := by
  intro h
  have hg := lexF_given w (text.length + 1) ⟨start, yl, text⟩
  have h' : parse ((lexAll w ⟨start, yl, text⟩).1.map Prod.fst) = .ok n := h
  unfold lexAll at h' ⊢
  simp only at h' ⊢
  generalize (lexF w (text.length + 1) ⟨start, yl, text⟩).1.map Prod.fst = items at *
  rw [parse_eq hg] at h'
  have hwt : weight [(0, Value.num 0)] = 24 := by decide
  have hs := arun_sound (40 * items.length + 100) (c := ([(0, .num 0)], items)) (.base _) (by simp) hg
    (by simp only [hwt]; omega)
  cases hr : arun (40 * items.length + 100) ([(0, .num 0)], items) with
  | error e => rw [hr] at h'; cases h'
  | ok v =>
    rw [hr] at h' hs
    simp only [List.nil_append] at hs
    obtain ⟨m, rfl, _, hp⟩ := hs
    cases h'
    exact hp

/-- What holds of C22: if each piece of an expression ends where it seems to end and no parenthesis is closed after an `EXIST(...)`,
each test asks for the name between its own parentheses.
Missing: the property is false for `EXIST(...)` followed by another closing parenthesis, see `C22_refuted`, and after an expression
that ends within `DEFINED` or `EXIST` or a string, see `C22_leak_refuted`. -/
theorem C22_tests_partial (w : Oracle) (yl : Value) (ps : List (Piece × Str)) (h : PiecesOk ps) :
    List.Forall₂ (Means w) (ps.map Prod.fst) ((lexAll w ⟨.initial, yl, textOf ps⟩).1.map Prod.fst) ∧
    (lexAll w ⟨.initial, yl, textOf ps⟩).2.start = .initial := by
  exact lexes_pieces w ps h yl _ (Nat.lt_succ_self _)

/-- Hence the value of such a text is that of the sentence it stands for. -/
theorem C22_value_partial (w : Oracle) (yl : Value) (ps : List (Piece × Str)) (h : PiecesOk ps) :
    ∃ items, List.Forall₂ (Means w) (ps.map Prod.fst) items ∧ (∀ i ∈ items, Proper i) ∧
      (parseText w .initial yl (textOf ps)).1 = parse items := by
  obtain ⟨h1, h2⟩ := C22_tests_partial w yl ps h
  refine ⟨_, h1, ?_, rfl⟩
  intro i hi
  rcases lexF_given w _ _ i hi with rfl | h
  · exfalso
    generalize (lexAll w ⟨.initial, yl, textOf ps⟩).1.map Prod.fst = items at h1 hi
    generalize ps.map Prod.fst = qs at h1
    clear h2 h
    induction h1 with
    | nil => cases hi
    | @cons p i' ps' is' hm _ ih =>
      rcases List.mem_cons.1 hi with rfl | hi
      · cases p <;> simp [Means] at hm
      · exact ih hi
  · exact h

theorem op_apart {id : Nat} {c : Char} (h : (List.range 24).all (fun i => decide (opText i ≠ opText id ++ [c])) = true) (id' : Nat) :
    opText id' ≠ opText id ++ [c] := by
  by_cases hi : id' < 24
  · simpa using List.all_eq_true.1 h id' (List.mem_range.2 hi)
  · have : opText id' = [] := by
      match id', hi with
      | n + 24, _ => rfl
    rw [this]
    simp

def exArg (s : Str) : Arg := ⟨c!" ", false, s, c!" "⟩
def exPieces : List (Piece × Str) :=
  [(.defined c!"Defined" c!"  " (exArg c!"FOO"), c!" "), (.op 3, c!" "), (.op 21, []), (.defined c!"DEFINED" [] (exArg c!"BAR"), c!" \t"),
   (.op 3, []), (.exist c!"EXIST" [] ⟨[], true, c!"a b.txt", []⟩, [])]

/-- The text of the pieces, and the pieces meet the assumption. -/
example : textOf exPieces = c!"Defined  ( FOO ) && !DEFINED( BAR ) \t&&EXIST(\"a b.txt\")" := by decide +kernel

example : PiecesOk exPieces := by
  refine ⟨by simp [Piece.Ok, exArg, Arg.Ok, Arg.text, Blanks]; decide +kernel, by simp [Blanks],
    ⟨by decide, by decide, ?_⟩, by simp [Blanks], ⟨by decide, by decide, ?_⟩, by simp [Blanks],
    by simp [Piece.Ok, exArg, Arg.Ok, Arg.text, Blanks]; decide +kernel, by simp [Blanks],
    ⟨by decide, by decide, ?_⟩, by simp [Blanks],
    by simp [Piece.Ok, Arg.Ok, Arg.text, Blanks, textOf]; decide +kernel, by simp [Blanks], trivial⟩
  all_goals
    intro c r h
    cases h
    exact op_apart (by decide +kernel)

/-- The comparison of strings as it is usually written: `"$(A)"=="x"`. -/
example : textOf [(.string c!"1.0", []), (.op 7, []), (.string c!"x", [])] = c!"\"1.0\"==\"x\"" ∧
    PiecesOk [(.string c!"1.0", []), (.op 7, []), (.string c!"x", [])] := by
  refine ⟨by decide +kernel, ⟨by decide, ?_⟩, by simp [Blanks], ⟨by decide, by decide, ?_⟩, by simp [Blanks], ⟨by decide, ?_⟩,
    by simp [Blanks], trivial⟩
  · intro r h
    cases h
  · intro c r h
    cases h
    exact op_apart (by decide +kernel)
  · intro r h
    cases h

/-- `[copy a^[1^] b] == 0` runs `copy a[1] b` and compares its exit code. -/
example : PiecesOk [(.shell c!"copy a[1] b", c!" "), (.op 7, c!" "), (.number c!"0", [])] ∧
    textOf [(.shell c!"copy a[1] b", c!" "), (.op 7, c!" "), (.number c!"0", [])] = c!"[copy a^[1^] b] == 0" := by
  refine ⟨⟨⟨by decide, by decide⟩, by simp [Blanks], ⟨by decide, by decide, ?_⟩, by simp [Blanks], ⟨by decide, by decide, by decide, ?_⟩,
    by simp [Blanks], trivial⟩, by decide +kernel⟩
  · intro c r h
    cases h
    exact op_apart (by decide +kernel)
  · intro c r h
    cases h

/-- C22 does not hold: `EXIST` takes everything up to the last closing parenthesis of the line. Both files exist, yet the test of
both fails; it asks for one file called `a) && EXIST(b`. -/
theorem C22_refuted :
    (parseText ⟨fun _ => true, fun n => n == c!"a" || n == c!"b", fun _ => 0⟩ .initial (.num 0) c!"EXIST(a) && EXIST(b)").1 = .ok 0 ∧
    (parseText ⟨fun _ => true, fun n => n == c!"a) && EXIST(b", fun _ => 0⟩ .initial (.num 0) c!"EXIST(a) && EXIST(b)").1 = .ok 1 := by
  decide +kernel

/-- Nor does it hold within parentheses: `(EXIST(a))` asks for `a)` and lacks a closing parenthesis. -/
theorem C22_paren_refuted :
    (parseText ⟨fun _ => true, fun n => n == c!"a", fun _ => 0⟩ .initial (.num 0) c!"(EXIST(a))").1 = .error .syntax := by
  decide +kernel

/-- An expression that ends with `DEFINED` spoils the one after it: `1 DEFINED` is accepted, and then the expression `(1) == 1`
is read as a test for the macro `1`. -/
theorem C22_leak_refuted :
    let r := parseText noOracle .initial (.num 0) c!"1 DEFINED"
    r.1 = .ok 1 ∧ r.2.1 = .defined ∧ (parseText noOracle r.2.1 r.2.2 c!"(1) == 1").1 = .ok 0 ∧
      (parseText noOracle .initial (.num 0) c!"(1) == 1").1 = .ok 1 := by
  decide +kernel

end Jom.Props
