/-
The expression parser without the buffered token, the meaning of its stack, and termination.
-/
import Verif.Proofs.ExprRules
import Verif.Proofs.StrLemmas

namespace Jom.Expr
open Jom.Spec

/-! ### The parser without the buffered token -/

def aact (s : Nat) (inp : List Item) : Except Err Int :=
  match inp with
  | [] => .ok (tAction s 0)
  | .tok id _ :: _ => .ok (tAction s id)
  | .fault :: _ => if actionIndex.getD s 0 ≠ -25 then .error .ub else .ok (tAction s (-1))

abbrev Conf := List (Nat × Value) × List Item

def astep (c : Conf) : Except Err (Conf ⊕ Value) :=
  match aact (topState c.1) c.2 with
  | .error e => .error e
  | .ok act =>
    if act = 34 then .ok (.inr (topValue c.1))
    else if 0 < act then
      match c.2 with
      | .tok _ v :: rest => .ok (.inl ((act.toNat, v) :: c.1, rest))
      | _ => .error .ub
    else if act < 0 then
      match reduce (-act - 1).toNat c.1 with
      | .error e => .error e
      | .ok st => .ok (.inl (st, c.2))
    else .error .syntax

def arun : Nat → Conf → Except Err Value
  | 0, _ => .error .fuel
  | f + 1, c =>
    match astep c with
    | .error e => .error e
    | .ok (.inr v) => .ok v
    | .ok (.inl c) => arun f c

/-! ### The meaning of the stack -/

/-- What a symbol with its value stands for. -/
def Sem (X : Nat) (u : List Item) (v : Value) : Prop :=
  if X < 25 then u = [.tok X v] else ∃ N n, code N = X ∧ v = .num n ∧ Parses N u (.ok n)

/-- The stack stands for the tokens read so far. -/
inductive Stk : List (Nat × Value) → List Item → Prop
  | base (v : Value) : Stk [(0, v)] []
  | push (s s' X : Nat) (v v' : Value) (st : List (Nat × Value)) (w u : List Item) : Stk ((s, v) :: st) w → s' < 61 → s' ≠ 34 → s' ≠ 0 →
    (s' = 7 → s = 0) → s' = next s X → mean s X = true → (past s').head? = some X → past s' <+: X :: past s → Sem X u v' → Stk ((s', v') :: (s, v) :: st) (w ++ u)

theorem Stk.top {s : Nat} {v : Value} {st : List (Nat × Value)} {w : List Item} (h : Stk ((s, v) :: st) w) :
    s < 61 ∧ s ≠ 34 := by
  cases h with
  | base => decide
  | push => constructor <;> assumption

/-- The top of the stack. -/
theorem Stk.pop {s : Nat} {v : Value} {st : List (Nat × Value)} {w : List Item} (h : Stk ((s, v) :: st) w) {X : Nat}
    {p : List Nat} (hp : X :: p <+: past s) : ∃ s0 v0 st0 w0 u, st = (s0, v0) :: st0 ∧ w = w0 ++ u ∧ Stk st w0 ∧
      p <+: past s0 ∧ Sem X u v ∧ s = next s0 X ∧ mean s0 X = true := by
  cases h with
  | base =>
    have : past 0 = [] := by decide
    rw [this] at hp
    simp at hp
  | push s0 _ X' v0 _ st0 w0 u hst _ _ _ _ hnx hme hh hpre hsem =>
    obtain ⟨q, hq⟩ := hp
    rw [← hq] at hh
    simp only [List.cons_append, List.head?_cons, Option.some.injEq] at hh
    subst hh
    refine ⟨s0, v0, st0, w0, u, rfl, rfl, hst, ?_, hsem, hnx, hme⟩
    rw [← hq] at hpre
    exact (List.prefix_append p q).trans (List.prefix_cons_inj X |>.1 hpre)

def SemN (N : NT) (u : List Item) (v : Value) : Prop := ∃ n, v = .num n ∧ Parses N u (.ok n)

theorem code_ge (N : NT) : 25 ≤ code N := by cases N <;> decide
theorem code_lt (N : NT) : code N < 35 := by cases N <;> decide
theorem code_inj {N M : NT} (h : code N = code M) : N = M := by cases N <;> cases M <;> first | rfl | exact absurd h (by decide)

theorem sem_nt {N : NT} {u : List Item} {v : Value} : Sem (code N) u v ↔ SemN N u v := by
  unfold Sem SemN
  rw [if_neg (by have := code_ge N; omega)]
  constructor
  · rintro ⟨M, n, hM, hv, hp⟩
    rw [code_inj hM] at hp
    exact ⟨n, hv, hp⟩
  · rintro ⟨n, hv, hp⟩
    exact ⟨N, n, rfl, hv, hp⟩

theorem sem_tok {X : Nat} {u : List Item} {v : Value} (h : X < 25) : Sem X u v ↔ u = [.tok X v] := by
  unfold Sem
  rw [if_pos h]

theorem binop_lt {X Y : NT} {op : Nat} {f : Int → Int → Except Err Int} (h : BinOp X Y op f) : 1 ≤ op ∧ op < 25 := by
  cases h <;> decide

theorem preop_lt {op : Nat} {f : Int → Except Err Int} (h : PreOp op f) : 1 ≤ op ∧ op < 25 := by
  cases h <;> decide

/-- Part of the tokens is an expression whose evaluation fails with `e`. -/
def SubErr (w : List Item) (e : Err) : Prop := ∃ N u, u <:+: w ∧ Parses N u (.error e)

/-- Going on with a nonterminal. -/
theorem Stk.goto {s : Nat} {v v' : Value} {st : List (Nat × Value)} {w u : List Item} (h : Stk ((s, v) :: st) w) {N : NT}
    (hs : SemN N u v') (hN : mean s (code N) = true) : Stk ((ntAction s (code N - 25), v') :: (s, v) :: st) (w ++ u) := by
  have h1 := gotoOk_all s h.top.1 h.top.2 (code N - 25) (by have := code_lt N; omega)
  have h2 : code N - 25 + 25 = code N := by have := code_ge N; omega
  simp only [gotoOk, h2, Bool.and_eq_true, decide_eq_true_eq, bne_iff_ne, ne_eq, beq_iff_eq, List.isPrefixOf_iff_prefix] at h1
  refine .push s _ (code N) v v' st w u h h1.1.1.1.1.1 h1.1.1.1.1.2 h1.1.1.1.2 ?_ ?_ hN h1.1.2 h1.2 (sem_nt.2 hs)
  · intro h3
    have h4 := h1.1.1.2
    rw [hN, h3] at h4
    simpa using h4
  · unfold next
    rw [if_neg (by have := code_ge N; omega)]

theorem mean_reduce {s r X : Nat} {ys : List Nat} (h : s < 61 ∧ s ≠ 34) (hr : r < 33) (hrule : rule r = (X, ys)) {sn : Nat}
    (hw : walk s ys = some sn) (hred : reds sn r = true) : mean s X = true := by
  have h1 := meanOk_all s h.1 h.2 r hr
  unfold rule at hrule
  unfold meanOk at h1
  rw [hrule] at h1
  simp only [hw, hred, Bool.not_true, Bool.false_or] at h1
  exact h1

theorem reduce1 (r : Nat) (hr : r < 33) {X Y : Nat} (h : rule r = (X, [Y])) (s1 s0 : Nat) (v1 v0 : Value) (st : List (Nat × Value)) :
    reduce r ((s1, v1) :: (s0, v0) :: st) =
      match action r v1 v1 v1 with
      | .error e => .error e
      | .ok v => .ok ((ntAction s0 (X - 25), v) :: (s0, v0) :: st) := by
  obtain ⟨h1, h2⟩ := rules_tab r hr
  unfold rule at h
  rw [h] at h1 h2
  simp only [List.length_cons, List.length_nil, Nat.zero_add] at h1 h2
  simp only [reduce, h1, h2]
  rfl

theorem reduce2 (r : Nat) (hr : r < 33) {X Y Z : Nat} (h : rule r = (X, [Y, Z])) (s2 s1 s0 : Nat) (v2 v1 v0 : Value)
    (st : List (Nat × Value)) :
    reduce r ((s2, v2) :: (s1, v1) :: (s0, v0) :: st) =
      match action r v1 v2 v2 with
      | .error e => .error e
      | .ok v => .ok ((ntAction s0 (X - 25), v) :: (s0, v0) :: st) := by
  obtain ⟨h1, h2⟩ := rules_tab r hr
  unfold rule at h
  rw [h] at h1 h2
  simp only [List.length_cons, List.length_nil, Nat.zero_add] at h1 h2
  simp only [reduce, h1, h2]
  rfl

theorem reduce3 (r : Nat) (hr : r < 33) {X Y Z Q : Nat} (h : rule r = (X, [Y, Z, Q])) (s3 s2 s1 s0 : Nat) (v3 v2 v1 v0 : Value)
    (st : List (Nat × Value)) :
    reduce r ((s3, v3) :: (s2, v2) :: (s1, v1) :: (s0, v0) :: st) =
      match action r v1 v2 v3 with
      | .error e => .error e
      | .ok v => .ok ((ntAction s0 (X - 25), v) :: (s0, v0) :: st) := by
  obtain ⟨h1, h2⟩ := rules_tab r hr
  unfold rule at h
  rw [h] at h1 h2
  simp only [List.length_cons, List.length_nil, Nat.zero_add] at h1 h2
  simp only [reduce, h1, h2]
  rfl

/-- Higher for symbols that contain others. -/
def rank (s : Nat) : Nat :=
  match (past s).head? with
  | some 34 => 1 | some 33 => 2 | some 32 => 3 | some 31 => 4 | some 30 => 5 | some 28 => 6 | some 29 => 6
  | some 27 => 7 | some 26 => 8 | some 25 => 9
  | _ => 0

def weight (st : List (Nat × Value)) : Nat := 12 * st.length + (12 - rank (topState st))

theorem rank_le (s : Nat) : rank s ≤ 9 := by
  unfold rank
  split <;> omega

theorem rank_goto {s : Nat} (h1 : s < 61) (h2 : s ≠ 34) (N : NT) : (past (ntAction s (code N - 25))).head? = some (code N) := by
  have h := gotoOk_all s h1 h2 (code N - 25) (by have := code_lt N; omega)
  have h2 : code N - 25 + 25 = code N := by have := code_ge N; omega
  simp only [gotoOk, h2, Bool.and_eq_true, beq_iff_eq] at h
  exact h.1.2

/-- A reduction keeps the meaning of the stack and is progress. -/
theorem reduce_sound {stk : List (Nat × Value)} {w : List Item} (hst : Stk stk w) (hw : ∀ i ∈ w, Proper i) {r : Nat}
    (hr : r < 33) (hred : reds (topState stk) r = true) (hp : (rule r).2.reverse <+: past (topState stk)) :
    match reduce r stk with
    | .ok stk' => Stk stk' w ∧ weight stk' < weight stk
    | .error e => SubErr w e := by
  obtain ⟨⟨s1, v1⟩, st, rfl⟩ : ∃ x st, stk = x :: st := by cases hst <;> exact ⟨_, _, rfl⟩
  simp only [topState] at hp hred
  cases kind r hr with
  | sub X Y hsub hrule hact =>
    rw [hrule] at hp
    obtain ⟨s0, v0, st0, w0, u, rfl, rfl, h0, -, hsem, hn1, hm1⟩ := hst.pop (X := code Y) (p := []) (by simpa using hp)
    rw [reduce1 r hr hrule, hact]
    rw [sem_nt] at hsem
    obtain ⟨n, rfl, hpar⟩ := hsem
    have hX := mean_reduce h0.top hr hrule (sn := s1) (by simp [walk, hm1, ← hn1]) hred
    refine ⟨h0.goto ⟨n, rfl, .sub X Y _ _ hsub hpar⟩ hX, ?_⟩
    have hh : (past s1).head? = some (code Y) := by
      obtain ⟨q, hq⟩ := hp
      rw [← hq]; rfl
    simp only [weight, List.length_cons, topState, rank, hh, rank_goto h0.top.1 h0.top.2 X]
    cases hsub <;> simp only [code] <;> omega
  | bin X Y op f hb hrule hact =>
    rw [hrule] at hp
    obtain ⟨s2, v2, st2, w2, u3, rfl, rfl, h2, hp2, hsem3, hn3, hm3⟩ := hst.pop (X := code Y) (p := [op, code X]) (by simpa using hp)
    obtain ⟨s3, v3, st3, w3, u2, rfl, rfl, h3, hp3, hsem2, hn2, hm2⟩ := h2.pop hp2
    obtain ⟨s0, v0, st0, w0, u1, rfl, rfl, h0, -, hsem1, hn1, hm1⟩ := h3.pop hp3
    rw [sem_nt] at hsem3 hsem1
    rw [sem_tok (binop_lt hb).2] at hsem2
    obtain ⟨b, rfl, hb3⟩ := hsem3
    obtain ⟨a, rfl, ha1⟩ := hsem1
    subst hsem2
    rw [reduce3 r hr hrule, hact]
    have hpar := Parses.bin X Y op f _ _ v2 _ _ hb ha1 hb3
    simp only [apply2] at hpar
    cases hf : f a b with
    | error e =>
      rw [hf] at hpar
      simp only [numE]
      exact ⟨X, _, ⟨w0, [], by simp⟩, hpar⟩
    | ok n =>
      rw [hf] at hpar
      simp only [numE]
      refine ⟨?_, ?_⟩
      · have := h0.goto (N := X) (u := u1 ++ .tok op v2 :: u3) ⟨n, rfl, hpar⟩
          (mean_reduce h0.top hr hrule (sn := s1) (by simp [walk, hm1, ← hn1, hm2, ← hn2, hm3, ← hn3]) hred)
        simpa [code] using this
      · simp only [weight, List.length_cons, topState]
        have := rank_le s1
        omega
  | pre op f hb hrule hact =>
    rw [hrule] at hp
    obtain ⟨s2, v2, st2, w2, u2, rfl, rfl, h2, hp2, hsem2, hn2, hm2⟩ := hst.pop (X := code .primary) (p := [op]) (by simpa [code] using hp)
    obtain ⟨s0, v0, st0, w0, u1, rfl, rfl, h0, -, hsem1, hn1, hm1⟩ := h2.pop hp2
    rw [sem_nt] at hsem2
    rw [sem_tok (preop_lt hb).2] at hsem1
    have hn2' : s1 = next s2 34 := hn2
    have hm2' : mean s2 34 = true := hm2
    obtain ⟨a, rfl, ha⟩ := hsem2
    subst hsem1
    rw [reduce2 r hr hrule, hact]
    have hpar := Parses.pre op f v2 _ _ hb ha
    simp only [apply1] at hpar
    cases hf : f a with
    | error e =>
      rw [hf] at hpar
      simp only [numE]
      exact ⟨.term6, _, ⟨w0, [], by simp⟩, hpar⟩
    | ok n =>
      rw [hf] at hpar
      simp only [numE]
      refine ⟨?_, ?_⟩
      · have := h0.goto (N := .term6) (u := .tok op v2 :: u2) ⟨n, rfl, hpar⟩
          (mean_reduce h0.top hr hrule (sn := s1) (by simp [walk, hm1, ← hn1, hm2', ← hn2']) hred)
        simpa [code] using this
      · simp only [weight, List.length_cons, topState]
        have := rank_le s1
        omega
  | strEq hr8 =>
    subst hr8
    have hrule : rule 8 = (29, [2, 7, 2]) := rfl
    rw [hrule] at hp
    obtain ⟨s2, v2, st2, w2, u3, rfl, rfl, h2, hp2, hsem3, hn3, hm3⟩ := hst.pop (X := 2) (p := [7, 2]) (by simpa using hp)
    obtain ⟨s3, v3, st3, w3, u2, rfl, rfl, h3, hp3, hsem2, hn2, hm2⟩ := h2.pop hp2
    obtain ⟨s0, v0, st0, w0, u1, rfl, rfl, h0, -, hsem1, hn1, hm1⟩ := h3.pop hp3
    rw [sem_tok (by decide)] at hsem1 hsem2 hsem3
    subst hsem1 hsem2 hsem3
    obtain ⟨a, rfl⟩ := (hw (.tok 2 v3) (by simp)).2.2.2 rfl
    obtain ⟨b, rfl⟩ := (hw (.tok 2 v1) (by simp)).2.2.2 rfl
    rw [reduce3 8 hr hrule]
    simp only [action, beq_iff_eq]
    refine ⟨?_, ?_⟩
    · have := h0.goto (N := .strterm1) ⟨_, rfl, .strEq a b v2⟩
        (mean_reduce h0.top hr hrule (sn := s1) (by simp [walk, hm1, ← hn1, hm2, ← hn2, hm3, ← hn3]) hred)
      simpa [code] using this
    · simp only [weight, List.length_cons, topState]
      have := rank_le s1
      omega
  | strNe hr9 =>
    subst hr9
    have hrule : rule 9 = (29, [2, 8, 2]) := rfl
    rw [hrule] at hp
    obtain ⟨s2, v2, st2, w2, u3, rfl, rfl, h2, hp2, hsem3, hn3, hm3⟩ := hst.pop (X := 2) (p := [8, 2]) (by simpa using hp)
    obtain ⟨s3, v3, st3, w3, u2, rfl, rfl, h3, hp3, hsem2, hn2, hm2⟩ := h2.pop hp2
    obtain ⟨s0, v0, st0, w0, u1, rfl, rfl, h0, -, hsem1, hn1, hm1⟩ := h3.pop hp3
    rw [sem_tok (by decide)] at hsem1 hsem2 hsem3
    subst hsem1 hsem2 hsem3
    obtain ⟨a, rfl⟩ := (hw (.tok 2 v3) (by simp)).2.2.2 rfl
    obtain ⟨b, rfl⟩ := (hw (.tok 2 v1) (by simp)).2.2.2 rfl
    rw [reduce3 9 hr hrule]
    simp only [action, beq_iff_eq]
    refine ⟨?_, ?_⟩
    · have := h0.goto (N := .strterm1) ⟨_, rfl, .strNe a b v2⟩
        (mean_reduce h0.top hr hrule (sn := s1) (by simp [walk, hm1, ← hn1, hm2, ← hn2, hm3, ← hn3]) hred)
      simpa [code] using this
    · simp only [weight, List.length_cons, topState]
      have := rank_le s1
      omega
  | number hr31 =>
    subst hr31
    have hrule : rule 31 = (34, [1]) := rfl
    rw [hrule] at hp
    obtain ⟨s0, v0, st0, w0, u, rfl, rfl, h0, -, hsem, hn1, hm1⟩ := hst.pop (X := 1) (p := []) (by simpa using hp)
    rw [sem_tok (by decide)] at hsem
    subst hsem
    obtain ⟨n, rfl⟩ := (hw (.tok 1 v1) (by simp)).2.2.1 rfl
    rw [reduce1 31 hr hrule]
    simp only [action]
    refine ⟨h0.goto (N := .primary) ⟨n, rfl, .number n⟩
      (mean_reduce h0.top hr hrule (sn := s1) (by simp [walk, hm1, ← hn1]) hred), ?_⟩
    have hh : (past s1).head? = some 1 := by
      obtain ⟨q, hq⟩ := hp
      rw [← hq]; rfl
    have h34 := rank_goto h0.top.1 h0.top.2 .primary
    simp only [code] at h34
    simp only [weight, List.length_cons, topState, rank, hh, h34]
    omega
  | paren hr32 =>
    subst hr32
    have hrule : rule 32 = (34, [22, 26, 23]) := rfl
    rw [hrule] at hp
    obtain ⟨s2, v2, st2, w2, u3, rfl, rfl, h2, hp2, hsem3, hn3, hm3⟩ := hst.pop (X := 23) (p := [26, 22]) (by simpa using hp)
    obtain ⟨s3, v3, st3, w3, u2, rfl, rfl, h3, hp3, hsem2, hn2, hm2⟩ := h2.pop (X := code .term0) hp2
    obtain ⟨s0, v0, st0, w0, u1, rfl, rfl, h0, -, hsem1, hn1, hm1⟩ := h3.pop hp3
    rw [sem_tok (by decide)] at hsem1 hsem3
    rw [sem_nt] at hsem2
    subst hsem1 hsem3
    obtain ⟨a, rfl, ha⟩ := hsem2
    have hn2' : s2 = next s3 26 := hn2
    have hm2' : mean s3 26 = true := hm2
    rw [reduce3 32 hr hrule]
    simp only [action]
    refine ⟨?_, ?_⟩
    · have := h0.goto (N := .primary) ⟨_, rfl, .paren v3 v1 _ _ ha⟩
        (mean_reduce h0.top hr hrule (sn := s1) (by simp [walk, hm1, ← hn1, hm2', ← hn2', hm3, ← hn3]) hred)
      simpa [code] using this
    · simp only [weight, List.length_cons, topState]
      have := rank_le s1
      omega

end Jom.Expr
