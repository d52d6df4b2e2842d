/-
Runs of the expression parser: soundness, termination and completeness.
-/
import Verif.Proofs.ExprSound

namespace Jom.Expr
open Jom.Spec

/-- A token, or a call of the lexer that goes wrong. -/
def Given (i : Item) : Prop := i = .fault ∨ Proper i

theorem aact_default {s : Nat} (h : s < 61) {inp : List Item} (hi : ∀ i ∈ inp, Given i) {a : Int} (ha : aact s inp = .ok a) :
    ∃ t : Nat, t < 25 ∧ a = tAction s t ∧ (a ≠ tAction s (-1) ∨ actionIndex.getD s 0 ≠ -25 → (t = 0 ↔ inp = []) ∧
      ∀ v rest, t ≠ 0 → inp = v :: rest → ∃ x, v = .tok t x) := by
  unfold aact at ha
  match inp, hi with
  | [], _ =>
    simp only [Except.ok.injEq] at ha
    exact ⟨0, by decide, ha.symm, fun _ => ⟨by simp, by simp⟩⟩
  | .tok id v :: rest, hi =>
    simp only [Except.ok.injEq] at ha
    have hp : Proper (.tok id v) := by
      rcases hi (.tok id v) (by simp) with h | h
      · cases h
      · exact h
    have := hp.1
    have := hp.2.1
    refine ⟨id, by omega, ha.symm, fun _ => ⟨⟨by omega, by simp⟩, ?_⟩⟩
    rintro _ _ _ h
    cases h
    exact ⟨_, rfl⟩
  | .fault :: rest, hi =>
    simp only at ha
    split at ha
    · cases ha
    · rename_i hd
      simp only [Except.ok.injEq] at ha
      refine ⟨1, by decide, ?_, ?_⟩
      · rw [default_all s h (by simpa using hd) 1 (by decide)]
        exact ha.symm
      · rintro (h | h)
        · exact absurd ha.symm h
        · exact absurd h hd

theorem default_neg : ∀ s < 61, actionIndex.getD s 0 = -25 → tAction s (-1) < 0 ∧ s ≠ 34 ∨ s = 34 := by decide +kernel

/-- One step keeps the meaning of the stack and is progress. -/
theorem astep_sound {c : Conf} {w : List Item} (hst : Stk c.1 w) (hw : ∀ i ∈ w, Proper i) (hi : ∀ i ∈ c.2, Given i) :
    match astep c with
    | .ok (.inl c') => ∃ w', Stk c'.1 w' ∧ w' ++ c'.2 = w ++ c.2 ∧ (∀ i ∈ w', Proper i) ∧ (∀ i ∈ c'.2, Given i) ∧
        40 * c'.2.length + weight c'.1 < 40 * c.2.length + weight c.1
    | .ok (.inr v) => ∃ n, v = .num n ∧ c.2 = [] ∧ Parses .expression w (.ok n)
    | .error e => e = .syntax ∨ e = .ub ∧ Item.fault ∈ c.2 ∨ SubErr w e := by
  obtain ⟨stk, inp⟩ := c
  simp only at hst hi
  obtain ⟨⟨s, v⟩, st, rfl⟩ : ∃ x st, stk = x :: st := by cases hst <;> exact ⟨_, _, rfl⟩
  have htop := hst.top
  unfold astep
  simp only [topState, topValue]
  cases ha : aact s inp with
  | error e =>
    simp only
    refine .inr (.inl ?_)
    unfold aact at ha
    split at ha
    · cases ha
    · cases ha
    · split at ha
      · cases ha
        exact ⟨rfl, by simp⟩
      · cases ha
  | ok a =>
    simp only
    obtain ⟨t, ht, hat, hinp⟩ := aact_default htop.1 hi ha
    have hsh := shiftOk_all s htop.1 htop.2 t ht
    unfold shiftOk at hsh
    simp only [← hat] at hsh
    by_cases hneg : a < 0
    · rw [if_neg (by omega), if_neg (by omega)] at hsh
      rw [if_neg (by omega), if_neg (by omega), if_pos hneg]
      rw [if_pos hneg] at hsh
      simp only [Bool.and_eq_true, decide_eq_true_eq, List.isPrefixOf_iff_prefix] at hsh
      have hr : (-a - 1).toNat < 33 := by omega
      have hred : reds s (-a - 1).toNat = true := by
        unfold reds
        rw [List.any_eq_true]
        refine ⟨t, List.mem_range.2 ht, ?_⟩
        rw [beq_iff_eq, ← hat]
        omega
      have := reduce_sound hst hw hr hred hsh.2
      cases hrd : reduce (-a - 1).toNat ((s, v) :: st) with
      | error e =>
        rw [hrd] at this
        exact .inr (.inr this)
      | ok st' =>
        rw [hrd] at this
        exact ⟨w, this.1, rfl, hw, hi, by simp only; omega⟩
    · have hnd : a ≠ tAction s (-1) ∨ actionIndex.getD s 0 ≠ -25 := by
        by_cases hd : actionIndex.getD s 0 = -25
        · refine .inl ?_
          have := default_neg s htop.1 hd
          rcases this with h | h
          · omega
          · exact absurd h htop.2
        · exact .inr hd
      obtain ⟨hz, htk⟩ := hinp hnd
      by_cases h34 : a = 34
      · rw [if_pos h34] at hsh ⊢
        simp only [Bool.and_eq_true, beq_iff_eq] at hsh
        obtain ⟨rfl, rfl⟩ := hsh
        cases hst with
        | push s0 _ X v0 _ st0 w0 u h0 h1 h2 h3 h7 hnx hme hh hpre hsem =>
          have h70 := h7 rfl
          subst h70
          have hX : X = 25 := by
            have : (past 7).head? = some 25 := by decide
            rw [this] at hh
            exact (Option.some.inj hh).symm
          subst hX
          have hsem' := (sem_nt (N := .expression)).1 hsem
          obtain ⟨n, rfl, hp⟩ := hsem'
          refine ⟨n, rfl, hz.1 rfl, ?_⟩
          cases h0 with
          | base => exact hp
          | push => contradiction
      · rw [if_neg h34] at hsh ⊢
        by_cases hpos : 0 < a
        · rw [if_pos hpos] at hsh ⊢
          simp only [Bool.and_eq_true, decide_eq_true_eq, bne_iff_ne, ne_eq, beq_iff_eq, List.isPrefixOf_iff_prefix] at hsh
          obtain ⟨⟨⟨⟨ha61, ht0⟩, ha7⟩, hhead⟩, hpre⟩ := hsh
          match inp, hi, hz, htk with
          | [], _, hz, _ => exact absurd (hz.2 rfl) ht0
          | i :: rest, hi, hz, htk =>
            obtain ⟨x, rfl⟩ := htk i rest ht0 rfl
            simp only
            have hprop : Proper (.tok t x) := by
              rcases hi (.tok t x) (by simp) with h | h
              · cases h
              · exact h
            refine ⟨w ++ [.tok t x], ?_, by simp, ?_, fun i h => hi i (by simp [h]), ?_⟩
            · refine .push s _ t v x st w _ hst (by omega) (by omega) (by omega) (by omega) ?_ ?_ hhead hpre ((sem_tok ht).2 rfl)
              · unfold next
                rw [if_pos ht, hat]
              · unfold mean
                rw [if_pos ht, ← hat]
                simpa using hpos
            · intro i h
              rcases List.mem_append.1 h with h | h
              · exact hw i h
              · rw [List.mem_singleton.1 h]
                exact hprop
            · simp only [weight, List.length_cons, topState]
              have := rank_le s
              omega
        · rw [if_neg hpos, if_neg hneg]
          exact .inl rfl

theorem arun_sound (f : Nat) {c : Conf} {w : List Item} (hst : Stk c.1 w) (hw : ∀ i ∈ w, Proper i) (hi : ∀ i ∈ c.2, Given i)
    (hf : 40 * c.2.length + weight c.1 < f) :
    match arun f c with
    | .ok v => ∃ n, v = .num n ∧ (∀ i ∈ w ++ c.2, Proper i) ∧ Parses .expression (w ++ c.2) (.ok n)
    | .error e => e = .syntax ∨ e = .ub ∧ Item.fault ∈ c.2 ∨ SubErr (w ++ c.2) e := by
  induction f generalizing c w with
  | zero => omega
  | succ f ih =>
    have h := astep_sound hst hw hi
    unfold arun
    cases hs : astep c with
    | error e =>
      rw [hs] at h
      simp only at h ⊢
      rcases h with h | h | ⟨N, u, h, hp⟩
      · exact .inl h
      · exact .inr (.inl h)
      · exact .inr (.inr ⟨N, u, h.trans (List.infix_append' [] w c.2 |> fun h => by simpa using h), hp⟩)
    | ok x =>
      rw [hs] at h
      cases x with
      | inr v =>
        simp only at h ⊢
        obtain ⟨n, hv, hc, hp⟩ := h
        rw [hc, List.append_nil]
        exact ⟨n, hv, hw, hp⟩
      | inl c' =>
        simp only at h ⊢
        obtain ⟨w', hst', heq, hw', hi', hlt⟩ := h
        have := ih hst' hw' hi' (by omega)
        rw [heq] at this
        cases hr : arun f c' with
        | ok v =>
          rw [hr] at this
          exact this
        | error e =>
          rw [hr] at this
          simp only at this ⊢
          rcases this with h | ⟨h, hm⟩ | h
          · exact .inl h
          · refine .inr (.inl ⟨h, ?_⟩)
            have : Item.fault ∈ w ++ c.2 := by
              rw [← heq]
              exact List.mem_append.2 (.inr hm)
            rcases List.mem_append.1 this with h | h
            · exact absurd (hw _ h) (by simp [Proper])
            · exact h
          · exact .inr (.inr h)

/-! ### The buffered token -/

/-- The buffered token belongs to the input. -/
def Buffered (s : St) (inp : List Item) : Prop :=
  s.yytoken = -1 ∧ inp = s.input ∨ s.yytoken = 0 ∧ inp = [] ∧ s.input = [] ∨
    ∃ id : Nat, s.yytoken = id ∧ 1 ≤ id ∧ id ≤ 24 ∧ inp = .tok id s.yylval :: s.input

/-- The same step with and without the buffered token. -/
def Same (x : Except Err (Conf ⊕ Value)) (y : Except Err (St ⊕ Value)) : Prop :=
  match x with
  | .error e => y = .error e
  | .ok (.inr v) => y = .ok (.inr v)
  | .ok (.inl c) => ∃ s', y = .ok (.inl s') ∧ s'.stack = c.1 ∧ Buffered s' c.2

theorem step_lex {s : St} {q : Nat} {v yl : Value} {st : List (Nat × Value)} {tk : Int} {inp : List Item}
    (h : lex s = .ok ⟨(q, v) :: st, tk, yl, inp⟩) : step s =
      if tAction q tk = 34 then .ok (.inr v)
      else if 0 < tAction q tk then .ok (.inl ⟨((tAction q tk).toNat, yl) :: (q, v) :: st, -1, yl, inp⟩)
      else if tAction q tk < 0 then
        match reduce (-tAction q tk - 1).toNat ((q, v) :: st) with
        | .error e => .error e
        | .ok st => .ok (.inl ⟨st, tk, yl, inp⟩)
      else .error .syntax := by
  unfold step
  rw [h]
  rfl

theorem step_astep {s : St} {inp w : List Item} (hb : Buffered s inp) (hst : Stk s.stack w) (hi : ∀ i ∈ inp, Given i) :
    Same (astep (s.stack, inp)) (step s) := by
  obtain ⟨stk, tk, yl, input⟩ := s
  simp only at hst
  obtain ⟨⟨q, v⟩, st, rfl⟩ : ∃ x st, stk = x :: st := by cases hst <;> exact ⟨_, _, rfl⟩
  have htop := hst.top
  by_cases hd : actionIndex.getD q 0 = -25
  · -- no token needed
    have hneg : tAction q (-1) < 0 := by
      rcases default_neg q htop.1 hd with h | h
      · exact h.1
      · exact absurd h htop.2
    have hact : aact q inp = .ok (tAction q (-1)) := by
      unfold aact
      match inp, hi with
      | [], _ => exact congrArg Except.ok (default_all q htop.1 hd 0 (by decide))
      | .tok id x :: rest, hi =>
        rcases hi (.tok id x) (by simp) with h | h
        · cases h
        · simp only [default_all q htop.1 hd id (by have := h.2.1; omega)]
      | .fault :: rest, _ => simp only [hd, ne_eq, not_true_eq_false, if_false]
    have htk : tAction q tk = tAction q (-1) := by
      rcases hb with h | h | ⟨id, h, h1, h2, _⟩
      · rw [show tk = -1 from h.1]
      · rw [show tk = ((0 : Nat) : Int) from h.1]
        exact default_all q htop.1 hd 0 (by decide)
      · rw [show tk = (id : Int) from h]
        exact default_all q htop.1 hd id (by omega)
    have hlex : lex ⟨(q, v) :: st, tk, yl, input⟩ = .ok ⟨(q, v) :: st, tk, yl, input⟩ := by
      unfold lex
      rw [if_neg (by simp only [topState, hd]; simp)]
    rw [step_lex hlex]
    unfold astep
    simp only [topState, hact, htk]
    rw [if_neg (by omega), if_neg (by omega), if_pos hneg, if_neg (by omega), if_neg (by omega), if_pos hneg]
    cases reduce (-tAction q (-1) - 1).toNat ((q, v) :: st) with
    | error e => exact rfl
    | ok st' => exact ⟨_, rfl, rfl, hb⟩
  · -- a token is buffered or read
    have key : (∃ t x rest, 1 ≤ t ∧ t ≤ 24 ∧ inp = .tok t x :: rest ∧ lex ⟨(q, v) :: st, tk, yl, input⟩ = .ok ⟨(q, v) :: st, (t : Int), x, rest⟩)
        ∨ (inp = [] ∧ lex ⟨(q, v) :: st, tk, yl, input⟩ = .ok ⟨(q, v) :: st, 0, yl, []⟩)
        ∨ (∃ rest, inp = .fault :: rest ∧ lex ⟨(q, v) :: st, tk, yl, input⟩ = .error .ub) := by
      rcases hb with h | h | ⟨id, h, h1, h2, h3⟩
      · obtain ⟨rfl, rfl⟩ := (⟨h.1, h.2⟩ : tk = -1 ∧ inp = input)
        unfold lex
        rw [if_pos ⟨rfl, hd⟩]
        match inp, hi with
        | [], _ => exact .inr (.inl ⟨rfl, rfl⟩)
        | .tok id x :: rest, hi =>
          rcases hi (.tok id x) (by simp) with h | h
          · cases h
          · exact .inl ⟨id, x, rest, h.1, h.2.1, rfl, rfl⟩
        | .fault :: rest, _ => exact .inr (.inr ⟨rest, rfl, rfl⟩)
      · obtain ⟨rfl, rfl, rfl⟩ := (⟨h.1, h.2.1, h.2.2⟩ : tk = 0 ∧ inp = [] ∧ input = [])
        exact .inr (.inl ⟨rfl, by unfold lex; rw [if_neg (by simp)]⟩)
      · obtain rfl := (h : tk = id)
        refine .inl ⟨id, yl, input, h1, h2, h3, ?_⟩
        unfold lex
        rw [if_neg (by simp only; omega)]
    rcases key with ⟨t, x, rest, ht1, ht2, rfl, hlex⟩ | ⟨rfl, hlex⟩ | ⟨rest, rfl, hlex⟩
    · rw [step_lex hlex]
      unfold astep
      simp only [topState, topValue, aact]
      by_cases h34 : tAction q (t : Int) = 34
      · rw [if_pos h34, if_pos h34]
        exact rfl
      · rw [if_neg h34, if_neg h34]
        by_cases hpos : 0 < tAction q (t : Int)
        · rw [if_pos hpos, if_pos hpos]
          exact ⟨_, rfl, rfl, .inl ⟨rfl, rfl⟩⟩
        · rw [if_neg hpos, if_neg hpos]
          by_cases hneg : tAction q (t : Int) < 0
          · rw [if_pos hneg, if_pos hneg]
            cases reduce (-tAction q (t : Int) - 1).toNat ((q, v) :: st) with
            | error e => exact rfl
            | ok st' => exact ⟨_, rfl, rfl, .inr (.inr ⟨t, rfl, ht1, ht2, rfl⟩)⟩
          · rw [if_neg hneg, if_neg hneg]
            exact rfl
    · have hsh := shiftOk_all q htop.1 htop.2 0 (by decide)
      unfold shiftOk at hsh
      have h0 : ((0 : Nat) : Int) = 0 := rfl
      simp only [h0] at hsh
      rw [step_lex hlex]
      unfold astep
      simp only [topState, topValue, aact]
      by_cases h34 : tAction q 0 = 34
      · rw [if_pos h34, if_pos h34]
        exact rfl
      · rw [if_neg h34, if_neg h34]
        rw [if_neg h34] at hsh
        by_cases hpos : 0 < tAction q 0
        · rw [if_pos hpos] at hsh
          simp at hsh
        · rw [if_neg hpos, if_neg hpos]
          by_cases hneg : tAction q 0 < 0
          · rw [if_pos hneg, if_pos hneg]
            cases reduce (-tAction q 0 - 1).toNat ((q, v) :: st) with
            | error e => exact rfl
            | ok st' => exact ⟨_, rfl, rfl, .inr (.inl ⟨rfl, rfl, rfl⟩)⟩
          · rw [if_neg hneg, if_neg hneg]
            exact rfl
    · unfold astep step
      rw [hlex]
      simp only [topState, aact, hd, ne_eq, not_false_eq_true, if_true]
      exact rfl

theorem run_arun (f : Nat) {s : St} {inp w : List Item} (hb : Buffered s inp) (hst : Stk s.stack w) (hw : ∀ i ∈ w, Proper i)
    (hi : ∀ i ∈ inp, Given i) : run f s = arun f (s.stack, inp) := by
  induction f generalizing s inp w with
  | zero => rfl
  | succ f ih =>
    have h := step_astep hb hst hi
    have h2 := astep_sound (c := (s.stack, inp)) hst hw hi
    unfold run arun
    cases hs : astep (s.stack, inp) with
    | error e =>
      rw [hs] at h
      simp only [Same] at h
      rw [h]
    | ok x =>
      rw [hs] at h h2
      cases x with
      | inr v =>
        simp only [Same] at h
        rw [h]
      | inl c =>
        simp only [Same] at h h2
        obtain ⟨s', h1, hs', hb'⟩ := h
        obtain ⟨w', hst', _, hw', hi', _⟩ := h2
        rw [h1]
        simp only
        rw [← hs'] at hst'
        rw [ih hb' hst' hw' hi', hs']

theorem run_initial (f : Nat) {inp : List Item} (hi : ∀ i ∈ inp, Given i) :
    run f { stack := [(0, .num 0)], yylval := .num 0, input := inp } = arun f ([(0, .num 0)], inp) :=
  run_arun f (.inl ⟨rfl, rfl⟩) (.base _) (by simp) hi

/-! ### Completeness -/

/-- The parser gets from `c` to `c'`. -/
def Reach (c c' : Conf) : Prop := ∃ k, ∀ f, arun (f + k) c = arun f c'

/-- The parser gets from `c` to the error `e`. -/
def Fails (c : Conf) (e : Err) : Prop := ∃ k, ∀ f, arun (f + k + 1) c = .error e

theorem Reach.refl (c : Conf) : Reach c c := ⟨0, fun _ => rfl⟩

theorem Reach.trans {a b c : Conf} (h1 : Reach a b) (h2 : Reach b c) : Reach a c := by
  obtain ⟨k, hk⟩ := h1
  obtain ⟨l, hl⟩ := h2
  exact ⟨l + k, fun f => by rw [← Nat.add_assoc, hk, hl]⟩

theorem Reach.fails {a b : Conf} {e : Err} (h1 : Reach a b) (h2 : Fails b e) : Fails a e := by
  obtain ⟨k, hk⟩ := h1
  obtain ⟨l, hl⟩ := h2
  refine ⟨l + k, fun f => ?_⟩
  rw [show f + (l + k) + 1 = (f + l + 1) + k by omega, hk, hl]

/-- The number of the next token. -/
def look : List Item → Nat
  | .tok id _ :: _ => id
  | _ => 0

def Clean (inp : List Item) : Prop := ∀ i ∈ inp, Proper i

theorem aact_look {s : Nat} {inp : List Item} (h : Clean inp) : aact s inp = .ok (tAction s (look inp)) ∧ look inp < 25 := by
  match inp, h with
  | [], _ => exact ⟨rfl, by decide⟩
  | .tok id v :: rest, h =>
    have := h (.tok id v) (by simp)
    exact ⟨rfl, by have := this.2.1; simp only [look]; omega⟩
  | .fault :: rest, h => exact absurd (h .fault (by simp)) (by simp [Proper])

theorem reach_shift {s X : Nat} {v x : Value} {st : List (Nat × Value)} {rest : List Item} (h1 : 0 < tAction s X)
    (h2 : tAction s X ≠ 34) : Reach ((s, v) :: st, .tok X x :: rest) (((tAction s X).toNat, x) :: (s, v) :: st, rest) := by
  refine ⟨1, fun f => ?_⟩
  conv => lhs; unfold arun
  simp only [astep, topState, aact, if_neg h2, if_pos h1]

theorem astep_reduce {s r : Nat} {v : Value} {st : List (Nat × Value)} {inp : List Item} (hc : Clean inp)
    (h : tAction s (look inp) = -(r + 1)) : astep ((s, v) :: st, inp) =
      match reduce r ((s, v) :: st) with
      | .error e => .error e
      | .ok st' => .ok (.inl (st', inp)) := by
  unfold astep
  simp only [topState, (aact_look hc).1, h]
  rw [if_neg (by omega), if_neg (by omega), if_pos (by omega)]
  have : (-(-((r : Int) + 1)) - 1).toNat = r := by omega
  rw [this]
  cases reduce r ((s, v) :: st) <;> rfl

theorem reach_reduce {s r : Nat} {v : Value} {st st' : List (Nat × Value)} {inp : List Item} (hc : Clean inp)
    (h : tAction s (look inp) = -(r + 1)) (hr : reduce r ((s, v) :: st) = .ok st') : Reach ((s, v) :: st, inp) (st', inp) := by
  refine ⟨1, fun f => ?_⟩
  conv => lhs; unfold arun
  rw [astep_reduce hc h, hr]

theorem fails_reduce {s r : Nat} {v : Value} {st : List (Nat × Value)} {inp : List Item} {e : Err} (hc : Clean inp)
    (h : tAction s (look inp) = -(r + 1)) (hr : reduce r ((s, v) :: st) = .error e) : Fails ((s, v) :: st, inp) e := by
  refine ⟨0, fun f => ?_⟩
  conv => lhs; unfold arun
  rw [astep_reduce hc h, hr]

/-- What parsing `w` as an `N` leads to. -/
def Leads (N : NT) (w : List Item) (o : Except Err Int) : Prop :=
  ∀ (s : Nat) (v : Value) (st : List (Nat × Value)) (rest : List Item), s < 61 → s ≠ 34 → Clean w → Clean rest →
    fol s (code N) (look rest) = true →
    match o with
    | .ok n => Reach ((s, v) :: st, w ++ rest) ((ntAction s (code N - 25), .num n) :: (s, v) :: st, rest)
    | .error e => Fails ((s, v) :: st, w ++ rest) e

theorem Leads.apply {N : NT} {w : List Item} {o : Except Err Int} (h : Leads N w o) {s : Nat} (v : Value)
    (st : List (Nat × Value)) {rest : List Item} (h1 : s < 61) (h2 : s ≠ 34) (hw : Clean w) (hr : Clean rest) {t : Nat}
    (ht : look rest = t) (hf : fol s (code N) t = true) :
    (∃ n, o = .ok n ∧ Reach ((s, v) :: st, w ++ rest) ((ntAction s (code N - 25), .num n) :: (s, v) :: st, rest)) ∨
    (∃ e, o = .error e ∧ Fails ((s, v) :: st, w ++ rest) e) := by
  subst ht
  have := h s v st rest h1 h2 hw hr hf
  cases o with
  | ok n => exact .inl ⟨n, rfl, this⟩
  | error e => exact .inr ⟨e, rfl, this⟩

theorem path {s r X t : Nat} {ys : List Nat} (h1 : s < 61) (h2 : s ≠ 34) (hr : r < 33) (hrule : rule r = (X, ys)) (ht : t < 25)
    (hf : fol s X t = true) : pathOk r t s ys = true := by
  unfold rule at hrule
  have := pathOk_all s h1 h2 r hr t ht
  rw [hrule] at this
  exact this hf

theorem goto_bound {s : Nat} (h1 : s < 61) (h2 : s ≠ 34) (N : NT) :
    ntAction s (code N - 25) < 61 ∧ ntAction s (code N - 25) ≠ 34 := by
  have h := gotoOk_all s h1 h2 (code N - 25) (by have := code_lt N; omega)
  simp only [gotoOk, Bool.and_eq_true, decide_eq_true_eq, bne_iff_ne, ne_eq] at h
  exact ⟨h.1.1.1.1.1, h.1.1.1.1.2⟩

theorem shift_bound {s t : Nat} (h1 : s < 61) (h2 : s ≠ 34) (ht : t < 25) (hp : 0 < tAction s t) (hn : tAction s t ≠ 34) :
    (tAction s t).toNat < 61 ∧ (tAction s t).toNat ≠ 34 := by
  have h := shiftOk_all s h1 h2 t ht
  unfold shiftOk at h
  simp only at h
  rw [if_neg hn, if_pos hp] at h
  simp only [Bool.and_eq_true, decide_eq_true_eq] at h
  have := h.1.1.1.1
  omega

theorem pathOk_tok {r t cur Y : Nat} {ys : List Nat} (hY : Y < 25) (h : pathOk r t cur (Y :: ys) = true) :
    0 < tAction cur Y ∧ tAction cur Y ≠ 34 ∧ pathOk r t (tAction cur Y).toNat ys = true := by
  unfold pathOk at h
  rw [if_pos hY] at h
  simp only [Bool.and_eq_true, decide_eq_true_eq, bne_iff_ne, ne_eq] at h
  exact ⟨h.1.1, h.1.2, h.2⟩

theorem pathOk_nt {r t cur : Nat} {N : NT} {ys : List Nat} (h : pathOk r t cur (code N :: ys) = true) :
    fol cur (code N) (ys.headD t) = true ∧ pathOk r t (ntAction cur (code N - 25)) ys = true := by
  unfold pathOk at h
  rw [if_neg (by have := code_ge N; omega)] at h
  simp only [Bool.and_eq_true] at h
  exact ⟨h.1.1, h.2⟩

theorem pathOk_nil {r t cur : Nat} (h : pathOk r t cur [] = true) : tAction cur t = -(r + 1) := by
  unfold pathOk at h
  simpa using h

theorem Clean.left {u w : List Item} (h : Clean (u ++ w)) : Clean u := fun i hi => h i (List.mem_append.2 (.inl hi))
theorem Clean.right {u w : List Item} (h : Clean (u ++ w)) : Clean w := fun i hi => h i (List.mem_append.2 (.inr hi))
theorem Clean.append {u w : List Item} (h1 : Clean u) (h2 : Clean w) : Clean (u ++ w) := fun i hi =>
  (List.mem_append.1 hi).elim (h1 i) (h2 i)

theorem leads_sub {X Y : NT} {w : List Item} {o : Except Err Int} (hs : Sub X Y) (ih : Leads Y w o) : Leads X w o := by
  intro s v st rest h1 h2 hw hrest hf
  obtain ⟨r, hr, hrule, hact⟩ := sub_rule hs
  have hp := path h1 h2 hr hrule (aact_look (s := s) hrest).2 hf
  obtain ⟨hp1, hp2⟩ := pathOk_nt hp
  have hp3 := pathOk_nil hp2
  rcases ih.apply v st h1 h2 hw hrest rfl hp1 with ⟨n, rfl, h⟩ | ⟨e, rfl, h⟩
  · refine h.trans (reach_reduce hrest hp3 ?_)
    rw [reduce1 r hr hrule, hact]
  · exact h

theorem leads_bin {X Y : NT} {op : Nat} {f : Int → Int → Except Err Int} {l r : List Item} {x : Value} {a b : Except Err Int}
    (hb : BinOp X Y op f) (iha : Leads X l a) (ihb : Leads Y r b) :
    Leads X (l ++ .tok op x :: r) (apply2 f a b) := by
  intro s v st rest h1 h2 hw hrest hf
  obtain ⟨k, hk, hrule, hact⟩ := bin_rule hb
  have hp := path h1 h2 hk hrule (aact_look (s := s) hrest).2 hf
  obtain ⟨hp1, hp2⟩ := pathOk_nt hp
  obtain ⟨hp3, hp4, hp5⟩ := pathOk_tok (binop_lt hb).2 hp2
  obtain ⟨hp6, hp7⟩ := pathOk_nt hp5
  have hp8 := pathOk_nil hp7
  have hg := goto_bound h1 h2 X
  have hsh := shift_bound hg.1 hg.2 (binop_lt hb).2 hp3 hp4
  have hl := hw.left
  have hr' : Clean r := fun i hi => hw.right i (List.mem_cons_of_mem _ hi)
  have hor : Clean (.tok op x :: (r ++ rest)) := by
    have := (hw.right).append hrest
    simpa using this
  rw [List.append_assoc, List.cons_append]
  rcases iha.apply v st h1 h2 hl hor rfl hp1 with ⟨m, rfl, h⟩ | ⟨e, rfl, h⟩
  · have hA := h.trans (reach_shift (x := x) (rest := r ++ rest) hp3 hp4)
    rcases ihb.apply x _ hsh.1 hsh.2 hr' hrest rfl hp6 with ⟨n, rfl, h'⟩ | ⟨e, rfl, h'⟩
    · have hB := hA.trans h'
      have hred := reduce3 k hk hrule (ntAction (tAction (ntAction s (code X - 25)) op).toNat (code Y - 25))
        (tAction (ntAction s (code X - 25)) op).toNat (ntAction s (code X - 25)) s (.num n) x (.num m) v st
      rw [hact] at hred
      simp only [apply2]
      cases hfm : f m n with
      | ok c =>
        rw [hfm] at hred
        exact hB.trans (reach_reduce hrest hp8 hred)
      | error e =>
        rw [hfm] at hred
        exact hB.fails (fails_reduce hrest hp8 hred)
    · exact hA.fails h'
  · exact h

theorem leads_pre {op : Nat} {f : Int → Except Err Int} {w : List Item} {x : Value} {a : Except Err Int}
    (hb : PreOp op f) (ih : Leads .primary w a) :
    Leads .term6 (.tok op x :: w) (apply1 f a) := by
  intro s v st rest h1 h2 hw hrest hf
  obtain ⟨k, hk, hrule, hact⟩ := pre_rule hb
  have hp := path h1 h2 hk hrule (aact_look (s := s) hrest).2 hf
  obtain ⟨hp3, hp4, hp5⟩ := pathOk_tok (preop_lt hb).2 hp
  obtain ⟨hp6, hp7⟩ := pathOk_nt (N := .primary) hp5
  have hp8 := pathOk_nil hp7
  have hsh := shift_bound h1 h2 (preop_lt hb).2 hp3 hp4
  have hr' : Clean w := fun i hi => hw i (List.mem_cons_of_mem _ hi)
  rw [List.cons_append]
  have hA := reach_shift (v := v) (st := st) (x := x) (rest := w ++ rest) hp3 hp4
  rcases ih.apply x _ hsh.1 hsh.2 hr' hrest rfl hp6 with ⟨n, rfl, h'⟩ | ⟨e, rfl, h'⟩
  · have hB := hA.trans h'
    have hred := reduce2 k hk hrule (ntAction (tAction s op).toNat (code .primary - 25)) (tAction s op).toNat s (.num n) x v st
    rw [hact] at hred
    simp only [apply1]
    cases hfm : f n with
    | ok c =>
      rw [hfm] at hred
      exact hB.trans (reach_reduce hrest hp8 hred)
    | error e =>
      rw [hfm] at hred
      exact hB.fails (fails_reduce hrest hp8 hred)
  · exact hA.fails h'

theorem leads_number (n : Int) : Leads .primary [.tok 1 (.num n)] (.ok n) := by
  intro s v st rest h1 h2 hw hrest hf
  have hrule : rule 31 = (34, [1]) := rfl
  have hp := path h1 h2 (r := 31) (by decide) hrule (aact_look (s := s) hrest).2 hf
  obtain ⟨hp3, hp4, hp5⟩ := pathOk_tok (by decide) hp
  have hA := reach_shift (v := v) (st := st) (x := .num n) (rest := rest) hp3 hp4
  refine hA.trans (reach_reduce hrest (pathOk_nil hp5) ?_)
  rw [reduce1 31 (by decide) hrule]
  rfl

theorem leads_paren {w : List Item} {o : Except Err Int} (x y : Value) (ih : Leads .term0 w o) :
    Leads .primary (.tok 22 x :: (w ++ [.tok 23 y])) o := by
  intro s v st rest h1 h2 hw hrest hf
  have hrule : rule 32 = (34, [22, 26, 23]) := rfl
  have hp := path h1 h2 (r := 32) (by decide) hrule (aact_look (s := s) hrest).2 hf
  obtain ⟨hp3, hp4, hp5⟩ := pathOk_tok (by decide) hp
  obtain ⟨hp6, hp7⟩ := pathOk_nt (N := .term0) hp5
  obtain ⟨hp9, hp10, hp11⟩ := pathOk_tok (by decide) hp7
  have hp8 := pathOk_nil hp11
  have hsh := shift_bound h1 h2 (by decide) hp3 hp4
  have hwr : Clean (w ++ [.tok 23 y]) := fun i hi => hw i (List.mem_cons_of_mem _ hi)
  have hor : Clean (.tok 23 y :: rest) := by
    have := hwr.right.append hrest
    simpa using this
  rw [List.cons_append, List.append_assoc, List.singleton_append]
  have hA := reach_shift (v := v) (st := st) (x := x) (rest := w ++ .tok 23 y :: rest) hp3 hp4
  rcases ih.apply x _ hsh.1 hsh.2 hwr.left hor rfl hp6 with ⟨n, rfl, h'⟩ | ⟨e, rfl, h'⟩
  · have hB := (hA.trans h').trans (reach_shift (x := y) (rest := rest) hp9 hp10)
    refine hB.trans (reach_reduce hrest hp8 ?_)
    rw [reduce3 32 (by decide) hrule]
    rfl
  · exact hA.fails h'

theorem leads_str (r op : Nat) (hr : r < 33) (hop : op < 25) (hrule : rule r = (29, [2, op, 2])) (a b : Str) (x : Value) (n : Int)
    (hact : action r (.str a) x (.str b) = .ok (.num n)) :
    Leads .strterm1 [.tok 2 (.str a), .tok op x, .tok 2 (.str b)] (.ok n) := by
  intro s v st rest h1 h2 hw hrest hf
  have hp := path h1 h2 hr hrule (aact_look (s := s) hrest).2 hf
  obtain ⟨hp1, hp2, hp3⟩ := pathOk_tok (by decide) hp
  obtain ⟨hp4, hp5, hp6⟩ := pathOk_tok hop hp3
  obtain ⟨hp7, hp8, hp9⟩ := pathOk_tok (by decide) hp6
  have hA := reach_shift (v := v) (st := st) (x := .str a) (rest := .tok op x :: .tok 2 (.str b) :: rest) hp1 hp2
  have hB := hA.trans (reach_shift (x := x) (rest := .tok 2 (.str b) :: rest) hp4 hp5)
  have hC := hB.trans (reach_shift (x := .str b) (rest := rest) hp7 hp8)
  refine hC.trans (reach_reduce hrest (pathOk_nil hp9) ?_)
  rw [reduce3 r hr hrule, hact]
  rfl

theorem leads {N : NT} {w : List Item} {o : Except Err Int} (h : Parses N w o) : Leads N w o := by
  induction h with
  | sub X Y w o hs _ ih => exact leads_sub hs ih
  | bin X Y op f l r x a b hb _ _ iha ihb => exact leads_bin hb iha ihb
  | pre op f x w a hb _ ih => exact leads_pre hb ih
  | number n => exact leads_number n
  | paren x y w o _ ih => exact leads_paren x y ih
  | strEq s t x =>
    refine leads_str 8 7 (by decide) (by decide) rfl s t x _ ?_
    simp only [action, beq_iff_eq]
  | strNe s t x =>
    refine leads_str 9 8 (by decide) (by decide) rfl s t x _ ?_
    simp only [action, beq_iff_eq]

/-- Evaluation fails with undefined behaviour or a division by zero only. -/
theorem Parses.err {N : NT} {w : List Item} {o : Except Err Int} (h : Parses N w o) : ∀ e, o = .error e → e = .ub ∨ e = .divByZero := by
  induction h with
  | sub _ _ _ _ _ _ ih => exact ih
  | bin X Y op f l r x a b hb _ _ iha ihb =>
    intro e he
    cases a with
    | error e' => exact iha e he
    | ok a =>
      cases b with
      | error e' => exact ihb e he
      | ok b =>
        simp only [apply2] at he
        cases hb <;> simp only [exact, shl, shr, reduceCtorEq] at he <;> grind
  | pre op f x w a hb _ ih =>
    intro e he
    cases a with
    | error e' => exact ih e he
    | ok a =>
      simp only [apply1] at he
      cases hb <;> simp only [exact, reduceCtorEq] at he <;> grind
  | number => intro e he; cases he
  | paren _ _ _ _ _ ih => exact ih
  | strEq => intro e he; cases he
  | strNe => intro e he; cases he

theorem no_fuel {N : NT} {w : List Item} : ¬ Parses N w (.error .fuel) := fun h => by
  rcases Parses.err h _ rfl with h | h <;> cases h

theorem arun_fuel_mono {f : Nat} {c : Conf} {r : Except Err Value} (h : arun f c = r) (hr : r ≠ .error .fuel) (k : Nat) :
    arun (f + k) c = r := by
  induction f generalizing c with
  | zero =>
    unfold arun at h
    exact absurd h.symm hr
  | succ f ih =>
    rw [show f + 1 + k = (f + k) + 1 by omega]
    unfold arun at h ⊢
    cases hs : astep c with
    | error e => rw [hs] at h; exact h
    | ok x =>
      rw [hs] at h
      cases x with
      | inr v => exact h
      | inl c' => exact ih h

/-- Enough fuel for the whole input. -/
theorem arun_enough {inp : List Item} (hi : ∀ i ∈ inp, Given i) {k : Nat} :
    arun (40 * inp.length + 100 + k) ([(0, .num 0)], inp) = arun (40 * inp.length + 100) ([(0, .num 0)], inp) := by
  refine arun_fuel_mono rfl ?_ k
  have hw : weight [(0, Value.num 0)] = 24 := by decide
  have h := arun_sound (40 * inp.length + 100) (c := ([(0, .num 0)], inp)) (.base _) (by simp) hi (by simp only [hw]; omega)
  intro hx
  rw [hx] at h
  simp only [reduceCtorEq, false_and, false_or, List.nil_append] at h
  obtain ⟨N, u, _, hp⟩ := h
  exact no_fuel hp

theorem accept7 : tAction 7 0 = 34 := by decide
theorem fol_start : fol 0 25 0 = true := by decide
theorem goto_start : ntAction 0 0 = 7 := by decide

end Jom.Expr
