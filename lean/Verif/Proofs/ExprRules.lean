/-
What the rules of the expression parser stand for, and that their actions compute what the specification says.
-/
import Verif.Proofs.ExprTab

namespace Jom.Expr
open Jom.Spec

/-- The number of a nonterminal. -/
def code : NT → Nat
  | .expression => 25 | .term0 => 26 | .term1 => 27 | .term2 => 28 | .strterm1 => 29
  | .term3 => 30 | .term4 => 31 | .term5 => 32 | .term6 => 33 | .primary => 34

def rule (r : Nat) : Nat × List Nat := rules.getD r (0, [])

def numE (x : Except Err Int) : Except Err Value :=
  match x with
  | .ok c => .ok (.num c)
  | .error e => .error e

theorem int32_exact (x : Int) : int32 x = exact x := by
  unfold int32 exact
  split <;> split <;> first | rfl | omega

theorem shiftLeft_shl (x n : Int) : shiftLeft x n = shl x n := by
  unfold shiftLeft shl
  have hp : (0 : Int) < 2 ^ n.toNat := Int.pow_pos (by decide)
  by_cases h : x < 0 ∨ n < 0 ∨ 31 < n
  · rw [if_pos h, if_neg (by omega)]
  · rw [if_neg h]
    have h0 : 0 ≤ x * 2 ^ n.toNat := Int.mul_nonneg (by omega) (by omega)
    generalize x * 2 ^ n.toNat = y at *
    by_cases hy : y < 4294967296
    · rw [if_pos hy, if_pos (by omega)]
      congr 1
      rw [BitVec.toInt_ofInt, Int.bmod_def]
      split <;> split <;> omega
    · rw [if_neg hy, if_neg (by omega)]

theorem shiftRight_shr (x n : Int) : shiftRight x n = shr x n := by
  unfold shiftRight shr
  by_cases h : n < 0 ∨ 31 < n
  · rw [if_pos h, if_neg (by omega)]
  · rw [if_neg h, if_pos (by omega), Int.shiftRight_eq_div_pow]
    simp

theorem ofBool_eq (b : Bool) : ofBool b = .ok (if b = true then 1 else 0) := rfl

macro "act_arith" : tactic => `(tactic|
  (simp only [action, numE, int32_exact, shiftLeft_shl, shiftRight_shr, ofBool_eq, bne_iff_ne, beq_iff_eq, Bool.and_eq_true,
     Bool.or_eq_true, decide_eq_true_eq, gt_iff_lt, ge_iff_le, ne_eq, ite_not]
   <;> first | done | grind))

/-- The rules by what they stand for. -/
inductive Kind (r : Nat) : Prop
  | sub (X Y : NT) : Sub X Y → rule r = (code X, [code Y]) → (∀ v, action r v v v = .ok v) → Kind r
  | bin (X Y : NT) (op : Nat) (f : Int → Int → Except Err Int) : BinOp X Y op f →
    rule r = (code X, [code X, op, code Y]) → (∀ a b v, action r (.num a) v (.num b) = numE (f a b)) → Kind r
  | pre (op : Nat) (f : Int → Except Err Int) : PreOp op f → rule r = (33, [op, 34]) →
    (∀ a v, action r v (.num a) (.num a) = numE (f a)) → Kind r
  | strEq : r = 8 → Kind r
  | strNe : r = 9 → Kind r
  | number : r = 31 → Kind r
  | paren : r = 32 → Kind r

theorem kind : ∀ r, r < 33 → Kind r
  | 0, _ => .sub _ _ (Sub.expression) rfl (fun _ => rfl)
  | 1, _ => .sub _ _ (Sub.term0) rfl (fun _ => rfl)
  | 2, _ => .bin _ _ _ _ BinOp.and rfl (by intro a b v; act_arith)
  | 3, _ => .bin _ _ _ _ BinOp.or rfl (by intro a b v; act_arith)
  | 4, _ => .bin _ _ _ _ BinOp.bitAnd rfl (by intro a b v; act_arith)
  | 5, _ => .bin _ _ _ _ BinOp.bitOr rfl (by intro a b v; act_arith)
  | 6, _ => .sub _ _ (Sub.term1) rfl (fun _ => rfl)
  | 7, _ => .sub _ _ (Sub.strterm1) rfl (fun _ => rfl)
  | 8, _ => .strEq rfl
  | 9, _ => .strNe rfl
  | 10, _ => .sub _ _ (Sub.term2) rfl (fun _ => rfl)
  | 11, _ => .bin _ _ _ _ BinOp.eq rfl (by intro a b v; act_arith)
  | 12, _ => .bin _ _ _ _ BinOp.ne rfl (by intro a b v; act_arith)
  | 13, _ => .bin _ _ _ _ BinOp.lt rfl (by intro a b v; act_arith)
  | 14, _ => .bin _ _ _ _ BinOp.gt rfl (by intro a b v; act_arith)
  | 15, _ => .bin _ _ _ _ BinOp.le rfl (by intro a b v; act_arith)
  | 16, _ => .bin _ _ _ _ BinOp.ge rfl (by intro a b v; act_arith)
  | 17, _ => .sub _ _ (Sub.term3) rfl (fun _ => rfl)
  | 18, _ => .bin _ _ _ _ BinOp.shl rfl (by intro a b v; act_arith)
  | 19, _ => .bin _ _ _ _ BinOp.shr rfl (by intro a b v; act_arith)
  | 20, _ => .sub _ _ (Sub.term4) rfl (fun _ => rfl)
  | 21, _ => .bin _ _ _ _ BinOp.add rfl (by intro a b v; act_arith)
  | 22, _ => .bin _ _ _ _ BinOp.sub rfl (by intro a b v; act_arith)
  | 23, _ => .sub _ _ (Sub.term5) rfl (fun _ => rfl)
  | 24, _ => .bin _ _ _ _ BinOp.mul rfl (by intro a b v; act_arith)
  | 25, _ => .bin _ _ _ _ BinOp.div rfl (by intro a b v; act_arith)
  | 26, _ => .bin _ _ _ _ BinOp.mod rfl (by intro a b v; act_arith)
  | 27, _ => .sub _ _ (Sub.term6) rfl (fun _ => rfl)
  | 28, _ => .pre _ _ PreOp.neg rfl (by intro a v; act_arith)
  | 29, _ => .pre _ _ PreOp.bitNot rfl (by intro a v; act_arith)
  | 30, _ => .pre _ _ PreOp.not rfl (by intro a v; act_arith)
  | 31, _ => .number rfl
  | 32, _ => .paren rfl
  | n + 33, h => absurd h (by omega)

theorem sub_rule {X Y : NT} (h : Sub X Y) :
    ∃ r < 33, rule r = (code X, [code Y]) ∧ ∀ v, action r v v v = .ok v := by
  cases h with
  | expression => exact ⟨0, by decide, rfl, fun _ => rfl⟩
  | term0 => exact ⟨1, by decide, rfl, fun _ => rfl⟩
  | term1 => exact ⟨6, by decide, rfl, fun _ => rfl⟩
  | strterm1 => exact ⟨7, by decide, rfl, fun _ => rfl⟩
  | term2 => exact ⟨10, by decide, rfl, fun _ => rfl⟩
  | term3 => exact ⟨17, by decide, rfl, fun _ => rfl⟩
  | term4 => exact ⟨20, by decide, rfl, fun _ => rfl⟩
  | term5 => exact ⟨23, by decide, rfl, fun _ => rfl⟩
  | term6 => exact ⟨27, by decide, rfl, fun _ => rfl⟩

theorem bin_rule {X Y : NT} {op : Nat} {f : Int → Int → Except Err Int} (h : BinOp X Y op f) :
    ∃ r < 33, rule r = (code X, [code X, op, code Y]) ∧ ∀ a b v, action r (.num a) v (.num b) = numE (f a b) := by
  cases h with
  | and => exact ⟨2, by decide, rfl, by intro a b v; act_arith⟩
  | or => exact ⟨3, by decide, rfl, by intro a b v; act_arith⟩
  | bitAnd => exact ⟨4, by decide, rfl, by intro a b v; act_arith⟩
  | bitOr => exact ⟨5, by decide, rfl, by intro a b v; act_arith⟩
  | eq => exact ⟨11, by decide, rfl, by intro a b v; act_arith⟩
  | ne => exact ⟨12, by decide, rfl, by intro a b v; act_arith⟩
  | lt => exact ⟨13, by decide, rfl, by intro a b v; act_arith⟩
  | gt => exact ⟨14, by decide, rfl, by intro a b v; act_arith⟩
  | le => exact ⟨15, by decide, rfl, by intro a b v; act_arith⟩
  | ge => exact ⟨16, by decide, rfl, by intro a b v; act_arith⟩
  | shl => exact ⟨18, by decide, rfl, by intro a b v; act_arith⟩
  | shr => exact ⟨19, by decide, rfl, by intro a b v; act_arith⟩
  | add => exact ⟨21, by decide, rfl, by intro a b v; act_arith⟩
  | sub => exact ⟨22, by decide, rfl, by intro a b v; act_arith⟩
  | mul => exact ⟨24, by decide, rfl, by intro a b v; act_arith⟩
  | div => exact ⟨25, by decide, rfl, by intro a b v; act_arith⟩
  | mod => exact ⟨26, by decide, rfl, by intro a b v; act_arith⟩

theorem pre_rule {op : Nat} {f : Int → Except Err Int} (h : PreOp op f) :
    ∃ r < 33, rule r = (33, [op, 34]) ∧ ∀ a v, action r v (.num a) (.num a) = numE (f a) := by
  cases h with
  | neg => exact ⟨28, by decide, rfl, by intro a v; act_arith⟩
  | bitNot => exact ⟨29, by decide, rfl, by intro a v; act_arith⟩
  | not => exact ⟨30, by decide, rfl, by intro a v; act_arith⟩

end Jom.Expr
