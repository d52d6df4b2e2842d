/-
The grammar of preprocessor expressions (ppexpr.g 121-420) and the value of an expression, independent of the tables.
-/
import Verif.Model.Expr

namespace Jom.Spec
open Jom.Expr

/-- The nonterminals. -/
inductive NT where
  | expression | term0 | term1 | term2 | strterm1 | term3 | term4 | term5 | term6 | primary
deriving DecidableEq, Repr

/-- The exact result if it is an `int`, otherwise undefined. -/
def exact (x : Int) : Except Err Int := if x < -2 ^ 31 ∨ 2 ^ 31 ≤ x then .error .ub else .ok x

/-- Shifting to the left multiplies; the result may reach into the sign bit but not beyond it. -/
def shl (x n : Int) : Except Err Int :=
  if 0 ≤ x ∧ 0 ≤ n ∧ n < 32 ∧ x * 2 ^ n.toNat < 2 ^ 32 then
    .ok (if x * 2 ^ n.toNat < 2 ^ 31 then x * 2 ^ n.toNat else x * 2 ^ n.toNat - 2 ^ 32)
  else .error .ub

/-- Shifting to the right divides, rounding down. -/
def shr (x n : Int) : Except Err Int :=
  if 0 ≤ n ∧ n < 32 then .ok (x / 2 ^ n.toNat) else .error .ub

/-- Operators of a level, what their operands are, and what they do. Boolean results are 0 and 1. -/
inductive BinOp : NT → NT → Nat → (Int → Int → Except Err Int) → Prop
  | and : BinOp .term0 .term1 3 fun a b => .ok (if a ≠ 0 ∧ b ≠ 0 then 1 else 0)
  | or : BinOp .term0 .term1 4 fun a b => .ok (if a ≠ 0 ∨ b ≠ 0 then 1 else 0)
  | bitAnd : BinOp .term0 .term1 5 fun a b => .ok (BitVec.ofInt 32 a &&& BitVec.ofInt 32 b).toInt
  | bitOr : BinOp .term0 .term1 6 fun a b => .ok (BitVec.ofInt 32 a ||| BitVec.ofInt 32 b).toInt
  | eq : BinOp .term2 .term3 7 fun a b => .ok (if a = b then 1 else 0)
  | ne : BinOp .term2 .term3 8 fun a b => .ok (if a = b then 0 else 1)
  | lt : BinOp .term2 .term3 9 fun a b => .ok (if a < b then 1 else 0)
  | gt : BinOp .term2 .term3 10 fun a b => .ok (if b < a then 1 else 0)
  | le : BinOp .term2 .term3 11 fun a b => .ok (if a ≤ b then 1 else 0)
  | ge : BinOp .term2 .term3 12 fun a b => .ok (if b ≤ a then 1 else 0)
  | shl : BinOp .term3 .term4 13 shl
  | shr : BinOp .term3 .term4 14 shr
  | add : BinOp .term4 .term5 15 fun a b => exact (a + b)
  | sub : BinOp .term4 .term5 16 fun a b => exact (a - b)
  | mul : BinOp .term5 .term6 17 fun a b => exact (a * b)
  | div : BinOp .term5 .term6 18 fun a b => if b = 0 then .error .divByZero else exact (a.tdiv b)
  | mod : BinOp .term5 .term6 19 fun a b =>
    if b = 0 ∨ a = -2147483648 ∧ b = -1 then .error .ub else .ok (a.tmod b)

/-- Prefix operators, for primaries only. -/
inductive PreOp : Nat → (Int → Except Err Int) → Prop
  | neg : PreOp 16 fun a => exact (-a)
  | bitNot : PreOp 20 fun a => .ok (-a - 1)
  | not : PreOp 21 fun a => .ok (if a = 0 then 1 else 0)

/-- Each level contains the next one. -/
inductive Sub : NT → NT → Prop
  | expression : Sub .expression .term0
  | term0 : Sub .term0 .term1
  | term1 : Sub .term1 .term2
  | strterm1 : Sub .term1 .strterm1
  | term2 : Sub .term2 .term3
  | term3 : Sub .term3 .term4
  | term4 : Sub .term4 .term5
  | term5 : Sub .term5 .term6
  | term6 : Sub .term6 .primary

/-- The first operand that fails decides. -/
def apply2 (f : Int → Int → Except Err Int) : Except Err Int → Except Err Int → Except Err Int
  | .error e, _ => .error e
  | .ok _, .error e => .error e
  | .ok a, .ok b => f a b

def apply1 (f : Int → Except Err Int) : Except Err Int → Except Err Int
  | .error e => .error e
  | .ok a => f a

/-- `Parses X w o`: the tokens `w` form an `X`, whose evaluation from left to right leads to `o`. -/
inductive Parses : NT → List Item → Except Err Int → Prop
  | sub (X Y : NT) (w : List Item) (o : Except Err Int) : Sub X Y → Parses Y w o → Parses X w o
  | bin (X Y : NT) (op : Nat) (f : Int → Int → Except Err Int) (l r : List Item) (v : Value) (a b : Except Err Int) :
    BinOp X Y op f → Parses X l a → Parses Y r b →
    Parses X (l ++ .tok op v :: r) (apply2 f a b)
  | pre (op : Nat) (f : Int → Except Err Int) (v : Value) (w : List Item) (a : Except Err Int) :
    PreOp op f → Parses .primary w a →
    Parses .term6 (.tok op v :: w) (apply1 f a)
  | number (n : Int) : Parses .primary [.tok 1 (.num n)] (.ok n)
  | paren (u v : Value) (w : List Item) (o : Except Err Int) : Parses .term0 w o →
    Parses .primary (.tok 22 u :: (w ++ [.tok 23 v])) o
  | strEq (s t : Str) (v : Value) :
    Parses .strterm1 [.tok 2 (.str s), .tok 7 v, .tok 2 (.str t)] (.ok (if s = t then 1 else 0))
  | strNe (s t : Str) (v : Value) :
    Parses .strterm1 [.tok 2 (.str s), .tok 8 v, .tok 2 (.str t)] (.ok (if s = t then 0 else 1))

/-- A token as the lexer delivers it: numbers and strings carry their values. -/
def Proper : Item → Prop
  | .fault => False
  | .tok id v => 1 ≤ id ∧ id ≤ 24 ∧ (id = 1 → ∃ n, v = .num n) ∧ (id = 2 → ∃ s, v = .str s)

end Jom.Spec
