/-
Model of the parser for preprocessor expressions: `PPExprParser::parse` (src/jomlib/ppexprparser.cpp, generated from
ppexpr.g) with the tables of ppexpr_grammar.cpp, copied literally.

* The input is the list of what `yylex` would deliver, see `Model/ExprLex.lean`.
* Memory management (growth of the stacks, deletion of strings) is not modelled.
* `int` has 32 bits. What C++ leaves undefined is the outcome `ub`; `>>` of a negative number is arithmetic.
-/
import Verif.QtStr

namespace Jom.Expr

/-- `Value` (ppexprparser.h 58-72). -/
inductive Value where
  | num (n : Int)
  | str (s : Str)
deriving DecidableEq, Repr

/-- What `parse` can end with besides a value; `fuel` is no outcome of the program. -/
inductive Err where
  | syntax | divByZero | ub | fuel
deriving DecidableEq, Repr

/-- One call of `yylex`: a token with `yylval` after the call, or undefined behaviour. The end of the input is token 0. -/
inductive Item where
  | tok (id : Nat) (yylval : Value)
  | fault
deriving DecidableEq, Repr

/-! ### Tables -/

/-- `lhs`: ppexpr_grammar.cpp 14-18. -/
def lhsTab : List Nat := [
  25, 26, 26, 26, 26, 26, 27, 27, 29, 29, 28, 28, 28, 28, 28, 28, 28, 30, 30, 30,
  31, 31, 31, 32, 32, 32, 32, 33, 33, 33, 33, 34, 34, 35]

/-- `rhs`: ppexpr_grammar.cpp 20-24. -/
def rhsTab : List Nat := [
  1, 1, 3, 3, 3, 3, 1, 1, 3, 3, 1, 3, 3, 3, 3, 3, 3, 1, 3, 3,
  1, 3, 3, 1, 3, 3, 3, 1, 2, 2, 2, 1, 3, 2]

/-- `action_default`. -/
def actionDefault : List Int := [
  0, 0, 0, 0, 0, 32, 0, 0, 28, 8, 1, 2, 7, 11, 18, 21, 24, 30, 31, 0,
  0, 0, 0, 0, 33, 5, 6, 3, 4, 29, 0, 0, 9, 10, 34, 0, 0, 0, 0, 0,
  0, 12, 0, 0, 19, 0, 0, 23, 0, 0, 0, 26, 27, 25, 22, 20, 17, 16, 15, 14,
  13]

/-- `goto_default`. -/
def gotoDefault : List Nat := [
  7, 10, 11, 12, 9, 13, 14, 15, 16, 8, 0]

/-- `action_index`; the second half belongs to `nt_action`. -/
def actionIndex : List Int := [
  117, 1, 2, 76, 5, -25, 3, 0, -25, -25, 45, -25, 113, 6, -8, 18, -25, -25, -25, 57,
  110, 117, 85, 141, -25, -25, -25, -25, -25, -25, 23, -1, -25, -25, -25, 51, 93, 69, 25, 37,
  69, 15, 69, 69, -3, 69, 93, 18, 69, 69, 69, -25, -25, -25, 18, 16, 20, 20, -9, 4,
  8, -11, -9, -7, 3, -8, -11, -11, -11, -11, -11, -11, -11, -11, -11, -11, -11, -11, -11, -11,
  -11, 1, 12, 4, 21, -11, -11, -11, -11, -11, -11, -11, -11, -11, -11, -11, 10, 15, 16, 0,
  6, 7, -11, 11, 13, -11, 9, 17, -11, -1, 2, 5, -11, -11, -11, -11, -11, -11, -11, -11,
  -11, -11]

/-- `action_info`. -/
def actionInfo : List Int := [
  34, 33, 5, 5, 42, 43, 5, 46, 45, 0, 30, 31, 46, 45, 0, 0, 0, 42, 43, 42,
  43, 42, 43, 3, 3, 32, 5, 3, 42, 43, 0, 46, 45, 42, 43, 50, 48, 49, 5, 0,
  0, 4, 0, 0, 0, 1, 2, 3, 22, 23, 20, 21, 5, 4, 0, 0, 0, 1, 2, 3,
  22, 23, 20, 21, 0, 0, 0, 4, 0, 0, 5, 1, 2, 3, 0, 0, 0, 5, 6, 0,
  24, 0, 0, 0, 0, 4, 5, 6, 0, 1, 2, 3, 4, 0, 5, 0, 1, 2, 3, 0,
  0, 4, 0, 0, 0, 1, 2, 3, 0, 4, 0, 5, 6, 1, 2, 3, 0, 0, 5, 6,
  35, 40, 39, 38, 37, 36, 4, 0, 0, 0, 1, 2, 3, 4, 0, 0, 0, 1, 2, 3,
  0, 0, 5, 6, 0, 0, 0, 0, 0, 0, 0, 0, 0, 0, 0, 0, 0, 4, 0, 0,
  0, 1, 2, 3, 0, 0, 17, 29, 18, 25, 19, 58, 27, 51, 0, 0, 52, 59, 60, 53,
  26, 41, 47, 44, 0, 55, 56, 57, 0, 28, 54, 0, 0, 0, 0, 0, 0, 0]

/-- `action_check`. -/
def actionCheck : List Int := [
  0, 2, 1, 1, 13, 14, 1, 15, 16, -1, 7, 8, 15, 16, -1, -1, -1, 13, 14, 13,
  14, 13, 14, 22, 22, 2, 1, 22, 13, 14, -1, 15, 16, 13, 14, 17, 18, 19, 1, -1,
  -1, 16, -1, -1, -1, 20, 21, 22, 3, 4, 5, 6, 1, 16, -1, -1, -1, 20, 21, 22,
  3, 4, 5, 6, -1, -1, -1, 16, -1, -1, 1, 20, 21, 22, -1, -1, -1, 1, 2, -1,
  23, -1, -1, -1, -1, 16, 1, 2, -1, 20, 21, 22, 16, -1, 1, -1, 20, 21, 22, -1,
  -1, 16, -1, -1, -1, 20, 21, 22, -1, 16, -1, 1, 2, 20, 21, 22, -1, -1, 1, 2,
  7, 8, 9, 10, 11, 12, 16, -1, -1, -1, 20, 21, 22, 16, -1, -1, -1, 20, 21, 22,
  -1, -1, 1, 2, -1, -1, -1, -1, -1, -1, -1, -1, -1, -1, -1, -1, -1, 16, -1, -1,
  -1, 20, 21, 22, -1, -1, 9, 9, 9, 2, 1, 5, 2, 8, -1, -1, 8, 5, 5, 8,
  2, 5, 7, 6, -1, 6, 5, 5, -1, 2, 7, -1, -1, -1, -1, -1, -1, -1]

/-- `t_action`: ppexpr_grammar_p.h 70-78. -/
def tAction (state : Nat) (token : Int) : Int :=
  let yyn := actionIndex.getD state 0 + token
  if yyn < 0 ∨ actionCheck.getD yyn.toNat 0 ≠ token then - actionDefault.getD state 0 else actionInfo.getD yyn.toNat 0

/-- `nt_action`: ppexpr_grammar_p.h 61-68. -/
def ntAction (state nt : Nat) : Nat :=
  let yyn := actionIndex.getD (61 + state) 0 + nt
  if yyn < 0 ∨ actionCheck.getD (166 + yyn.toNat) 0 ≠ nt then gotoDefault.getD nt 0
  else (actionInfo.getD (166 + yyn.toNat) 0).toNat

/-! ### Actions -/

/-- Result of an `int` operation. -/
def int32 (x : Int) : Except Err Int := if -2147483648 ≤ x ∧ x ≤ 2147483647 then .ok x else .error .ub

def ofBool (b : Bool) : Except Err Int := .ok (if b then 1 else 0)

/-- `<<` for `int`. -/
def shiftLeft (x n : Int) : Except Err Int :=
  if x < 0 ∨ n < 0 ∨ 31 < n then .error .ub
  else if x * 2 ^ n.toNat < 4294967296 then .ok (BitVec.ofInt 32 (x * 2 ^ n.toNat)).toInt else .error .ub

/-- `>>` for `int`. -/
def shiftRight (x n : Int) : Except Err Int :=
  if n < 0 ∨ 31 < n then .error .ub else .ok (x >>> n.toNat)

/-- The switch over the rules: ppexprparser.cpp 125-233; `s1`, `s2`, `s3` are `sym(1)`, `sym(2)`, `sym(3)`, the result
is the new `sym(1)`. Reading the wrong member of the union is undefined. -/
def action (r : Nat) (s1 s2 s3 : Value) : Except Err Value :=
  let bin (f : Int → Int → Except Err Int) : Except Err Value :=
    match s1, s3 with
    | .num a, .num b => match f a b with
      | .ok c => .ok (.num c)
      | .error e => .error e
    | _, _ => .error .ub
  let unary (f : Int → Except Err Int) : Except Err Value :=
    match s2 with
    | .num a => match f a with
      | .ok c => .ok (.num c)
      | .error e => .error e
    | _ => .error .ub
  match r with
  | 2 => bin fun a b => ofBool (a != 0 && b != 0)
  | 3 => bin fun a b => ofBool (a != 0 || b != 0)
  | 4 => bin fun a b => .ok (BitVec.ofInt 32 a &&& BitVec.ofInt 32 b).toInt
  | 5 => bin fun a b => .ok (BitVec.ofInt 32 a ||| BitVec.ofInt 32 b).toInt
  | 8 => match s1, s3 with
    | .str a, .str b => .ok (.num (if a == b then 1 else 0))
    | _, _ => .error .ub
  | 9 => match s1, s3 with
    | .str a, .str b => .ok (.num (if a == b then 0 else 1))
    | _, _ => .error .ub
  | 11 => bin fun a b => ofBool (a == b)
  | 12 => bin fun a b => ofBool (a != b)
  | 13 => bin fun a b => ofBool (a < b)
  | 14 => bin fun a b => ofBool (a > b)
  | 15 => bin fun a b => ofBool (a ≤ b)
  | 16 => bin fun a b => ofBool (a ≥ b)
  | 18 => bin shiftLeft
  | 19 => bin shiftRight
  | 21 => bin fun a b => int32 (a + b)
  | 22 => bin fun a b => int32 (a - b)
  | 24 => bin fun a b => int32 (a * b)
  | 25 => bin fun a b => if b = 0 then .error .divByZero else int32 (a.tdiv b)
  | 26 => bin fun a b => if b = 0 then .error .ub else if a = -2147483648 ∧ b = -1 then .error .ub else .ok (a.tmod b)
  | 28 => unary fun a => int32 (-a)
  | 29 => unary fun a => .ok (-a - 1)
  | 30 => unary fun a => ofBool (a == 0)
  | 32 => match s2 with
    | .num a => .ok (.num a)
    | _ => .error .ub
  | _ => .ok s1

/-! ### The loop -/

/-- `state_stack` and `sym_stack` (top first), `yytoken`, `yylval` and the input. -/
structure St where
  stack : List (Nat × Value)
  yytoken : Int := -1
  yylval : Value
  input : List Item
deriving DecidableEq, Repr

def topState (stack : List (Nat × Value)) : Nat := match stack with | (s, _) :: _ => s | [] => 0
def topValue (stack : List (Nat × Value)) : Value := match stack with | (_, v) :: _ => v | [] => .num 0

/-- `yylex` if a token is needed: ppexprparser.cpp 76-81. -/
def lex (s : St) : Except Err St :=
  if s.yytoken = -1 ∧ actionIndex.getD (topState s.stack) 0 ≠ -25 then
    match s.input with
    | [] => .ok { s with yytoken := 0 }
    | .tok id v :: rest => .ok { s with yytoken := id, yylval := v, input := rest }
    | .fault :: _ => .error .ub
  else .ok s

/-- A reduction: ppexprparser.cpp 104-236. -/
def reduce (r : Nat) (stack : List (Nat × Value)) : Except Err (List (Nat × Value)) :=
  let n := rhsTab.getD r 0
  let below := stack.drop n
  let sym (i : Nat) : Value := topValue (stack.drop (n - i))
  match action r (sym 1) (sym 2) (sym 3) with
  | .error e => .error e
  | .ok v => .ok ((ntAction (topState below) (lhsTab.getD r 0 - 25), v) :: below)

/-- One round of the loop: ppexprparser.cpp 74-242. -/
def step (s : St) : Except Err (St ⊕ Value) :=
  match lex s with
  | .error e => .error e
  | .ok s =>
    let act := tAction (topState s.stack) s.yytoken
    if act = 34 then .ok (.inr (topValue s.stack))
    else if 0 < act then .ok (.inl { s with stack := (act.toNat, s.yylval) :: s.stack, yytoken := -1 })
    else if act < 0 then
      match reduce (-act - 1).toNat s.stack with
      | .error e => .error e
      | .ok st => .ok (.inl { s with stack := st })
    else .error .syntax

def run : Nat → St → Except Err Value
  | 0, _ => .error .fuel
  | f + 1, s =>
    match step s with
    | .error e => .error e
    | .ok (.inr v) => .ok v
    | .ok (.inl s) => run f s

/-- `parse` and `expressionValue`: ppexprparser.cpp 57-252, ppexprparser.h 42-45. -/
def parse (input : List Item) : Except Err Int :=
  match run (40 * input.length + 100) { stack := [(0, .num 0)], yylval := .num 0, input := input } with
  | .error e => .error e
  | .ok (.num n) => .ok n
  | .ok (.str _) => .error .ub

end Jom.Expr
