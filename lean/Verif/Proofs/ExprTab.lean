/-
Finite facts about the tables of the expression parser: which symbols are on the stack in each state, and which rules
lead where.
-/
import Verif.Spec.Expr

namespace Jom.Expr

/-- The grammar: ppexpr_grammar.cpp 28-62. -/
def rules : List (Nat × List Nat) := [
  (25, [26]), (26, [27]), (26, [26, 3, 27]), (26, [26, 4, 27]), (26, [26, 5, 27]), (26, [26, 6, 27]),
  (27, [28]), (27, [29]), (29, [2, 7, 2]), (29, [2, 8, 2]), (28, [30]), (28, [28, 7, 30]), (28, [28, 8, 30]),
  (28, [28, 9, 30]), (28, [28, 10, 30]), (28, [28, 11, 30]), (28, [28, 12, 30]), (30, [31]),
  (30, [30, 13, 31]), (30, [30, 14, 31]), (31, [32]), (31, [31, 15, 32]), (31, [31, 16, 32]), (32, [33]),
  (32, [32, 17, 33]), (32, [32, 18, 33]), (32, [32, 19, 33]), (33, [34]), (33, [16, 34]), (33, [20, 34]),
  (33, [21, 34]), (34, [1]), (34, [22, 26, 23])]

/-- The symbols that are on top of the stack in each state. -/
def pastTab : List (List Nat) := [
  [], [20], [21], [22], [16], [1], [2], [25], [34], [29], [26], [27], [28], [30], [31], [32], [33], [34, 20],
  [34, 21], [26, 22], [5, 26], [6, 26], [3, 26], [4, 26], [23, 26, 22], [27, 5, 26], [27, 6, 26],
  [27, 3, 26], [27, 4, 26], [34, 16], [7, 2], [8, 2], [2, 7, 2], [2, 8, 2], [], [7, 28], [12, 28], [11, 28],
  [10, 28], [9, 28], [8, 28], [30, 7, 28], [13, 30], [14, 30], [31, 13, 30], [16, 31], [15, 31],
  [32, 16, 31], [18, 32], [19, 32], [17, 32], [33, 18, 32], [33, 19, 32], [33, 17, 32], [32, 15, 31],
  [31, 14, 30], [30, 12, 28], [30, 11, 28], [30, 10, 28], [30, 9, 28], [30, 8, 28]]

/-- The tokens that may follow a nonterminal begun in a state, as bits. -/
def folTab : List (List Nat) := [
  [1, 121, 121, 8185, 121, 32761, 131065, 1048569, 1048569, 1048569], [0, 0, 0, 0, 0, 0, 0, 0, 0, 9437177],
  [0, 0, 0, 0, 0, 0, 0, 0, 0, 9437177],
  [0, 8388728, 8388728, 8396792, 8388728, 8421368, 8519672, 9437176, 9437176, 9437176],
  [0, 0, 0, 0, 0, 0, 0, 0, 0, 9437177], [0, 0, 0, 0, 0, 0, 0, 0, 0, 0], [0, 0, 0, 0, 0, 0, 0, 0, 0, 0],
  [0, 0, 0, 0, 0, 0, 0, 0, 0, 0], [0, 0, 0, 0, 0, 0, 0, 0, 0, 0], [0, 0, 0, 0, 0, 0, 0, 0, 0, 0],
  [0, 0, 0, 0, 0, 0, 0, 0, 0, 0], [0, 0, 0, 0, 0, 0, 0, 0, 0, 0], [0, 0, 0, 0, 0, 0, 0, 0, 0, 0],
  [0, 0, 0, 0, 0, 0, 0, 0, 0, 0], [0, 0, 0, 0, 0, 0, 0, 0, 0, 0], [0, 0, 0, 0, 0, 0, 0, 0, 0, 0],
  [0, 0, 0, 0, 0, 0, 0, 0, 0, 0], [0, 0, 0, 0, 0, 0, 0, 0, 0, 0], [0, 0, 0, 0, 0, 0, 0, 0, 0, 0],
  [0, 0, 0, 0, 0, 0, 0, 0, 0, 0],
  [0, 0, 8388729, 8396793, 8388729, 8421369, 8519673, 9437177, 9437177, 9437177],
  [0, 0, 8388729, 8396793, 8388729, 8421369, 8519673, 9437177, 9437177, 9437177],
  [0, 0, 8388729, 8396793, 8388729, 8421369, 8519673, 9437177, 9437177, 9437177],
  [0, 0, 8388729, 8396793, 8388729, 8421369, 8519673, 9437177, 9437177, 9437177],
  [0, 0, 0, 0, 0, 0, 0, 0, 0, 0], [0, 0, 0, 0, 0, 0, 0, 0, 0, 0], [0, 0, 0, 0, 0, 0, 0, 0, 0, 0],
  [0, 0, 0, 0, 0, 0, 0, 0, 0, 0], [0, 0, 0, 0, 0, 0, 0, 0, 0, 0], [0, 0, 0, 0, 0, 0, 0, 0, 0, 0],
  [0, 0, 0, 0, 0, 0, 0, 0, 0, 0], [0, 0, 0, 0, 0, 0, 0, 0, 0, 0], [0, 0, 0, 0, 0, 0, 0, 0, 0, 0],
  [0, 0, 0, 0, 0, 0, 0, 0, 0, 0], [0, 0, 0, 0, 0, 0, 0, 0, 0, 0],
  [0, 0, 0, 0, 0, 8421369, 8519673, 9437177, 9437177, 9437177],
  [0, 0, 0, 0, 0, 8421369, 8519673, 9437177, 9437177, 9437177],
  [0, 0, 0, 0, 0, 8421369, 8519673, 9437177, 9437177, 9437177],
  [0, 0, 0, 0, 0, 8421369, 8519673, 9437177, 9437177, 9437177],
  [0, 0, 0, 0, 0, 8421369, 8519673, 9437177, 9437177, 9437177],
  [0, 0, 0, 0, 0, 8421369, 8519673, 9437177, 9437177, 9437177], [0, 0, 0, 0, 0, 0, 0, 0, 0, 0],
  [0, 0, 0, 0, 0, 0, 8519673, 9437177, 9437177, 9437177],
  [0, 0, 0, 0, 0, 0, 8519673, 9437177, 9437177, 9437177], [0, 0, 0, 0, 0, 0, 0, 0, 0, 0],
  [0, 0, 0, 0, 0, 0, 0, 9437177, 9437177, 9437177], [0, 0, 0, 0, 0, 0, 0, 9437177, 9437177, 9437177],
  [0, 0, 0, 0, 0, 0, 0, 0, 0, 0], [0, 0, 0, 0, 0, 0, 0, 0, 9437177, 9437177],
  [0, 0, 0, 0, 0, 0, 0, 0, 9437177, 9437177], [0, 0, 0, 0, 0, 0, 0, 0, 9437177, 9437177],
  [0, 0, 0, 0, 0, 0, 0, 0, 0, 0], [0, 0, 0, 0, 0, 0, 0, 0, 0, 0], [0, 0, 0, 0, 0, 0, 0, 0, 0, 0],
  [0, 0, 0, 0, 0, 0, 0, 0, 0, 0], [0, 0, 0, 0, 0, 0, 0, 0, 0, 0], [0, 0, 0, 0, 0, 0, 0, 0, 0, 0],
  [0, 0, 0, 0, 0, 0, 0, 0, 0, 0], [0, 0, 0, 0, 0, 0, 0, 0, 0, 0], [0, 0, 0, 0, 0, 0, 0, 0, 0, 0],
  [0, 0, 0, 0, 0, 0, 0, 0, 0, 0]]

def past (s : Nat) : List Nat := pastTab.getD s []
def fol (s X t : Nat) : Bool := ((folTab.getD s []).getD (X - 25) 0).testBit t

/-- From state `cur`, the rest `syms` of a rule leads to the reduction of rule `r` if `t` follows. -/
def pathOk (r t : Nat) : Nat → List Nat → Bool
  | cur, [] => tAction cur t == -(r + 1)
  | cur, Y :: ys =>
    if Y < 25 then
      decide (0 < tAction cur Y) && tAction cur Y != 34 && pathOk r t (tAction cur Y).toNat ys
    else fol cur Y (ys.headD t) && decide (ntAction cur (Y - 25) ≠ 34) && pathOk r t (ntAction cur (Y - 25)) ys

/-- The symbol may come next in the state. -/
def mean (s X : Nat) : Bool :=
  if X < 25 then decide (0 < tAction s X) else (folTab.getD s []).getD (X - 25) 0 != 0

/-- The next state. -/
def next (s X : Nat) : Nat := if X < 25 then (tAction s X).toNat else ntAction s (X - 25)

def walk (s : Nat) : List Nat → Option Nat
  | [] => some s
  | X :: xs => if mean s X then walk (next s X) xs else none

def reds (s r : Nat) : Bool := (List.range 25).any fun t => tAction s t == -(r + 1)

def meanOk (s r : Nat) : Bool :=
  match walk s (rules.getD r (0, [])).2 with
  | none => true
  | some sn => !reds sn r || mean s (rules.getD r (0, [])).1

def shiftOk (s t : Nat) : Bool :=
  let a := tAction s t
  if a = 34 then s == 7 && t == 0
  else if 0 < a then decide (a < 61) && t != 0 && a != 7 && (past a.toNat).head? == some t && (past a.toNat).isPrefixOf (t :: past s)
  else if a < 0 then
    decide (-a ≤ 33) && (rules.getD (-a - 1).toNat (0, [])).2.reverse.isPrefixOf (past s)
  else true

def gotoOk (s X : Nat) : Bool :=
  let a := ntAction s X
  decide (a < 61) && a != 34 && a != 0 && (a != 7 || s == 0 || !mean s (X + 25)) && (past a).head? == some (X + 25) && (past a).isPrefixOf ((X + 25) :: past s)

theorem shiftOk_all : ∀ s < 61, s ≠ 34 → ∀ t < 25, shiftOk s t = true := by decide +kernel
theorem gotoOk_all : ∀ s < 61, s ≠ 34 → ∀ X < 10, gotoOk s X = true := by decide +kernel
theorem meanOk_all : ∀ s < 61, s ≠ 34 → ∀ r < 33, meanOk s r = true := by decide +kernel
theorem default_all : ∀ s < 61, actionIndex.getD s 0 = -25 → ∀ t : Nat, t < 25 → tAction s t = tAction s (-1) := by
  decide +kernel
theorem pathOk_all : ∀ s < 61, s ≠ 34 → ∀ r < 33, ∀ t < 25,
    fol s (rules.getD r (0, [])).1 t = true → pathOk r t s (rules.getD r (0, [])).2 = true := by decide +kernel
theorem rules_tab : ∀ r < 33, lhsTab.getD r 0 = (rules.getD r (0, [])).1 ∧
    rhsTab.getD r 0 = (rules.getD r (0, [])).2.length := by decide +kernel

end Jom.Expr
