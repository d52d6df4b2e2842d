/- Chains of dependents and sums along them. -/
import Verif.QtStr

namespace Jom.Spec

/-- A chain of targets, each needed by the one before, that starts with `x`. -/
inductive Chain (needs : Nat → Nat → Prop) : Nat → List Nat → Prop
  | last (x : Nat) : Chain needs x [x]
  | cons {x y : Nat} {c : List Nat} : needs x y → Chain needs y c → Chain needs x (x :: c)

/-- The sum of `w` over a list. -/
def total (w : Nat → Nat) : List Nat → Nat
  | [] => 0
  | x :: c => w x + total w c

end Jom.Spec
