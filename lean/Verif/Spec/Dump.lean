import Verif.Spec.Graph
import Verif.QtStr

/-!
What a dump of the dependency graph is to show (C91): the ways from the requested target through its dependents. Independent of
the graph of jom.
-/

namespace Jom.Spec

/-- A way from a target to itself or through one of its dependents. -/
inductive Way (R : Nat → Nat → Prop) : Nat → List Nat → Prop
  | here (x : Nat) : Way R x [x]
  | through {x c : Nat} {p : List Nat} (h : R x c) (hp : Way R c p) : Way R x (x :: p)

/-- What an outline says by indentation: the nearest entry above with smaller indentation is the one under which an entry stands.
The entries are ways: an entry stands under the way without its last step. -/
def Outline (ps : List (List Nat)) : Prop :=
  ∀ A p C, ps = A ++ p :: C → 2 ≤ p.length → ∃ A' B, A = A' ++ p.dropLast :: B ∧ ∀ q ∈ B, p.length ≤ q.length

/-- A line of the outline: the name of the last target of the way, indented by the number of steps. -/
def outlineLine (name : Nat → Str) (p : List Nat) : Str := List.replicate (p.length - 1) ' ' ++ name (p.getLastD 0)

end Jom.Spec
