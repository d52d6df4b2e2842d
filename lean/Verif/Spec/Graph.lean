/-
Specification vocabulary for dependency graphs: reachability and cycles over the declared dependents.
Independent of the graph data structure of jom.
-/
import Verif.Model.DepGraph
import Mathlib.Logic.Relation

namespace Jom.Spec

open Jom.Graph (Dep)

/-- `x` declares the target `c` as a dependent. -/
def DependsOn (deps : Nat → List Dep) (x c : Nat) : Prop := Dep.node c ∈ deps x

/-- `y` is `x` or a direct or indirect dependent of `x`. -/
def Reaches (deps : Nat → List Dep) : Nat → Nat → Prop := Relation.ReflTransGen (DependsOn deps)

/-- `y` is a direct or indirect dependent of `x`. -/
def DependsTrans (deps : Nat → List Dep) : Nat → Nat → Prop := Relation.TransGen (DependsOn deps)

/-- No target that can be reached from `root` depends on itself. -/
def AcyclicFrom (deps : Nat → List Dep) (root : Nat) : Prop :=
  ∀ x, Reaches deps root x → ¬ DependsTrans deps x x

/-- The targets form a finite set: everything reachable from `root` is listed in `univ`. -/
def FiniteFrom (deps : Nat → List Dep) (root : Nat) (univ : List Nat) : Prop :=
  ∀ x, Reaches deps root x → x ∈ univ

end Jom.Spec
