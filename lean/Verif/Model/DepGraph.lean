/-
Model of `DependencyGraph` (src/jomlib/dependencygraph.cpp).

Representation.  A target (`DescriptionBlock*`) is a natural number; since `m_nodeContainer` maps every target
to at most one node, the node of a target is identified with the target.  The hash is the list `ids` of the
targets that have a node plus the node fields as functions.  The answer of the file-time test is a parameter
(`isTargetUpToDate` itself is modelled in `Model/UpToDate.lean`).
-/

namespace Jom.Graph

/-- What a dependent name of a target stands for: dependencygraph.cpp 189-205. `node` = the name (or the
name with the makefile's directory in front) is a target of the makefile; `file` = no target but an
existing file; `missing` = neither. -/
inductive Dep where
  | node (t : Nat)
  | file
  | missing
deriving DecidableEq, Repr

/-- `Node::State` (dependencygraph.h 57). -/
inductive NState where
  | unknown
  | executing
  | unbuildable
deriving DecidableEq, Repr

/-- `DependencyGraph` (dependencygraph.h 75-79).  `ids` are the keys of `m_nodeContainer`; the
functions are the fields of the node of a target and are meaningful for elements of `ids`. -/
structure Graph where
  ids : List Nat
  children : Nat → List Nat
  parents : Nat → List Nat
  state : Nat → NState
  leaves : List Nat
  dirty : Bool

/-- Function update. -/
def upd {α : Type} (f : Nat → α) (i : Nat) (v : α) : Nat → α := fun j => if j = i then v else f j

/-- The graph after `DependencyGraph()` / `clear()`: dependencygraph.cpp 37-41, 255-261. -/
def Graph.empty : Graph :=
  { ids := [], children := fun _ => [], parents := fun _ => [], state := fun _ => .unknown,
    leaves := [], dirty := true }

/-- `clear`: dependencygraph.cpp 255-261 (does not touch `m_bDirtyLeaves`). -/
def clear (g : Graph) : Graph := { Graph.empty with dirty := g.dirty }

/-- `QList::append` unless already contained. -/
def appendNew (l : List Nat) (x : Nat) : List Nat := if x ∈ l then l else l ++ [x]

/-- `addEdge`: dependencygraph.cpp 263-269. -/
def addEdge (g : Graph) (parent child : Nat) : Graph :=
  { g with
    children := upd g.children parent (appendNew (g.children parent) child)
    parents := upd g.parents child (appendNew (g.parents child) parent) }

/-- `createNode` without the edge to the parent: dependencygraph.cpp 48-59. -/
def createNode (g : Graph) (t : Nat) : Graph :=
  { g with
    ids := g.ids ++ [t]
    children := upd g.children t []
    parents := upd g.parents t []
    state := upd g.state t .unknown }

/-- Reasons why the construction stops. `missing` is `exit(2)` (dependencygraph.cpp 197-203); `fuel` is an
artefact of the model and proved unreachable (`build_fuel`). -/
inductive BuildErr where
  | missing
  | fuel
deriving DecidableEq, Repr

/-- One iteration of the loop over the dependents: dependencygraph.cpp 189-214. `recur` is the
recursive call. -/
def depStep (recur : Nat → List Nat × Graph → Except BuildErr (List Nat × Graph)) (node : Nat) :
    Dep → List Nat × Graph → Except BuildErr (List Nat × Graph)
  | .missing, _ => .error .missing
  | .file, s => .ok s
  | .node c, (seen, g) =>
    let g := if c ∈ g.ids then g else createNode g c
    recur c (seen, addEdge g node c)

/-- The loop over the dependents. -/
def depLoop (recur : Nat → List Nat × Graph → Except BuildErr (List Nat × Graph)) (node : Nat) :
    List Dep → List Nat × Graph → Except BuildErr (List Nat × Graph)
  | [], s => .ok s
  | d :: ds, s => do
    let s ← depStep recur node d s
    depLoop recur node ds s

/-- dependencygraph.cpp 216-217. -/
def addLeaf (node : Nat) (g : Graph) : Graph :=
  if (g.children node).isEmpty then { g with leaves := g.leaves ++ [node] } else g

/-- `internalBuild`: dependencygraph.cpp 182-218. The fuel bounds the recursion depth. -/
def internalBuild (deps : Nat → List Dep) :
    Nat → Nat → List Nat × Graph → Except BuildErr (List Nat × Graph)
  | 0, _, _ => .error .fuel
  | fuel + 1, node, (seen, g) =>
    if node ∈ seen then .ok (seen, g)
    else do
      let (seen, g) ← depLoop (internalBuild deps fuel) node (deps node) (node :: seen, g)
      return (seen, addLeaf node g)

/-- `build` on a cleared graph: dependencygraph.cpp 68-83 (callers: targetexecutor.cpp 106, 142-144). -/
def build (deps : Nat → List Dep) (fuel : Nat) (root : Nat) : Except BuildErr Graph := do
  let g := createNode { Graph.empty with dirty := true } root
  let (_, g) ← internalBuild deps fuel root ([], g)
  return g

/-- Body of the loop over the parents in `removeLeaf`: dependencygraph.cpp 290-296. -/
def detachParent (node : Nat) (g : Graph) (parent : Nat) : Graph :=
  let cs := (g.children parent).erase node
  let g := { g with children := upd g.children parent cs }
  if cs.isEmpty then { g with dirty := true, leaves := g.leaves ++ [parent] } else g

/-- `removeLeaf(Node*)` followed by `deleteNode`: dependencygraph.cpp 283-298, 61-66. -/
def removeLeafNode (g : Graph) (node : Nat) : Graph :=
  let g := { g with leaves := g.leaves.filter (· ≠ node) }
  let g := (g.parents node).foldl (detachParent node) g
  { g with ids := g.ids.filter (· ≠ node) }

/-- `removeLeaf(DescriptionBlock*)`: dependencygraph.cpp 276-281. -/
def removeLeaf (g : Graph) (t : Nat) : Graph := if t ∈ g.ids then removeLeafNode g t else g

/-- `markParentsRecursivlyUnbuildable(Node*)`: dependencygraph.cpp 95-101. The fuel bounds the
recursion depth (proved sufficient for acyclic graphs; for a cyclic graph the C++ code recurses
forever). -/
def markParents : Nat → Graph → Nat → Graph
  | 0, g, _ => g
  | fuel + 1, g, node =>
    (g.parents node).foldl
      (fun g p => markParents fuel { g with state := upd g.state p .unbuildable } p) g

/-- One round of the `while` loop: dependencygraph.cpp 310-316. -/
def removeUpToDate (upToDate : Nat → Bool) (g : Graph) : Graph × List Nat :=
  let gone := g.leaves.filter fun l => g.state l ≠ .executing && upToDate l
  (gone.foldl removeLeafNode { g with dirty := false }, gone)

/-- The `while (m_bDirtyLeaves)` loop: dependencygraph.cpp 308-318. Returns the nodes removed. `upToDate`
gets the number of the round. -/
def dirtyLoop (upToDate : Nat → Nat → Bool) : Nat → Graph → Graph × List Nat
  | 0, g => (g, [])
  | fuel + 1, g =>
    if g.dirty then
      let (g, gone) := removeUpToDate (upToDate fuel) g
      let (g, gone') := dirtyLoop upToDate fuel g
      (g, gone ++ gone')
    else (g, [])

/-- First part of `findAvailableTarget`, dependencygraph.cpp 305-319: drop the leaves that are up to date. Returns
the dropped targets. -/
def prune (ignoreTimeStamps : Bool) (upToDate : Nat → Nat → Bool) (g : Graph) : Graph × List Nat :=
  if ignoreTimeStamps then (g, []) else dirtyLoop upToDate (g.ids.length + 1) g

/-- Last part of `findAvailableTarget`, dependencygraph.cpp 331-341: the first leaf that is not executed. -/
def pick (g : Graph) : Graph × Option Nat :=
  match g.leaves.find? fun l => g.state l ≠ .executing with
  | none => (g, none)
  | some l =>
    (if g.state l ≠ .unbuildable then { g with state := upd g.state l .executing } else g, some l)

end Jom.Graph
