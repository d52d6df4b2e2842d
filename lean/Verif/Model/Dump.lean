import Verif.Model.DepGraph
import Verif.Model.Helpers

/-!
The dump of the dependency graph for `/DUMPGRAPH` and `/DUMPGRAPHDOT` (src/jomlib/dependencygraph.cpp 220-253, called in
targetexecutor.cpp 107-112 for the graph of the first target).

`name` is `targetName()` of the target of a node. The output is the list of the lines; the conversion to the local 8-bit encoding
is left out. The fuel bounds the depth of the recursion; `none` = the recursion gets deeper than that.
-/

namespace Jom.Graph

/-- `internalDump`: dependencygraph.cpp 226-234. -/
def textDump (g : Graph) (name : Nat → Str) : Nat → Nat → Str → Option (List Str)
  | 0, _, _ => none
  | fuel + 1, node, indent => do
    let rest ← (g.children node).mapM fun c => textDump g name fuel c (indent ++ [' '])
    return (indent ++ name node) :: rest.flatten

/-- `dump`: dependencygraph.cpp 220-224. -/
def dump (g : Graph) (name : Nat → Str) (fuel root : Nat) : Option (List Str) := textDump g name fuel root []

/-- The line of an edge: dependencygraph.cpp 247. -/
def dotLine (parent child : Str) : Str := c!"  \"" ++ parent ++ c!"\" -> \"" ++ child ++ c!"\";"

/-- `internalDotDump`: dependencygraph.cpp 244-253. `none` = the null string (246). -/
def dotLines (g : Graph) (name : Nat → Str) : Nat → Nat → Option Str → Option (List Str)
  | 0, _, _ => none
  | fuel + 1, node, parent => do
    let rest ← (g.children node).mapM fun c => dotLines g name fuel c (some (name node))
    return (parent.map fun p => dotLine p (name node)).toList ++ rest.flatten

/-- `dotDump`: dependencygraph.cpp 236-242. -/
def dotDump (g : Graph) (name : Nat → Str) (fuel root : Nat) : Option (List Str) := do
  let ls ← dotLines g name fuel root none
  return c!"digraph G {" :: ls ++ [c!"}"]

end Jom.Graph
