import Verif.Model.ShortPath
/-
Model of the counters of an e-graph with explanations, `src/egraph.rs:455-476`.
-/
namespace Egg

variable {Op D : Type} [DecidableEq Op]

/-- `get_num_congr`, `src/explain.rs:1523-1538`. -/
def Explain.getNumCongr (x : Explain Op) (ch : Explain.Choices) (nodes : List (ENode Op)) (uf : UF) (classes : List Id) (fuel : Nat) : Res Nat := do
  let cn ← x.findCongruenceNeighbors ch nodes uf classes fuel
  let count := cn.foldl (fun count v => count + v.length) 0
  return count / 2

/-- `get_num_nodes`, `src/explain.rs:1540-1542`. -/
def Explain.getNumNodes (x : Explain Op) : Nat := x.find.length

namespace EGraph
variable [Lang Op]

/-- `get_num_congr`, `src/egraph.rs:455-465`: panics without explanations.  `ch` gives the iteration order of the hash
tables, `fuel` bounds the loop of `find_all_enodes`. -/
def getNumCongr (eg : EGraph Op D) (ch : Explain.Choices) (fuel : Nat) : Res Nat :=
  match eg.explain with
  | some x => x.getNumCongr ch eg.nodes eg.uf eg.classes.keys fuel
  | none => .error .panic

/-- `get_explanation_num_nodes`, `src/egraph.rs:468-476`. -/
def getExplanationNumNodes (eg : EGraph Op D) : Res Nat :=
  match eg.explain with
  | some x => .ok x.getNumNodes
  | none => .error .panic

end EGraph

end Egg
