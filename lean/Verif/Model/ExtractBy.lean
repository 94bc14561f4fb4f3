import Verif.Model.Extract
/-
Model of `src/extract.rs` for cost functions that look at the e-nodes, and so at the
e-graph the extractor runs on (documented at `src/extract.rs:79-105`).
`Verif/Model/Extract.lean` has the same functions for cost functions that look at the
operator only; `c96_by_operator` says that it is a special case of this one.
-/
namespace Egg
variable {Op D Cost : Type}

/-- `trait CostFunction`, `src/extract.rs:116-145`: `cost`, and the `partial_cmp` of its
cost type.  The cost function is given the whole e-node, so what it returns may depend on
the ids of the children and, as it may hold a reference to the e-graph
(`src/extract.rs:79-105`), on their data.  Simplification: it is a pure function of the
e-node and of the costs of its children (in order); it keeps no state, and does not ask
for the cost of anything but the children. -/
structure NodeCostFn (Op Cost : Type) where
  cost : ENode Op → List Cost → Cost
  pcmp : Cost → Cost → Option Ordering

/-- A cost function that only looks at the operator. -/
def CostFn.byNode (cf : CostFn Op Cost) : NodeCostFn Op Cost := ⟨fun n cs => cf.cost n.op cs, cf.pcmp⟩

namespace ByNode

/-! ### The extractor -/

/-- `fn cmp`, `src/extract.rs:189-197`: `None` is high; incomparable costs panic. -/
def cmpCost (cf : NodeCostFn Op Cost) : Option Cost → Option Cost → Res Ordering
  | none, none => .ok .eq
  | none, some _ => .ok .gt
  | some _, none => .ok .lt
  | some a, some b => unwrap (cf.pcmp a b)

/-- `Iterator::min_by` after the first element: the earlier of two equal elements
is kept. -/
def minByGo (cf : NodeCostFn Op Cost) : Option Cost × ENode Op → List (Option Cost × ENode Op) →
    Res (Option Cost × ENode Op)
  | best, [] => .ok best
  | best, x :: rest => do
    let o ← cmpCost cf best.1 x.1
    minByGo cf (if o = .gt then x else best) rest

section
variable [DecidableEq Op] [Lang Op]

/-- `node_total_cost`, `src/extract.rs:242-252`. -/
def nodeTotalCost (cf : NodeCostFn Op Cost) (eg : EGraph Op D) (costs : Costs Op Cost) (n : ENode Op) : Res (Option Cost) := do
  let b ← allHaveCost eg costs n.children
  if b then do
    let cs ← n.children.mapM (childCost eg costs)
    return some (cf.cost n cs)
  else return none

/-- One element of the iterator in `make_pass`, `src/extract.rs:289`. -/
def costed (cf : NodeCostFn Op Cost) (eg : EGraph Op D) (costs : Costs Op Cost) (n : ENode Op) :
    Res (Option Cost × ENode Op) := do
  let c ← nodeTotalCost cf eg costs n
  return (c, n)

/-- `make_pass`, `src/extract.rs:286-293`: panics for a class without nodes. -/
def makePass (cf : NodeCostFn Op Cost) (eg : EGraph Op D) (costs : Costs Op Cost) (cls : EClass Op D) :
    Res (Option (Cost × ENode Op)) := do
  let l ← cls.nodes.mapM (costed cf eg costs)
  match l with
  | [] => .error .panic
  | x :: rest => do
    let best ← minByGo cf x rest
    return best.1.map (fun c => (c, best.2))

/-- The update of the table for one class, `src/extract.rs:261-271`; the flag is
`did_something`. -/
def updateCosts (cf : NodeCostFn Op Cost) (costs : Costs Op Cost) (did : Bool) (id : Id) (pass : Option (Cost × ENode Op)) :
    Costs Op Cost × Bool :=
  match costs.get? id, pass with
  | none, some new => (costs.insert id new, true)
  | some old, some new => if cf.pcmp new.1 old.1 = some .lt then (costs.insert id new, true) else (costs, did)
  | _, none => (costs, did)

/-- The loop over the classes, `src/extract.rs:259-272`.  The classes come in the order
of the table `EGraph::classes`, which is an argument. -/
def costPass (cf : NodeCostFn Op Cost) (eg : EGraph Op D) : Costs Op Cost → Bool → List (EClass Op D) → Res (Costs Op Cost × Bool)
  | costs, did, [] => .ok (costs, did)
  | costs, did, cls :: rest => do
    let pass ← makePass cf eg costs cls
    let (costs, did) := updateCosts cf costs did cls.id pass
    costPass cf eg costs did rest

/-- `find_costs`, `src/extract.rs:254-284` (the warning at the end is not modelled);
the fuel is the number of passes allowed. -/
def findCosts (cf : NodeCostFn Op Cost) (eg : EGraph Op D) (classes : List (EClass Op D)) : Nat → Costs Op Cost → Res (Costs Op Cost)
  | 0, _ => .error .fuel
  | f + 1, costs => do
    let (costs, did) ← costPass cf eg costs false classes
    if did then findCosts cf eg classes f costs else return costs

/-- `Extractor::new`, `src/extract.rs:211-221`. -/
def new (cf : NodeCostFn Op Cost) (eg : EGraph Op D) (classes : List (EClass Op D)) (passes : Nat) : Res (Extractor Op Cost) := do
  let costs ← findCosts cf eg classes passes []
  return ⟨costs⟩

end
end ByNode
end Egg
