import Verif.Model.RecExpr
/-
Model of `src/extract.rs`: cost functions and the greedy extractor.
-/
namespace Egg
variable {Op D Cost : Type}

/-- `trait CostFunction`, `src/extract.rs:116-145`: `cost`, and the `partial_cmp` of
its cost type.  Simplification: the user's cost function is a pure function of the
operator and the costs of the children (in order); it keeps no state, and does not look
at the ids of the children. -/
structure CostFn (Op Cost : Type) where
  cost : Op → List Cost → Cost
  pcmp : Cost → Cost → Option Ordering

namespace CostFn

/-- The loop of `cost_rec`, `src/extract.rs:138-141`: `costs` holds the costs of the
nodes already seen (a map with the keys `0..i`, hence a list). -/
def costRecGo (cf : CostFn Op Cost) : List (ENode Op) → List Cost → Res (List Cost)
  | [], costs => .ok costs
  | n :: rest, costs => do
    let cs ← n.children.mapM (getIdx costs)
    costRecGo cf rest (costs ++ [cf.cost n.op cs])

/-- `cost_rec`, `src/extract.rs:136-144`. -/
def costRec (cf : CostFn Op Cost) (e : List (ENode Op)) : Res Cost := do
  let costs ← cf.costRecGo e []
  let root ← RecExpr.root e
  getIdx costs root

/-- `partial_cmp` of natural numbers. -/
def natCmp (a b : Nat) : Option Ordering := some (compare a b)

/-- A `usize`, of which `M` is the greatest. -/
abbrev Usize (M : Nat) := Fin (M + 1)

/-- `usize::saturating_add`. -/
def satAdd {M : Nat} (a b : Usize M) : Usize M := ⟨min (a.1 + b.1) M, by omega⟩

/-- `AstSize`, `src/extract.rs:158-166`; `M` is `usize::MAX`. -/
def astSize (M : Nat) : CostFn Op (Usize M) where
  cost := fun _ cs => cs.foldl satAdd ⟨min 1 M, by omega⟩
  pcmp := fun a b => natCmp a.1 b.1

/-- `AstDepth`, `src/extract.rs:179-187`.  Simplification: natural numbers instead of
`usize` (the depth of a term does not overflow in practice). -/
def astDepth : CostFn Op Nat where
  cost := fun _ cs => 1 + cs.foldl max 0
  pcmp := natCmp

end CostFn

/-! ### The extractor -/

/-- `fn cmp`, `src/extract.rs:189-197`: `None` is high; incomparable costs panic. -/
def cmpCost (cf : CostFn Op Cost) : Option Cost → Option Cost → Res Ordering
  | none, none => .ok .eq
  | none, some _ => .ok .gt
  | some _, none => .ok .lt
  | some a, some b => unwrap (cf.pcmp a b)

/-- `Iterator::min_by` after the first element: the earlier of two equal elements
is kept. -/
def minByGo (cf : CostFn Op Cost) : Option Cost × ENode Op → List (Option Cost × ENode Op) →
    Res (Option Cost × ENode Op)
  | best, [] => .ok best
  | best, x :: rest => do
    let o ← cmpCost cf best.1 x.1
    minByGo cf (if o = .gt then x else best) rest

/-- `costs: HashMap<Id, (CF::Cost, L)>`, `src/extract.rs:43`. -/
abbrev Costs (Op Cost : Type) := AMap Id (Cost × ENode Op)

section
variable [DecidableEq Op] [Lang Op]

/-- `node.all(has_cost)`, `src/extract.rs:244-245`, `src/language.rs:111-115`
(`acc && f(id)`: after the first failure `f` is not called any more). -/
def allHaveCost (eg : EGraph Op D) (costs : Costs Op Cost) : List Id → Res Bool
  | [] => .ok true
  | c :: cs => do
    let r ← eg.find c
    if (costs.get? r).isSome then allHaveCost eg costs cs else return false

/-- `cost_f`, `src/extract.rs:247`. -/
def childCost (eg : EGraph Op D) (costs : Costs Op Cost) (c : Id) : Res Cost := do
  let r ← eg.find c
  let e ← unwrap (costs.get? r)
  return e.1

/-- `node_total_cost`, `src/extract.rs:242-252`. -/
def nodeTotalCost (cf : CostFn Op Cost) (eg : EGraph Op D) (costs : Costs Op Cost) (n : ENode Op) : Res (Option Cost) := do
  let b ← allHaveCost eg costs n.children
  if b then do
    let cs ← n.children.mapM (childCost eg costs)
    return some (cf.cost n.op cs)
  else return none

/-- One element of the iterator in `make_pass`, `src/extract.rs:289`. -/
def costed (cf : CostFn Op Cost) (eg : EGraph Op D) (costs : Costs Op Cost) (n : ENode Op) :
    Res (Option Cost × ENode Op) := do
  let c ← nodeTotalCost cf eg costs n
  return (c, n)

/-- `make_pass`, `src/extract.rs:286-293`: panics for a class without nodes. -/
def makePass (cf : CostFn Op Cost) (eg : EGraph Op D) (costs : Costs Op Cost) (cls : EClass Op D) :
    Res (Option (Cost × ENode Op)) := do
  let l ← cls.nodes.mapM (costed cf eg costs)
  match l with
  | [] => .error .panic
  | x :: rest => do
    let best ← minByGo cf x rest
    return best.1.map (fun c => (c, best.2))

/-- The update of the table for one class, `src/extract.rs:261-271`; the flag is
`did_something`. -/
def updateCosts (cf : CostFn Op Cost) (costs : Costs Op Cost) (did : Bool) (id : Id) (pass : Option (Cost × ENode Op)) :
    Costs Op Cost × Bool :=
  match costs.get? id, pass with
  | none, some new => (costs.insert id new, true)
  | some old, some new => if cf.pcmp new.1 old.1 = some .lt then (costs.insert id new, true) else (costs, did)
  | _, none => (costs, did)

/-- The loop over the classes, `src/extract.rs:259-272`.  The classes come in the order
of the table `EGraph::classes`, which is an argument. -/
def costPass (cf : CostFn Op Cost) (eg : EGraph Op D) : Costs Op Cost → Bool → List (EClass Op D) → Res (Costs Op Cost × Bool)
  | costs, did, [] => .ok (costs, did)
  | costs, did, cls :: rest => do
    let pass ← makePass cf eg costs cls
    let (costs, did) := updateCosts cf costs did cls.id pass
    costPass cf eg costs did rest

/-- `find_costs`, `src/extract.rs:254-284` (the warning at the end is not modelled);
the fuel is the number of passes allowed. -/
def findCosts (cf : CostFn Op Cost) (eg : EGraph Op D) (classes : List (EClass Op D)) : Nat → Costs Op Cost → Res (Costs Op Cost)
  | 0, _ => .error .fuel
  | f + 1, costs => do
    let (costs, did) ← costPass cf eg costs false classes
    if did then findCosts cf eg classes f costs else return costs

/-- `Extractor`, `src/extract.rs:41-45`; the cost function and the e-graph are passed
separately. -/
structure Extractor (Op Cost : Type) where
  costs : Costs Op Cost

namespace Extractor

/-- `Extractor::new`, `src/extract.rs:211-221`. -/
def new (cf : CostFn Op Cost) (eg : EGraph Op D) (classes : List (EClass Op D)) (passes : Nat) : Res (Extractor Op Cost) := do
  let costs ← findCosts cf eg classes passes []
  return ⟨costs⟩

/-- `self.costs[&self.egraph.find(eclass)]`, `src/extract.rs:226,233,238`. -/
def entry (x : Extractor Op Cost) (eg : EGraph Op D) (c : Id) : Res (Cost × ENode Op) := do
  let r ← eg.find c
  unwrap (x.costs.get? r)

/-- `find_best_node`, `src/extract.rs:232-234`. -/
def findBestNode (x : Extractor Op Cost) (eg : EGraph Op D) (c : Id) : Res (ENode Op) := do
  return (← x.entry eg c).2

/-- `find_best_cost`, `src/extract.rs:237-240`. -/
def findBestCost (x : Extractor Op Cost) (eg : EGraph Op D) (c : Id) : Res Cost := do
  return (← x.entry eg c).1

/-- `find_best`, `src/extract.rs:225-229`; the fuel is for `build_recexpr`. -/
def findBest (x : Extractor Op Cost) (eg : EGraph Op D) (fuel : Nat) (c : Id) : Res (Cost × List (ENode Op)) := do
  let e ← x.entry eg c
  let expr ← RecExpr.build (x.findBestNode eg) fuel e.2
  return (e.1, expr)

end Extractor
end
end Egg
