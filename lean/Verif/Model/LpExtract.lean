import Verif.Model.RecExpr
import Mathlib.Algebra.Order.Ring.Rat
/-
Model of `src/lp_extract.rs`: extraction by integer linear programming.  The solver is outside
the model: it is an argument.  Costs and values of variables are rational numbers instead of `f64`.
-/
namespace Egg
variable {Op D : Type} [DecidableEq Op] [Lang Op]

namespace Lp

/-- `enum Color`, `src/lp_extract.rs:385-389`. -/
inductive Color where
  | white
  | gray
  | black
deriving DecidableEq

/-- The stack of `find_cycles`: `(Enter, Id)`, the top is the head. -/
abbrev Stack := List (Bool × Id)

/-- The inner loop of `find_cycles`, `src/lp_extract.rs:400-406`, over the children of node `i` of
class `id`. -/
def scanChildren (color : AMap Id Color) (id : Id) (i : Nat) : List Id → Stack → List (Id × Nat) → Res (Stack × List (Id × Nat))
  | [], stack, found => .ok (stack, found)
  | child :: rest, stack, found => do
    let col ← unwrap (color.get? child)
    match col with
    | .white => scanChildren color id i rest ((true, child) :: stack) found
    | .gray => scanChildren color id i rest stack (setInsert found (id, i))
    | .black => scanChildren color id i rest stack found

/-- The loop over the nodes of a class, `src/lp_extract.rs:399-407`; `i` is the index of the first. -/
def scanNodes (color : AMap Id Color) (id : Id) : Nat → List (ENode Op) → Stack → List (Id × Nat) → Res (Stack × List (Id × Nat))
  | _, [], stack, found => .ok (stack, found)
  | i, n :: rest, stack, found => do
    let (stack, found) ← scanChildren color id i n.children stack found
    scanNodes color id (i + 1) rest stack found

/-- The main loop of `find_cycles`, `src/lp_extract.rs:395-411`.  (`*color.get_mut(&id).unwrap()`
panics if the key is absent.) -/
def findCyclesLoop (eg : EGraph Op D) : Nat → AMap Id Color → Stack → List (Id × Nat) → Res (List (Id × Nat))
  | 0, _, _, _ => .error .fuel
  | _ + 1, _, [], found => .ok found
  | f + 1, color, (enter, id) :: stack, found => do
    let _ ← unwrap (color.get? id)
    if enter then do
      let color := color.insert id .gray
      let cls ← eg.index id
      let (stack, found) ← scanNodes color id 0 cls.nodes ((false, id) :: stack) found
      findCyclesLoop eg f color stack found
    else findCyclesLoop eg f (color.insert id .black) stack found

/-- `find_cycles`, `src/lp_extract.rs:380-412`, collecting the nodes in a set as `LpExtractor::new` does
(`src/lp_extract.rs:123-126`).  `ks` lists the classes in the order of `EGraph::classes`. -/
def findCycles (eg : EGraph Op D) (ks : List (EClass Op D)) (fuel : Nat) : Res (List (Id × Nat)) :=
  findCyclesLoop eg fuel (ks.foldl (fun m k => m.insert k.id .white) []) (ks.map (fun k => (true, k.id))).reverse []

/-! ### The linear program -/

/-- The variables: of a class, and of a node of a class. -/
inductive Var where
  | active (c : Id)
  | node (c : Id) (i : Nat)
deriving DecidableEq

inductive Rel where
  | eq
  | le
  | ge

/-- A linear constraint: sum of coefficient times variable, compared to a constant. -/
structure Con where
  terms : List (ℚ × Var)
  rel : Rel
  rhs : ℚ

/-- What is handed to the solver: binary variables with their maximum, the objective to be
minimised, and constraints. -/
structure Program where
  vars : List (Var × ℚ)
  objective : List (ℚ × Var)
  cons : List Con

/-- `vars: HashMap<Id, ClassVars>`: the number of node variables of each class. -/
def classVars (ks : List (EClass Op D)) : AMap Id Nat := ks.foldl (fun m k => m.insert k.id k.nodes.length) []

/-- The variables of `build_ilp_model`, `src/lp_extract.rs:176-200`: those of cyclic nodes have maximum 0. -/
def buildVars (ks : List (EClass Op D)) (cyc : List (Id × Nat)) : List (Var × ℚ) :=
  ks.flatMap (fun k => (.active k.id, 1) ::
    (List.range k.nodes.length).map (fun i => (.node k.id i, if (k.id, i) ∈ cyc then 0 else 1)))

/-- The objective of `build_ilp_model`, `src/lp_extract.rs:202-209`.  Simplification: the cost function is
a pure function of the class and the node, so the costs computed in `new` are used in place. -/
def objective (ks : List (EClass Op D)) (cost : Id → ENode Op → ℚ) : List (ℚ × Var) :=
  ks.flatMap (fun k => k.nodes.zipIdx.map (fun p => (cost k.id p.1, .node k.id p.2)))

/-- The constraints for the children of node `i` of class `id`, `src/lp_extract.rs:247-251`. -/
def childCons (cv : AMap Id Nat) (id : Id) (i : Nat) : List Id → Res (List Con)
  | [] => .ok []
  | child :: rest => do
    let _ ← unwrap (cv.get? child)
    let cs ← childCons cv id i rest
    return ⟨[(1, .node id i), (-1, .active child)], .le, 0⟩ :: cs

/-- The loop over the nodes of a class, `src/lp_extract.rs:241-252`; `cnt` is the number of node variables. -/
def nodeCons (cv : AMap Id Nat) (cyc : List (Id × Nat)) (id : Id) (cnt : Nat) : Nat → List (ENode Op) → Res (List Con)
  | _, [] => .ok []
  | i, n :: rest =>
    if i < cnt then do
      let cs ← (if (id, i) ∈ cyc then .ok [] else childCons cv id i n.children : Res (List Con))
      let more ← nodeCons cv cyc id cnt (i + 1) rest
      return cs ++ more
    else .error .panic

/-- The constraints of the classes, `src/lp_extract.rs:230-253`. -/
def classCons (eg : EGraph Op D) (cv : AMap Id Nat) (cyc : List (Id × Nat)) : List (Id × Nat) → Res (List Con)
  | [] => .ok []
  | (id, cnt) :: rest => do
    let cls ← eg.index id
    let cs ← nodeCons cv cyc id cnt 0 cls.nodes
    let more ← classCons eg cv cyc rest
    return ⟨(List.range cnt).map (fun i => (1, .node id i)) ++ [(-1, .active id)], .eq, 0⟩ :: cs ++ more

/-- The constraints of the roots, `src/lp_extract.rs:255-260`. -/
def rootCons (eg : EGraph Op D) (cv : AMap Id Nat) : List Id → Res (List Con)
  | [] => .ok []
  | root :: rest => do
    let r ← eg.find root
    let _ ← unwrap (cv.get? r)
    let more ← rootCons eg cv rest
    return ⟨[(1, .active r)], .ge, 1⟩ :: more

/-- `build_ilp_model` and `add_constraints`, `src/lp_extract.rs:171-263`. -/
def program (eg : EGraph Op D) (ks : List (EClass Op D)) (cost : Id → ENode Op → ℚ) (cyc : List (Id × Nat)) (roots : List Id) :
    Res Program := do
  let cv := classVars ks
  let cs ← classCons eg cv cyc cv
  let rs ← rootCons eg cv roots
  return ⟨buildVars ks cyc, objective ks cost, cs ++ rs⟩

/-! ### Reading the solution -/

/-- `node.all(|child| ids.contains_key(&child))`, `src/lp_extract.rs:290`. -/
def allIn (ids : AMap Id Id) (cs : List Id) : Bool := cs.all (fun c => (ids.get? c).isSome)

/-- The loop of `extract_solution`, `src/lp_extract.rs:275-298`; the top of `todo` is the head. -/
def extractLoop (eg : EGraph Op D) (cv : AMap Id Nat) (sol : Var → ℚ) :
    Nat → List Id → List (ENode Op) → AMap Id Id → Res (List (ENode Op) × AMap Id Id)
  | 0, _, _, _ => .error .fuel
  | _ + 1, [], expr, ids => .ok (expr, ids)
  | f + 1, id :: todo, expr, ids =>
    if (ids.get? id).isSome then extractLoop eg cv sol f todo expr ids
    else do
      let cnt ← unwrap (cv.get? id)
      if sol (.active id) > 0 then do
        let i ← unwrap ((List.range cnt).find? (fun i => decide (sol (.node id i) > 0)))
        let cls ← eg.index id
        let n ← getIdx cls.nodes i
        if allIn ids n.children then do
          let n ← n.mapChildrenM (fun c => do
            let r ← eg.find c
            unwrap (ids.get? r))
          extractLoop eg cv sol f todo (expr ++ [n]) (ids.insert id expr.length)
        else extractLoop eg cv sol f (n.children.reverse ++ id :: todo) expr ids
      else .error .panic

/-- `extract_solution`, `src/lp_extract.rs:264-307`. -/
def extractSolution (eg : EGraph Op D) (cv : AMap Id Nat) (sol : Var → ℚ) (fuel : Nat) (roots : List Id) :
    Res (List (ENode Op) × List Id) := do
  let todo ← roots.mapM eg.find
  let (expr, ids) ← extractLoop eg cv sol fuel todo.reverse [] []
  let rs ← roots.mapM (fun i => do
    let r ← eg.find i
    unwrap (ids.get? r))
  if RecExpr.isDag expr then return (expr, rs) else .error .panic

/-- `LpExtractor::new` and `solve_multiple_with`, `src/lp_extract.rs:117-143,311-342` (also with a timeout, which
only matters to the solver).  The solver returns `none` where the `expect` panics. -/
def solveMultiple (eg : EGraph Op D) (ks : List (EClass Op D)) (cost : Id → ENode Op → ℚ) (solver : Program → Option (Var → ℚ))
    (fuel : Nat) (roots : List Id) : Res (List (ENode Op) × List Id) := do
  let cyc ← findCycles eg ks fuel
  let p ← program eg ks cost cyc roots
  let sol ← unwrap (solver p)
  extractSolution eg (classVars ks) sol fuel roots

end Lp
end Egg
