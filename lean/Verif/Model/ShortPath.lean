import Verif.Model.ExplainPath
import Verif.Model.EGraph
/-
Model of the optimization of explanation lengths (`src/explain.rs:1295-1831`).
Proof costs are `Nat` instead of `BigUint`.
-/
namespace Egg
variable {Op : Type} [DecidableEq Op]

namespace Explain

/-- What the iteration order of hash sets and maps and the order of equal elements in a
`BinaryHeap` decide: `order` lists the elements of a hash set of ids or the keys of a hash map,
`pop` takes a cheapest element out of a heap.  Any order is possible.  `pop` may rearrange what it
leaves in the heap, so a heap can keep its layout in the list. -/
structure Choices where
  order : List Id → List Id
  pop : List (Nat × Connection) → Option ((Nat × Connection) × List (Nat × Connection))
  orderPerm : ∀ l, (order l).Perm l
  popNone : ∀ l, pop l = none → l = []
  popSome : ∀ l a rest, pop l = some (a, rest) → l.Perm (a :: rest) ∧ ∀ b ∈ l, a.1 ≤ b.1

/-- The loop of `find_all_enodes`, `src/explain.rs:1295-1307`; the head of `todo` is the top of the
stack, `enodes` is the set built so far. -/
def findAllEnodesLoop (x : Explain Op) : Nat → List Id → List Id → Res (List Id)
  | 0, _, _ => .error .fuel
  | _ + 1, [], enodes => .ok enodes
  | f + 1, current :: todo, enodes =>
    if current ∈ enodes then findAllEnodesLoop x f todo enodes
    else do
      let e ← getIdx x.find current
      findAllEnodesLoop x f ((e.neighbors.map (·.next)).reverse ++ todo) (current :: enodes)

/-- `src/explain.rs:1295-1307` `find_all_enodes`. -/
def findAllEnodes (x : Explain Op) (fuel : Nat) (eclass : Id) : Res (List Id) := findAllEnodesLoop x fuel [eclass] []

/-- `src/explain.rs:1736-1738` `parent`. -/
def parentOf (x : Explain Op) (i : Id) : Res Id := do
  let e ← getIdx x.find i
  return e.parent.next

/-- `src/explain.rs:1309-1322` `add_tree_depths`. -/
def addTreeDepths (x : Explain Op) : Nat → Id → AMap Id Nat → Res (Nat × AMap Id Nat)
  | 0, _, _ => .error .fuel
  | f + 1, node, depths =>
    match depths.get? node with
    | some d => .ok (d, depths)
    | none => do
      let parent ← x.parentOf node
      let (depth, depths) ← (if parent = node then .ok (0, depths) else do
        let (d, depths) ← addTreeDepths x f parent depths
        return (d + 1, depths) : Res (Nat × AMap Id Nat))
      return (depth, depths.insert node depth)

/-- `src/explain.rs:1324-1330` `calculate_tree_depths`. -/
def calculateTreeDepths (x : Explain Op) (fuel : Nat) : Res (AMap Id Nat) :=
  (List.range x.find.length).foldlM (fun depths i => do
    let (_, depths) ← x.addTreeDepths fuel i depths
    return depths) []

/-- `src/explain.rs:79-84` `DistanceMemo`. -/
structure DistanceMemo where
  parentDistance : List (Id × Nat)
  commonAncestor : AMap (Id × Id) Id
  treeDepth : AMap Id Nat

mutual
/-- `src/explain.rs:1359-1396` `distance_between`. -/
def distanceBetween (x : Explain Op) (nodes : List (ENode Op)) : Nat → Id → Id → DistanceMemo → Res (Nat × DistanceMemo)
  | 0, _, _, _ => .error .fuel
  | f + 1, left, right, dm =>
    if left = right then .ok (0, dm)
    else do
      let ancestor ← (match dm.commonAncestor.get? (left, right) with
        | some a => .ok a
        | none => x.commonAncestor f left right : Res Id)
      let (_, dm) ← calculateParentDistance x nodes f left (some ancestor) dm
      let (_, dm) ← calculateParentDistance x nodes f right (some ancestor) dm
      let (a, dm) ← calculateParentDistance x nodes f ancestor none dm
      let (b, dm) ← calculateParentDistance x nodes f left none dm
      let (c, dm) ← calculateParentDistance x nodes f right none dm
      let pa ← getIdx dm.parentDistance ancestor
      let pl ← getIdx dm.parentDistance left
      let pr ← getIdx dm.parentDistance right
      if pa.1 = pl.1 ∧ pl.1 = pr.1 ∧ 2 * a ≤ b + c then return (b + c - 2 * a, dm) else .error .panic
/-- `src/explain.rs:1398-1415` `congruence_distance`. -/
def congruenceDistance (x : Explain Op) (nodes : List (ENode Op)) : Nat → Id → Id → DistanceMemo → Res (Nat × DistanceMemo)
  | 0, _, _, _ => .error .fuel
  | f + 1, current, next, dm => do
    let cur ← getIdx nodes current
    let nxt ← getIdx nodes next
    (cur.children.zip nxt.children).foldlM (fun (acc : Nat × DistanceMemo) p => do
      let (d, dm) ← distanceBetween x nodes f p.1 p.2 acc.2
      return (acc.1 + d, dm)) (0, dm)
/-- `src/explain.rs:1430-1475` `calculate_parent_distance`; the ancestor `usize::MAX` is `none`. -/
def calculateParentDistance (x : Explain Op) (nodes : List (ENode Op)) : Nat → Id → Option Id → DistanceMemo → Res (Nat × DistanceMemo)
  | 0, _, _, _ => .error .fuel
  | f + 1, enode, ancestor, dm => do
    let (parent, dist) ← getIdx dm.parentDistance enode
    let pp ← x.parentOf parent
    if pp = parent then return (dist, dm)
    else do
      let (parentParent, pdist) ← getIdx dm.parentDistance parent
      if parentParent ≠ parent then
        calculateParentDistance x nodes f enode ancestor
          { dm with parentDistance := dm.parentDistance.set enode (parentParent, dist + pdist) }
      else match ancestor with
        | none => return (dist, dm)
        | some anc => do
          let dp ← unwrap (dm.treeDepth.get? parent)
          let da ← unwrap (dm.treeDepth.get? anc)
          if dp ≤ da then return (dist, dm)
          else do
            let e ← getIdx x.find parent
            let (cost, dm) ← (match e.parent.justification with
              | .congruence => congruenceDistance x nodes f e.parent.current e.parent.next dm
              | .rule _ => .ok (1, dm) : Res (Nat × DistanceMemo))
            let gp ← x.parentOf parent
            if parent < dm.parentDistance.length then
              calculateParentDistance x nodes f enode ancestor
                { dm with parentDistance := dm.parentDistance.set parent (gp, cost) }
            else .error .panic
end

/-- `src/explain.rs:1417-1428` `connection_distance`. -/
def connectionDistance (x : Explain Op) (nodes : List (ENode Op)) (fuel : Nat) (c : Connection) (dm : DistanceMemo) : Res (Nat × DistanceMemo) :=
  match c.justification with
  | .congruence => congruenceDistance x nodes fuel c.current c.next dm
  | .rule _ => .ok (1, dm)

/-- `src/explain.rs:1337-1357` `populate_path_length`. -/
def populatePathLength (x : Explain Op) (nodes : List (ENode Op)) (fuel : Nat) (right : Id) (left : List Connection) (dm : DistanceMemo) :
    Res (Explain Op × DistanceMemo) :=
  left.reverse.foldlM (fun (acc : Explain Op × DistanceMemo) c => do
    let nc ← unwrap (acc.1.shortMemo.get? (c.next, right))
    let (d, dm) ← connectionDistance acc.1 nodes fuel c acc.2
    return ({ acc.1 with shortMemo := acc.1.shortMemo.insert (c.current, right) (nc.1 + d, c.next) }, dm))
    ({ x with shortMemo := x.shortMemo.insert (right, right) (0, right) }, dm)

/-- Append to the list at position `i`. -/
def pushAt (cn : List (List Id)) (i v : Id) : Res (List (List Id)) :=
  match cn[i]? with
  | none => .error .panic
  | some l => .ok (cn.set i (l ++ [v]))

/-- The loop over the e-nodes of one class in `find_congruence_neighbors`, `src/explain.rs:1499-1519`.
Returns `true` if the limit was exceeded. -/
def congrClassLoop (nodes : List (ENode Op)) (uf : UF) (limit : Nat) :
    List Id → AMap (ENode Op) (List Id) → Nat → List (List Id) → Res (Bool × Nat × List (List Id))
  | [], _, counter, cn => .ok (false, counter, cn)
  | enode :: enodes, canon, counter, cn => do
    let n ← getIdx nodes enode
    let c ← n.mapChildrenM (UF.find uf)
    let (canon, counter, cn) ← (match canon.get? c with
      | some others => do
        let cn ← others.foldlM (fun cn other => do
          let cn ← pushAt cn enode other
          pushAt cn other enode) cn
        return (canon.insert c (others ++ [enode]), counter + others.length, cn)
      | none => .ok (canon.insert c [enode], counter + 1, cn) : Res (AMap (ENode Op) (List Id) × Nat × List (List Id)))
    if counter > limit then return (true, counter, cn)
    else congrClassLoop nodes uf limit enodes canon counter cn

/-- The loop over the classes, `src/explain.rs:1495-1520`. -/
def congrClassesLoop (x : Explain Op) (ch : Choices) (nodes : List (ENode Op)) (uf : UF) (fuel : Nat) :
    List Id → Nat → List (List Id) → Res (List (List Id))
  | [], _, cn => .ok cn
  | eclass :: rest, counter, cn => do
    let enodes ← x.findAllEnodes fuel eclass
    let (stop, counter, cn) ← congrClassLoop nodes uf (2 * x.find.length) (ch.order enodes) [] counter cn
    if stop then return cn else congrClassesLoop x ch nodes uf fuel rest counter cn

/-- `src/explain.rs:1477-1521` `find_congruence_neighbors` (`CONGRUENCE_LIMIT` is 2). -/
def findCongruenceNeighbors (x : Explain Op) (ch : Choices) (nodes : List (ENode Op)) (uf : UF) (classes : List Id) (fuel : Nat) :
    Res (List (List Id)) := do
  let (counter, cn) ← x.find.foldlM (fun (acc : Nat × List (List Id)) e =>
    match e.parent.justification with
    | .congruence => do
      let cn ← pushAt acc.2 e.parent.current e.parent.next
      let cn ← pushAt cn e.parent.next e.parent.current
      return (acc.1 + 1, cn)
    | .rule _ => .ok acc) (0, x.find.map (fun _ => []))
  congrClassesLoop x ch nodes uf fuel (ch.order classes) counter cn

/-- The main loop of `shortest_path_modulo_congruence`, `src/explain.rs:1563-1607`. -/
def dijkstra (x : Explain Op) (ch : Choices) (nodes : List (ENode Op)) (cn : List (List Id)) (fuel : Nat) (endId : Id) :
    Nat → List (Nat × Connection) → AMap Id Connection → AMap Id Nat → DistanceMemo →
    Res (AMap Id Connection × AMap Id Nat × DistanceMemo)
  | 0, _, _, _, _ => .error .fuel
  | f + 1, todo, last, pathCost, dm =>
    match ch.pop todo with
    | none => .ok (last, pathCost, dm)
    | some ((cost, connection), todo) =>
      let current := connection.next
      if (last.get? current).isSome then dijkstra x ch nodes cn fuel endId f todo last pathCost dm
      else do
        let last := last.insert current connection
        let pathCost := pathCost.insert current cost
        if current = endId then return (last, pathCost, dm)
        else do
          let e ← getIdx x.find current
          let todo := todo ++ (e.neighbors.filter (·.justification.isRule)).map (fun nb => (cost + 1, nb))
          let others ← getIdx cn current
          let (todo, dm) ← others.foldlM (fun (acc : List (Nat × Connection) × DistanceMemo) next => do
            let (d, dm) ← congruenceDistance x nodes fuel current next acc.2
            return (acc.1 ++ [(cost + d, (⟨next, current, .congruence, true⟩ : Connection))], dm)) (todo, dm)
          dijkstra x ch nodes cn fuel endId f todo last pathCost dm

/-- Walking back from the end, `src/explain.rs:1629-1640`; the connections come out in reverse
order of the vector that the code reverses afterwards, i.e. from start to end. -/
def walkBack (last : AMap Id Connection) (start : Id) : Nat → Id → List Connection → Res (List Connection)
  | 0, _, _ => .error .fuel
  | f + 1, current, acc =>
    if current = start then .ok acc
    else match last.get? current with
      | some c => walkBack last start f c.current (c :: acc)
      | none => .ok acc

/-- `src/explain.rs:1542-1646` `shortest_path_modulo_congruence`. -/
def shortestPath (x : Explain Op) (ch : Choices) (nodes : List (ENode Op)) (cn : List (List Id)) (fuel : Nat) (start endId : Id)
    (dm : DistanceMemo) : Res ((List Connection × List Connection) × Explain Op × DistanceMemo) := do
  let (last, pathCost, dm) ← dijkstra x ch nodes cn fuel endId fuel
    [(0, (⟨start, start, .congruence, true⟩ : Connection))] [] [] dm
  let total ← unwrap (pathCost.get? endId)
  let (dist, dm) ← distanceBetween x nodes fuel start endId dm
  if total ≥ dist then do
    let p ← x.getPathUnoptimized fuel start endId
    return (p, x, dm)
  else do
    let connections ← walkBack last start fuel endId []
    let (x, dm) ← x.populatePathLength nodes fuel endId connections dm
    return ((connections, []), x, dm)

/-- The pairs of children that a path needs, `src/explain.rs:1673-1694`. -/
def childPairs (nodes : List (ENode Op)) (path : List Connection) : Res (List (Id × Id)) :=
  path.foldlM (fun acc c =>
    match c.justification with
    | .congruence => do
      let cur ← getIdx nodes c.current
      let nxt ← getIdx nodes c.next
      return acc ++ cur.children.zip nxt.children
    | .rule _ => .ok acc) []

/-- The loop of `greedy_short_explanations`, `src/explain.rs:1648-1696`; `budget` is the parameter
`fuel` of the code. -/
def greedyLoop (ch : Choices) (nodes : List (ENode Op)) (cn : List (List Id)) (fuel : Nat) :
    Nat → List (Id × Id) → Nat → Explain Op → DistanceMemo → Res (Explain Op)
  | 0, _, _, _, _ => .error .fuel
  | _ + 1, [], _, x, _ => .ok x
  | f + 1, (start, endId) :: todo, budget, x, dm => do
    let enodes ← x.findAllEnodes fuel start
    if budget < enodes.length then greedyLoop ch nodes cn fuel f todo budget x dm
    else do
      let ((l, r), x, dm) ← x.shortestPath ch nodes cn fuel start endId dm
      let pairs ← childPairs nodes (l ++ r.reverse.map flip)
      greedyLoop ch nodes cn fuel f (todo ++ pairs) (budget - enodes.length) x dm

/-- State of `tarjan_ocla`: `black_set`, `unionfind`, `ancestor`, `common_ancestor`. -/
structure Tarjan where
  black : List Id
  uf : UF
  ancestor : List Id
  common : AMap (Id × Id) Id

/-- Assignment to an element of a vector. -/
def setIdx {α : Type} (l : List α) (i : Nat) (a : α) : Res (List α) := if i < l.length then .ok (l.set i a) else .error .panic

/-- `src/explain.rs:1699-1734` `tarjan_ocla`; recursion depth bounded by fuel.  (`unionfind.find` has no
effect and `unionfind.union(enode, child)` sets the parent of `child` to `enode`.) -/
def tarjanOcla (children : AMap Id (List Id)) (queries : AMap Id (List Id)) : Nat → Id → Tarjan → Res Tarjan
  | 0, _, _ => .error .fuel
  | f + 1, enode, s => do
    let anc ← setIdx s.ancestor enode enode
    let s := { s with ancestor := anc }
    let cs ← unwrap (children.get? enode)
    let s ← cs.foldlM (fun (s : Tarjan) child => do
      let s ← tarjanOcla children queries f child s
      let uf ← s.uf.union enode child
      let r ← UF.find uf enode
      let anc ← setIdx s.ancestor r enode
      return { s with uf := uf, ancestor := anc }) s
    match queries.get? enode with
    | none => return s
    | some others => do
      let s := { s with black := enode :: s.black }
      others.foldlM (fun (s : Tarjan) other =>
        if other ∈ s.black then do
          let r ← UF.find s.uf other
          let a ← getIdx s.ancestor r
          return { s with common := (s.common.insert (enode, other) a).insert (other, enode) a }
        else .ok s) s

/-- `common_ancestor_queries`, `src/explain.rs:1745-1767`. -/
def ancestorQueries (nodes : List (ENode Op)) (cn : List (List Id)) : Res (AMap Id (List Id)) :=
  (List.range cn.length).foldlM (fun q start => do
    let others ← getIdx cn start
    others.foldlM (fun (q : AMap Id (List Id)) other => do
      let ns ← getIdx nodes start
      let no ← getIdx nodes other
      return (ns.children.zip no.children).foldl (fun (q : AMap Id (List Id)) p =>
        if p.1 = p.2 then q
        else
          let q := q.insert start ((match q.get? start with | some l => l | none => []) ++ [other])
          q.insert other ((match q.get? other with | some l => l | none => []) ++ [start])) q) q) []

/-- Walking up to the root, `src/explain.rs:1790-1793`. -/
def rootLoop (x : Explain Op) : Nat → Id → Res Id
  | 0, _ => .error .fuel
  | f + 1, i => do
    let p ← x.parentOf i
    if p = i then return i else rootLoop x f p

/-- The map `children` of one class, `src/explain.rs:1778-1786`. -/
def treeChildren (x : Explain Op) (enodes : List Id) : Res (AMap Id (List Id)) :=
  enodes.foldlM (fun (m : AMap Id (List Id)) i => do
    let p ← x.parentOf i
    if p = i then return m
    else do
      let l ← unwrap (m.get? p)
      return m.insert p (l ++ [i])) (enodes.foldl (fun m i => AMap.insert m i []) [])

/-- `src/explain.rs:1740-1806` `calculate_common_ancestor`. -/
def calculateCommonAncestor (x : Explain Op) (ch : Choices) (nodes : List (ENode Op)) (classes : List Id) (cn : List (List Id)) (fuel : Nat) :
    Res (AMap (Id × Id) Id) := do
  let queries ← ancestorQueries nodes cn
  let s ← (ch.order classes).foldlM (fun (s : Tarjan) eclass => do
    let enodes ← x.findAllEnodes fuel eclass
    let enodes := ch.order enodes
    let children ← treeChildren x enodes
    let e0 ← unwrap enodes.head?
    let root ← x.rootLoop fuel e0
    tarjanOcla children queries fuel root { s with black := [] })
    ⟨[], List.range x.find.length, List.range x.find.length, []⟩
  return s.common

/-- `src/explain.rs:1808-1830` `calculate_shortest_explanations` (`GREEDY_NUM_ITERS` is 2). -/
def calculateShortestExplanations (x : Explain Op) (ch : Choices) (nodes : List (ENode Op)) (uf : UF) (classes : List Id)
    (fuel : Nat) (start endId : Id) : Res (Explain Op) := do
  let cn ← x.findCongruenceNeighbors ch nodes uf classes fuel
  let ca ← x.calculateCommonAncestor ch nodes classes cn fuel
  let td ← x.calculateTreeDepths fuel
  let dm : DistanceMemo := ⟨(List.range x.find.length).map (fun i => (i, 0)), ca, td⟩
  greedyLoop ch nodes cn fuel fuel [(start, endId)] (2 * x.find.length) x dm

/-- `src/explain.rs:1101-1115` `ExplainNodes::explain_equivalence`. -/
def explainEquivalence (x : Explain Op) (ch : Choices) (nodes : List (ENode Op)) (uf : UF) (classes : List Id)
    (fuel : Nat) (left right : Id) : Res (List (TreeTerm Op) × Explain Op) := do
  let x ← (if x.optimize then x.calculateShortestExplanations ch nodes uf classes fuel left right else .ok x : Res (Explain Op))
  let (p, _) ← explainEnodes x nodes fuel left right ([], [])
  return (p, x)

end Explain

variable {Dat : Type} [Lang Op]

/-- `src/egraph.rs:501-521` `explain_id_equivalence`. -/
def EGraph.explainIdEquivalence (eg : EGraph Op Dat) (ch : Explain.Choices) (fuel : Nat) (left right : Id) :
    Res (List (TreeTerm Op) × EGraph Op Dat) := do
  let l ← eg.find left
  let r ← eg.find right
  if l ≠ r then .error .panic
  else match eg.explain with
    | none => .error .panic
    | some x => do
      let (p, x) ← x.explainEquivalence ch eg.nodes eg.uf eg.classes.keys fuel left right
      return (p, { eg with explain := some x })

/-- `src/egraph.rs:485-494` `explain_equivalence`. -/
def EGraph.explainEquivalence (N : Analysis Op Dat) (eg : EGraph Op Dat) (ch : Explain.Choices) (fuel : Nat) (leftExpr rightExpr : List (ENode Op)) :
    Res (List (TreeTerm Op) × EGraph Op Dat) := do
  let (eg, left) ← EGraph.addExprUncanonical N eg leftExpr
  let (eg, right) ← EGraph.addExprUncanonical N eg rightExpr
  eg.explainIdEquivalence ch fuel left right

end Egg
