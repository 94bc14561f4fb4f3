import Verif.Model.Proof
import Verif.Model.EGraph
/-
Model of the extraction of explanations from the proof forest
(`src/explain.rs`, `ExplainNodes`).
-/
namespace Egg
variable {Op : Type} [DecidableEq Op]

namespace Explain

/-- The loop of `common_ancestor`, `src/explain.rs:1117-1137`; number of iterations bounded by fuel. -/
def commonAncestorLoop (x : Explain Op) : Nat → Id → Id → List Id → List Id → Res Id
  | 0, _, _, _, _ => .error .fuel
  | f + 1, left, right, seenLeft, seenRight =>
    let seenLeft := left :: seenLeft
    if left ∈ seenRight then .ok left
    else
      let seenRight := right :: seenRight
      if right ∈ seenLeft then .ok right
      else do
        let el ← getIdx x.find left
        let er ← getIdx x.find right
        let nextLeft := el.parent.next
        let nextRight := er.parent.next
        if nextLeft ≠ left ∨ nextRight ≠ right then
          commonAncestorLoop x f nextLeft nextRight seenLeft seenRight
        else .error .panic

/-- `src/explain.rs:1117-1137` `common_ancestor`. -/
def commonAncestor (x : Explain Op) (fuel : Nat) (left right : Id) : Res Id :=
  commonAncestorLoop x fuel left right [] []

/-- The loop of `get_connections`, `src/explain.rs:1145-1157`. -/
def getConnectionsLoop (x : Explain Op) (ancestor : Id) : Nat → Id → Res (List Connection)
  | 0, _ => .error .fuel
  | f + 1, node => do
    let e ← getIdx x.find node
    if e.parent.next = ancestor then return [e.parent]
    else if e.parent.next ≠ node then do
      let rest ← getConnectionsLoop x ancestor f e.parent.next
      return e.parent :: rest
    else .error .panic

/-- `src/explain.rs:1139-1158` `get_connections`. -/
def getConnections (x : Explain Op) (fuel : Nat) (node ancestor : Id) : Res (List Connection) :=
  if node = ancestor then .ok [] else getConnectionsLoop x ancestor fuel node

/-- `src/explain.rs:1160-1165` `get_path_unoptimized`. -/
def getPathUnoptimized (x : Explain Op) (fuel : Nat) (left right : Id) : Res (List Connection × List Connection) := do
  let ancestor ← x.commonAncestor fuel left right
  let l ← x.getConnections fuel left ancestor
  let r ← x.getConnections fuel right ancestor
  return (l, r)

/-- Is a justification a rule? -/
def _root_.Egg.Justification.isRule : Justification → Bool
  | .rule _ => true
  | .congruence => false

/-- `src/explain.rs:1167-1181` `get_neighbor`. -/
def getNeighbor (x : Explain Op) (current next : Id) : Res Connection := do
  let e ← getIdx x.find current
  match e.neighbors.find? (fun c => decide (c.next = next) && c.justification.isRule) with
  | some c => return c
  | none => return ⟨next, current, .congruence, true⟩

/-- `src/explain.rs:1183-1200` `get_path`. -/
def getPath (x : Explain Op) : Nat → Id → Id → Res (List Connection × List Connection)
  | 0, _, _ => .error .fuel
  | f + 1, left, right =>
    if left = right then .ok ([], [])
    else match x.shortMemo.get? (left, right) with
      | some (_, next) => do
        let c ← x.getNeighbor left next
        let (l, r) ← getPath x f next right
        return (c :: l, r)
      | none => x.getPathUnoptimized f left right

/-- `src/explain.rs:1048-1065` `node_to_explanation`; recursion depth bounded by fuel. -/
def nodeToExplanation (nodes : List (ENode Op)) : Nat → Id → AMap Id (TreeTerm Op) → Res (TreeTerm Op × AMap Id (TreeTerm Op))
  | 0, _, _ => .error .fuel
  | f + 1, i, cache =>
    match cache.get? i with
    | some t => .ok (t, cache)
    | none => do
      let n ← getIdx nodes i
      let (ts, cache) ← n.children.foldlM (fun (acc : List (List (TreeTerm Op)) × AMap Id (TreeTerm Op)) c => do
        let (t, cache) ← nodeToExplanation nodes f c acc.2
        return (acc.1 ++ [[t]], cache)) ([], cache)
      let res := TreeTerm.new n.op ts
      return (res, cache.insert i res)

/-- The two caches, `ExplainCache` and `NodeExplanationCache`, `src/explain.rs:111-112`. -/
abbrev Caches (Op : Type) := AMap (Id × Id) (TreeTerm Op) × AMap Id (TreeTerm Op)

/-- A connection of the right half of a path, turned around, `src/explain.rs:1222-1226`. -/
def flip (c : Connection) : Connection := ⟨c.current, c.next, c.justification, !c.isRewriteForward⟩

mutual
/-- `src/explain.rs:1202-1236` `explain_enodes` (with `use_unoptimized = false`, the only value it
is called with); recursion depth bounded by fuel. -/
def explainEnodes (x : Explain Op) (nodes : List (ENode Op)) : Nat → Id → Id → Caches Op → Res (List (TreeTerm Op) × Caches Op)
  | 0, _, _, _ => .error .fuel
  | f + 1, left, right, cs => do
    let (t0, nc) ← nodeToExplanation nodes f left cs.2
    let (l, r) ← x.getPath f left right
    (l ++ r.reverse.map flip).foldlM (fun (acc : List (TreeTerm Op) × Caches Op) c => do
      let (t, cs) ← explainAdjacent x nodes f c acc.2
      return (acc.1 ++ [t], cs)) ([t0], (cs.1, nc))
/-- `src/explain.rs:1238-1293` `explain_adjacent`. -/
def explainAdjacent (x : Explain Op) (nodes : List (ENode Op)) : Nat → Connection → Caches Op → Res (TreeTerm Op × Caches Op)
  | 0, _, _ => .error .fuel
  | f + 1, c, cs =>
    match cs.1.get? (c.current, c.next) with
    | some t => .ok (t, cs)
    | none =>
      match c.justification with
      | .rule name => do
        let (t, nc) ← nodeToExplanation nodes f c.next cs.2
        let t := if c.isRewriteForward then TreeTerm.mk t.op t.bwd (some name) t.childProofs
          else TreeTerm.mk t.op (some name) t.fwd t.childProofs
        return (t, cs.1.insert (c.current, c.next) t, nc)
      | .congruence => do
        let cur ← getIdx nodes c.current
        let nxt ← getIdx nodes c.next
        if cur.matches nxt then do
          let (subproofs, cs) ← (cur.children.zip nxt.children).foldlM
            (fun (acc : List (List (TreeTerm Op)) × Caches Op) p => do
              let (q, cs) ← explainEnodes x nodes f p.1 p.2 acc.2
              return (acc.1 ++ [q], cs)) ([], cs)
          let t := TreeTerm.new cur.op subproofs
          return (t, cs.1.insert (c.current, c.next) t, cs.2)
        else .error .panic
end

end Explain
end Egg
