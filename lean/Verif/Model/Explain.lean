import Verif.Model.UnionFind
/-
Model of the proof-forest bookkeeping of `src/explain.rs` (the part that runs
during `add` and `union`).
-/
namespace Egg

/-- `symbol_table::GlobalSymbol` (`src/util.rs:45`): an interned string, i.e. an
integer handle. -/
macro "Symbol" : term => `(Nat)

/-- `src/explain.rs:25-30` `Justification`. -/
inductive Justification where
  | rule (name : Symbol)
  | congruence
deriving DecidableEq, Repr

/-- `src/explain.rs:34-39` `Connection`. -/
structure Connection where
  next : Id
  current : Id
  justification : Justification
  isRewriteForward : Bool
deriving DecidableEq, Repr

/-- `src/explain.rs:43-47` `ExplainNode`. -/
structure ExplainNode where
  neighbors : List Connection
  parent : Connection
deriving DecidableEq, Repr

/-- `src/explain.rs:51-72` `Explain`.  `shortMemo` is
`shortest_explanation_memo` (proof costs as `Nat` instead of `BigUint`). -/
structure Explain (Op : Type) where
  find : List ExplainNode
  uncanonMemo : AMap (ENode Op) Id
  optimize : Bool
  shortMemo : AMap (Id × Id) (Nat × Id)

namespace Explain
variable {Op : Type} [DecidableEq Op]

/-- `src/explain.rs:897-904` `Explain::new`. -/
def new : Explain Op := ⟨[], [], true, []⟩

/-- `src/explain.rs:906-919` `Explain::add`. -/
def add (x : Explain Op) (node : ENode Op) (set : Id) : Res (Explain Op) :=
  if x.find.length = set then
    .ok { x with
      uncanonMemo := x.uncanonMemo.insert node set
      find := x.find ++ [{ neighbors := [],
                           parent := { justification := .congruence,
                                       isRewriteForward := false,
                                       next := set, current := set } }] }
  else .error .panic

/-- Overwrite `parent_connection` of node `i`. -/
def setParent (f : List ExplainNode) (i : Id) (c : Connection) : Res (List ExplainNode) :=
  match f[i]? with
  | none => .error .panic
  | some e => .ok (f.set i { e with parent := c })

/-- Append a connection to `neighbors` of node `i`. -/
def pushNeighbor (f : List ExplainNode) (i : Id) (c : Connection) : Res (List ExplainNode) :=
  match f[i]? with
  | none => .error .panic
  | some e => .ok (f.set i { e with neighbors := e.neighbors ++ [c] })

/-- `src/explain.rs:922-935` `make_leader`: reverse the parent edges from
`node` up to its root.  Recursion depth is bounded by fuel. -/
def makeLeader : Nat → List ExplainNode → Id → Res (List ExplainNode)
  | 0, _, _ => .error .fuel
  | k + 1, f, node => do
    let e ← getIdx f node
    let next := e.parent.next
    if next ≠ node then
      let f ← makeLeader k f next
      let e ← getIdx f node
      setParent f next
        { justification := e.parent.justification
          isRewriteForward := !e.parent.isRewriteForward
          next := node
          current := next }
    else return f

/-- `src/explain.rs:937-971` `alternate_rewrite`. -/
def alternateRewrite (x : Explain Op) (n1 n2 : Id) (j : Justification) : Res (Explain Op) :=
  if n1 = n2 then .ok x
  else if (match x.shortMemo.get? (n1, n2) with
           | some (cost, _) => decide (cost = 0 ∨ cost = 1)
           | none => false) then .ok x
  else do
    let f ← pushNeighbor x.find n1 ⟨n2, n1, j, true⟩
    let f ← pushNeighbor f n2 ⟨n1, n2, j, false⟩
    return { x with
      find := f
      shortMemo := (x.shortMemo.insert (n1, n2) (1, n2)).insert (n2, n1) (1, n1) }

/-- `src/explain.rs:973-1007` `Explain::union`. -/
def union (x : Explain Op) (n1 n2 : Id) (j : Justification) : Res (Explain Op) := do
  let f ← makeLeader (x.find.length + 1) x.find n1
  let e ← getIdx f n1
  let f ← setParent f n1 { e.parent with next := n2 }
  let memo := match j with
    | .rule _ => (x.shortMemo.insert (n1, n2) (1, n2)).insert (n2, n1) (1, n1)
    | .congruence => x.shortMemo
  let p : Connection := ⟨n2, n1, j, true⟩
  let o : Connection := ⟨n1, n2, j, false⟩
  let f ← pushNeighbor f n1 p
  let f ← pushNeighbor f n2 o
  let f ← setParent f n1 p
  return { x with find := f, shortMemo := memo }

/-- `src/explain.rs:1008-1020` `get_union_equalities`: the forward rule edges,
as triples (from, to, rule). -/
def unionEqualities (x : Explain Op) : List (Id × Id × Symbol) :=
  x.find.flatMap fun e => e.neighbors.filterMap fun c =>
    if c.isRewriteForward then
      match c.justification with
      | .rule r => some (c.current, c.next, r)
      | .congruence => none
    else none

end Explain
end Egg
