import Verif.Model.ShortPath
/-
`check_each_explain`, the self-check that the runner makes in debug builds, and `explain_matches`.
-/
namespace Egg
variable {Op D : Type} [DecidableEq Op] [Lang Op]

namespace Explain

/-- `src/explain.rs:1067-1074` `node_to_flat_explanation`; recursion depth bounded by fuel. -/
def nodeToFlat (nodes : List (ENode Op)) : Nat → Id → Res (FlatTerm Op)
  | 0, _ => .error .fuel
  | f + 1, i => do
    let n ← getIdx nodes i
    let cs ← n.children.mapM (nodeToFlat nodes f)
    return FlatTerm.new n.op cs

/-- Body of the loop of `check_each_explain`, `src/explain.rs:1079-1096`: node `i` with its entry. -/
def checkExplainNode (nodes : List (ENode Op)) (table : AMap Symbol (RuleInfo Op)) (fuel : Nat) (i : Id) (e : ExplainNode) :
    Res Bool :=
  if e.parent.next ≠ i then do
    let cur ← nodeToFlat nodes fuel i
    let nxt ← nodeToFlat nodes fuel e.parent.next
    match e.parent.justification with
    | .rule name =>
      match table.get? name with
      | some rule => if e.parent.isRewriteForward then checkRewrite fuel cur nxt rule else checkRewrite fuel nxt cur rule
      | none => return true
    | .congruence => return true
  else return true

/-- The loop of `check_each_explain`, from node `i` on. -/
def checkEachGo (nodes : List (ENode Op)) (table : AMap Symbol (RuleInfo Op)) (fuel : Nat) : Id → List ExplainNode → Res Bool
  | _, [] => .ok true
  | i, e :: es => do
    if ← checkExplainNode nodes table fuel i e then checkEachGo nodes table fuel (i + 1) es else return false

/-- `src/explain.rs:1076-1099` `check_each_explain`. -/
def checkEachExplain (x : Explain Op) (nodes : List (ENode Op)) (fuel : Nat) (rules : List (RuleInfo Op)) : Res Bool :=
  checkEachGo nodes (makeRuleTable rules) fuel 0 x.find

end Explain

/-- `src/egraph.rs:1448-1454` `check_each_explain`, called by `Runner` in a `debug_assert!`
(`src/run.rs:597`). -/
def EGraph.checkEachExplain (eg : EGraph Op D) (fuel : Nat) (rules : List (RuleInfo Op)) : Res Bool :=
  match eg.explain with
  | some x => x.checkEachExplain eg.nodes fuel rules
  | none => .error .panic

/-- `src/egraph.rs:524-551` `explain_matches`; its end is the same code as `explain_id_equivalence`. -/
def EGraph.explainMatches (N : Analysis Op D) (eg : EGraph Op D) (ch : Explain.Choices) (fuel : Nat)
    (left : List (ENode Op)) (right : PatternAst Op) (s : Subst) : Res (List (TreeTerm Op) × EGraph Op D) := do
  let (eg, l) ← eg.addExprUncanonical N left
  let (eg, r) ← addInstantiationNoncanonical N eg right s
  eg.explainIdEquivalence ch fuel l r

end Egg
