import Verif.Model.ShortPath
/-
Sequences of requests for explanations.
-/
namespace Egg
variable {Op D : Type} [DecidableEq Op] [Lang Op]

/-- Something a caller asks an e-graph between two changes. -/
inductive Ask where
  /-- `explain_id_equivalence(a, b)` -/
  | explain (a b : Id)
  /-- `with_explanation_length_optimization` or `without_explanation_length_optimization` -/
  | lengths (on : Bool)

/-- The answers to a list of requests. -/
def EGraph.asks (ch : Explain.Choices) (fuel : Nat) : List Ask → EGraph Op D → Res (List (List (TreeTerm Op)) × EGraph Op D)
  | [], eg => .ok ([], eg)
  | .explain a b :: rest, eg => do
    let (p, eg) ← eg.explainIdEquivalence ch fuel a b
    let (ps, eg) ← EGraph.asks ch fuel rest eg
    return (p :: ps, eg)
  | .lengths on :: rest, eg => do
    let eg ← if on then eg.withExplanationLengthOptimization else eg.withoutExplanationLengthOptimization
    EGraph.asks ch fuel rest eg

end Egg
