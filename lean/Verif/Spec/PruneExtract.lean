import Verif.Spec.ExtractBy
/-
Vocabulary of C97.
-/
namespace Egg
variable {Op D Cost : Type} [DecidableEq Op] [Lang Op]

/-- Every class that lost an e-node has an e-node without children that costs no more than anything else. -/
def CheapLeaf (cf : NodeCostFn Op Cost) (eg full : EGraph Op D) : Prop :=
  ∀ i k kf, eg.index i = .ok k → full.index i = .ok kf →
    (∀ n ∈ kf.nodes, n ∈ k.nodes) ∨ ∃ n ∈ k.nodes, n.children = [] ∧ ∀ m vs, cf.Le (cf.cost n []) (cf.cost m vs)

end Egg
