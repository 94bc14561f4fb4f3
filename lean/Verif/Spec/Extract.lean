import Verif.Model.Extract
import Verif.Spec.Expr
/-
Specification vocabulary for extraction: the cost of a term, and what is assumed of a
cost function.
-/
namespace Egg
variable {Op Cost : Type}

mutual
/-- The cost of a term: the cost function folded over the tree. -/
def termCost (cf : CostFn Op Cost) : Term Op → Cost
  | .node op ts => cf.cost op (termCosts cf ts)
/-- The costs of a list of terms. -/
def termCosts (cf : CostFn Op Cost) : List (Term Op) → List Cost
  | [] => []
  | t :: ts => termCost cf t :: termCosts cf ts
end

mutual
/-- The number of nodes of a term (as a tree). -/
def Term.size : Term Op → Nat
  | .node _ ts => 1 + Term.sizes ts
def Term.sizes : List (Term Op) → Nat
  | [] => 0
  | t :: ts => t.size + Term.sizes ts
end

mutual
/-- The height of a term; a constant has height 1. -/
def Term.depth : Term Op → Nat
  | .node _ ts => 1 + Term.depths ts
def Term.depths : List (Term Op) → Nat
  | [] => 0
  | t :: ts => max t.depth (Term.depths ts)
end

namespace CostFn

/-- `a <= b`. -/
def Le (cf : CostFn Op Cost) (a b : Cost) : Prop := cf.pcmp a b = some .lt ∨ cf.pcmp a b = some .eq

/-- `a == b`. -/
def Same (cf : CostFn Op Cost) (a b : Cost) : Prop := cf.pcmp a b = some .eq

/-- What is assumed of a cost function: any two costs can be compared, consistently;
the cost of a node is not smaller than that of any of its children, and does not
decrease when costs of children increase. -/
structure OK (cf : CostFn Op Cost) : Prop where
  comparable : ∀ a b, cf.pcmp a b ≠ none
  swap : ∀ a b, cf.pcmp a b = some .gt ↔ cf.pcmp b a = some .lt
  trans : ∀ a b c, cf.Le a b → cf.Le b c → cf.Le a c
  above : ∀ op cs, ∀ c ∈ cs, cf.Le c (cf.cost op cs)
  mono : ∀ op cs cs', List.Forall₂ cf.Le cs cs' → cf.Le (cf.cost op cs) (cf.cost op cs')

end CostFn
end Egg
