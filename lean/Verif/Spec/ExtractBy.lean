import Verif.Model.ExtractBy
import Verif.Spec.Extract
/-
Specification vocabulary for extraction with cost functions that look at the e-nodes.
-/
namespace Egg
variable {Op D Cost : Type}

/-- `CostIn cf eg c t v`: read off the e-graph as a term of the class of `c`, the term `t`
costs `v`.  The root of `t` is one of the e-nodes of the class, its arguments are read off
the classes of the children of the e-node, and `v` is what the cost function makes of the
e-node and the costs of the arguments. -/
inductive CostIn [DecidableEq Op] [Lang Op] (cf : NodeCostFn Op Cost) (eg : EGraph Op D) : Id → Term Op → Cost → Prop where
  | mk {c r : Id} {cls : EClass Op D} {n : ENode Op} {ts : List (Term Op)} {vs : List Cost} :
      eg.find c = .ok r →
      eg.classes.get? r = some cls →
      n ∈ cls.nodes →
      n.children.length = ts.length →
      n.children.length = vs.length →
      (∀ (k : Nat) (d : Id) (t : Term Op) (v : Cost), n.children[k]? = some d → ts[k]? = some t → vs[k]? = some v →
        CostIn cf eg d t v) →
      CostIn cf eg c (.node n.op ts) (cf.cost n vs)

namespace NodeCostFn

/-- `a <= b`. -/
def Le (cf : NodeCostFn Op Cost) (a b : Cost) : Prop := cf.pcmp a b = some .lt ∨ cf.pcmp a b = some .eq

/-- `a == b`. -/
def Same (cf : NodeCostFn Op Cost) (a b : Cost) : Prop := cf.pcmp a b = some .eq

/-- What is assumed of a cost function: any two costs can be compared, consistently; the
cost of an e-node is not smaller than that of any of its children, and does not decrease
when costs of children increase. -/
structure OK (cf : NodeCostFn Op Cost) : Prop where
  comparable : ∀ a b, cf.pcmp a b ≠ none
  swap : ∀ a b, cf.pcmp a b = some .gt ↔ cf.pcmp b a = some .lt
  trans : ∀ a b c, cf.Le a b → cf.Le b c → cf.Le a c
  above : ∀ n cs, ∀ c ∈ cs, cf.Le c (cf.cost n cs)
  mono : ∀ n cs cs', List.Forall₂ cf.Le cs cs' → cf.Le (cf.cost n cs) (cf.cost n cs')

end NodeCostFn
end Egg
