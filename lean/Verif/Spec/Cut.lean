import Verif.Model.IdToExpr
import Verif.Spec.Term
/-
Specification of `id_to_pattern`.
-/
namespace Egg
variable {Op : Type}

/-- `Cut varOf subs nodes i t`: the pattern `t` is the term of the id `i` in which every
id listed in `subs` is a variable named after the id. -/
inductive Cut (varOf : Id → Var) (subs : AMap Id Id) (nodes : List (ENode Op)) : Id → Term (PatOp Op) → Prop where
  | var {i e : Id} : subs.get? i = some e → Cut varOf subs nodes i (.node (.var (varOf i)) [])
  | node {i : Id} {n : ENode Op} {ts : List (Term (PatOp Op))} : subs.get? i = none → nodes[i]? = some n →
      List.Forall₂ (Cut varOf subs nodes) n.children ts → Cut varOf subs nodes i (.node (.op n.op) ts)

end Egg
