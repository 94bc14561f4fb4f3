import Verif.Model.IdToExpr
import Verif.Spec.Proof
import Verif.Spec.Rewrite
import Verif.Spec.History
/-
Specification vocabulary for explanations: what justifies the steps, and histories whose unions
are all made by rules.
-/
namespace Egg
variable {Op D : Type} [DecidableEq Op] [Lang Op]

/-- The steps between terms that a relation `J r a b` between a rule and two ids justifies: `s` and
`t` are the terms of the expressions that `id_to_expr` returns for the two ids. -/
def StepsBy (eg : EGraph Op D) (J : Symbol → Id → Id → Prop) : Symbol → Term Op → Term Op → Prop :=
  fun r s t => ∃ a b e1 e2, J r a b ∧ eg.idToExpr a = .ok e1 ∧ eg.idToExpr b = .ok e2 ∧ ExprTerm e1 s ∧ ExprTerm e2 t

/-- One of the unions in the list has the reason `r` and unites `a` with `b`. -/
def Asserted (U : List (UnionRec Op)) : Symbol → Id → Id → Prop :=
  fun r a b => ∃ u ∈ U, u.reason = r ∧ u.a = a ∧ u.b = b

omit [DecidableEq Op] [Lang Op] in
/-- The term `s` is an instance of the left pattern and `t`, by the same substitution of terms for
variables, of the right pattern. -/
def IsInstance (lhs rhs : PatternAst Op) (s t : Term Op) : Prop :=
  ∃ τ L R, ExprTerm lhs L ∧ ExprTerm rhs R ∧ Inst τ L s ∧ Inst τ R t

omit [DecidableEq Op] [Lang Op] in
/-- Both patterns are well-formed, and the variables of the right one occur in the left one. -/
structure PatternsOK (lhs rhs : PatternAst Op) : Prop where
  left : PatWF lhs
  right : PatWF rhs
  vars : ∀ L R, ExprTerm lhs L → ExprTerm rhs R → ∀ v, Occurs v R → Occurs v L

/-- Operations where all unions are made by applying rules of the list: any other operation that
requests no union, and `union_instantiations` for a rule and a substitution that binds variables to
ids of the e-graph. -/
inductive RuleSteps (N : Analysis Op D) (allow : Caller Op D) (rules : List (RuleInfo Op)) : EGraph Op D → EGraph Op D → Prop where
  | refl {eg} : RuleSteps N allow rules eg eg
  | other {eg eg1 eg2} : RuleSteps N allow rules eg eg1 → Step N allow eg1 [] eg2 → RuleSteps N allow rules eg eg2
  | rule {eg eg1 eg2 info lhs rhs s i did} : RuleSteps N allow rules eg eg1 → info ∈ rules → info.lhs = some lhs → info.rhs = some rhs →
      (∀ v x, s.get v = some x → Valid eg1 x) →
      eg1.unionInstantiations N lhs rhs s info.name = .ok (eg2, i, did) → RuleSteps N allow rules eg eg2

end Egg
