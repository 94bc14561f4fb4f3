import Verif.Spec.Round
/-
Specification vocabulary for what rules generate from an e-graph, with no reference to any run.
-/
namespace Egg
variable {Op D : Type} [DecidableEq Op] [Lang Op]

/-- `Generated eg eqs s t`: the terms `s` and `t` are there, and equal, if the rules `eqs` are applied to the e-graph `eg`
as often as possible.  Terms of one class of `eg` are there and equal; if a term is there, then so is each instance of a rule that
has it as its left side, and equal to it; subterms of terms that are there are there; and
if a term is there, then so are the terms made from it by replacing its arguments by equal ones, and equal to it. -/
inductive Generated (eg : EGraph Op D) (eqs : List (Term (PatOp Op) × Term (PatOp Op))) : Term Op → Term Op → Prop where
  | start {c s t} : Rep eg c s → Rep eg c t → Generated eg eqs s t
  | rule {s t} : Generated eg eqs s s → RuleInstance eqs s t → Generated eg eqs s t
  | symm {s t} : Generated eg eqs s t → Generated eg eqs t s
  | trans {s t u} : Generated eg eqs s t → Generated eg eqs t u → Generated eg eqs s u
  | arg {op} {ts : List (Term Op)} {t} : Generated eg eqs (.node op ts) (.node op ts) → t ∈ ts → Generated eg eqs t t
  | congr {op} {ss ts : List (Term Op)} : Generated eg eqs (.node op ss) (.node op ss) → ss.length = ts.length →
      (∀ (k : Nat) (s t : Term Op), ss[k]? = some s → ts[k]? = some t → Generated eg eqs s t) →
      Generated eg eqs (.node op ss) (.node op ts)

/-- What the rules generate has only finitely many classes: each generated term equals one of finitely many. -/
def FinitelyGenerated (eg : EGraph Op D) (eqs : List (Term (PatOp Op) × Term (PatOp Op))) : Prop :=
  ∃ l : List (Term Op), ∀ t, Generated eg eqs t t → ∃ u ∈ l, Generated eg eqs t u

end Egg
