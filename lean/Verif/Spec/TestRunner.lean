import Verif.Spec.Chase
/-
Specification vocabulary for `test_runner`.
-/
namespace Egg
variable {Op D : Type} [DecidableEq Op] [Lang Op]

/-- What is known before the rules are applied: the equalities of the given e-graph, and that `s` exists. -/
def Given (eg : EGraph Op D) (s : Term Op) (a b : Term Op) : Prop := Equal eg a b ∨ (a = s ∧ b = s)

omit [DecidableEq Op] [Lang Op] in
/-- Each goal has an instance that the rules derive, in `k` rounds, to be equal to `s`. -/
def Proves (cs : List (Clause Op)) (E : Term Op → Term Op → Prop) (s : Term Op) (ts : List (Term (PatOp Op))) (k : Nat) : Prop :=
  ∀ t ∈ ts, ∃ (τ : Var → Term Op) (u : Term Op), Inst τ t u ∧ Chase cs E k s u

end Egg
