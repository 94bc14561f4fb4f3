import Verif.Spec.Run
/-
Specification vocabulary for what saturation decides.
-/
namespace Egg
variable {Op D : Type} [DecidableEq Op] [Lang Op]

omit [DecidableEq Op] [Lang Op] in
/-- Rewriting with `E`, from left to right, anywhere in a term, any number of times. -/
inductive RewritesTo (E : Term Op → Term Op → Prop) : Term Op → Term Op → Prop where
  | rule {s t} : E s t → RewritesTo E s t
  | refl (t) : RewritesTo E t t
  | trans {s t u} : RewritesTo E s t → RewritesTo E t u → RewritesTo E s u
  | congr (op) {ss ts : List (Term Op)} :
      ss.length = ts.length →
      (∀ (k : Nat) (s t : Term Op), ss[k]? = some s → ts[k]? = some t → RewritesTo E s t) →
      RewritesTo E (.node op ss) (.node op ts)

omit [DecidableEq Op] [Lang Op] in
/-- The equations of a run: those asserted before, as `U` says, and the instances of the rules. -/
def RunEqs (U : List (UnionRec Op)) (eqs : List (Term (PatOp Op) × Term (PatOp Op))) (s t : Term Op) : Prop :=
  eqsOf U s t ∨ RuleInstance eqs s t

omit [DecidableEq Op] [Lang Op] in
/-- One step of a run: an instance of a rule from left to right, or one of the asserted equations in any direction. -/
def RunSteps (U : List (UnionRec Op)) (eqs : List (Term (PatOp Op) × Term (PatOp Op))) (s t : Term Op) : Prop :=
  eqsOf U s t ∨ eqsOf U t s ∨ RuleInstance eqs s t

/-- The rules are the equations `eqs` between patterns: each rule is one of them, and each of them is a rule. -/
def RulesFor (rules : List (Rewrite Op D)) (eqs : List (Term (PatOp Op) × Term (PatOp Op))) : Prop :=
  (∀ rw ∈ rules, ∃ tl t, (tl, t) ∈ eqs ∧ PatternRule rw tl t) ∧
  ∀ tl t, (tl, t) ∈ eqs → ∃ rw ∈ rules, PatternRule rw tl t

end Egg
