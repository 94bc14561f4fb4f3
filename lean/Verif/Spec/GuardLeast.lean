import Verif.Spec.GuardChase
/-
Specification vocabulary: what rules with and without `ConditionEqual` derive.
-/
namespace Egg
variable {Op D : Type} [DecidableEq Op] [Lang Op]

/-- The rule `lhs => rhs if p₁ = q₁ if p₂ = q₂ ..`; the list of conditions may be empty. -/
structure EqRule (Op : Type) where
  lhs : Term (PatOp Op)
  rhs : Term (PatOp Op)
  conds : List (Term (PatOp Op) × Term (PatOp Op))

/-- The instances of the two sides of the first condition exist; if they are equal, then those of the second do; and so on; and if all conditions hold, then `goal` does. -/
def CondsThen (K : Term Op → Term Op → Prop) (τ : Var → Term Op) (goal : Prop) : List (Term (PatOp Op) × Term (PatOp Op)) → Prop
  | [] => goal
  | (p, q) :: conds => ∃ a b, Inst τ p a ∧ Inst τ q b ∧ K a a ∧ K b b ∧ (K a b → CondsThen K τ goal conds)

/-- `K` is closed under the rule: if an instance of the left-hand side exists, and the conditions hold for it, it is equal to the instance of the right-hand side; and the
sides of the conditions exist as far as conditions are checked. -/
def EqRule.Closes (c : EqRule Op) (K : Term Op → Term Op → Prop) : Prop :=
  ∀ (τ : Var → Term Op) u, Inst τ c.lhs u → K u u → CondsThen K τ (∀ w, Inst τ c.rhs w → K u w) c.conds

/-- What the rules derive from `E`: what holds in all notions of equality of existing terms that contain `E` and are closed under the rules. -/
def Entailed (cs : List (EqRule Op)) (E : Term Op → Term Op → Prop) (s t : Term Op) : Prop :=
  ∀ K : Term Op → Term Op → Prop, PCong K → (∀ s t, E s t → K s t) → (∀ c ∈ cs, c.Closes K) → K s t

/-- The pattern denotes the term, and has no nodes that are not part of it. -/
def ExactPattern (p : Pattern Op) (t : Term (PatOp Op)) : Prop := IsPattern p t ∧ ∀ k, k < p.ast.length → Live p.ast k

/-- The rewrite `rw` is made by `Rewrite::new` from two patterns and conditions made by `ConditionEqual::new` from two patterns each. -/
def IsEqRule (rw : Rewrite Op D) (c : EqRule Op) : Prop :=
  ∃ (lp rp : Pattern Op) (ps : List (Pattern Op × Pattern Op)), ExactPattern lp c.lhs ∧ (∀ v ∈ lp.vars, Occurs v c.lhs) ∧ ExactPattern rp c.rhs ∧
    List.Forall₂ (fun p t => ExactPattern p.1 t.1 ∧ ExactPattern p.2 t.2) ps c.conds ∧
    Rewrite.new rw.name lp.searcher (condApplier rp.applier (ps.map fun p => Condition.equal p.1 p.2)) = .ok rw

/-- The rewrites are the rules `cs`, in any order. -/
def AreEqRules (rules : List (Rewrite Op D)) (cs : List (EqRule Op)) : Prop :=
  (∀ rw ∈ rules, ∃ c ∈ cs, IsEqRule rw c) ∧ ∀ c ∈ cs, ∃ rw ∈ rules, IsEqRule rw c

end Egg
