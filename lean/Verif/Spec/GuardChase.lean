import Verif.Spec.Guard
import Verif.Spec.Below
import Verif.Model.Macros
import Verif.Spec.Chase
/-
Specification vocabulary: forward chaining with conditional rules.
-/
namespace Egg
variable {Op D : Type} [DecidableEq Op] [Lang Op]

/-- The rule `lhs => rhs if P₁ if P₂ ..`, as a statement about terms: the `Pᵢ` are about the terms that the variables stand for. -/
structure GuardedClause (Op : Type) where
  lhs : Term (PatOp Op)
  rhs : Term (PatOp Op)
  guards : List ((Var → Term Op) → Prop)

/-- `K` is closed under the rule: if an instance of the left-hand side exists, and the guards hold for it, then it is equal to the
instance of the right-hand side (which therefore exists). -/
def GuardedClause.Closes (c : GuardedClause Op) (K : Term Op → Term Op → Prop) : Prop :=
  ∀ (τ : Var → Term Op) u w, (∀ P ∈ c.guards, P τ) → Inst τ c.lhs u → Inst τ c.rhs w → K u u → K u w

/-- The condition at most adds terms to the e-graph (it may do so in order to look for them). -/
def Condition.Adds (N : Analysis Op D) (cond : Condition Op D) : Prop :=
  ∀ eg c s eg' b, cond.check N eg c s = .ok (eg', b) → AddSteps N eg eg'

/-- Checked in an e-graph that knows only terms and equalities of `K`, for bindings to classes with terms that have `Q`, the condition does not lead out of
`K`, and if it answers true, then `P` holds for the terms of the bound classes. -/
def Condition.Within (N : Analysis Op D) (allow : Caller Op D) (K : Term Op → Term Op → Prop) (Q : (Var → Term Op) → Prop) (cond : Condition Op D)
    (P : (Var → Term Op) → Prop) : Prop :=
  ∀ U eg c s eg' b τ₀, Hist N allow U eg → (∀ s t, Equal eg s t → K s t) → Valid eg c → BindsIds eg s → (∀ v ∈ cond.vars, s.get v ≠ none) →
    Assigns eg s τ₀ → Q τ₀ → cond.check N eg c s = .ok (eg', b) →
    (∀ s t, Equal eg' s t → K s t) ∧ (b = true → ∀ τ, Assigns eg' s τ → P τ)

/-- The instance of `tl` exists. -/
def Exists (K : Term Op → Term Op → Prop) (tl : Term (PatOp Op)) (τ : Var → Term Op) : Prop := ∃ u, Inst τ tl u ∧ K u u

/-- The conditions ensure the guards, each of them where `Q` and the guards before it hold (conditions are checked one after the other, until one says no). -/
inductive Ensured (N : Analysis Op D) (allow : Caller Op D) (K : Term Op → Term Op → Prop) :
    ((Var → Term Op) → Prop) → List (Condition Op D) → List ((Var → Term Op) → Prop) → Prop
  | nil {Q} : Ensured N allow K Q [] []
  | cons {Q k P ks Ps} : k.Within N allow K Q P → Ensured N allow K (fun τ => Q τ ∧ P τ) ks Ps → Ensured N allow K Q (k :: ks) (P :: Ps)

/-- The rewrite `rw` is made by `Rewrite::new` from the two patterns and from conditions that ensure the guards (and neither pattern has
nodes that are not part of the term it denotes). -/
def IsGuardedClause (N : Analysis Op D) (allow : Caller Op D) (K : Term Op → Term Op → Prop) (rw : Rewrite Op D)
    (c : GuardedClause Op) : Prop :=
  ∃ (lp rp : Pattern Op) (conds : List (Condition Op D)),
    IsPattern lp c.lhs ∧ (∀ k, k < lp.ast.length → Live lp.ast k) ∧ (∀ v ∈ lp.vars, Occurs v c.lhs) ∧
    IsPattern rp c.rhs ∧ (∀ k, k < rp.ast.length → Live rp.ast k) ∧
    (∀ k ∈ conds, k.Adds N) ∧ Ensured N allow K (Exists K c.lhs) conds c.guards ∧
    Rewrite.new rw.name lp.searcher (condApplier rp.applier conds) = .ok rw

/-- The rewrite `rw` holds in `K`: it is a rule of two patterns with or without conditions, or a multi-pattern rule, under which `K` is closed. -/
def HoldsIn (N : Analysis Op D) (allow : Caller Op D) (K : Term Op → Term Op → Prop) (rw : Rewrite Op D) : Prop :=
  (∃ c, IsGuardedClause N allow K rw c ∧ c.Closes K) ∨ ∃ c : Clause Op, IsTightClause rw c ∧ ∀ s t, c.Derives K s t → K s t

end Egg
