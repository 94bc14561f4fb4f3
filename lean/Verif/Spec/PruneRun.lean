import Verif.Spec.Prune
import Verif.Spec.Run
/-
Specification vocabulary: runs of rewrite rules on e-graphs from which e-nodes are dropped.
-/
namespace Egg
variable {Op D H : Type} [DecidableEq Op] [Lang Op]

/-- A number of calls, pruning included; the unions, latest first. -/
inductive PruneSteps (K : Op → Nat → Prop) (N : Analysis Op D) (allow : Caller Op D) :
    EGraph Op D → List (UnionRec Op) → EGraph Op D → Prop where
  | refl {eg} : PruneSteps K N allow eg [] eg
  | tail {eg V W eg' eg''} : PruneSteps K N allow eg V eg' → PruneStep K N allow eg' W eg'' → PruneSteps K N allow eg (W ++ V) eg''

/-- `eg` is the state after a history with the unions `U`, except that e-nodes are missing from its classes, none of
which satisfies `K`; `M` is the analysis without pruning. -/
def Pruned (K : Op → Nat → Prop) (M : Analysis Op D) (allow : Caller Op D) (U : List (UnionRec Op)) (eg : EGraph Op D) : Prop :=
  ∃ full, Hist M allow U full ∧ Thinner eg full ∧ Kept K eg full

/-- A condition that does not look at the e-nodes of classes: it compares two patterns (`ConditionEqual`), or it is a
function of the e-graph that does not change it. -/
def Condition.Blind (cond : Condition Op D) : Prop :=
  (∃ p1 p2 : Pattern Op, (cond : Condition Op D) = Condition.equal p1 p2) ∨
  ∃ f : EGraph Op D → Id → Subst → Res Bool, (∀ eg full c s, Thinner eg full → f eg c s = f full c s) ∧
    ∀ N eg c s, cond.check N eg c s = (do return (eg, ← f eg c s))

/-- The rewrite `rw` is `tl => t`, or `tl => t if cond` with a condition that does not look at the e-nodes of classes. -/
def BlindRule (rw : Rewrite Op D) (tl t : Term (PatOp Op)) : Prop :=
  PatternRule rw tl t ∨
  ∃ (lp rp : Pattern Op) (cond : Condition Op D), IsPattern lp tl ∧ (∀ v ∈ lp.vars, Occurs v tl) ∧ IsPattern rp t ∧
    cond.Blind ∧ Rewrite.new rw.name lp.searcher (Applier.conditional cond rp.applier) = .ok rw

/-- Every rewrite is one of the equations `eqs`. -/
def AreBlindRules (rules : List (Rewrite Op D)) (eqs : List (Term (PatOp Op) × Term (PatOp Op))) : Prop :=
  ∀ rw' ∈ rules, ∃ tl t, (tl, t) ∈ eqs ∧ BlindRule rw' tl t

/-- What is required of hooks, cf. `HooksOK`; they may prune. -/
def PruneHooksOK (K : Op → Nat → Prop) (N : Analysis Op D) (allow : Caller Op D) (Q : Term Op → Term Op → Prop)
    (hooks : List (Hook Op D H)) : Prop :=
  ∀ k ∈ hooks, ∀ h eg its h' eg' o, eg.clean = true → k h eg its = .ok (h', eg', o) →
    eg'.clean = true ∧ ∃ V, PruneSteps K N allow eg V eg' ∧ ∀ u ∈ V, Q u.s u.t

end Egg
