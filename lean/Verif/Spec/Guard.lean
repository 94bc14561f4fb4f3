import Verif.Spec.MultiRule
import Verif.Spec.Describe
/-
Specification vocabulary: rules that are correct only because of their condition, and appliers written by the user.
-/
namespace Egg
variable {Op D : Type} [DecidableEq Op] [Lang Op]

/-- An e-graph reached by API calls all of whose unions are correct in `R`. -/
def SoundState (N : Analysis Op D) (allow : Caller Op D) (R : Term Op → Term Op → Prop) (eg : EGraph Op D) : Prop :=
  ∃ U, Hist N allow U eg ∧ ∀ u ∈ U, R u.s u.t

/-- API calls from `eg` to `eg'` all of whose unions are correct in `R`. -/
def SoundSteps (N : Analysis Op D) (allow : Caller Op D) (R : Term Op → Term Op → Prop) (eg eg' : EGraph Op D) : Prop :=
  ∃ W, Steps N allow eg W eg' ∧ ∀ u ∈ W, R u.s u.t

/-- In all such e-graphs, terms of one class are related. -/
def SoundlyMerging (N : Analysis Op D) (allow : Caller Op D) (R : Term Op → Term Op → Prop) : Prop :=
  ∀ eg, SoundState N allow R eg → ∀ a b s t, SameClass eg a b → Rep eg a s → Rep eg b t → R s t

/-- `τ` gives every bound variable a term of the class it is bound to. -/
def Assigns (eg : EGraph Op D) (s : Subst) (τ : Var → Term Op) : Prop := ∀ v x, s.get v = some x → Rep eg x (τ v)

/-- The substitution binds variables to ids of `eg`. -/
def BindsIds (eg : EGraph Op D) (s : Subst) : Prop := ∀ v x, s.get v = some x → Valid eg x

/-- The condition `cond` implies `P`: checking it, in an e-graph whose unions are correct, adds at most terms, and if
it answers true, then `P` holds of the terms of the bound classes. -/
def Condition.Implies (N : Analysis Op D) (allow : Caller Op D) (R : Term Op → Term Op → Prop) (cond : Condition Op D)
    (P : (Var → Term Op) → Prop) : Prop :=
  ∀ eg c s eg' b, SoundState N allow R eg → BindsIds eg s → (∀ v ∈ cond.vars, s.get v ≠ none) →
    cond.check N eg c s = .ok (eg', b) → AddSteps N eg eg' ∧ (b = true → ∀ τ, Assigns eg' s τ → P τ)

/-- `P` depends on the meaning of the terms only. -/
def Respects (R : Term Op → Term Op → Prop) (P : (Var → Term Op) → Prop) : Prop :=
  ∀ τ τ' : Var → Term Op, (∀ v, R (τ v) (τ' v)) → P τ → P τ'

/-- `apply_one` of the applier is correct on the matches of `tl` (searched for as the pattern `lp`) for whose terms `P` holds:
from an e-graph whose unions are correct it makes correct unions only (and does not turn explanations off). -/
def Applier.SoundOn (N : Analysis Op D) (allow : Caller Op D) (R : Term Op → Term Op → Prop) (lp : Pattern Op) (tl : Term (PatOp Op))
    (P : (Var → Term Op) → Prop) (ap : Applier Op D) : Prop :=
  ∀ eg c s ast rule eg' ids, SoundState N allow R eg → PMatch eg s.get c tl → BindsIds eg s → (∀ v ∈ lp.vars, s.get v ≠ none) →
    (ast = some lp.ast ∧ eg.explain.isSome = true ∨ ast = none) → (∀ τ, Assigns eg s τ → P τ) →
    ap.applyOne N eg c s ast rule = .ok (eg', ids) →
    SoundSteps N allow R eg eg' ∧ (eg.explain.isSome = true → eg'.explain.isSome = true)

/-- The applier does not override `apply_matches`. -/
def Applier.UsesDefault (ap : Applier Op D) : Prop :=
  ∀ N eg ms rule, ap.applyMatches N eg ms rule = defaultApplyMatches (fun eg c s ast rule => ap.applyOne N eg c s ast rule) rule eg ms []

end Egg
