import Verif.Model.Word
import Verif.Spec.History
/-
Histories of calls when ids are words.
-/
namespace Egg
variable {Op D : Type} [DecidableEq Op] [Lang Op]

/-- One successful call, as in `Step`, but a new id is the number of ids modulo `W`. -/
inductive StepW (W : Nat) (N : Analysis Op D) (allow : Caller Op D) :
    EGraph Op D → List (UnionRec Op) → EGraph Op D → Prop where
  | explain {eg eg'} : eg.withExplanationsEnabled = .ok eg' → StepW W N allow eg [] eg'
  | noOptimize {eg eg'} : eg.withoutExplanationLengthOptimization = .ok eg' → StepW W N allow eg [] eg'
  | optimize {eg eg'} : eg.withExplanationLengthOptimization = .ok eg' → StepW W N allow eg [] eg'
  | query {eg eg' ch fuel a b p} : (∀ x, eg.explain = some x → x.optimize = true → allow.optimized) →
      eg.explainIdEquivalence ch fuel a b = .ok (p, eg') → StepW W N allow eg [] eg'
  | add {eg eg' n i} : EGraph.addUncanonicalW W N eg n = .ok (eg', i) → StepW W N allow eg [] eg'
  | union {eg eg' a b caller r s t} : Rep eg a s → Rep eg b t →
      EGraph.union N eg a b caller = .ok (eg', r) → StepW W N allow eg [⟨caller, a, b, s, t⟩] eg'
  | unionTrusted {eg eg' a b reason r s t} : Rep eg a s → Rep eg b t →
      EGraph.unionTrusted N eg a b reason = .ok (eg', r) → StepW W N allow eg [⟨reason, a, b, s, t⟩] eg'
  | setData {eg eg' i d} : allow eg i d → EGraph.setAnalysisData N eg i d = .ok eg' → StepW W N allow eg [] eg'
  | rebuild {eg eg' fuel n} : EGraph.rebuild N fuel eg = .ok (eg', n) → StepW W N allow eg [] eg'
  | restore {eg} : StepW W N allow eg [] eg.restored
  | disable {eg} : allow.disables → StepW W N allow eg [] eg.withExplanationsDisabled

/-- Any sequence of successful calls, when ids are words. -/
inductive StepsW (W : Nat) (N : Analysis Op D) (allow : Caller Op D) :
    EGraph Op D → List (UnionRec Op) → EGraph Op D → Prop where
  | refl {eg} : StepsW W N allow eg [] eg
  | tail {eg eg' eg'' U V} : StepsW W N allow eg U eg' → StepW W N allow eg' V eg'' → StepsW W N allow eg (V ++ U) eg''

/-- The program that adds the leaves given, one after the other. -/
def Session.leaves : List Op → Session Op D
  | [] => .done
  | o :: os => .add ⟨o, []⟩ fun _ => Session.leaves os

end Egg
