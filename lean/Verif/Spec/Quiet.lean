import Verif.Spec.Guard
/-
Specification vocabulary: e-graphs between which nothing happened.
-/
namespace Egg
variable {Op D : Type} [DecidableEq Op] [Lang Op]

/-- Nothing that can be seen with `find`, and no term, is new or lost in `eg'`: ids have the same canonical ids; the canonical ids
are those of `eg`; and the classes have the same terms. -/
structure Unchanged (eg eg' : EGraph Op D) : Prop where
  find : ∀ i r, eg.find i = .ok r → eg'.find i = .ok r
  canonical : ∀ i r, eg'.find i = .ok r → eg.find r = .ok r
  rep : ∀ i t, Valid eg i → (Rep eg i t ↔ Rep eg' i t)

/-- `(c', s)` is the match `(c, σ)` of the pattern `tl`, written with canonical ids. -/
def CanonicalMatch (eg : EGraph Op D) (tl : Term (PatOp Op)) (σ : Var → Option Id) (c : Id) (s : Subst) (c' : Id) : Prop :=
  eg.find c = .ok c' ∧ (∀ v, Occurs v tl → ∃ x y, σ v = some x ∧ eg.find x = .ok y ∧ s.get v = some y) ∧
  ∀ v, s.get v ≠ none → Occurs v tl

/-- The state `eg` is one that API calls lead to. -/
def Reachable (N : Analysis Op D) (allow : Caller Op D) (eg : EGraph Op D) : Prop := ∃ U, Hist N allow U eg

/-- Nothing happens between `eg` and `eg'`: API calls lead from `eg` to `eg'`, and on the way the e-graph is never different. -/
def Quiescent (N : Analysis Op D) (allow : Caller Op D) (eg eg' : EGraph Op D) : Prop :=
  (∃ W, Steps N allow eg W eg') ∧ ∀ V g W, Steps N allow eg V g → Steps N allow g W eg' → Unchanged g eg'

/-- Checking the condition adds at most terms. -/
def Condition.OnlyAdds (N : Analysis Op D) (allow : Caller Op D) (cond : Condition Op D) : Prop :=
  cond.Implies N allow (fun _ _ => True) (fun _ => True)

/-- The rule, of whatever kind, changes e-graphs by API calls only, when it is applied to matches it found. -/
def UsesApi (env : RunEnv Op D) (N : Analysis Op D) (allow : Caller Op D) (rw : Rewrite Op D) : Prop :=
  SoundRule env N allow (fun _ _ => True) rw

end Egg
