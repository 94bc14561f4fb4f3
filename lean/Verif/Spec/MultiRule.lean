import Verif.Spec.Run
/-
Specification vocabulary for rules between multi-patterns, and for rules in general.
-/
namespace Egg
variable {Op D : Type} [DecidableEq Op] [Lang Op]

omit [DecidableEq Op] [Lang Op] in
/-- `Concludes R bound τ rs`: the right-hand sides `w = q` in `rs` hold in `R` under the assignment `τ`, which
gives meaning to the variables in `bound`.  A binder `w` that has a meaning must be related to the instance of
`q`; a binder that has none gets that instance as its meaning from there on. -/
def Concludes (R : Term Op → Term Op → Prop) (bound : Var → Prop) (τ : Var → Term Op) :
    List (Var × Term (PatOp Op)) → Prop
  | [] => True
  | (w, q) :: rest => ∀ u, Inst τ q u →
      (bound w → R u (τ w) ∧ Concludes R bound τ rest) ∧
      (¬ bound w → Concludes R (fun v => bound v ∨ v = w) (fun v => if v = w then u else τ v) rest)

omit [DecidableEq Op] [Lang Op] in
/-- `R` is closed under the rule `v₁ = p₁, …, vₙ = pₙ => w₁ = q₁, …, wₘ = qₘ`: whenever the left-hand sides hold in
`R` under an assignment of terms to variables, so do the right-hand sides. -/
def HornClosed (R : Term Op → Term Op → Prop) (ls rs : List (Var × Term (PatOp Op))) : Prop :=
  ∀ τ : Var → Term Op, (∀ v p, (v, p) ∈ ls → ∀ u, Inst τ p u → R (τ v) u) → Concludes R (fun v => MultiOccurs v ls) τ rs

/-- The rewrite `rw` is the multi-pattern rule `ls => rs`, made by `Rewrite::new` from multi-patterns; every variable
listed on the left occurs there, and the first pattern on the left is not a variable. -/
def MultiRule (rw : Rewrite Op D) (ls rs : List (Var × Term (PatOp Op))) : Prop :=
  ∃ (lp rp : MultiPattern Op), IsMultiPattern lp ls ∧ FirstIsNode ls ∧ (∀ v ∈ lp.searchVars, MultiOccurs v ls) ∧
    IsMultiPattern rp rs ∧ Rewrite.new rw.name lp.searcher rp.applier = .ok rw

/-- The rewrite `rw`, of whatever kind, is sound for `R`: applying matches found in an e-graph whose unions are
correct in `R`, in that e-graph or one reached from it by API calls with correct unions, amounts to API calls
whose unions are correct in `R`. -/
def SoundRule (env : RunEnv Op D) (N : Analysis Op D) (allow : Caller Op D) (R : Term Op → Term Op → Prop)
    (rw : Rewrite Op D) : Prop :=
  ∀ U egS i ms V eg ms' eg' ids,
    Hist N allow U egS → (∀ u ∈ U, R u.s u.t) → egS.clean = true → Found env i egS rw ms →
    Steps N allow egS V eg → (∀ u ∈ V, R u.s u.t) → Part ms' ms →
    rw.applier.applyMatches N eg ms' rw.name = .ok (eg', ids) →
    ∃ W, Steps N allow eg W eg' ∧ ∀ u ∈ W, R u.s u.t

/-- The multi-pattern `rs` is present in `eg` for the bindings `s`: some extension of `s` (up to equality of
classes) binds every binder to a class that contains the instance of its pattern. -/
def MultiHolds (eg : EGraph Op D) (s : Subst) (rs : List (Var × Term (PatOp Op))) : Prop :=
  ∃ σ : Var → Option Id, (∀ v x, s.get v = some x → ∃ y, σ v = some y ∧ SameClass eg x y) ∧
    ∀ w q, (w, q) ∈ rs → ∃ x, σ w = some x ∧ PMatch eg σ x q

end Egg
