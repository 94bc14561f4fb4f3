import Verif.Spec.Run
/-
Specification vocabulary for the conditions of a rewrite rule.
-/
namespace Egg
variable {Op D : Type} [DecidableEq Op] [Lang Op]

/-- Checking conditions one after the other, each in the e-graph the previous one left, up to the first
that answers false. -/
inductive CheckAll (N : Analysis Op D) : List (Condition Op D) → EGraph Op D → Id → Subst → EGraph Op D → Bool → Prop where
  | nil {g c s} : CheckAll N [] g c s g true
  | stop {k ks g c s g1} : k.check N g c s = .ok (g1, false) → CheckAll N (k :: ks) g c s g1 false
  | next {k ks g c s g1 g2 b} : k.check N g c s = .ok (g1, true) → CheckAll N ks g1 c s g2 b → CheckAll N (k :: ks) g c s g2 b

/-- The variable is used on the right-hand side `t` or by one of the conditions. -/
def Uses (t : Term (PatOp Op)) (conds : List (Condition Op D)) (v : Var) : Prop := Occurs v t ∨ ∃ k ∈ conds, v ∈ k.vars

/-- The rewrite `rw` is `tl => t if k₁ if k₂ ..`: it searches a pattern denoting `tl`, and what it does with matches is
what a pattern denoting `t` does, for those matches for which all conditions hold at that moment. -/
def GuardedRule (rw : Rewrite Op D) (tl t : Term (PatOp Op)) (conds : List (Condition Op D)) : Prop :=
  ∃ (lp rp : Pattern Op), IsPattern lp tl ∧ IsPattern rp t ∧ rw.searcher = lp.searcher ∧
    ∀ N eg ms eg' ids, rw.applier.applyMatches N eg ms rw.name = .ok (eg', ids) →
      Guarded (CheckAll N conds) (fun g c s g' ids => ∃ ast, rp.applyOne N g c s ast rw.name = .ok (g', ids) ∧
        ∀ l, ast = some l → ∃ m ∈ ms, m.ast = some l ∧ m.eclass = c ∧ s ∈ m.substs) eg (flat ms) ids eg'

omit [DecidableEq Op] [Lang Op] in
/-- The clauses `rs` of a right-hand side need the variable `v` from the left: a pattern uses it, and no earlier clause
binds it. -/
def Needs (rs : List (Var × Term (PatOp Op))) (v : Var) : Prop :=
  ∃ pre w q post, rs = pre ++ (w, q) :: post ∧ Occurs v q ∧ ∀ x ∈ pre, x.1 ≠ v

end Egg
