import Verif.Spec.Eager
/-
Specification vocabulary: how often a scheduler passes over a rule.
-/
namespace Egg
variable {Op D S H : Type} [DecidableEq Op] [Lang Op]

/-- In the iteration that starts with the runner `r` the rule has at most `n` matches: a search without a limit returns no more. -/
def Runner.AtMost (env : RunEnv Op D) (r : Runner Op D S H) (rw : Rewrite Op D) (n : Nat) : Prop :=
  ∀ ms, rw.searcher.search env.analysis r.egraph (env.ord r.iterations.length r.egraph) env.usizeMax = .ok ms → (flat ms).length ≤ n

/-- Iteration `k` of the run of `r` (counted from 0), which is not the last one, passes over the rule `tl => t`: at its start some
class has an instance of the left side, and at its end this class does not have the corresponding instance of the right side. -/
def Runner.PassesOver (env : RunEnv Op D) (sch : Scheduler Op D S) (hooks : List (Hook Op D H)) (rules : List (Rewrite Op D))
    (r : Runner Op D S H) (tl t : Term (PatOp Op)) (k : Nat) : Prop :=
  ∃ rk rk1, Runner.after env sch hooks rules k r = some rk ∧ Runner.after env sch hooks rules (k + 1) r = some rk1 ∧
    ∃ (τ : Var → Term Op) (s w : Term Op) (c : Id), Inst τ tl s ∧ Inst τ t w ∧ Rep rk.egraph c s ∧ ¬ Rep rk1.egraph c w

/-- A back-off scheduler as it was configured, before it is used: the rule has match limit `m` and ban length `len`
(see C28 for how the calls of the builder set them). -/
def Backoff.Fresh (b : Backoff) (name : Symbol) (m len : Nat) : Prop := b.ruleStats name = ⟨0, 0, 0, m, len⟩

/-- A match limit `m`, doubled `d` times, is at least `n` and can be represented. -/
def Covers (bits m d n : Nat) : Prop := n ≤ m * 2 ^ d ∧ m * 2 ^ d < 2 ^ bits

end Egg
