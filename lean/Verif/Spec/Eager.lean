import Verif.Spec.Below
/-
Specification vocabulary for comparing runs iteration by iteration.
-/
namespace Egg
variable {Op D S H : Type} [DecidableEq Op] [Lang Op]

/-- A scheduler that in each iteration searches all rules without a limit, applies all matches and
never objects to stopping. -/
structure Scheduler.Eager (env : RunEnv Op D) (sch : Scheduler Op D S) : Prop where
  search : ∀ lim s tick i eg rules s' tick' mss, sch.searchRewrites env lim s tick i eg rules = .ok (s', tick', .ok mss) →
    List.Forall₂ (fun rw ms => rw.searcher.search env.analysis eg (env.ord i eg) env.usizeMax = .ok ms) rules mss
  apply : ∀ s i eg rw ms s' eg' n, sch.applyRewrite env s i eg rw ms = .ok (s', eg', n) →
    s' = s ∧ ∃ ids, rw.applier.applyMatches env.analysis eg ms rw.name = .ok (eg', ids) ∧ n = ids.length
  stop : ∀ s i s' b, sch.canStop s i = .ok (s', b) → b = true

/-- The runner after `k` more iterations, unless the run ends before or panics. -/
def Runner.after (env : RunEnv Op D) (sch : Scheduler Op D S) (hooks : List (Hook Op D H)) (rules : List (Rewrite Op D)) :
    Nat → Runner Op D S H → Option (Runner Op D S H)
  | 0, r => some r
  | k + 1, r =>
    match Runner.runOne env sch hooks rules r with
    | .error _ => none
    | .ok (r, it) =>
      let r := { r with iterations := r.iterations ++ [it] }
      if it.stopReason.isSome || (r.check env).isSome then none
      else Runner.after env sch hooks rules k { r with tick := r.tick + 1 }

/-- At the start of each iteration of the run of `r`, whose first rebuild yields `eg`, the search of each rule finds fewer than
`usize::MAX` matches (always true on a real machine). -/
def Runner.AlwaysFits (env : RunEnv Op D) (sch : Scheduler Op D S) (hooks : List (Hook Op D H)) (rules : List (Rewrite Op D))
    (r : Runner Op D S H) : Prop :=
  ∀ eg n k rk, r.egraph.rebuild env.analysis env.fuel = .ok (eg, n) →
    Runner.after env sch hooks rules k { r with egraph := eg } = some rk → ∀ rw ∈ rules, Fits env rk.egraph rw

end Egg
