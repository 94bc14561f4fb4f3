import Verif.Model.Run
import Verif.Spec.Rewrite
import Verif.Spec.History
/-
Specification vocabulary for runs of rewrite rules.
-/
namespace Egg
variable {Op D S H : Type} [DecidableEq Op] [Lang Op]

/-- The rewrite `rw` is `tl => t`: made by `Rewrite::new` from a pattern denoting `tl`, all of
whose listed variables occur in it, and a pattern denoting `t`. -/
def PatternRule (rw : Rewrite Op D) (tl t : Term (PatOp Op)) : Prop :=
  ∃ (lp rp : Pattern Op), IsPattern lp tl ∧ (∀ v ∈ lp.vars, Occurs v tl) ∧ IsPattern rp t ∧
    Rewrite.new rw.name lp.searcher rp.applier = .ok rw

/-- The condition does nothing to the e-graph except adding e-nodes. -/
def OnlyAdds (N : Analysis Op D) (cond : Condition Op D) : Prop :=
  ∀ eg c s eg' b, cond.check N eg c s = .ok (eg', b) → AddSteps N eg eg'

/-- The rewrite `rw` is `tl => t if cond`. -/
def ConditionalRule (N : Analysis Op D) (rw : Rewrite Op D) (tl t : Term (PatOp Op)) : Prop :=
  ∃ (lp rp : Pattern Op) (cond : Condition Op D), IsPattern lp tl ∧ (∀ v ∈ lp.vars, Occurs v tl) ∧ IsPattern rp t ∧
    OnlyAdds N cond ∧ Rewrite.new rw.name lp.searcher (Applier.conditional cond rp.applier) = .ok rw

/-- `Part ms' ms`: every match of `ms'` is one of `ms`, possibly without some of its
substitutions. -/
def Part (ms' ms : List (SearchMatches Op)) : Prop :=
  ∀ m' ∈ ms', ∃ m ∈ ms, m'.eclass = m.eclass ∧ m'.ast = m.ast ∧ ∀ s ∈ m'.substs, s ∈ m.substs

/-- There are no matches `ms`, or they are among those that a search of `rw`, with some limit, returns. -/
def Found (env : RunEnv Op D) (iteration : Nat) (eg : EGraph Op D) (rw : Rewrite Op D) (ms : List (SearchMatches Op)) : Prop :=
  ms = [] ∨ ∃ limit ms0, rw.searcher.search env.analysis eg (env.ord iteration eg) limit = .ok ms0 ∧ Part ms ms0

/-- What is required of a scheduler, however it chooses: the matches it returns come from
searches of the rules, and what it applies are some of the matches it is given. -/
structure Scheduler.Honest (env : RunEnv Op D) (sch : Scheduler Op D S) : Prop where
  search : ∀ lim s tick i eg rules s' tick' mss, sch.searchRewrites env lim s tick i eg rules = .ok (s', tick', .ok mss) →
    ∀ rw ms, (rw, ms) ∈ rules.zip mss → Found env i eg rw ms
  apply : ∀ s i eg rw ms s' eg' n, sch.applyRewrite env s i eg rw ms = .ok (s', eg', n) →
    ∃ ms' ids, rw.applier.applyMatches env.analysis eg ms' rw.name = .ok (eg', ids) ∧ Part ms' ms

/-- What is required of hooks: they change the e-graph only by API calls, which unite only
terms related by `Q`, and leave it rebuilt (as the documentation of `with_hook` asks). -/
def HooksOK (N : Analysis Op D) (allow : Caller Op D) (Q : Term Op → Term Op → Prop)
    (hooks : List (Hook Op D H)) : Prop :=
  ∀ k ∈ hooks, ∀ h eg its h' eg' o, eg.clean = true → k h eg its = .ok (h', eg', o) →
    eg'.clean = true ∧ ∃ V, Steps N allow eg V eg' ∧ ∀ u ∈ V, Q u.s u.t

omit [DecidableEq Op] [Lang Op] in
/-- `s` and `w` are the two sides of an instance of one of the rules. -/
def RuleInstance (rs : List (Term (PatOp Op) × Term (PatOp Op))) (s w : Term Op) : Prop :=
  ∃ tl t, (tl, t) ∈ rs ∧ ∃ τ : Var → Term Op, Inst τ tl s ∧ Inst τ t w

/-- If the scheduler gives up during the search, it is because a limit is exceeded. -/
def Scheduler.Limited (env : RunEnv Op D) (sch : Scheduler Op D S) : Prop :=
  ∀ lim s tick i eg rules s' tick' reason, sch.searchRewrites env lim s tick i eg rules = .ok (s', tick', .error reason) →
    ∃ k, lim.check env k i eg = some reason

/-- What a stop reason says, for the result `r'` of a run, whose last iteration was `last`.
`Saturated`: nothing was applied in it and the size of the e-graph did not change (see
C26 for what follows).  `IterationLimit n`: at least `n` iterations are recorded, and `n` is at
least the limit.  `NodeLimit n`: the e-graph, or the e-graph just before the final rebuild,
has size `n`, which is more than the limit.  `TimeLimit t`: some reading of the clock gave `t`,
more than the limit.  `Other msg`: a hook returned the error `msg`. -/
def StopJustified (env : RunEnv Op D) (hooks : List (Hook Op D H)) (lim : RunnerLimits) (r' : Runner Op D S H) (last : Iteration) :
    StopReason → Prop
  | .saturated => last.applied = [] ∧ last.egraphNodes = r'.egraph.totalSize ∧ last.egraphClasses = r'.egraph.numberOfClasses
  | .iterationLimit n => lim.iterLimit ≤ n ∧ n ≤ r'.iterations.length
  | .nodeLimit n => lim.nodeLimit < n ∧
      (r'.egraph.totalSize = n ∨ ∃ (eg : EGraph Op D) (k : Nat), eg.totalSize = n ∧ eg.rebuild env.analysis env.fuel = .ok (r'.egraph, k))
  | .timeLimit t => lim.timeLimit < t ∧ ∃ k, env.elapsed k = t
  | .other msg => ∃ hook ∈ hooks, ∃ h eg its h' eg', hook h eg its = .ok (h', eg', some msg)

/-- A scheduler that lets a run end as saturated only after an iteration in which it searched
every rule completely: with `usize::MAX` as limit, or with a limit that was not reached.  And it
applies all matches.  `I i s` is an invariant of its state `s` before the search of iteration `i`. -/
structure Scheduler.Thorough (env : RunEnv Op D) (lim : RunnerLimits) (sch : Scheduler Op D S) (I : Nat → S → Prop) : Prop where
  search : ∀ s tick i eg rules s' tick' res, I i s → i < lim.iterLimit →
    sch.searchRewrites env lim s tick i eg rules = .ok (s', tick', res) → I (i + 1) s' ∧
    ∀ mss, res = .ok mss → ∀ s'', sch.canStop s' i = .ok (s'', true) →
      List.Forall₂ (fun rw ms => ∃ limit, rw.searcher.search env.analysis eg (env.ord i eg) limit = .ok ms ∧
        (limit = env.usizeMax ∨ (flat ms).length < limit)) rules mss
  apply : ∀ s i eg rw ms s' eg' n, sch.applyRewrite env s i eg rw ms = .ok (s', eg', n) →
    s' = s ∧ ∃ ids, rw.applier.applyMatches env.analysis eg ms rw.name = .ok (eg', ids)
  stop : ∀ s i s' b, I (i + 1) s → sch.canStop s i = .ok (s', b) → I (i + 1) s'

/-- Every rewrite is one of the equations `eqs`, without a condition. -/
def ArePatternRules (rules : List (Rewrite Op D)) (eqs : List (Term (PatOp Op) × Term (PatOp Op))) : Prop :=
  ∀ rw' ∈ rules, ∃ tl t, (tl, t) ∈ eqs ∧ PatternRule rw' tl t

/-- `eg` is closed under the rewrite rule `tl => t`: wherever the left side matches, the right
side does, under the same assignment and in the same class. -/
def ClosedUnder (eg : EGraph Op D) (tl t : Term (PatOp Op)) : Prop := ∀ σ c, PMatch eg σ c tl → PMatch eg σ c t

/-- The searcher finds fewer than `usize::MAX` matches in `eg` (always true on a real machine). -/
def Fits (env : RunEnv Op D) (eg : EGraph Op D) (rw' : Rewrite Op D) : Prop :=
  ∃ ord ms, IterOrd.OK ord eg ∧ rw'.searcher.search env.analysis eg ord env.usizeMax = .ok ms ∧ (flat ms).length < env.usizeMax

end Egg
