import Verif.Spec.MultiRule
/-
Specification vocabulary for C94: runs that cannot panic and that end.
-/
namespace Egg
variable {Op D S H : Type} [DecidableEq Op] [Lang Op]

/-- The errors considered harmless: with `OnlyFuel` a computation may run on, but not panic; with `NoError` it has
to return. -/
def OnlyFuel : Err → Prop := fun e => e = .fuel
@[inherit_doc OnlyFuel] def NoError : Err → Prop := fun _ => False

/-- The condition, asked in any reachable e-graph about a valid class and bindings to valid ids of (at least) the
variables it says it uses, ends in no error outside `E`. -/
def Condition.ErrorsIn (E : Err → Prop) (N : Analysis Op D) (allow : Caller Op D) (cond : Condition Op D) : Prop :=
  ∀ U eg c s e, Hist N allow U eg → Valid eg c → (∀ v x, s.get v = some x → Valid eg x) →
    (∀ v ∈ cond.vars, s.get v ≠ none) → cond.check N eg c s = .error e → E e

/-- The rewrite is made by `Rewrite::new` from patterns (`l => r`), from patterns and a condition with errors in `E`
(`l => r if cond`), or from multi-patterns. -/
def RuleErrorsIn (E : Err → Prop) (N : Analysis Op D) (allow : Caller Op D) (rw : Rewrite Op D) : Prop :=
  (∃ tl t, PatternRule rw tl t) ∨
  (∃ (lp rp : Pattern Op) (cond : Condition Op D) (tl t : Term (PatOp Op)), IsPattern lp tl ∧ (∀ v ∈ lp.vars, Occurs v tl) ∧
    IsPattern rp t ∧ OnlyAdds N cond ∧ cond.ErrorsIn E N allow ∧
    Rewrite.new rw.name lp.searcher (Applier.conditional cond rp.applier) = .ok rw) ∨
  ∃ ls rs, MultiRule rw ls rs

/-- The hooks, called on any reachable rebuilt e-graph, end in no error outside `E` (their answer `Err(msg)` is not an
error in this sense). -/
def HooksErrorsIn (E : Err → Prop) (N : Analysis Op D) (allow : Caller Op D) (hooks : List (Hook Op D H)) : Prop :=
  ∀ k ∈ hooks, ∀ U h eg its e, Hist N allow U eg → eg.clean = true → k h eg its = .error e → E e

/-- A scheduler that adds no errors of its own, in runs of at most `lim.iterLimit` iterations: its search returns if
the searches of the rules return, whatever the limit; it applies some of the matches it is given, once; and
`can_stop` returns.  `I i s` is an invariant of its state `s` before iteration `i`. -/
structure Scheduler.AddsNoError (env : RunEnv Op D) (lim : RunnerLimits) (sch : Scheduler Op D S) (I : Nat → S → Prop) : Prop where
  search : ∀ s tick i eg rules, I i s → i < lim.iterLimit →
    (∀ rw' ∈ rules, ∀ limit, ∃ ms, rw'.searcher.search env.analysis eg (env.ord i eg) limit = .ok ms) →
    ∃ s' tick' res, sch.searchRewrites env lim s tick i eg rules = .ok (s', tick', res) ∧ I (i + 1) s'
  apply : ∀ s j i eg rw' ms, I j s → ∃ ms', Part ms' ms ∧
    (∀ e, rw'.applier.applyMatches env.analysis eg ms' rw'.name = .error e → sch.applyRewrite env s i eg rw' ms = .error e) ∧
    ∀ eg' ids, rw'.applier.applyMatches env.analysis eg ms' rw'.name = .ok (eg', ids) →
      ∃ s' n, sch.applyRewrite env s i eg rw' ms = .ok (s', eg', n) ∧ I j s'
  stop : ∀ s j i, I j s → ∃ s' b, sch.canStop s i = .ok (s', b) ∧ I j s'

/-- The scheduler does not depend on the number of rounds granted to `rebuild` (which is not part of the program). -/
def Scheduler.IgnoresFuel (sch : Scheduler Op D S) : Prop :=
  ∀ (env : RunEnv Op D) fuel, sch.searchRewrites { env with fuel := fuel } = sch.searchRewrites env ∧
    sch.applyRewrite { env with fuel := fuel } = sch.applyRewrite env

/-- The ban lengths of the back-off scheduler are positive and so small that, banned in each of `n` iterations, no
rule's ban overflows a `usize` of `bits` bits; no rule has yet been banned more than `i` times. -/
def Backoff.Moderate (bits n i : Nat) (b : Backoff) : Prop :=
  n ≤ bits ∧ (b.stats.map Prod.fst).Nodup ∧ ∀ name, (b.ruleStats name).timesBanned ≤ i ∧ 1 ≤ (b.ruleStats name).banLength ∧
    n + (b.ruleStats name).banLength * 2 ^ n ≤ 2 ^ bits

end Egg
