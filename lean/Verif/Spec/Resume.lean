import Verif.Model.Run
/-
Specification vocabulary: a run that goes on where another one stopped.
-/
namespace Egg
variable {Op D S H : Type} [DecidableEq Op] [Lang Op]

/-- The reason as it reads if `n` iterations came before: only the number of iterations differs. -/
def StopReason.later (n : Nat) : StopReason → StopReason
  | .iterationLimit k => .iterationLimit (n + k)
  | s => s

/-- The record of an iteration as it reads if `n` iterations came before. -/
def Iteration.later (n : Nat) (it : Iteration) : Iteration := { it with stopReason := it.stopReason.map (.later n) }

/-- `env'` is what `env` is, `n` iterations earlier: the same analysis and number of bits, and from iteration `n` on the
hash tables are traversed as `env` says. -/
structure RunEnv.Later (n : Nat) (env' env : RunEnv Op D) : Prop where
  analysis : env'.analysis = env.analysis
  ord : ∀ i, env'.ord (n + i) = env.ord i
  fuel : env'.fuel = env.fuel
  bits : env'.bits = env.bits

/-- The clock never shows more than the limit. -/
def RunEnv.InTime (env : RunEnv Op D) (limit : Nat) : Prop := ∀ k, env.elapsed k ≤ limit

/-- The hooks do not look at the records of the iterations. -/
def BlindHooks (hooks : List (Hook Op D H)) : Prop := ∀ k ∈ hooks, ∀ h eg its its', k h eg its = k h eg its'

/-- `Runner::new` with the e-graph of a finished run (`with_egraph`) and limits `lim`; the closures of the hooks keep
their state. -/
def Runner.resume (r : Runner Op D S H) (s : S) (lim : RunnerLimits) : Runner Op D S H :=
  { (Runner.new s r.hookState : Runner Op D S H) with egraph := r.egraph, limits := lim }

/-- What `r2`, a later runner, looks like if the run of `r1` and the run of `r2` are taken as one run with limits `lim`:
the e-graph, the scheduler and the state of the hooks are those of `r2`, its iterations come after those of `r1`. -/
def Runner.followedBy (r1 : Runner Op D S H) (lim : RunnerLimits) (r2 : Runner Op D S H) : Runner Op D S H :=
  { r2 with
    roots := r1.roots
    iterations := r1.iterations ++ r2.iterations.map (.later r1.iterations.length)
    stopReason := r2.stopReason.map (.later r1.iterations.length)
    limits := lim
    tick := r1.tick + r2.tick }

end Egg
