import Verif.Model.Run
/-
The builder methods of `Runner`, `src/run.rs:357-428, 463-486`.
-/
namespace Egg
variable {Op D S H : Type} [DecidableEq Op] [Lang Op]

/-- One call of a builder method.  `S` has the states of the schedulers.  Simplification: the methods of the
scheduler are a parameter of `Runner.run`, so a `scheduler` call gives only its initial state; a program that mixes
schedulers of several kinds takes a sum for `S`. -/
inductive Setting (Op : Type) [DecidableEq Op] [Lang Op] (D S H : Type) where
  /-- `with_iter_limit`, `src/run.rs:358-361` -/
  | iterLimit (n : Nat)
  /-- `with_node_limit`, `src/run.rs:364-367` -/
  | nodeLimit (n : Nat)
  /-- `with_time_limit`, `src/run.rs:370-373` (milliseconds) -/
  | timeLimit (t : Nat)
  /-- `with_hook`, `src/run.rs:398-404` -/
  | hook (h : Hook Op D H)
  /-- `with_scheduler`, `src/run.rs:409-412` -/
  | scheduler (s : S)
  /-- `with_expr`, `src/run.rs:419-423` -/
  | expr (e : List (ENode Op))
  /-- `with_egraph`, `src/run.rs:426-428` -/
  | egraph (g : EGraph Op D)
  /-- `with_explanations_enabled`, `src/run.rs:463-466` -/
  | explanations
  /-- `without_explanation_length_optimization`, `src/run.rs:470-473` -/
  | noOptimize
  /-- `with_explanation_length_optimization`, `src/run.rs:477-480` -/
  | optimize
  /-- `with_explanations_disabled`, `src/run.rs:483-486` -/
  | noExplanations

/-- A runner that is being configured: `Runner`, `src/run.rs:138-158`, with its hooks. -/
structure Builder (Op : Type) [DecidableEq Op] [Lang Op] (D S H : Type) where
  runner : Runner Op D S H
  hooks : List (Hook Op D H)

namespace Builder

/-- `Runner::new`, `src/run.rs:340-355`. -/
def new (s : S) (h : H) : Builder Op D S H := ⟨Runner.new s h, []⟩

/-- The effect of one call, `src/run.rs:357-428, 463-486`. -/
def set (N : Analysis Op D) (b : Builder Op D S H) : Setting Op D S H → Res (Builder Op D S H)
  | .iterLimit n => .ok { b with runner := { b.runner with limits := { b.runner.limits with iterLimit := n } } }
  | .nodeLimit n => .ok { b with runner := { b.runner with limits := { b.runner.limits with nodeLimit := n } } }
  | .timeLimit t => .ok { b with runner := { b.runner with limits := { b.runner.limits with timeLimit := t } } }
  | .hook h => .ok { b with hooks := b.hooks ++ [h] }
  | .scheduler s => .ok { b with runner := { b.runner with scheduler := s } }
  | .expr e => do
    let r ← b.runner.withExpr N e
    return { b with runner := r }
  | .egraph g => .ok { b with runner := { b.runner with egraph := g } }
  | .explanations => do
    let g ← b.runner.egraph.withExplanationsEnabled
    return { b with runner := { b.runner with egraph := g } }
  | .noOptimize => do
    let g ← b.runner.egraph.withoutExplanationLengthOptimization
    return { b with runner := { b.runner with egraph := g } }
  | .optimize => do
    let g ← b.runner.egraph.withExplanationLengthOptimization
    return { b with runner := { b.runner with egraph := g } }
  | .noExplanations => .ok { b with runner := { b.runner with egraph := b.runner.egraph.withExplanationsDisabled } }

/-- A chain of calls `runner.with_a(..).with_b(..)`, `src/run.rs:357-428, 463-486`. -/
def setAll (N : Analysis Op D) : Builder Op D S H → List (Setting Op D S H) → Res (Builder Op D S H)
  | b, [] => .ok b
  | b, c :: rest => do
    let b ← b.set N c
    b.setAll N rest

/-- `.run(rules)` at the end of the chain, `src/run.rs:434-458`. -/
def run (env : RunEnv Op D) (sch : Scheduler Op D S) (rules : List (Rewrite Op D)) (f : Nat) (b : Builder Op D S H) :
    Res (Runner Op D S H) := b.runner.run env sch b.hooks rules f

end Builder
end Egg
