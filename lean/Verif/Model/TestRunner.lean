import Verif.Model.Run
import Verif.Model.Convert
/-
`test_runner`, `src/test.rs:29-122`: the procedure behind `test_fn!`, which proves that expressions are equal by running rules.
-/
namespace Egg
variable {Op D S H : Type} [DecidableEq Op] [Lang Op]

/-- `goals.iter().all(|g| g.search_eclass(&r.egraph, id).is_some())`, `src/test.rs:67-70`.  `limit` stands for `usize::MAX`. -/
def allGoals (N : Analysis Op D) (eg : EGraph Op D) (ord : IterOrd) (limit : Nat) (id : Id) : List (Pattern Op) → Res Bool
  | [] => .ok true
  | goal :: rest => do
    match ← goal.searchEclassWithLimit N eg ord id limit with
    | none => return false
    | some _ => allGoals N eg ord limit id rest

/-- The hook of `test_runner`, `src/test.rs:64-77`. -/
def goalHook (env : RunEnv Op D) (id : Id) (goals : List (Pattern Op)) : Hook Op D H := fun h eg its => do
  let b ← allGoals env.analysis eg (env.ord its.length eg) env.usizeMax id goals
  return (h, eg, if b then some "Proved all goals" else none)

/-- The runner that `test_runner` runs, and the class it looks at, `src/test.rs:57-62`. -/
def testStart (N : Analysis Op D) (r : Runner Op D S H) (start : List (ENode Op)) : Res (Runner Op D S H × Id) := do
  let r ← r.withExpr N start
  let root ← unwrap r.roots.getLast?
  let id ← r.egraph.find root
  return (r, id)

/-- `test_runner`, `src/test.rs:29-122`, with `should_check`.  `r` is the given runner with the limits of the environment variables, `hooks` its hooks.
`early` says that there is no `check_fn`; if there is one, it is applied to the runner returned here.
Simplification: printing, and the explanations at `src/test.rs:95-116`, are left out (explanations: C106). -/
def testRunner (env : RunEnv Op D) (sch : Scheduler Op D S) (hooks : List (Hook Op D H)) (rules : List (Rewrite Op D)) (f : Nat)
    (r : Runner Op D S H) (start : List (ENode Op)) (goals : List (Pattern Op)) (early : Bool) : Res (Runner Op D S H) := do
  let (r, id) ← testStart env.analysis r start
  let r ← r.run env sch (if early then hooks ++ [goalHook env id goals] else hooks) rules f
  r.egraph.checkGoals env.analysis (env.ord r.iterations.length r.egraph) env.usizeMax id goals
  return r

end Egg
