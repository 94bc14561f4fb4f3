import Verif.Model.EGraph
/-
User code in the `modify` hook (`src/language.rs:868-870`) as a program over the
e-graph API.  The hook may call back into the e-graph, which calls the hook
again; the nesting depth is bounded by a fuel parameter.
-/
namespace Egg
variable {Op D : Type} [DecidableEq Op] [Lang Op]

/-- A program over the e-graph API: any read-only observation, `add`, `union`,
`set_analysis_data`, or a panic of the user's own code. -/
inductive Prog (Op : Type) [DecidableEq Op] [Lang Op] (D : Type) where
  | done
  | panic
  | read (k : EGraph Op D → Prog Op D)
  | add (n : ENode Op) (k : Id → Prog Op D)
  | union (a b : Id) (caller : Symbol) (k : Bool → Prog Op D)
  | setData (i : Id) (d : D) (k : Prog Op D)

/-- Run a program; `N` is the analysis whose hook the API calls invoke.
`EGraph::add` `src/egraph.rs:970-973`, `union` 1147-1154, `set_analysis_data`
1211-1217. -/
def Prog.run (N : Analysis Op D) : Prog Op D → EGraph Op D → Res (EGraph Op D)
  | .done, eg => .ok eg
  | .panic, _ => .error .panic
  | .read k, eg => (k eg).run N eg
  | .add n k, eg => do
    let (eg, i) ← EGraph.add N eg n
    (k i).run N eg
  | .union a b caller k, eg => do
    let (eg, r) ← EGraph.union N eg a b caller
    (k r).run N eg
  | .setData i d k, eg => do
    let eg ← EGraph.setAnalysisData N eg i d
    k.run N eg

/-- `trait Analysis` (`src/language.rs:797-881`) with `modify` given as a
program. -/
structure UserAnalysis (Op : Type) [DecidableEq Op] [Lang Op] (D : Type) where
  make : EGraph Op D → ENode Op → Id → Res D
  remake : EGraph Op D → ENode Op → Id → Res D
  merge : D → D → D × Bool × Bool
  modify : Id → Prog Op D
  allowCycles : Bool := true

/-- The analysis with hooks nested at most `depth` times (deeper nesting runs out
of fuel, as the real program runs out of stack). -/
def UserAnalysis.at (U : UserAnalysis Op D) : Nat → Analysis Op D
  | 0 => ⟨U.make, U.remake, U.merge, fun _ _ => .error .fuel, U.allowCycles⟩
  | depth + 1 => ⟨U.make, U.remake, U.merge, fun eg i => (U.modify i).run (U.at depth) eg, U.allowCycles⟩

end Egg
