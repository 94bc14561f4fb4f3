import Verif.Model.Hooks
/-
Pruning: the field `nodes` of an e-class is public (`src/eclass.rs:15`) and `egraph[id]` can be
written (`src/egraph.rs:808-818`), so the user may drop e-nodes from a class, as
`tests/math.rs:100` does.
-/
namespace Egg
variable {Op D : Type} [DecidableEq Op] [Lang Op]

/-- `egraph[id].nodes.retain(keep)`: `index_mut`, `src/egraph.rs:808-818`, on the public field
`nodes`, `src/eclass.rs:15`. -/
def EGraph.retain (eg : EGraph Op D) (i : Id) (keep : ENode Op → Bool) : Res (EGraph Op D) := do
  let (uf, r) ← UF.findMut eg.uf i
  let k ← unwrap (eg.classes.get? r)
  return { eg with uf := uf, classes := eg.classes.insert r { k with nodes := k.nodes.filter keep } }

/-- A program over the e-graph API that may also prune, cf. `Prog`.  What is kept may depend on anything
the program can see. -/
inductive PruneProg (Op : Type) [DecidableEq Op] [Lang Op] (D : Type) where
  | done
  | panic
  | read (k : EGraph Op D → PruneProg Op D)
  | add (n : ENode Op) (k : Id → PruneProg Op D)
  | union (a b : Id) (caller : Symbol) (k : Bool → PruneProg Op D)
  | setData (i : Id) (d : D) (k : PruneProg Op D)
  | retain (i : Id) (keep : EGraph Op D → ENode Op → Bool) (k : PruneProg Op D)

/-- Run a program that may prune.  `EGraph::add` `src/egraph.rs:970-973`, `union` 1147-1154,
`set_analysis_data` 1211-1217, `index_mut` 808-818. -/
def PruneProg.run (N : Analysis Op D) : PruneProg Op D → EGraph Op D → Res (EGraph Op D)
  | .done, eg => .ok eg
  | .panic, _ => .error .panic
  | .read k, eg => (k eg).run N eg
  | .add n k, eg => do
    let (eg, i) ← EGraph.add N eg n
    (k i).run N eg
  | .union a b caller k, eg => do
    let (eg, r) ← EGraph.union N eg a b caller
    (k r).run N eg
  | .setData i d k, eg => do
    let eg ← EGraph.setAnalysisData N eg i d
    k.run N eg
  | .retain i keep k, eg => do
    let eg ← eg.retain i (keep eg)
    k.run N eg

/-- `trait Analysis` (`src/language.rs:797-881`) with a `modify` that may prune. -/
structure PruneAnalysis (Op : Type) [DecidableEq Op] [Lang Op] (D : Type) where
  make : EGraph Op D → ENode Op → Id → Res D
  remake : EGraph Op D → ENode Op → Id → Res D
  merge : D → D → D × Bool × Bool
  modify : Id → PruneProg Op D
  allowCycles : Bool := true

/-- The analysis with hooks nested at most `depth` times, cf. `UserAnalysis.at`. -/
def PruneAnalysis.at (U : PruneAnalysis Op D) : Nat → Analysis Op D
  | 0 => ⟨U.make, U.remake, U.merge, fun _ _ => .error .fuel, U.allowCycles⟩
  | depth + 1 => ⟨U.make, U.remake, U.merge, fun eg i => (U.modify i).run (U.at depth) eg, U.allowCycles⟩

end Egg
