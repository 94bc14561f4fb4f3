import Verif.Model.Machine
import Verif.Model.Text
/-
Conversions between expressions and patterns (`src/pattern.rs`), the textual form of
multi-patterns (`src/multipattern.rs`), `EGraph::equivs` and `EGraph::check_goals`
(`src/egraph.rs`).
-/
namespace Egg
variable {Op D : Type} [DecidableEq Op] [Lang Op]

omit [Lang Op] in
/-- `From<&[L]>`, `From<RecExpr<L>>`, `From<&RecExpr<L>> for Pattern`, `src/pattern.rs:227-245`. -/
def Pattern.fromExpr (ordc : Compiler Op → List (Id × Nat)) (fuel : Nat) (e : List (ENode Op)) : Res (Pattern Op) :=
  Pattern.new ordc fuel (e.map fun n => ⟨PatOp.op n.op, n.children⟩)

omit [DecidableEq Op] [Lang Op] in
/-- `TryFrom<PatternAst<L>> for RecExpr<L>`, `src/pattern.rs:253-263`: collecting stops at the first
variable, which is the error. -/
def exprOfAst : PatternAst Op → Except Var (List (ENode Op))
  | [] => .ok []
  | n :: rest =>
    match n.op with
    | .op o =>
      match exprOfAst rest with
      | .ok r => .ok (⟨o, n.children⟩ :: r)
      | .error v => .error v
    | .var v => .error v

/-- The inner loop of `equivs`, `src/egraph.rs:1091-1095`. -/
def EGraph.equivsRow (eg : EGraph Op D) (c1 : Id) : List (SearchMatches Op) → Res (List Id)
  | [] => .ok []
  | m2 :: ms => do
    let r1 ← eg.find c1
    let r2 ← eg.find m2.eclass
    let rest ← eg.equivsRow c1 ms
    return if r1 = r2 then c1 :: rest else rest

/-- The outer loop of `equivs`, `src/egraph.rs:1090-1096`. -/
def EGraph.equivsRows (eg : EGraph Op D) (ms2 : List (SearchMatches Op)) : List (SearchMatches Op) → Res (List Id)
  | [] => .ok []
  | m1 :: ms => do
    let row ← eg.equivsRow m1.eclass ms2
    let rest ← eg.equivsRows ms2 ms
    return row ++ rest

/-- `equivs`, `src/egraph.rs:1079-1099`.  `limit` stands for `usize::MAX`, the limit of `search`;
`ord1`, `ord2` are the iteration orders of the hash tables during the two searches. -/
def EGraph.equivs (N : Analysis Op D) (eg : EGraph Op D) (ordc : Compiler Op → List (Id × Nat)) (fuel : Nat)
    (ord1 ord2 : IterOrd) (limit : Nat) (e1 e2 : List (ENode Op)) : Res (List Id) := do
  let p1 ← Pattern.fromExpr ordc fuel e1
  let p2 ← Pattern.fromExpr ordc fuel e2
  let ms1 ← p1.searchWithLimit N eg ord1 limit
  let ms2 ← p2.searchWithLimit N eg ord2 limit
  eg.equivsRows ms2 ms1

/-- `check_goals`, `src/egraph.rs:1236-1256`.  The extraction of a best term is left out: it is only
logged (and returns for every id of the e-graph, C31). -/
def EGraph.checkGoals (N : Analysis Op D) (eg : EGraph Op D) (ord : IterOrd) (limit : Nat) (id : Id) :
    List (Pattern Op) → Res Unit
  | [] => .ok ()
  | goal :: rest => do
    match ← goal.searchEclassWithLimit N eg ord id limit with
    | none => .error .panic
    | some _ => eg.checkGoals N ord limit id rest

end Egg
