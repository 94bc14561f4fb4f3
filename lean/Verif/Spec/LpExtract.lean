import Verif.Model.LpExtract
import Verif.Spec.Expr
import Mathlib.Logic.Relation
/-
Specification vocabulary for extraction by linear programming: the graph of classes, solutions of
linear programs, selections of e-nodes.
-/
namespace Egg
namespace Lp
variable {Op D : Type} [DecidableEq Op] [Lang Op]

/-- `n` is the `i`-th e-node of the class `c`. -/
def NodeAt (eg : EGraph Op D) (c : Id) (i : Nat) (n : ENode Op) : Prop :=
  ∃ cl, eg.classes.get? c = some cl ∧ cl.nodes[i]? = some n

/-- Some e-node of class `c` has the class `d` as a child. -/
def Edge (eg : EGraph Op D) (c d : Id) : Prop := ∃ i n, NodeAt eg c i n ∧ d ∈ n.children

/-- The same with an e-node that is not in the list. -/
def Allowed (eg : EGraph Op D) (cyc : List (Id × Nat)) (c d : Id) : Prop :=
  ∃ i n, NodeAt eg c i n ∧ (c, i) ∉ cyc ∧ d ∈ n.children

/-- The `i`-th e-node of class `c` lies on a cycle: from one of its children there is a path
back to `c`. -/
def OnCycle (eg : EGraph Op D) (c : Id) (i : Nat) : Prop :=
  ∃ n d, NodeAt eg c i n ∧ d ∈ n.children ∧ Relation.ReflTransGen (Edge eg) d c

/-- Value of a linear expression. -/
def value (sol : Var → ℚ) (l : List (ℚ × Var)) : ℚ := (l.map (fun t => t.1 * sol t.2)).sum

/-- An assignment satisfies a constraint. -/
def Con.Sat (sol : Var → ℚ) (c : Con) : Prop :=
  match c.rel with
  | .eq => value sol c.terms = c.rhs
  | .le => value sol c.terms ≤ c.rhs
  | .ge => c.rhs ≤ value sol c.terms

/-- A solution of a program: the variables are 0 or 1 and at most their maximum, and the constraints hold. -/
structure Feasible (p : Program) (sol : Var → ℚ) : Prop where
  binary : ∀ v m, (v, m) ∈ p.vars → (sol v = 0 ∨ sol v = 1) ∧ sol v ≤ m
  cons : ∀ c ∈ p.cons, c.Sat sol

/-- A best solution. -/
structure Optimal (p : Program) (sol : Var → ℚ) : Prop where
  feasible : Feasible p sol
  least : ∀ sol', Feasible p sol' → value sol p.objective ≤ value sol' p.objective

/-- A selection of e-nodes: `sel` lists classes, each once, with the index of one of their e-nodes; it
contains the roots, and with an e-node its children. -/
structure Selection (eg : EGraph Op D) (roots : List Id) (sel : List (Id × Nat)) : Prop where
  nodup : (sel.map Prod.fst).Nodup
  nodes : ∀ c i, (c, i) ∈ sel → ∃ n, NodeAt eg c i n ∧ ∀ d ∈ n.children, ∃ j, (d, j) ∈ sel
  roots : ∀ r ∈ roots, ∃ c j, eg.find r = .ok c ∧ (c, j) ∈ sel

/-- The sum of the costs of the selected e-nodes, each counted once. -/
def Total (eg : EGraph Op D) (cost : Id → ENode Op → ℚ) (sel : List (Id × Nat)) (total : ℚ) : Prop :=
  ∃ ns, List.Forall₂ (fun p n => NodeAt eg p.1 p.2 n) sel ns ∧
    total = ((sel.zip ns).map (fun q => cost q.1.1 q.2)).sum

/-- The expression consists of the selected e-nodes, in this order: the `k`-th node of the expression
is the `k`-th selected e-node, and where the e-node has the class `d` as a child the expression has the index of
the e-node selected for `d`. -/
def Uses (eg : EGraph Op D) (sel : List (Id × Nat)) (e : List (ENode Op)) : Prop :=
  List.Forall₂ (fun p m => ∃ n, NodeAt eg p.1 p.2 n ∧ m.op = n.op ∧
    List.Forall₂ (fun j d => ∃ i, sel[j]? = some (d, i)) m.children n.children) sel e

end Lp
end Egg
