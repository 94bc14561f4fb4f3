import Verif.Model.EGraph
import Mathlib.Data.List.Forall2
/-
Specification vocabulary: ground terms, congruences, equational consequence,
the term denoted by an id of a node table, representation in an e-class.
Nothing here depends on how the e-graph code works.
-/
namespace Egg

/-- Ground terms over operators `Op`. -/
inductive Term (Op : Type) where
  | node (op : Op) (args : List (Term Op))

namespace Term
variable {Op : Type}

/-- Induction over terms with a hypothesis for every argument. -/
theorem ind {P : Term Op → Prop}
    (h : ∀ op args, (∀ t ∈ args, P t) → P (.node op args)) : ∀ t, P t
  | .node op args => h op args (fun t _ => ind h t)

/-- Translate a term operator by operator. -/
def map {Op2 : Type} (f : Op → Op2) : Term Op → Term Op2
  | .node op args => .node (f op) (args.attach.map fun ⟨t, _⟩ => t.map f)

theorem map_node {Op2 : Type} (f : Op → Op2) (op : Op) (args : List (Term Op)) :
    (Term.node op args).map f = .node (f op) (args.map (Term.map f)) := by
  rw [Term.map]
  simp

end Term

variable {Op : Type}

/-- A relation on terms that is an equivalence and compatible with every
operator. -/
structure IsCongruence (R : Term Op → Term Op → Prop) : Prop where
  refl : ∀ t, R t t
  symm : ∀ {s t}, R s t → R t s
  trans : ∀ {s t u}, R s t → R t u → R s u
  congr : ∀ op {ss ts : List (Term Op)}, List.Forall₂ R ss ts → R (.node op ss) (.node op ts)

/-- Ground equational consequence: `GEq E s t` iff `s = t` is derivable from the
equations `E` by reflexivity, symmetry, transitivity and congruence. -/
inductive GEq (E : Term Op → Term Op → Prop) : Term Op → Term Op → Prop where
  | ax {s t} : E s t → GEq E s t
  | refl (t) : GEq E t t
  | symm {s t} : GEq E s t → GEq E t s
  | trans {s t u} : GEq E s t → GEq E t u → GEq E s u
  | congr (op) {ss ts : List (Term Op)} :
      ss.length = ts.length →
      (∀ (k : Nat) (s t : Term Op), ss[k]? = some s → ts[k]? = some t → GEq E s t) →
      GEq E (.node op ss) (.node op ts)

/-- `TermOf nodes i t`: unfolding entry `i` of the node table (an expression DAG,
also the content of `EGraph::nodes`) gives the term `t`. -/
inductive TermOf (nodes : List (ENode Op)) : Id → Term Op → Prop where
  | mk {i : Id} {n : ENode Op} {ts : List (Term Op)} :
      nodes[i]? = some n →
      n.children.length = ts.length →
      (∀ (k : Nat) (c : Id) (t : Term Op), n.children[k]? = some c → ts[k]? = some t →
        TermOf nodes c t) →
      TermOf nodes i (.node n.op ts)

/-- `Rep eg c t`: the e-class of `c` represents the term `t`, i.e. some e-node of
that class has the operator of `t` and its child classes represent the
arguments of `t`. -/
inductive Rep {D : Type} [DecidableEq Op] [Lang Op] (eg : EGraph Op D) : Id → Term Op → Prop where
  | mk {c r : Id} {cls : EClass Op D} {n : ENode Op} {ts : List (Term Op)} :
      eg.find c = .ok r →
      eg.classes.get? r = some cls →
      n ∈ cls.nodes →
      n.children.length = ts.length →
      (∀ (k : Nat) (d : Id) (t : Term Op), n.children[k]? = some d → ts[k]? = some t →
        Rep eg d t) →
      Rep eg c (.node n.op ts)

/-- The term denoted by an expression (`RecExpr`, `src/language.rs:380-382`): the
unfolding of its last node. -/
def ExprTerm (e : List (ENode Op)) (t : Term Op) : Prop :=
  e ≠ [] ∧ TermOf e (e.length - 1) t

end Egg
