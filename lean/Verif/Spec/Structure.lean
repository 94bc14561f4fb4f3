import Verif.Spec.History
/-
Specification vocabulary for structural properties: containment of e-nodes in
classes, well-formed expressions, reachable union-finds.
-/
namespace Egg
variable {Op D : Type} [DecidableEq Op] [Lang Op]

/-- Two e-nodes are equal up to the e-graph's equality of their children. -/
def SameNode (eg : EGraph Op D) (m n : ENode Op) : Prop :=
  m.op = n.op ∧ List.Forall₂ (SameClass eg) m.children n.children

/-- The class of `i` contains the e-node `n`, up to equality of children. -/
def Holds (eg : EGraph Op D) (i : Id) (n : ENode Op) : Prop :=
  ∃ k m, eg.index i = .ok k ∧ m ∈ k.nodes ∧ SameNode eg m n

/-- A well-formed expression (`RecExpr`): not empty, children precede parents. -/
def WFExpr (e : List (ENode Op)) : Prop :=
  e ≠ [] ∧ ∀ (i : Nat) (n : ENode Op), e[i]? = some n → ∀ c ∈ n.children, c < i

/-- Node `k` of the expression is part of the denoted term (reachable from the
last node). -/
inductive Live (e : List (ENode Op)) : Nat → Prop where
  | root : Live e (e.length - 1)
  | child {i n c} : Live e i → e[i]? = some n → c ∈ n.children → Live e c

/-- The e-graph has no unfinished congruence work: nothing is queued, e-nodes
listed in classes have canonical children, each class list is strictly sorted, an
e-node is listed in one class only, and the operator index is exact. -/
structure Rebuilt (eg : EGraph Op D) : Prop where
  pending : eg.pending = []
  keys : ∀ c cl, eg.classes.get? c = some cl → eg.find c = .ok c
  canon : ∀ c cl, eg.classes.get? c = some cl → ∀ n ∈ cl.nodes, ∀ ch ∈ n.children, eg.find ch = .ok ch
  sorted : ∀ c cl, eg.classes.get? c = some cl → cl.nodes.Pairwise (fun x y => Lang.le x y = true ∧ x ≠ y)
  unique : ∀ c c' cl cl' n, eg.classes.get? c = some cl → eg.classes.get? c' = some cl' → n ∈ cl.nodes →
    n ∈ cl'.nodes → c = c'
  indexNodup : ∀ d l, eg.classesForOp d = some l → l.Nodup
  index : ∀ d x, (∃ l, eg.classesForOp d = some l ∧ x ∈ l) ↔
    ∃ cl, eg.classes.get? x = some cl ∧ ∃ n ∈ cl.nodes, Lang.disc n.op = d

/-- Union-finds reachable by `make_set`, `union` of two different roots, and
path-compressing finds, in any order. -/
inductive UFReach : UF → Prop where
  | new : UFReach []
  | makeSet {ps} : UFReach ps → UFReach (UF.makeSet ps).1
  | findMut {ps ps' i r} : UFReach ps → UF.findMut ps i = .ok (ps', r) → UFReach ps'
  | union {ps ps' a b} : UFReach ps → UF.find ps a = .ok a → UF.find ps b = .ok b → a ≠ b →
      UF.union ps a b = .ok ps' → UFReach ps'

end Egg
