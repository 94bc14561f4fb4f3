import Verif.Spec.Assumptions
import Mathlib.Order.Defs.PartialOrder
/-
Specification vocabulary: join analyses.
-/
namespace Egg
variable {Op D : Type} [DecidableEq Op] [Lang Op]

/-- The hook program never calls `set_analysis_data` (it may add, union, read,
branch and panic at will). -/
def Prog.NoSet : Prog Op D → Prop
  | .done => True
  | .panic => True
  | .read k => ∀ eg, (k eg).NoSet
  | .add _ k => ∀ i, (k i).NoSet
  | .union _ _ _ k => ∀ r, (k r).NoSet
  | .setData _ _ _ => False

/-- `A` is a join analysis for the preorder `le` and the monotone function `mk`:
`make` and `remake` return `mk` of the operator and the children's data, `merge`
is a least upper bound whose flags are not left false when the datum changed, and
the `modify` hook does not overwrite data. -/
structure JoinAnalysis (A : UserAnalysis Op D) (le : D → D → Prop) (mk : Op → List D → D) : Prop where
  refl : ∀ d, le d d
  trans : ∀ {a b c}, le a b → le b c → le a c
  mono : ∀ {op ds ds'}, List.Forall₂ le ds ds' → le (mk op ds) (mk op ds')
  make : ∀ {eg n i ds}, EGraph.ChildData eg n ds → A.make eg n i = .ok (mk n.op ds)
  remake : ∀ {eg n i ds}, EGraph.ChildData eg n ds → A.remake eg n i = .ok (mk n.op ds)
  left : ∀ a b, le a (A.merge a b).1
  right : ∀ a b, le b (A.merge a b).1
  lub : ∀ {a b u}, le a u → le b u → le (A.merge a b).1 u
  flagL : ∀ a b, (A.merge a b).2.1 = false → le (A.merge a b).1 a
  flagR : ∀ a b, (A.merge a b).2.2 = false → le (A.merge a b).1 b
  noSet : ∀ i, (A.modify i).NoSet

/-- `set_analysis_data` is only called with an equivalent datum. -/
def EquivSet (le : D → D → Prop) : Caller Op D :=
  ⟨fun eg i d => ∀ k, eg.index i = .ok k → le k.data d ∧ le d k.data, True, True⟩

/-- The analysis can improve a datum only finitely often: `merge` never moves its
first argument up in a well-founded order, and moves it strictly down whenever it
reports a change of it.  (For a lattice of finite height take the distance from
the top; for costs merged by `min` take the cost itself.)  The hook is quiet, and
`make` and `remake` do not panic when the children have classes. -/
structure FiniteImprovement {α : Type} [Preorder α] (A : UserAnalysis Op D) (rank : D → α) : Prop where
  le : ∀ a b, rank (A.merge a b).1 ≤ rank a
  lt : ∀ a b, (A.merge a b).2.1 = true → rank (A.merge a b).1 < rank a
  make : ∀ eg n i ds, EGraph.ChildData eg n ds → ∃ d, A.make eg n i = .ok d
  remake : ∀ eg n i ds, EGraph.ChildData eg n ds → ∃ d, A.remake eg n i = .ok d
  quiet : ∀ i, A.modify i = .done

end Egg
