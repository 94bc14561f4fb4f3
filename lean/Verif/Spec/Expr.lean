import Verif.Spec.Structure
/-
Specification vocabulary for expressions: unfolding a choice of one node per id,
subterms.
-/
namespace Egg
variable {Op : Type}

/-- `Unfolds g i t`: choosing for every id the node `g id`, the id `i` unfolds to
the (finite) term `t`. -/
inductive Unfolds (g : Id → Option (ENode Op)) : Id → Term Op → Prop where
  | mk {i : Id} {n : ENode Op} {ts : List (Term Op)} :
      g i = some n →
      n.children.length = ts.length →
      (∀ (k : Nat) (c : Id) (t : Term Op), n.children[k]? = some c → ts[k]? = some t → Unfolds g c t) →
      Unfolds g i (.node n.op ts)

/-- `s` is a subterm of `t` (possibly `t` itself). -/
inductive Subterm (s : Term Op) : Term Op → Prop where
  | refl : Subterm s s
  | arg {op : Op} {ts : List (Term Op)} {t : Term Op} : t ∈ ts → Subterm s t → Subterm s (.node op ts)

end Egg
