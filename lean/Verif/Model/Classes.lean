import Verif.Model.EGraph
/-
Views of one e-class.
-/
namespace Egg
variable {Op D : Type} [DecidableEq Op] [Lang Op]

/-- `EClass::leaves`, `src/eclass.rs:49-51`. -/
def EClass.leaves (k : EClass Op D) : List (ENode Op) := k.nodes.filter ENode.isLeaf

/-- `EClass::assert_unique_leaves`, `src/eclass.rs:54-67`; an error is the panic of `assert!`. -/
def EClass.assertUniqueLeaves (k : EClass Op D) : Res Unit :=
  match k.leaves with
  | [] => .ok ()
  | first :: rest => if rest.all (fun l => decide (l = first)) then .ok () else .error .panic

/-- `EClass::parents`, `src/eclass.rs:42-44`. -/
def EClass.parentIds (k : EClass Op D) : List Id := k.parents

end Egg
