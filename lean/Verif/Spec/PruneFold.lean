import Verif.Spec.Prune
import Verif.Spec.Fold
/-
Specification vocabulary: constant folding that prunes, `tests/math.rs:86-106`.
-/
namespace Egg
variable {Op V : Type} [DecidableEq Op] [Lang Op]

/-- `Folding.analysis` with `egraph[id].nodes.retain(|n| n.is_leaf())` at the end of `modify`,
`tests/math.rs:86-106` (without explanations). -/
def Folding.pruning [DecidableEq V] (F : Folding Op V) (caller : Symbol) : PruneAnalysis Op (Option (Known V)) where
  make := fun eg n _ => do return F.datum n.op (← childData eg n.children)
  remake := fun eg n _ => do return F.datum n.op (← childData eg n.children)
  merge := mergeOption Known.both
  modify := fun i => .read fun eg =>
    match eg.index i with
    | .error _ => .panic
    | .ok k =>
      match k.data with
      | none => .done
      | some .clash => .panic
      | some (.val v) => .add ⟨F.con v, []⟩ fun j => .union i j caller fun _ => .retain i (fun _ n => n.isLeaf) .done

end Egg
