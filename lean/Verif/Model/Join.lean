import Verif.Model.IdToExpr
/-
Model of `Language::join_recexprs`, `src/language.rs:137-157`.
-/
namespace Egg
variable {Op : Type}

/-- `src/language.rs:142-149` `build`, the inner function of `join_recexprs`.  `from[0..i]` panics when
`i` is larger than the length.  The recursion is bounded by the first argument. -/
def joinBuild : Nat → List (ENode Op) → List (ENode Op) → Res (List (ENode Op) × Id)
  | 0, _, _ => .error .fuel
  | k + 1, to_, from_ => do
    let last ← unwrap from_.getLast?
    let (to_, cs) ← mapAccumM (fun to_ i =>
      if i + 1 ≤ from_.length then joinBuild k to_ (from_.take (i + 1)) else .error .panic) to_ last.children
    return (to_ ++ [{ last with children := cs }], to_.length)

/-- `src/language.rs:137-157` `join_recexprs`: the node with its children replaced by the
expressions `childExpr c`. -/
def joinRecexprs (fuel : Nat) (childExpr : Id → List (ENode Op)) (node : ENode Op) : Res (List (ENode Op)) := do
  let (expr, cs) ← mapAccumM (fun expr i => joinBuild fuel expr (childExpr i)) [] node.children
  return expr ++ [{ node with children := cs }]

end Egg
