import Verif.Model.Machine
/-
Model of `id_to_expr` and `id_to_pattern`, `src/egraph.rs:359-429`.
-/
namespace Egg

/-- Map a closure with a mutable state over the children of a node:
`enode.map_children(|child| …)`, `src/language.rs:94-97`. -/
def mapAccumM {σ α β : Type} (f : σ → α → Res (σ × β)) : σ → List α → Res (σ × List β)
  | s, [] => .ok (s, [])
  | s, a :: as => do
    let (s, b) ← f s a
    let (s, bs) ← mapAccumM f s as
    return (s, b :: bs)

variable {Op D : Type}

/-- `src/egraph.rs:371-387` `id_to_expr_internal`; the state is `(res, cache)`.  The
recursion depth is bounded by the first argument. -/
def idToExprGo (nodes : List (ENode Op)) :
    Nat → List (ENode Op) × AMap Id Id → Id → Res ((List (ENode Op) × AMap Id Id) × Id)
  | 0, _, _ => .error .fuel
  | k + 1, st, i =>
    match st.2.get? i with
    | some existing => .ok (st, existing)
    | none => do
      let n ← getIdx nodes i
      let (st, cs) ← mapAccumM (idToExprGo nodes k) st n.children
      let (res, resId) := (st.1 ++ [({ n with children := cs } : ENode Op)], st.1.length)
      return ((res, st.2.insert i resId), resId)

/-- `src/egraph.rs:364-369` `id_to_expr`.  The recursion never goes deeper than the number
of nodes unless it does not end (theorem `c15_id_to_expr` shows that it ends). -/
def EGraph.idToExpr [DecidableEq Op] [Lang Op] (eg : EGraph Op D) (i : Id) : Res (List (ENode Op)) := do
  let (st, _) ← idToExprGo eg.nodes (eg.nodes.length + 1) ([], []) i
  return st.1

/-- State of `id_to_pattern_internal`: `res`, `cache`, `subst`. -/
structure PatCopy (Op : Type) where
  res : PatternAst Op
  cache : AMap Id Id
  subst : Subst

/-- `src/egraph.rs:406-429` `id_to_pattern_internal`; `varOf i` is the variable
`format!("?{}", i).parse().unwrap()`. -/
def idToPatternGo (varOf : Id → Var) (nodes : List (ENode Op)) (subs : AMap Id Id) :
    Nat → PatCopy Op → Id → Res (PatCopy Op × Id)
  | 0, _, _ => .error .fuel
  | k + 1, st, i =>
    match st.cache.get? i with
    | some existing => .ok (st, existing)
    | none =>
      match subs.get? i with
      | some existing =>
        .ok ({ res := st.res ++ [⟨.var (varOf i), []⟩]
               cache := st.cache.insert i st.res.length
               subst := (st.subst.insert (varOf i) existing).1 }, st.res.length)
      | none => do
        let n ← getIdx nodes i
        let (st, cs) ← mapAccumM (idToPatternGo varOf nodes subs k) st n.children
        return ({ st with
          res := st.res ++ [⟨.op n.op, cs⟩]
          cache := st.cache.insert i st.res.length }, st.res.length)

/-- `src/egraph.rs:398-404` `id_to_pattern`; `ord` and `fuel` are those of `Pattern.new`. -/
def EGraph.idToPattern [DecidableEq Op] [Lang Op] (varOf : Id → Var) (ord : Compiler Op → List (Id × Nat)) (fuel : Nat)
    (eg : EGraph Op D) (i : Id) (subs : AMap Id Id) : Res (Pattern Op × Subst) := do
  let (st, _) ← idToPatternGo varOf eg.nodes subs (eg.nodes.length + 1) ⟨[], [], []⟩ i
  let p ← Pattern.new ord fuel st.res
  return (p, st.subst)

end Egg
