import Verif.Model.Base
/-
Model of `src/unionfind.rs`.
-/
namespace Egg

/-- `src/unionfind.rs:5-9` `UnionFind { parents: Vec<Id> }`. -/
abbrev UF := List Id

namespace UF

/-- `src/unionfind.rs:12-16` `make_set`. -/
def makeSet (ps : UF) : UF × Id := (ps ++ [ps.length], ps.length)

/-- `src/unionfind.rs:18-20` `size`. -/
def size (ps : UF) : Nat := ps.length

/-- The loop of `find`, `src/unionfind.rs:30-35`, with an iteration bound. -/
def findLoop : Nat → UF → Id → Res Id
  | 0, _, _ => .error .fuel
  | k + 1, ps, i =>
    match ps[i]? with
    | none => .error .panic
    | some p => if i = p then .ok i else findLoop k ps p

/-- `src/unionfind.rs:30-35` `find`.  The bound `length + 1` is never reached
in a well-formed union-find (`UF.find_eq_ok`). -/
def find (ps : UF) (i : Id) : Res Id := findLoop (ps.length + 1) ps i

/-- The loop of `find_mut` (path halving), `src/unionfind.rs:37-44`. -/
def findMutLoop : Nat → UF → Id → Res (UF × Id)
  | 0, _, _ => .error .fuel
  | k + 1, ps, i =>
    match ps[i]? with
    | none => .error .panic
    | some p =>
      if i = p then .ok (ps, i)
      else match ps[p]? with
        | none => .error .panic
        | some g => findMutLoop k (ps.set i g) g

/-- `src/unionfind.rs:37-44` `find_mut`. -/
def findMut (ps : UF) (i : Id) : Res (UF × Id) := findMutLoop (ps.length + 1) ps i

/-- `src/unionfind.rs:47-50` `union`: `parents[root2] = root1`. -/
def union (ps : UF) (root1 root2 : Id) : Res UF :=
  if root2 < ps.length then .ok (ps.set root2 root1) else .error .panic

/-- `find_mut` applied to a list of ids from left to right, as done by
`update_children(|id| uf.find_mut(id))`, `src/egraph.rs:1354`, `1273-1276`. -/
def findMutList : UF → List Id → Res (UF × List Id)
  | ps, [] => .ok (ps, [])
  | ps, i :: is => do
    let (ps, r) ← findMut ps i
    let (ps, rs) ← findMutList ps is
    return (ps, r :: rs)

end UF
end Egg
