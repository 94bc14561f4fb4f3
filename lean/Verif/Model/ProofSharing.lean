import Verif.Model.ProofText
import Verif.Model.ExplainPath
import Verif.Model.ShortPath
/-
Model of explanations with their sharing (`src/explain.rs`): `Rc<TreeTerm>` with the address it
points to.  It refines `TreeTerm`, which has no addresses: `RcTree.tree` forgets them.
-/
namespace Egg
variable {Op : Type}

/-- `Rc<TreeTerm>`, `src/explain.rs:95, 458-471`: `ptr` is the address of the term, used only to
compare pointers; `current` and `last` are the ids of `src/explain.rs:469-470`. -/
inductive RcTree (Op : Type) where
  | mk (ptr : Nat) (current last : Id) (op : Op) (bwd fwd : Option Symbol) (childProofs : List (List (RcTree Op)))

namespace RcTree

def ptr : RcTree Op → Nat | mk p _ _ _ _ _ _ => p
def current : RcTree Op → Id | mk _ c _ _ _ _ _ => c
def last : RcTree Op → Id | mk _ _ l _ _ _ _ => l
def op : RcTree Op → Op | mk _ _ _ o _ _ _ => o
def bwd : RcTree Op → Option Symbol | mk _ _ _ _ b _ _ => b
def fwd : RcTree Op → Option Symbol | mk _ _ _ _ _ f _ => f
def childProofs : RcTree Op → List (List (RcTree Op)) | mk _ _ _ _ _ _ c => c

mutual
/-- The tree without addresses and ids. -/
def tree : RcTree Op → TreeTerm Op
  | mk _ _ _ o b f cps => .mk o b f (treeProofs cps)
def treeProofs : List (List (RcTree Op)) → List (List (TreeTerm Op))
  | [] => []
  | p :: ps => treeAll p :: treeProofs ps
def treeAll : List (RcTree Op) → List (TreeTerm Op)
  | [] => []
  | t :: ts => tree t :: treeAll ts
end

/-! ### Printing with let bindings -/

mutual
/-- `src/explain.rs:717-766` `get_sexp_with_bindings`; `b` are the bindings by address. -/
def sexpWith (T : OpText Op) (name : Symbol → List Char) (b : AMap Nat Sexp) : RcTree Op → Res Sexp
  | mk _ _ _ o bw fw cps => do
    let e ← (if cps.isEmpty then .ok (.str (T.show_ o)) else do
      let ss ← proofsWith T name b cps
      return .list (.str (T.show_ o) :: ss) : Res Sexp)
    return annotate name bw fw e
/-- The loop over the child proofs, `src/explain.rs:723-744`. -/
def proofsWith (T : OpText Op) (name : Symbol → List Char) (b : AMap Nat Sexp) : List (List (RcTree Op)) → Res (List Sexp)
  | [] => .ok []
  | p :: ps => do
    let s ← proofWith T name b p
    let ss ← proofsWith T name b ps
    return s :: ss
/-- A child proof, `src/explain.rs:724-743`. -/
def proofWith (T : OpText Op) (name : Symbol → List Char) (b : AMap Nat Sexp) : List (RcTree Op) → Res Sexp
  | [] => .error .panic
  | [t] =>
    match b.get? t.ptr with
    | some existing => .ok existing
    | none => sexpWith T name b t
  | t :: t' :: ts => do
    let ss ← allWith T name b (t :: t' :: ts)
    return .list (.str "Explanation".toList :: ss)
/-- The loops of `src/explain.rs:733-741` and `src/explain.rs:309-315`. -/
def allWith (T : OpText Op) (name : Symbol → List Char) (b : AMap Nat Sexp) : List (RcTree Op) → Res (List Sexp)
  | [] => .ok []
  | t :: ts => do
    let s ← (match b.get? t.ptr with
      | some existing => .ok existing
      | none => sexpWith T name b t : Res Sexp)
    let ss ← allWith T name b ts
    return s :: ss
end

mutual
/-- `src/explain.rs:329-346` `find_to_let_bind`; the state is `(shared, to_let_bind)`. -/
def findToLetBind : RcTree Op → List Nat × List (RcTree Op) → List Nat × List (RcTree Op)
  | mk p c l o b f cps, (shared, bind) =>
    if cps.isEmpty then (shared, bind)
    else if p ∈ shared then (shared, bind ++ [mk p c l o b f cps])
    else findInProofs cps (p :: shared, bind)
def findInProofs : List (List (RcTree Op)) → List Nat × List (RcTree Op) → List Nat × List (RcTree Op)
  | [], st => st
  | p :: ps, st => findInProofs ps (findInAll p st)
def findInAll : List (RcTree Op) → List Nat × List (RcTree Op) → List Nat × List (RcTree Op)
  | [], st => st
  | t :: ts, st => findInAll ts (findToLetBind t st)
end

/-- The name of a generated binding, `src/explain.rs:301`. -/
def bindName (n : Nat) : List Char := 'v' :: '_' :: showNat n

/-- The loop that generates the bindings, `src/explain.rs:299-306`; the state is
`(bindings, generated_bindings)`. -/
def genBindings (T : OpText Op) (name : Symbol → List Char) : List (RcTree Op) → AMap Nat Sexp × List (List Char × Sexp) →
    Res (AMap Nat Sexp × List (List Char × Sexp))
  | [], st => .ok st
  | t :: ts, (b, gen) =>
    if (b.get? t.ptr).isNone then do
      let ast ← sexpWith T name b t
      genBindings T name ts (b.insert t.ptr (.str (bindName gen.length)), gen ++ [(bindName gen.length, ast)])
    else genBindings T name ts (b, gen)

/-- The nested `let`s, `src/explain.rs:319-322`: the first binding is the outermost. -/
def wrapLets : List (List Char × Sexp) → Sexp → Sexp
  | [], result => result
  | (x, e) :: gen, result => .list [.str "let".toList, .list [.str x, e], wrapLets gen result]

/-- `src/explain.rs:290-325` `get_sexp_with_let`. -/
def sexpWithLet (T : OpText Op) (name : Symbol → List Char) (trees : List (RcTree Op)) : Res Sexp := do
  let (_, toBind) := findInAll trees ([], [])
  let (b, gen) ← genBindings T name toBind ([], [])
  let items ← allWith T name b trees
  return wrapLets gen (.list (.str "Explanation".toList :: items))

/-- `src/explain.rs:221-225` `get_string_with_let`. -/
def stringWithLet (T : OpText Op) (name : Symbol → List Char) (print : Sexp → List Char) (trees : List (RcTree Op)) :
    Res (List Char) := do
  let s ← sexpWithLet T name trees
  return prettyPrint print 100 0 s

/-! ### Size -/

/-- `src/explain.rs:267-274`: the number of rules of a term, at most one. -/
def ownSize (bwd fwd : Option Symbol) : Res Nat :=
  match bwd, fwd with
  | some _, some _ => .error .panic
  | none, none => .ok 0
  | _, _ => .ok 1

/-- The two hash sets of `tree_size`: `seen` and `seen_adjacent`. -/
abbrev Seen := List Nat × List (Id × Id)

mutual
/-- `src/explain.rs:258-288` `tree_size`: the size and the new state. -/
def treeSize : RcTree Op → Seen → Res (Nat × Seen)
  | mk p c l _ b f cps, (seen, adj) =>
    if p ∈ seen then .ok (0, (seen, adj))
    else do
      let own ← ownSize b f
      if own = 1 then
        if (c, l) ∈ adj then return (0, (p :: seen, adj))
        else do
          let (n, st) ← sizeProofs cps (p :: seen, (l, c) :: (c, l) :: adj)
          return (own + n, st)
      else do
        let (n, st) ← sizeProofs cps (p :: seen, adj)
        return (own + n, st)
/-- The loops of `tree_size` over the child proofs. -/
def sizeProofs : List (List (RcTree Op)) → Seen → Res (Nat × Seen)
  | [], st => .ok (0, st)
  | p :: ps, st => do
    let (n, st) ← sizeAll p st
    let (m, st) ← sizeProofs ps st
    return (n + m, st)
/-- The inner loop, and the loop of `get_tree_size`. -/
def sizeAll : List (RcTree Op) → Seen → Res (Nat × Seen)
  | [], st => .ok (0, st)
  | t :: ts, st => do
    let (n, st) ← treeSize t st
    let (m, st) ← sizeAll ts st
    return (n + m, st)
end

/-- `src/explain.rs:247-255` `get_tree_size`. -/
def getTreeSize (trees : List (RcTree Op)) : Res Nat := do
  let (n, _) ← sizeAll trees ([], [])
  return n

end RcTree

/-! ### Making the trees -/

namespace Explain
open RcTree
variable [DecidableEq Op]

/-- `src/explain.rs:1048-1065` `node_to_explanation`, as `nodeToExplanation`, with addresses: the
last component of the result is the next free address. -/
def nodeToRc (nodes : List (ENode Op)) : Nat → Id → AMap Id (RcTree Op) × Nat → Res (RcTree Op × AMap Id (RcTree Op) × Nat)
  | 0, _, _ => .error .fuel
  | f + 1, i, (cache, k) =>
    match cache.get? i with
    | some t => .ok (t, cache, k)
    | none => do
      let n ← getIdx nodes i
      let (ts, cache, k) ← n.children.foldlM (fun (acc : List (List (RcTree Op)) × AMap Id (RcTree Op) × Nat) c => do
        let (t, st) ← nodeToRc nodes f c acc.2
        return (acc.1 ++ [[t]], st)) ([], cache, k)
      let res := RcTree.mk k 0 0 n.op none none ts
      return (res, cache.insert i res, k + 1)

/-- The two caches and the next free address. -/
abbrev RcCaches (Op : Type) := AMap (Id × Id) (RcTree Op) × AMap Id (RcTree Op) × Nat

mutual
/-- `src/explain.rs:1202-1236` `explain_enodes`, as `explainEnodes`, with addresses. -/
def explainRc (x : Explain Op) (nodes : List (ENode Op)) : Nat → Id → Id → RcCaches Op → Res (List (RcTree Op) × RcCaches Op)
  | 0, _, _, _ => .error .fuel
  | f + 1, left, right, cs => do
    let (t0, nc) ← nodeToRc nodes f left cs.2
    let (l, r) ← x.getPath f left right
    (l ++ r.reverse.map flip).foldlM (fun (acc : List (RcTree Op) × RcCaches Op) c => do
      let (t, cs) ← adjacentRc x nodes f c acc.2
      return (acc.1 ++ [t], cs)) ([t0], (cs.1, nc))
/-- `src/explain.rs:1238-1293` `explain_adjacent`, as `explainAdjacent`, with addresses. -/
def adjacentRc (x : Explain Op) (nodes : List (ENode Op)) : Nat → Connection → RcCaches Op → Res (RcTree Op × RcCaches Op)
  | 0, _, _ => .error .fuel
  | f + 1, c, cs =>
    match cs.1.get? (c.current, c.next) with
    | some t => .ok (t, cs)
    | none =>
      match c.justification with
      | .rule name => do
        let (t, nc, k) ← nodeToRc nodes f c.next cs.2
        let t := if c.isRewriteForward then RcTree.mk k c.next c.current t.op t.bwd (some name) t.childProofs
          else RcTree.mk k c.next c.current t.op (some name) t.fwd t.childProofs
        return (t, cs.1.insert (c.current, c.next) t, nc, k + 1)
      | .congruence => do
        let cur ← getIdx nodes c.current
        let nxt ← getIdx nodes c.next
        if cur.matches nxt then do
          let (subproofs, cs) ← (cur.children.zip nxt.children).foldlM
            (fun (acc : List (List (RcTree Op)) × RcCaches Op) p => do
              let (q, cs) ← explainRc x nodes f p.1 p.2 acc.2
              return (acc.1 ++ [q], cs)) ([], cs)
          let t := RcTree.mk cs.2.2 0 0 cur.op none none subproofs
          return (t, cs.1.insert (c.current, c.next) t, cs.2.1, cs.2.2 + 1)
        else .error .panic
end

end Explain

variable {Dat : Type} [DecidableEq Op] [Lang Op]

/-- `src/egraph.rs:501-521` `explain_id_equivalence` with `src/explain.rs:1101-1115`
`explain_equivalence`, as `EGraph.explainIdEquivalence`, with addresses. -/
def EGraph.explainIdShared (eg : EGraph Op Dat) (ch : Explain.Choices) (fuel : Nat) (left right : Id) :
    Res (List (RcTree Op)) := do
  let l ← eg.find left
  let r ← eg.find right
  if l ≠ r then .error .panic
  else match eg.explain with
    | none => .error .panic
    | some x => do
      let x ← (if x.optimize then x.calculateShortestExplanations ch eg.nodes eg.uf eg.classes.keys fuel left right else .ok x : Res (Explain Op))
      let (p, _) ← x.explainRc eg.nodes fuel left right ([], [], 0)
      return p

end Egg
