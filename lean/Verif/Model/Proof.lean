import Verif.Model.Rewrite
import Verif.Model.Explain
/-
Model of explanations (`src/explain.rs`): tree and flat proofs, flattening, and
the proof checker.
-/
namespace Egg
variable {Op : Type} [DecidableEq Op]

/-- `src/explain.rs:588-599` `FlatTerm`.  `node` is represented by its operator; the ids of its
children are ignored by the code (its comment says so), and its number of children is taken to be
that of `children`, which is so for all flat terms that the crate makes. -/
inductive FlatTerm (Op : Type) where
  | mk (op : Op) (bwd fwd : Option Symbol) (children : List (FlatTerm Op))

/-- `src/explain.rs:458-471` `TreeTerm`, with the same simplification of `node`; the fields `last`
and `current`, which only `tree_size` reads, are left out, as is the sharing of `Rc` pointers. -/
inductive TreeTerm (Op : Type) where
  | mk (op : Op) (bwd fwd : Option Symbol) (childProofs : List (List (TreeTerm Op)))

namespace FlatTerm

def op : FlatTerm Op → Op | mk o _ _ _ => o
def bwd : FlatTerm Op → Option Symbol | mk _ b _ _ => b
def fwd : FlatTerm Op → Option Symbol | mk _ _ f _ => f
def children : FlatTerm Op → List (FlatTerm Op) | mk _ _ _ c => c

/-- `src/explain.rs:771-778` `FlatTerm::new`. -/
def new (op : Op) (children : List (FlatTerm Op)) : FlatTerm Op := mk op none none children

mutual
/-- `src/explain.rs:608-621` `FlatTerm::eq`: annotations are not compared. -/
def eq : FlatTerm Op → FlatTerm Op → Bool
  | mk o _ _ cs, mk o' _ _ cs' => decide (o = o') && (cs.length == cs'.length) && eqAll cs cs'
/-- The loop of `FlatTerm::eq`. -/
def eqAll : List (FlatTerm Op) → List (FlatTerm Op) → Bool
  | c :: cs, c' :: cs' => eq c c' && eqAll cs cs'
  | _, _ => true
end

mutual
/-- `src/explain.rs:625-633` `remove_rewrites`. -/
def removeRewrites : FlatTerm Op → FlatTerm Op
  | mk o _ _ cs => new o (removeAll cs)
def removeAll : List (FlatTerm Op) → List (FlatTerm Op)
  | [] => []
  | c :: cs => removeRewrites c :: removeAll cs
end

/-- One field of `combine_rewrites`, `src/explain.rs:636-644`. -/
def combineRule (self other : Option Symbol) : Res (Option Symbol) :=
  match other with
  | none => .ok self
  | some r => if self.isSome then .error .panic else .ok (some r)

mutual
/-- `src/explain.rs:635-649` `combine_rewrites`. -/
def combineRewrites : FlatTerm Op → FlatTerm Op → Res (FlatTerm Op)
  | mk o b f cs, mk _ b' f' cs' => do
    let f ← combineRule f f'
    let b ← combineRule b b'
    let cs ← combineAll cs cs'
    return mk o b f cs
def combineAll : List (FlatTerm Op) → List (FlatTerm Op) → Res (List (FlatTerm Op))
  | c :: cs, c' :: cs' => do
    let d ← combineRewrites c c'
    let ds ← combineAll cs cs'
    return d :: ds
  | cs, _ => .ok cs
end

mutual
/-- `src/explain.rs:789-795` `has_rewrite_forward`. -/
def hasForward : FlatTerm Op → Bool
  | mk _ _ f cs => f.isSome || anyForward cs
def anyForward : List (FlatTerm Op) → Bool
  | [] => false
  | c :: cs => hasForward c || anyForward cs
end

mutual
/-- `src/explain.rs:798-804` `has_rewrite_backward`. -/
def hasBackward : FlatTerm Op → Bool
  | mk _ b _ cs => b.isSome || anyBackward cs
def anyBackward : List (FlatTerm Op) → Bool
  | [] => false
  | c :: cs => hasBackward c || anyBackward cs
end

/-- `src/explain.rs:806-825` `from_pattern`; recursion depth bounded by fuel. -/
def fromPattern (p : PatternAst Op) (b : AMap Var (FlatTerm Op)) : Nat → Nat → Res (FlatTerm Op)
  | 0, _ => .error .fuel
  | f + 1, loc => do
    let n ← getIdx p loc
    match n.op with
    | .var v => unwrap (b.get? v)
    | .op o => do
      let cs ← n.children.mapM (fun c => fromPattern p b f c)
      return new o cs

mutual
/-- `src/explain.rs:827-856` `make_bindings`. -/
def makeBindings (p : PatternAst Op) : FlatTerm Op → Nat → AMap Var (FlatTerm Op) → Res (AMap Var (FlatTerm Op))
  | mk o bw fw cs, loc, b => do
    let n ← getIdx p loc
    match n.op with
    | .var v =>
      match b.get? v with
      | some existing => if eq existing (mk o bw fw cs) then return b else .error .panic
      | none => return b.insert v (mk o bw fw cs)
    | .op o' => if o' = o ∧ n.children.length = cs.length then makeBindingsAll p cs n.children b else .error .panic
/-- The closure passed to `for_each` in `make_bindings`. -/
def makeBindingsAll (p : PatternAst Op) : List (FlatTerm Op) → List Id → AMap Var (FlatTerm Op) → Res (AMap Var (FlatTerm Op))
  | _, [], b => .ok b
  | [], _ :: _, _ => .error .panic
  | t :: ts, c :: cs, b => do
    let b ← makeBindings p t c b
    makeBindingsAll p ts cs b
end

/-- `lhs.len() - 1` on a vector (panics on underflow in debug builds; the index is then out of
bounds in release builds). -/
def lastIdx {α : Type} (l : List α) : Res Nat := if l.length = 0 then .error .panic else .ok (l.length - 1)

/-- `src/explain.rs:782-786` `rewrite`. -/
def rewrite (self : FlatTerm Op) (fuel : Nat) (lhs rhs : PatternAst Op) : Res (FlatTerm Op) := do
  let i ← lastIdx lhs
  let b ← makeBindings lhs self i []
  let j ← lastIdx rhs
  fromPattern rhs b fuel j

end FlatTerm

namespace TreeTerm
open FlatTerm

def op : TreeTerm Op → Op | mk o _ _ _ => o
def bwd : TreeTerm Op → Option Symbol | mk _ b _ _ => b
def fwd : TreeTerm Op → Option Symbol | mk _ _ f _ => f
def childProofs : TreeTerm Op → List (List (TreeTerm Op)) | mk _ _ _ c => c

/-- `src/explain.rs:475-484` `TreeTerm::new`. -/
def new (op : Op) (cps : List (List (TreeTerm Op))) : TreeTerm Op := mk op none none cps

/-- First element of a vector, `v[0]`. -/
def first {α : Type} (l : List α) : Res α := unwrap l.head?

/-- The steps that a child proof contributes, `src/explain.rs:549-566`; `i` is the position of the
child, `reps` the `representative_terms`, and `proof` is split into all but the last term (`done`)
and the last term (`last`). -/
def flattenLoop (op : Op) : Nat → List (List (FlatTerm Op)) → List (FlatTerm Op) → List (FlatTerm Op) → FlatTerm Op →
    Res (List (FlatTerm Op))
  | _, [], _, done, last => .ok (done ++ [last])
  | i, cp :: cps, reps, done, last => do
    let c0 ← first cp
    let last := FlatTerm.mk last.op last.bwd last.fwd (last.children.set i c0)
    let new := cp.tail.map (fun c => FlatTerm.new op (reps.set i c))
    let cl ← unwrap cp.getLast?
    let all := done ++ last :: new
    let last ← unwrap all.getLast?
    flattenLoop op (i + 1) cps (reps.set i cl.removeRewrites) all.dropLast last

/-- `src/explain.rs:534-572`, the part of `flatten_explanation` after the child proofs were flattened. -/
def assemble (op : Op) (bwd fwd : Option Symbol) (childFlats : List (List (FlatTerm Op))) : Res (List (FlatTerm Op)) := do
  let reps ← childFlats.mapM (fun p => do let f ← first p; return f.removeRewrites)
  let proof ← flattenLoop op 0 childFlats reps [] (FlatTerm.new op reps)
  match proof with
  | [] => .error .panic
  | f :: fs => return FlatTerm.mk f.op bwd fwd f.children :: fs

/-- Body of the loop of `flatten_proof`, `src/explain.rs:488-500`. -/
def glue (flat explanation : List (FlatTerm Op)) : Res (List (FlatTerm Op)) :=
  match flat.getLast? with
  | none => .ok explanation
  | some last => do
    let e0 ← first explanation
    if !e0.hasForward && !e0.hasBackward then do
      let e ← e0.combineRewrites last
      return flat.dropLast ++ e :: explanation.tail
    else return flat ++ explanation

mutual
/-- `src/explain.rs:534-572` `flatten_explanation`. -/
def flattenExplanation : TreeTerm Op → Res (List (FlatTerm Op))
  | mk op b f cps => do
    let flats ← flattenChildren cps
    assemble op b f flats
/-- The first loop of `flatten_explanation`. -/
def flattenChildren : List (List (TreeTerm Op)) → Res (List (List (FlatTerm Op)))
  | [] => .ok []
  | p :: ps => do
    let f ← flattenProof p []
    let fs ← flattenChildren ps
    return f :: fs
/-- `src/explain.rs:486-503` `flatten_proof`; the second argument is `flat_proof`. -/
def flattenProof : List (TreeTerm Op) → List (FlatTerm Op) → Res (List (FlatTerm Op))
  | [], acc => .ok acc
  | t :: ts, acc => do
    let e ← flattenExplanation t
    let acc ← glue acc e
    flattenProof ts acc
end

end TreeTerm

/-! ### The proof checker -/

/-- What the checker reads of a rule: its name and the patterns of its searcher and applier, if
they are patterns (`get_pattern_ast`). -/
structure RuleInfo (Op : Type) where
  name : Symbol
  lhs : Option (PatternAst Op)
  rhs : Option (PatternAst Op)

/-- `src/explain.rs:888-898` `make_rule_table`. -/
def makeRuleTable (rules : List (RuleInfo Op)) : AMap Symbol (RuleInfo Op) :=
  rules.foldl (fun t r => t.insert r.name r) []

/-- `src/explain.rs:427-442` `check_rewrite`. -/
def checkRewrite (fuel : Nat) (current next : FlatTerm Op) (r : RuleInfo Op) : Res Bool :=
  match r.lhs, r.rhs with
  | some l, some rh => do
    let t ← current.rewrite fuel l rh
    return t.eq next
  | _, _ => .ok true

mutual
/-- `src/explain.rs:396-424` `check_rewrite_at`. -/
def checkRewriteAt (fuel : Nat) (table : AMap Symbol (RuleInfo Op)) (fw : Bool) : FlatTerm Op → FlatTerm Op → Res Bool
  | .mk o b f cs, .mk o' b' f' cs' =>
    match (if fw then f' else none), (if fw then none else b') with
    | some r, _ =>
      match table.get? r with
      | some rule => checkRewrite fuel (.mk o b f cs) (.mk o' b' f' cs') rule
      | none => .ok true
    | none, some r =>
      match table.get? r with
      | some rule => checkRewrite fuel (.mk o' b' f' cs') (.mk o b f cs) rule
      | none => .ok true
    | none, none => checkRewriteAll fuel table fw cs cs'
/-- The loop of `check_rewrite_at`. -/
def checkRewriteAll (fuel : Nat) (table : AMap Symbol (RuleInfo Op)) (fw : Bool) :
    List (FlatTerm Op) → List (FlatTerm Op) → Res Bool
  | c :: cs, c' :: cs' => do
    if ← checkRewriteAt fuel table fw c c' then checkRewriteAll fuel table fw cs cs' else return false
  | _, _ => .ok true
end

/-- `assert!`. -/
def assert (b : Bool) : Res Unit := if b then .ok () else .error .panic

/-- The loop of `check_proof`, `src/explain.rs:380-393`. -/
def checkSteps (fuel : Nat) (table : AMap Symbol (RuleInfo Op)) : List (FlatTerm Op) → Res Unit
  | current :: next :: rest => do
    assert (xor next.hasForward next.hasBackward)
    let ok ← checkRewriteAt fuel table next.hasForward current next
    assert ok
    checkSteps fuel table (next :: rest)
  | _ => .ok ()

/-- `src/explain.rs:368-394` `check_proof`: `.ok` if it returns, `.error .panic` if an assertion
fails.  `fuel` bounds the recursion of `from_pattern`. -/
def checkProof (fuel : Nat) (rules : List (RuleInfo Op)) (trees : List (TreeTerm Op)) : Res Unit := do
  let flat ← TreeTerm.flattenProof trees []
  let f0 ← TreeTerm.first flat
  assert (!f0.hasForward)
  assert (!f0.hasBackward)
  checkSteps fuel (makeRuleTable rules) flat

end Egg
