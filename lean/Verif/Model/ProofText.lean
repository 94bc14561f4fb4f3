import Verif.Model.Proof
import Verif.Model.Text
/-
Model of the printing of explanations (`src/explain.rs:125-347, 500-531, 601-766`).  `T` prints
operators, `name` is the text of an interned rule name, `print` and `parse` are the `Display` and
the parser of s-expressions.
-/
namespace Egg
variable {Op : Type}

/-- The last part of `get_sexp` and `get_sexp_with_bindings`, `src/explain.rs:675-694, 748-764`:
the rule annotations are put around the expression. -/
def annotate (name : Symbol → List Char) (bwd fwd : Option Symbol) (expr : Sexp) : Sexp :=
  let expr := match bwd with
    | some r => Sexp.list [.str "Rewrite<=".toList, .str (name r), expr]
    | none => expr
  match fwd with
  | some r => .list [.str "Rewrite=>".toList, .str (name r), expr]
  | none => expr

namespace FlatTerm

mutual
/-- `src/explain.rs:665-694` `FlatTerm::get_sexp`. -/
def getSexp (T : OpText Op) (name : Symbol → List Char) : FlatTerm Op → Sexp
  | mk o b f cs =>
    annotate name b f (if cs.isEmpty then .str (T.show_ o) else .list (.str (T.show_ o) :: getSexps T name cs))
/-- The loop of `get_sexp` over the children. -/
def getSexps (T : OpText Op) (name : Symbol → List Char) : List (FlatTerm Op) → List Sexp
  | [] => []
  | c :: cs => getSexp T name c :: getSexps T name cs
end

/-- `src/explain.rs:661-663` `FlatTerm::get_string`, and `Display for FlatTerm`,
`src/explain.rs:601-606`. -/
def getString (T : OpText Op) (name : Symbol → List Char) (print : Sexp → List Char) (t : FlatTerm Op) : List Char :=
  print (t.getSexp T name)

/-- `src/explain.rs:697-699` `get_recexpr`; the `unwrap` of a failed parse is a panic. -/
def getRecExpr (T : OpText Op) (name : Symbol → List Char) (print : Sexp → List Char) (parse : List Char → Option Sexp)
    (t : FlatTerm Op) : Res (List (ENode Op)) :=
  match parseExpr T parse (t.removeRewrites.getString T name print) with
  | .ok e => .ok e
  | .error _ => .error .panic

end FlatTerm

namespace TreeTerm

mutual
/-- `src/explain.rs:506-517` `get_initial_flat_term`. -/
def getInitial : TreeTerm Op → Res (FlatTerm Op)
  | mk o b f cps => do
    let cs ← initials cps
    return .mk o b f cs
/-- The children of `get_initial_flat_term`. -/
def initials : List (List (TreeTerm Op)) → Res (List (FlatTerm Op))
  | [] => .ok []
  | [] :: _ => .error .panic
  | (t :: _) :: ps => do
    let c ← getInitial t
    let cs ← initials ps
    return c :: cs
end

mutual
/-- `src/explain.rs:520-531` `get_last_flat_term`. -/
def getLast : TreeTerm Op → Res (FlatTerm Op)
  | mk o b f cps => do
    let cs ← lasts cps
    return .mk o b f cs
/-- The children of `get_last_flat_term`. -/
def lasts : List (List (TreeTerm Op)) → Res (List (FlatTerm Op))
  | [] => .ok []
  | p :: ps => do
    let c ← lastOf p
    let cs ← lasts ps
    return c :: cs
/-- `child_proof[child_proof.len() - 1].get_last_flat_term()`. -/
def lastOf : List (TreeTerm Op) → Res (FlatTerm Op)
  | [] => .error .panic
  | [t] => getLast t
  | _ :: t :: ts => lastOf (t :: ts)
end

mutual
/-- `src/explain.rs:713-715, 717-766` `TreeTerm::get_sexp`: `get_sexp_with_bindings` without
bindings. -/
def getSexp (T : OpText Op) (name : Symbol → List Char) : TreeTerm Op → Res Sexp
  | mk o b f cps => do
    let e ← (if cps.isEmpty then .ok (.str (T.show_ o)) else do
      let ss ← sexpProofs T name cps
      return .list (.str (T.show_ o) :: ss) : Res Sexp)
    return annotate name b f e
/-- The loop over the child proofs, `src/explain.rs:723-744`. -/
def sexpProofs (T : OpText Op) (name : Symbol → List Char) : List (List (TreeTerm Op)) → Res (List Sexp)
  | [] => .ok []
  | p :: ps => do
    let s ← sexpProof T name p
    let ss ← sexpProofs T name ps
    return s :: ss
/-- A child proof, `src/explain.rs:724-743`. -/
def sexpProof (T : OpText Op) (name : Symbol → List Char) : List (TreeTerm Op) → Res Sexp
  | [] => .error .panic
  | [t] => getSexp T name t
  | t :: t' :: ts => do
    let ss ← sexpAll T name (t :: t' :: ts)
    return .list (.str "Explanation".toList :: ss)
/-- The loop over the terms of a child proof, `src/explain.rs:733-741`, and of an explanation,
`src/explain.rs:238-240`. -/
def sexpAll (T : OpText Op) (name : Symbol → List Char) : List (TreeTerm Op) → Res (List Sexp)
  | [] => .ok []
  | t :: ts => do
    let s ← getSexp T name t
    let ss ← sexpAll T name ts
    return s :: ss
end

/-- `src/explain.rs:701-708` `Display for TreeTerm`. -/
def show_ (T : OpText Op) (name : Symbol → List Char) (print : Sexp → List Char) (t : TreeTerm Op) : Res (List Char) := do
  let s ← t.getSexp T name
  return prettyPrint print 80 1 s

end TreeTerm

/-! ### Explanations: `explanation_trees` is the list of trees -/

/-- `src/explain.rs:236-243` `Explanation::get_sexp`. -/
def explanationSexp (T : OpText Op) (name : Symbol → List Char) (trees : List (TreeTerm Op)) : Res Sexp := do
  let items ← TreeTerm.sexpAll T name trees
  return .list (.str "Explanation".toList :: items)

/-- `src/explain.rs:186-188` `get_string`, that is `Display for Explanation`, `src/explain.rs:125-130`. -/
def explanationString (T : OpText Op) (name : Symbol → List Char) (print : Sexp → List Char) (trees : List (TreeTerm Op)) :
    Res (List Char) := do
  let s ← explanationSexp T name trees
  return print s

variable [DecidableEq Op]

/-- `src/explain.rs:229-234` `get_flat_strings`, with `make_flat_explanation`, `src/explain.rs:359-364`,
whose result is kept for the next call (not modelled: it is the same). -/
def flatStrings (T : OpText Op) (name : Symbol → List Char) (print : Sexp → List Char) (trees : List (TreeTerm Op)) :
    Res (List (List Char)) := do
  let flat ← TreeTerm.flattenProof trees []
  return flat.map (FlatTerm.getString T name print)

/-- `join("\n")` of a vector of strings. -/
def joinLines : List (List Char) → List Char
  | [] => []
  | [l] => l
  | l :: l' :: ls => l ++ '\n' :: joinLines (l' :: ls)

/-- `src/explain.rs:153-155` `get_flat_string`. -/
def flatString (T : OpText Op) (name : Symbol → List Char) (print : Sexp → List Char) (trees : List (TreeTerm Op)) :
    Res (List Char) := do
  let ls ← flatStrings T name print trees
  return joinLines ls

end Egg
