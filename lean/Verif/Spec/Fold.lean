import Verif.Spec.Describe
import Verif.Model.Merge
/-
Specification vocabulary: constant folding by an analysis, the idiom of `tests/math.rs:50-106`
(without pruning, for which see Spec/PruneFold.lean), `tests/prop.rs:24-63` and `tests/lambda.rs:48-92`.
-/
namespace Egg
variable {Op V : Type}

/-- What is known of a class: a value, or that two different values were merged (in the Rust code this is the
failed assertion of `merge`). -/
inductive Known (V : Type) where
  | val (v : V)
  | clash
deriving DecidableEq

/-- The value, if there is one. -/
def Known.val? : Known V → Option V
  | .val v => some v
  | .clash => none

/-- `assert_eq!(a, b); DidMerge(false, false)`, `tests/math.rs:81-84`. -/
def Known.both [DecidableEq V] (a b : Known V) : Known V × Bool × Bool :=
  if a = b then (a, false, false) else (.clash, true, true)

/-- How to fold: `eval op ds` is the value of an operator whose arguments have the values `ds`, as far as known;
`con v` is the e-node for the constant `v`.  More knowledge does not change a value. -/
structure Folding (Op V : Type) where
  eval : Op → List (Option V) → Option V
  con : V → Op
  eval_con : ∀ v, eval (con v) [] = some v
  mono : ∀ {op ds ds' v}, List.Forall₂ (fun d d' => d = none ∨ d' = d) ds ds' → eval op ds = some v → eval op ds' = some v

/-- The operators mean `M`, and folding computes correctly with respect to that meaning. -/
def Folding.Agrees (F : Folding Op V) (M : Op → List V → V) : Prop :=
  ∀ op ds vs v, List.Forall₂ (fun d x => d = none ∨ d = some x) ds vs → F.eval op ds = some v → M op vs = v

/-- The datum of an e-node with children data `ds`. -/
def Folding.datum [DecidableEq V] (F : Folding Op V) (op : Op) (ds : List (Option (Known V))) : Option (Known V) :=
  if some .clash ∈ ds then some .clash else (F.eval op (ds.map (·.bind Known.val?))).map .val

variable [DecidableEq Op] [Lang Op]

/-- The data of the children. -/
def childData {D : Type} (eg : EGraph Op D) : List Id → Res (List D)
  | [] => .ok []
  | c :: cs => do
    let k ← eg.index c
    let ds ← childData eg cs
    return k.data :: ds

/-- The analysis: `make` folds, `merge` is `merge_option` with an assertion that the values are equal, and
`modify` adds the constant and unites it with the class.  The assertion cannot stop `merge` in the model: it leaves
`clash`, on which `modify`, called next, panics. -/
def Folding.analysis [DecidableEq V] (F : Folding Op V) (caller : Symbol) : UserAnalysis Op (Option (Known V)) where
  make := fun eg n _ => do return F.datum n.op (← childData eg n.children)
  remake := fun eg n _ => do return F.datum n.op (← childData eg n.children)
  merge := mergeOption Known.both
  modify := fun i => .read fun eg =>
    match eg.index i with
    | .error _ => .panic
    | .ok k =>
      match k.data with
      | none => .done
      | some .clash => .panic
      | some (.val v) => .add ⟨F.con v, []⟩ fun j => .union i j caller fun _ => .done

end Egg
