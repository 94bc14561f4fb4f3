import Verif.Model.Rewrite
/-
Model of the two usual kinds of closures used as conditions (`impl Condition for F`, `src/rewrite.rs:494-504`).
-/
namespace Egg
variable {Op D : Type} [DecidableEq Op] [Lang Op]

/-- A condition that looks at the datum of the class of a variable: the closure
`move |egraph, _, subst| f(&egraph[subst[v]].data)`, as in `tests/math.rs:122-133`, `tests/lambda.rs:83-91`
(`impl Condition for F`, `src/rewrite.rs:494-504`; the default `vars` is empty, `src/rewrite.rs:488-490`). -/
def Condition.onData (v : Var) (f : D → Bool) : Condition Op D where
  check := fun _ eg _ s => do
    let x ← s.index v
    let k ← eg.index x
    return (eg, f k.data)
  vars := []

/-- A condition that looks at the operators of the e-nodes in the class of a variable: the closure
`move |egraph, _, subst| egraph[subst[v]].nodes.iter().any(|n| ..)`, as `is_sym` in `tests/math.rs:126-134`. -/
def Condition.onNodes (v : Var) (f : Op → Bool) : Condition Op D where
  check := fun _ eg _ s => do
    let x ← s.index v
    let k ← eg.index x
    return (eg, k.nodes.any (fun n => f n.op))
  vars := []

end Egg
