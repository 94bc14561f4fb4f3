import Verif.Spec.Below
/-
What the iterations of a run record.
-/
namespace Egg
variable {Op D : Type} [DecidableEq Op] [Lang Op]

/-- The records `its` belong to a sequence of e-graphs from `g` to `g'`: each record is in the relation `P` to the e-graph
with which its iteration started and the one with which it ended. -/
inductive Recorded (P : EGraph Op D → Iteration → EGraph Op D → Prop) : EGraph Op D → List Iteration → EGraph Op D → Prop where
  | nil {g} : Recorded P g [] g
  | cons {g it g1 its g'} : P g it g1 → Recorded P g1 its g' → Recorded P g (it :: its) g'

/-- The record shows the size of the e-graph at the start of the iteration, and positive counts for names of
rules, one for each name. -/
structure StartRecord (rules : List (Rewrite Op D)) (g : EGraph Op D) (it : Iteration) (g' : EGraph Op D) : Prop where
  nodes : it.egraphNodes = g.totalSize
  classes : it.egraphClasses = g.numberOfClasses
  applied : ∀ name n, (name, n) ∈ it.applied → 0 < n ∧ ∃ rw ∈ rules, rw.name = name
  once : (it.applied.map Prod.fst).Nodup
  clean : g'.clean = true

/-- The sum of the counts in a record. -/
def Iteration.total (it : Iteration) : Nat := (it.applied.map Prod.snd).sum

/-- The books balance: the classes at the start, and the ids created during the iteration, are the classes at the end, the
applications of rules and the unions of the rebuild.  With explanations some of the created ids are not
new classes. -/
def Balanced (g : EGraph Op D) (it : Iteration) (g' : EGraph Op D) : Prop :=
  g'.numberOfClasses + it.total + it.nRebuilds + g.nodes.length ≤ g.numberOfClasses + g'.nodes.length ∧
  (g.explain = none →
    g'.numberOfClasses + it.total + it.nRebuilds + g.nodes.length = g.numberOfClasses + g'.nodes.length)

end Egg
