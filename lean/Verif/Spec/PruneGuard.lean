import Verif.Spec.Prune
import Verif.Spec.Fold
/-
Specification vocabulary: e-nodes are dropped only from classes about which something is known.
-/
namespace Egg
variable {Op D : Type} [DecidableEq Op] [Lang Op]

/-- The program drops e-nodes only from classes whose datum it has seen not to satisfy `P` (or `P` is never
satisfied), and sets no datum that satisfies `P`. -/
def PruneProg.Guards (P : D → Prop) : PruneProg Op D → (Id → Prop) → Prop
  | .done, _ => True
  | .panic, _ => True
  | .read k, S => ∀ eg, (k eg).Guards P (fun i => S i ∨ ∃ c, eg.index i = .ok c ∧ ¬ P c.data)
  | .add _ k, S => ∀ i, (k i).Guards P S
  | .union _ _ _ k, S => ∀ r, (k r).Guards P S
  | .setData _ d k, S => ¬ P d ∧ k.Guards P S
  | .retain i _ k, S => ((∀ d, ¬ P d) ∨ S i) ∧ k.Guards P S

/-- The hook `modify` drops e-nodes only from classes whose datum does not satisfy `P`, and a datum that does not satisfy
`P` is not merged into one that does. -/
structure PruneAnalysis.Guards (P : D → Prop) (U : PruneAnalysis Op D) : Prop where
  merge : ∀ a b, P (U.merge a b).1 → P a ∧ P b
  modify : ∀ i, (U.modify i).Guards P (fun _ => False)

/-- A history in which e-nodes are dropped, by the caller or by hooks, only from classes whose datum does not satisfy `P`,
and none of the e-nodes that satisfy `K`.  (A step of `PruneStep (fun _ _ => True)` drops nothing.) -/
inductive GuardHist (K : Op → Nat → Prop) (P : D → Prop) (N : Analysis Op D) (allow : Caller Op D) : List (UnionRec Op) → EGraph Op D → Prop where
  | new : GuardHist K P N allow [] EGraph.new
  | call {U V eg eg'} : GuardHist K P N allow U eg → PruneStep (fun _ _ => True) N allow eg V eg' → GuardHist K P N allow (V ++ U) eg'
  | retain {U eg eg' i k keep} : GuardHist K P N allow U eg → eg.index i = .ok k → ¬ P k.data →
      (∀ n, K n.op n.children.length → keep n = true) → eg.retain i keep = .ok eg' → GuardHist K P N allow U eg'

/-- No e-node is missing from a class of `eg` whose datum satisfies `P`. -/
def Whole (P : D → Prop) (eg full : EGraph Op D) : Prop :=
  ∀ i k kf, eg.index i = .ok k → full.index i = .ok kf → P k.data → ∀ n ∈ kf.nodes, n ∈ k.nodes

/-- `eg` is the state after a history with the unions `U`, except that e-nodes are missing from its classes: none of
those that satisfy `K`, and none at all from classes whose datum satisfies `P`; `M` is the analysis without pruning. -/
def GuardPruned (K : Op → Nat → Prop) (P : D → Prop) (M : Analysis Op D) (allow : Caller Op D) (U : List (UnionRec Op)) (eg : EGraph Op D) : Prop :=
  ∃ full, Hist M allow U full ∧ Thinner eg full ∧ Kept K eg full ∧ Whole P eg full

/-- Nothing is known of the value. -/
abbrev Unknown {V : Type} (d : Option (Known V)) : Prop := d = none

end Egg
