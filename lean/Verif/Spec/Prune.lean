import Verif.Model.Prune
import Verif.Spec.History
/-
Specification vocabulary: histories in which e-nodes are dropped from classes, the same program
without the dropping, and what the two states have in common.
-/
namespace Egg
variable {Op D : Type} [DecidableEq Op] [Lang Op]

/-- The same class except that e-nodes may be missing. -/
structure Subclass (k full : EClass Op D) : Prop where
  id : k.id = full.id
  data : k.data = full.data
  parents : k.parents = full.parents
  nodes : ∀ n ∈ k.nodes, n ∈ full.nodes

/-- `eg` is the same as `full` except that e-nodes may be missing from its classes (and from its index of
operators): the same ids, the same equalities, the same classes with the same data, the same hashcons, the same
pending work, the same explanations. -/
structure Thinner (eg full : EGraph Op D) : Prop where
  find : ∀ i, eg.find i = full.find i
  nodes : eg.nodes = full.nodes
  memo : eg.memo = full.memo
  explain : eg.explain = full.explain
  pending : eg.pending = full.pending
  apending : eg.apending = full.apending
  clean : eg.clean = full.clean
  classes : List.Forall₂ (fun p q => p.1 = q.1 ∧ Subclass p.2 q.2) eg.classes full.classes
  byOp : ∀ d ids, eg.classesForOp d = some ids → ∀ i ∈ ids, ∃ ids', full.classesForOp d = some ids' ∧ i ∈ ids'
  ids : eg.uf.length = full.uf.length

/-- `t` is a term of the class of `i`, whether or not its e-nodes have been dropped: it is made of the e-nodes that
ids were made for (`id_to_node`, `src/egraph.rs:431-433`), where equal ids may be exchanged. -/
inductive TermFor (eg : EGraph Op D) : Id → Term Op → Prop where
  | mk {i j : Id} {n : ENode Op} {ts : List (Term Op)} : SameClass eg i j → eg.nodes[j]? = some n → n.children.length = ts.length →
      (∀ (k : Nat) (c : Id) (t : Term Op), n.children[k]? = some c → ts[k]? = some t → TermFor eg c t) → TermFor eg i (.node n.op ts)

/-- No e-node is missing from a class of `eg` whose operator and number of children satisfy `K`. -/
def Kept (K : Op → Nat → Prop) (eg full : EGraph Op D) : Prop :=
  ∀ i k kf, eg.index i = .ok k → full.index i = .ok kf → ∀ n ∈ kf.nodes, K n.op n.children.length → n ∈ k.nodes

/-- The program without the pruning. -/
def PruneProg.full : PruneProg Op D → Prog Op D
  | .done => .done
  | .panic => .panic
  | .read k => .read fun eg => (k eg).full
  | .add n k => .add n fun i => (k i).full
  | .union a b caller k => .union a b caller fun r => (k r).full
  | .setData i d k => .setData i d k.full
  | .retain _ _ k => k.full

/-- The analysis without the pruning. -/
def PruneAnalysis.full (U : PruneAnalysis Op D) : UserAnalysis Op D where
  make := U.make
  remake := U.remake
  merge := U.merge
  modify := fun i => (U.modify i).full
  allowCycles := U.allowCycles

/-- The program decides what to do without looking at the e-nodes of classes (what it keeps when it prunes may
depend on them). -/
def PruneProg.Blind : PruneProg Op D → Prop
  | .done => True
  | .panic => True
  | .read k => (∀ eg full, Thinner eg full → k eg = k full) ∧ ∀ eg, (k eg).Blind
  | .add _ k => ∀ i, (k i).Blind
  | .union _ _ _ k => ∀ r, (k r).Blind
  | .setData _ _ k => k.Blind
  | .retain _ _ k => k.Blind

/-- The program prunes only classes it knows to exist: those in `S`, those it added, and those it has seen.
(`egraph[id]` panics if there is no such class.) -/
def PruneProg.Knows : PruneProg Op D → (Id → Prop) → Prop
  | .done, _ => True
  | .panic, _ => True
  | .read k, S => ∀ eg, (k eg).Knows (fun i => S i ∨ Valid eg i)
  | .add _ k, S => ∀ i, (k i).Knows (fun j => S j ∨ j = i)
  | .union _ _ _ k, S => ∀ r, (k r).Knows S
  | .setData _ _ k, S => k.Knows S
  | .retain i _ k, S => S i ∧ k.Knows S

/-- The program never drops an e-node whose operator and number of children satisfy `K`. -/
def PruneProg.Keeps (K : Op → Nat → Prop) : PruneProg Op D → Prop
  | .done => True
  | .panic => True
  | .read k => ∀ eg, (k eg).Keeps K
  | .add _ k => ∀ i, (k i).Keeps K
  | .union _ _ _ k => ∀ r, (k r).Keeps K
  | .setData _ _ k => k.Keeps K
  | .retain _ keep k => (∀ eg n, K n.op n.children.length → keep eg n = true) ∧ k.Keeps K

/-- The analysis does not look at the e-nodes of classes (looking up data, `find`, `lookup` and the terms of ids
are allowed), prunes existing classes only, and never drops an e-node that satisfies `K`. -/
structure PruneAnalysis.OK (K : Op → Nat → Prop) (U : PruneAnalysis Op D) : Prop where
  make : ∀ eg full n i, Thinner eg full → U.make eg n i = U.make full n i
  remake : ∀ eg full n i, Thinner eg full → U.remake eg n i = U.remake full n i
  modify : ∀ i, (U.modify i).Blind ∧ (U.modify i).Knows (fun j => j = i) ∧ (U.modify i).Keeps K

/-- One call: any call of `Step`, or dropping e-nodes (none that satisfies `K`) from a class.  When two classes are united whose e-nodes
are gone, the terms recorded may be any terms of these classes. -/
inductive PruneStep (K : Op → Nat → Prop) (N : Analysis Op D) (allow : Caller Op D) :
    EGraph Op D → List (UnionRec Op) → EGraph Op D → Prop where
  | call {eg U eg'} : Step N allow eg U eg' → PruneStep K N allow eg U eg'
  | retain {eg eg' i keep} : (∀ n, K n.op n.children.length → keep n = true) → eg.retain i keep = .ok eg' → PruneStep K N allow eg [] eg'
  | union {eg eg' a b caller r s t} : TermFor eg a s → TermFor eg b t →
      EGraph.union N eg a b caller = .ok (eg', r) → PruneStep K N allow eg [⟨caller, a, b, s, t⟩] eg'
  | unionTrusted {eg eg' a b reason r s t} : TermFor eg a s → TermFor eg b t →
      EGraph.unionTrusted N eg a b reason = .ok (eg', r) → PruneStep K N allow eg [⟨reason, a, b, s, t⟩] eg'

/-- The caller decides which data to set without looking at the e-nodes of classes. -/
def Caller.Blind (allow : Caller Op D) : Prop := ∀ eg full i d, Thinner eg full → allow eg i d → allow full i d

/-- `eg` is the state after some history of calls, pruning included, on a new e-graph. -/
inductive PruneHist (K : Op → Nat → Prop) (N : Analysis Op D) (allow : Caller Op D) : List (UnionRec Op) → EGraph Op D → Prop where
  | new : PruneHist K N allow [] EGraph.new
  | tail {U V eg eg'} : PruneHist K N allow U eg → PruneStep K N allow eg V eg' → PruneHist K N allow (V ++ U) eg'

/-- Two calls have the same outcome: they fail in the same way, or return the same value and leave e-graphs
that differ by missing e-nodes only. -/
def Alike {α : Type} (x full : Res (EGraph Op D × α)) : Prop :=
  (∃ e, x = .error e ∧ full = .error e) ∨
    ∃ eg g a, x = .ok (eg, a) ∧ full = .ok (g, a) ∧ Thinner eg g

end Egg
