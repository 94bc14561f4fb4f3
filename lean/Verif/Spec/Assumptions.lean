import Verif.Spec.History
/-
Specification vocabulary: what the theorems assume of the caller of the e-graph
API and of user-supplied analyses.
-/
namespace Egg

/-- What the caller of the operations vouches for.
* `R`: a congruence on terms that contains all requested equations;
* `J`: the admissible (reason, from, to) triples;
* `optimized`: explanations may be requested with length optimization;
* `V d t`: the datum `d` is a correct description of the term `t`;
* `le`, `B`: the order on data, and `B op ds u`: the datum `u` accounts for an
  e-node with operator `op` whose children carry the data `ds`. -/
structure Cfg (Op D : Type) where
  R : Term Op → Term Op → Prop
  isCong : IsCongruence R
  J : Symbol → Id → Id → Prop
  optimized : Prop
  V : D → Term Op → Prop
  vResp : ∀ {s t d}, R s t → V d s → V d t
  le : D → D → Prop
  leRefl : ∀ d, le d d
  leTrans : ∀ {a b c}, le a b → le b c → le a c
  B : Op → List D → D → Prop
  bUp : ∀ {op ds a b}, B op ds a → le a b → B op ds b
  bAnti : ∀ {op ds ds' u}, List.Forall₂ le ds' ds → B op ds u → B op ds' u

/-- Only equations and reasons; nothing about the analysis. -/
def Cfg.ofR {Op D : Type} (R : Term Op → Term Op → Prop) (hR : IsCongruence R)
    (J : Symbol → Id → Id → Prop) : Cfg Op D where
  R := R
  isCong := hR
  J := J
  optimized := True
  V := fun _ _ => True
  vResp := fun _ _ => trivial
  le := fun _ _ => True
  leRefl := fun _ => trivial
  leTrans := fun _ _ => trivial
  B := fun _ _ _ => True
  bUp := fun _ _ => trivial
  bAnti := fun _ _ => trivial

theorem isCongruence_true {Op : Type} : IsCongruence (fun _ _ : Term Op => True) :=
  ⟨fun _ => trivial, fun _ => trivial, fun _ _ => trivial, fun _ _ _ _ => trivial⟩

/-- No constraint at all. -/
def Cfg.any {Op D : Type} : Cfg Op D := Cfg.ofR (fun _ _ => True) isCongruence_true (fun _ _ _ => True)

variable {Op D : Type} [DecidableEq Op] [Lang Op]

/-- The children of `n` have classes with data `ds`. -/
def EGraph.ChildData (eg : EGraph Op D) (n : ENode Op) (ds : List D) : Prop :=
  List.Forall₂ (fun c d => ∃ k, eg.index c = .ok k ∧ k.data = d) n.children ds

omit [DecidableEq Op] [Lang Op] in
/-- Requirements on the datum made for an e-node with operator `op` over children
with data `ds`: it accounts for the e-node, is least with that property, and
describes every term `op ts` whose arguments are described by `ds`. -/
def MakeOK (C : Cfg Op D) (op : Op) (ds : List D) (d : D) : Prop :=
  C.B op ds d ∧ (∀ u, C.B op ds u → C.le d u) ∧ ∀ ts, List.Forall₂ C.V ds ts → C.V d (.node op ts)

/-- What user code may rely on when it is called: ids stored in e-nodes are
valid, every class represents a term, terms of one class are related, data
describe the terms of their class. -/
structure Sensible (C : Cfg Op D) (eg : EGraph Op D) : Prop where
  inhabited : ∀ i, Valid eg i → ∃ t, Rep eg i t
  closed : ∀ c k n ch, eg.classes.get? c = some k → n ∈ k.nodes → ch ∈ n.children → Valid eg ch
  sound : ∀ a b s t, SameClass eg a b → Rep eg a s → Rep eg b t → C.R s t
  data : ∀ i k t, eg.index i = .ok k → Rep eg i t → C.V k.data t

/-- Replacing the datum of `i` by `d` is correct: it describes all terms of the
class and is equivalent to the old one in the order. -/
def SetOK (C : Cfg Op D) (eg : EGraph Op D) (i : Id) (d : D) : Prop :=
  (∀ k, eg.index i = .ok k → C.le k.data d ∧ C.le d k.data) ∧ ∀ t, Rep eg i t → C.V d t

/-- What user code may rely on after a call that took `eg` to `eg'`: the new
state is sensible, ids stay valid, represented terms stay represented. -/
structure Later (C : Cfg Op D) (eg eg' : EGraph Op D) : Prop where
  sensible : Sensible C eg'
  valid : ∀ i, Valid eg i → Valid eg' i
  rep : ∀ i t, Rep eg i t → Rep eg' i t

/-- A program over the API is safe when run in state `eg`: it uses valid ids
(unless panics are allowed by `E`), the unions it requests are sound for `C.R`,
and the data it sets are correct.  What a call returns may be relied upon: `add`
returns a class representing the added e-node. -/
def Prog.Safe (C : Cfg Op D) (E : Err → Prop) (N : Analysis Op D) : Prog Op D → EGraph Op D → Prop
  | .done, _ => True
  | .panic, _ => E .panic
  | .read k, eg => (k eg).Safe C E N eg
  | .add n k, eg =>
    ((∀ c ∈ n.children, Valid eg c) ∨ E .panic) ∧
    ∀ eg' i, EGraph.add N eg n = .ok (eg', i) → Later C eg eg' →
      (Valid eg' i ∧ ∀ ts, List.Forall₂ (Rep eg') n.children ts → Rep eg' i (.node n.op ts)) →
      (k i).Safe C E N eg'
  | .union a b caller k, eg =>
    ((Valid eg a ∧ Valid eg b) ∨ E .panic) ∧
    (Valid eg a → Valid eg b → (∃ s t, Rep eg a s ∧ Rep eg b t ∧ C.R s t) ∧ C.J caller a b) ∧
    ∀ eg' r, EGraph.union N eg a b caller = .ok (eg', r) → Later C eg eg' → SameClass eg' a b →
      (k r).Safe C E N eg'
  | .setData i d k, eg =>
    (Valid eg i ∨ E .panic) ∧ SetOK C eg i d ∧
    ∀ eg', EGraph.setAnalysisData N eg i d = .ok eg' → Later C eg eg' → k.Safe C E N eg'

/-- What is assumed of the user's analysis. -/
structure UserAnalysis.OK (C : Cfg Op D) (E : Err → Prop) (U : UserAnalysis Op D) : Prop where
  make : ∀ eg n i ds, EGraph.ChildData eg n ds →
    match U.make eg n i with
    | .ok d => MakeOK C n.op ds d
    | .error e => E e
  remake : ∀ eg n i ds, EGraph.ChildData eg n ds →
    match U.remake eg n i with
    | .ok d => MakeOK C n.op ds d
    | .error e => E e
  mergeV : ∀ {a b t}, C.V a t → C.V b t → C.V (U.merge a b).1 t
  mergeL : ∀ a b, C.le a (U.merge a b).1
  mergeR : ∀ a b, C.le b (U.merge a b).1
  mergeLub : ∀ {a b u}, C.le a u → C.le b u → C.le (U.merge a b).1 u
  flagL : ∀ a b, (U.merge a b).2.1 = false → C.le (U.merge a b).1 a
  flagR : ∀ a b, (U.merge a b).2.2 = false → C.le (U.merge a b).1 b
  modify : ∀ depth eg i, Sensible C eg → Valid eg i → (U.modify i).Safe C E (U.at depth) eg

/-- Whenever the program, run in state `eg`, ends successfully, the final state satisfies `Q`.  As in
`Prog.Safe` what the calls guarantee may be relied upon. -/
def Prog.Ends (C : Cfg Op D) (N : Analysis Op D) (Q : EGraph Op D → Prop) : Prog Op D → EGraph Op D → Prop
  | .done, eg => Q eg
  | .panic, _ => True
  | .read k, eg => (k eg).Ends C N Q eg
  | .add n k, eg =>
    ∀ eg' i, EGraph.add N eg n = .ok (eg', i) → Later C eg eg' →
      (Valid eg' i ∧ ∀ ts, List.Forall₂ (Rep eg') n.children ts → Rep eg' i (.node n.op ts)) →
      (k i).Ends C N Q eg'
  | .union a b caller k, eg =>
    ∀ eg' r, EGraph.union N eg a b caller = .ok (eg', r) → Later C eg eg' → SameClass eg' a b →
      (k r).Ends C N Q eg'
  | .setData i d k, eg =>
    ∀ eg', EGraph.setAnalysisData N eg i d = .ok eg' → Later C eg eg' → k.Ends C N Q eg'

/-- `modify` delivers what data promise.  `P d t`: a class with datum `d` is to contain the term `t`
(for constant folding: `d` is the known value and `t` the literal).  A successful run of `modify` on a
class makes the class contain what its datum promises when the run begins; a `merge` that reports
"unchanged" for its first argument adds no promise to it. -/
structure UserAnalysis.Delivers (C : Cfg Op D) (U : UserAnalysis Op D) (P : D → Term Op → Prop) : Prop where
  flag : ∀ a b t, (U.merge a b).2.1 = false → P (U.merge a b).1 t → P a t
  modify : ∀ depth eg i k t, Sensible C eg → eg.index i = .ok k → P k.data t →
    (U.modify i).Ends C (U.at depth) (fun eg' => Rep eg' i t) eg

end Egg
