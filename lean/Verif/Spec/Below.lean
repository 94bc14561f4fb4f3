import Verif.Spec.Rewrite
import Verif.Spec.Structure
import Verif.Spec.Run
import Verif.Spec.Join
/-
Specification vocabulary for comparing e-graphs by the terms they represent, and for what the
application of a rule may do.
-/
namespace Egg
variable {Op D D' : Type} [DecidableEq Op] [Lang Op]

/-- Everything in `eg` is in `M`: terms of one class of `eg` are represented, in one class, by `M`. -/
def Within (eg : EGraph Op D) (M : EGraph Op D') : Prop :=
  ∀ c s t, Rep eg c s → Rep eg c t → ∃ d, Rep M d s ∧ Rep M d t

/-- `eg'` is reached from `eg` by applying a rule with the sides `tl` and `t` to the matches
`ms`: nothing happens but the following.  An e-node is added that is, for some match
`(c, s)`, the instance of one of the patterns `P`, its arguments being classes that already match.
Or two classes are united, one containing the instance of `tl` for some match and the other that of `t`
for the same match.  `k` is the number of the unions that merged two different classes. -/
inductive ApplySteps (N : Analysis Op D) (P : Term (PatOp Op) → Prop) (tl t : Term (PatOp Op))
    (ms : List (Id × Subst)) : EGraph Op D → Nat → EGraph Op D → Prop where
  | refl {eg} : ApplySteps N P tl t ms eg 0 eg
  | add {eg k eg1 eg2 c s n ps i} : ApplySteps N P tl t ms eg k eg1 → (c, s) ∈ ms →
      P (.node (.op n.op) ps) → List.Forall₂ (PMatch eg1 s.get) n.children ps →
      EGraph.addUncanonical N eg1 n = .ok (eg2, i) → ApplySteps N P tl t ms eg k eg2
  | union {eg k eg1 eg2 c s i j did} : ApplySteps N P tl t ms eg k eg1 → (c, s) ∈ ms →
      PMatch eg1 s.get i t → PMatch eg1 s.get j tl →
      UnionCall N eg1 i j eg2 did ∨ UnionCall N eg1 j i eg2 did →
      (did = true ↔ ¬ SameClass eg1 i j) → ApplySteps N P tl t ms eg (if did then k + 1 else k) eg2

omit [DecidableEq Op] [Lang Op] in
/-- Some node of the pattern `e` stands for the term `q`. -/
def EntryOf (e : PatternAst Op) (q : Term (PatOp Op)) : Prop := ∃ k, TermOf e k q

/-- The rewrite `rw` is `tl => t`, as `PatternRule` says, and neither of the two patterns has
nodes that are not part of the term it denotes. -/
def TightRule (rw : Rewrite Op D) (tl t : Term (PatOp Op)) : Prop :=
  ∃ (lp rp : Pattern Op), IsPattern lp tl ∧ (∀ k, k < lp.ast.length → Live lp.ast k) ∧ (∀ v ∈ lp.vars, Occurs v tl) ∧
    IsPattern rp t ∧ (∀ k, k < rp.ast.length → Live rp.ast k) ∧
    Rewrite.new rw.name lp.searcher rp.applier = .ok rw

/-- Hooks that only look at the e-graph. -/
def HooksRead {H : Type} (hooks : List (Hook Op D H)) : Prop :=
  ∀ k ∈ hooks, ∀ h eg its h' eg' o, k h eg its = .ok (h', eg', o) → eg' = eg

/-- What the scheduler reports for a rule is the number of ids the applier of the rule returns. -/
def Scheduler.Counting {S : Type} (env : RunEnv Op D) (sch : Scheduler Op D S) : Prop :=
  ∀ s i eg rw ms s' eg' n, sch.applyRewrite env s i eg rw ms = .ok (s', eg', n) →
    ∃ ms' ids, rw.applier.applyMatches env.analysis eg ms' rw.name = .ok (eg', ids) ∧ Part ms' ms ∧ n = ids.length

/-- The rules are exactly the equations `eqs`: each rule is one of them, from left to right, and each of them is a
rule. -/
def RulesAre (rules : List (Rewrite Op D)) (eqs : List (Term (PatOp Op) × Term (PatOp Op))) : Prop :=
  (∀ rw ∈ rules, ∃ tl t, (tl, t) ∈ eqs ∧ TightRule rw tl t) ∧
  ∀ tl t, (tl, t) ∈ eqs → ∃ rw ∈ rules, TightRule rw tl t

/-- `eg` is the e-graph of a run with the rules `eqs`, started with the e-graph `eg0`, that ended with
`Saturated`.  The environment, the scheduler, the hooks, the order of the rules and the limits are those of
the run; see C25 and C26 for what is required of them. -/
inductive SaturatedRun (A : UserAnalysis Op D) (depth : Nat) (eqs : List (Term (PatOp Op) × Term (PatOp Op))) (eg0 : EGraph Op D) :
    EGraph Op D → Prop where
  | mk {S H : Type} {env : RunEnv Op D} {sch : Scheduler Op D S} {hooks : List (Hook Op D H)} {rules : List (Rewrite Op D)}
      {I : Nat → S → Prop} {r r' : Runner Op D S H} {f : Nat} :
      env.analysis = A.at depth → (∀ i eg, (env.ord i eg).OK eg) →
      sch.Honest env → sch.Limited env → sch.Thorough env r.limits I → I r.iterations.length r.scheduler →
      HooksRead hooks → RulesAre rules eqs → r.egraph = eg0 →
      r.run env sch hooks rules f = .ok r' → r'.stopReason = some .saturated → (∀ rw ∈ rules, Fits env r'.egraph rw) →
      SaturatedRun A depth eqs eg0 r'.egraph

/-- A call a program makes: `add_expr`, a union of two expressions (`add_expr` for both and `union`,
or `union_trusted`), or `rebuild`. -/
inductive Call (Op : Type) where
  | addExpr (e : List (ENode Op))
  | union (e1 e2 : List (ENode Op)) (reason : Symbol)
  | unionTrusted (e1 e2 : List (ENode Op)) (reason : Symbol)
  | rebuild

/-- The effect of a call. -/
def Call.run (N : Analysis Op D) (fuel : Nat) (eg : EGraph Op D) : Call Op → Res (EGraph Op D)
  | .addExpr e => do
    let (eg, _) ← eg.addExpr N e
    return eg
  | .union e1 e2 reason => do
    let (eg, a) ← eg.addExpr N e1
    let (eg, b) ← eg.addExpr N e2
    let (eg, _) ← eg.union N a b reason
    return eg
  | .unionTrusted e1 e2 reason => do
    let (eg, a) ← eg.addExpr N e1
    let (eg, b) ← eg.addExpr N e2
    let (eg, _) ← eg.unionTrusted N a b reason
    return eg
  | .rebuild => do
    let (eg, _) ← eg.rebuild N fuel
    return eg

/-- A program: calls one after the other, and `rebuild` at the end. -/
def runCalls (N : Analysis Op D) (fuel : Nat) : EGraph Op D → List (Call Op) → Res (EGraph Op D)
  | eg, [] => Call.run N fuel eg .rebuild
  | eg, c :: cs => do
    let eg ← c.run N fuel eg
    runCalls N fuel eg cs

omit [DecidableEq Op] [Lang Op] in
/-- The expressions of a call are well formed. -/
def Call.WF : Call Op → Prop
  | .addExpr e => WFExpr e
  | .union e1 e2 _ => WFExpr e1 ∧ WFExpr e2
  | .unionTrusted e1 e2 _ => WFExpr e1 ∧ WFExpr e2
  | .rebuild => True

/-- `eg` and `M` are the same up to the names of classes: `φ` maps the canonical ids of `eg` one to
one onto those of `M`; corresponding classes represent the same terms; and the e-nodes listed in a class
of `M` are, up to order, those of the corresponding class of `eg`, with renamed children. -/
structure SameUpTo (φ : Id → Id) (eg : EGraph Op D) (M : EGraph Op D') : Prop where
  into : ∀ c, eg.find c = .ok c → M.find (φ c) = .ok (φ c)
  inj : ∀ c d, eg.find c = .ok c → eg.find d = .ok d → φ c = φ d → c = d
  onto : ∀ d, M.find d = .ok d → ∃ c, eg.find c = .ok c ∧ φ c = d
  terms : ∀ c, eg.find c = .ok c → ∀ t, Rep eg c t ↔ Rep M (φ c) t
  nodes : ∀ c, eg.find c = .ok c → ∃ k l, eg.index c = .ok k ∧ M.index (φ c) = .ok l ∧
    (k.nodes.map (ENode.mapChildren φ)).Perm l.nodes

/-- `W` assigns to each class of `M` a datum that accounts for all its e-nodes. -/
def Solves (le : D → D → Prop) (mk : Op → List D → D) (M : EGraph Op D') (W : Id → D) : Prop :=
  ∀ d k n cs, M.find d = .ok d → M.index d = .ok k → n ∈ k.nodes → List.Forall₂ (fun a b => M.find a = .ok b) n.children cs →
    le (mk n.op (cs.map W)) (W d)

/-- Classes of `eg` and `eg'` with a term in common have equivalent data. -/
def SameData (le : D → D → Prop) (eg eg' : EGraph Op D) : Prop :=
  ∀ i k j l t, eg.index i = .ok k → eg'.index j = .ok l → Rep eg i t → Rep eg' j t → le k.data l.data ∧ le l.data k.data

end Egg
