import Verif.Spec.MultiRule
import Verif.Spec.Eager
/-
Specification vocabulary for what rules, read as Horn clauses, derive from the terms of an e-graph.
-/
namespace Egg
variable {Op D S H : Type} [DecidableEq Op] [Lang Op]

/-- The terms `s` and `t` are both in the e-graph, in one class. -/
def Equal (eg : EGraph Op D) (s t : Term Op) : Prop := ∃ c, Rep eg c s ∧ Rep eg c t

/-- A rule: an equation between patterns, used from left to right, or an implication between multi-patterns. -/
inductive Clause (Op : Type)
  | rewrite (tl t : Term (PatOp Op))
  | horn (ls rs : List (Var × Term (PatOp Op)))

omit [DecidableEq Op] [Lang Op] in
/-- `Concluded bound τ rs s t`: the right-hand sides `w = q` in `rs` assert `s = t` under the assignment `τ`, which gives
meaning to the variables in `bound`; `s = s` asserts that there is such a term.  Each instance `u` of a `q` exists, and is equal to the meaning
of `w` if it has one; if it has none, it gets the meaning `u` from there on. -/
def Concluded (bound : Var → Prop) (τ : Var → Term Op) : List (Var × Term (PatOp Op)) → Term Op → Term Op → Prop
  | [], _, _ => False
  | (w, q) :: rest, s, t => ∃ u, Inst τ q u ∧
      ((s = u ∧ t = u) ∨
       (bound w ∧ s = τ w ∧ t = u) ∨
       (bound w ∧ Concluded bound τ rest s t) ∨
       (¬ bound w ∧ Concluded (fun v => bound v ∨ v = w) (fun v => if v = w then u else τ v) rest s t))

omit [DecidableEq Op] [Lang Op] in
/-- What one application of the rule derives from `E`, where `E s t` means that `s` and `t` exist and are equal. -/
def Clause.Derives (E : Term Op → Term Op → Prop) : Clause Op → Term Op → Term Op → Prop
  | .rewrite tl t, s, w => ∃ τ : Var → Term Op, Inst τ tl s ∧ Inst τ t w ∧ E s s
  | .horn ls rs, s, w => ∃ τ : Var → Term Op, (∀ v p, (v, p) ∈ ls → ∃ u, Inst τ p u ∧ E (τ v) u) ∧ Concluded (fun v => MultiOccurs v ls) τ rs s w

omit [DecidableEq Op] [Lang Op] in
/-- Equality of existing terms, generated by `E`: arguments of existing terms exist, and so do terms that are obtained from existing terms by replacing
arguments by equal ones. -/
inductive EqHull (E : Term Op → Term Op → Prop) : Term Op → Term Op → Prop
  | base {s t} : E s t → EqHull E s t
  | symm {s t} : EqHull E s t → EqHull E t s
  | trans {s t u} : EqHull E s t → EqHull E t u → EqHull E s u
  | arg {op ss s} : EqHull E (.node op ss) (.node op ss) → s ∈ ss → EqHull E s s
  | congr {op ss ts} : EqHull E (.node op ss) (.node op ss) → ts.length = ss.length →
      (∀ (j : Nat) s t, ss[j]? = some s → ts[j]? = some t → EqHull E s t) → EqHull E (.node op ss) (.node op ts)

omit [DecidableEq Op] [Lang Op] in
/-- `K` is a notion of equality of existing terms (`K s s` means that `s` exists): arguments of existing terms exist, and replacing arguments by equal ones yields a
term that exists and is equal.  (`EqHull E` is the least one that contains `E`.) -/
structure PCong (K : Term Op → Term Op → Prop) : Prop where
  symm : ∀ {s t}, K s t → K t s
  trans : ∀ {s t u}, K s t → K t u → K s u
  arg : ∀ {op ss s}, K (.node op ss) (.node op ss) → s ∈ ss → K s s
  congr : ∀ {op} {ss ts : List (Term Op)}, K (.node op ss) (.node op ss) → List.Forall₂ K ss ts → K (.node op ss) (.node op ts)

omit [DecidableEq Op] [Lang Op] in
/-- What is derived from `E` by the rules in `k` rounds. -/
def Chase (cs : List (Clause Op)) (E : Term Op → Term Op → Prop) : Nat → Term Op → Term Op → Prop
  | 0 => EqHull E
  | k + 1 => EqHull (fun s t => Chase cs E k s t ∨ ∃ c ∈ cs, c.Derives (Chase cs E k) s t)

omit [DecidableEq Op] [Lang Op] in
/-- What is derived from `E` has only finitely many classes: each derived term equals one of finitely many. -/
def FinitelyDerived (cs : List (Clause Op)) (E : Term Op → Term Op → Prop) : Prop :=
  ∃ l : List (Term Op), ∀ t, (∃ k, Chase cs E k t t) → ∃ u ∈ l, ∃ k, Chase cs E k t u

/-- The rewrite is the rule `c`. -/
def IsClause (rw : Rewrite Op D) : Clause Op → Prop
  | .rewrite tl t => PatternRule rw tl t
  | .horn ls rs => MultiRule rw ls rs

/-- The rewrites are the rules `cs`. -/
def AreClauses (rules : List (Rewrite Op D)) (cs : List (Clause Op)) : Prop :=
  (∀ rw ∈ rules, ∃ c ∈ cs, IsClause rw c) ∧ ∀ c ∈ cs, ∃ rw ∈ rules, IsClause rw c

/-- The rewrite is the multi-pattern rule `ls => rs`, as `MultiRule` says, and the patterns on the right have no
nodes that are not part of the terms they denote. -/
def TightMulti (rw : Rewrite Op D) (ls rs : List (Var × Term (PatOp Op))) : Prop :=
  ∃ (lp rp : MultiPattern Op), IsMultiPattern lp ls ∧ FirstIsNode ls ∧ (∀ v ∈ lp.searchVars, MultiOccurs v ls) ∧
    IsMultiPattern rp rs ∧ (∀ w p, (w, p) ∈ rp.asts → ∀ k, k < p.length → Live p k) ∧ Rewrite.new rw.name lp.searcher rp.applier = .ok rw

/-- The rewrite is the rule `c`, without superfluous nodes. -/
def IsTightClause (rw : Rewrite Op D) : Clause Op → Prop
  | .rewrite tl t => TightRule rw tl t
  | .horn ls rs => TightMulti rw ls rs

/-- The rewrites are the rules `cs`, without superfluous nodes. -/
def AreTightClauses (rules : List (Rewrite Op D)) (cs : List (Clause Op)) : Prop :=
  (∀ rw ∈ rules, ∃ c ∈ cs, IsTightClause rw c) ∧ ∀ c ∈ cs, ∃ rw ∈ rules, IsTightClause rw c

/-- The iteration was not cut short by a limit or a hook. -/
def Iteration.Completed (it : Iteration) : Prop := it.stopReason = none ∨ it.stopReason = some .saturated

/-- The searches of a runner find fewer than `usize::MAX` matches (always true on a real machine). -/
def FitsAny (env : RunEnv Op D) (eg : EGraph Op D) (rw' : Rewrite Op D) : Prop :=
  ∀ i ms, rw'.searcher.search env.analysis eg (env.ord i eg) env.usizeMax = .ok ms → (flat ms).length < env.usizeMax

/-- … at the start of each iteration of the run of `r`, whose first rebuild yields `eg`. -/
def Runner.AlwaysFitsAny (env : RunEnv Op D) (sch : Scheduler Op D S) (hooks : List (Hook Op D H)) (rules : List (Rewrite Op D))
    (r : Runner Op D S H) : Prop :=
  ∀ eg n k rk, r.egraph.rebuild env.analysis env.fuel = .ok (eg, n) →
    Runner.after env sch hooks rules k { r with egraph := eg } = some rk → ∀ rw ∈ rules, FitsAny env rk.egraph rw

end Egg
