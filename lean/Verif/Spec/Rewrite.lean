import Verif.Model.Rewrite
import Verif.Spec.Match
/-
Specification vocabulary for multi-patterns and rewrites.
-/
namespace Egg
variable {Op D : Type} [DecidableEq Op] [Lang Op]

/-- `MultiMatch eg σ c ps`: under the assignment `σ`, the first pattern matches in
the class `c`, which is also the class of its binder, and every further pattern
matches in the class of its binder. -/
def MultiMatch (eg : EGraph Op D) (σ : Var → Option Id) (c : Id) : List (Var × Term (PatOp Op)) → Prop
  | [] => False
  | (v, t) :: rest => (∃ x, σ v = some x ∧ SameClass eg x c) ∧ PMatch eg σ c t ∧
      ∀ w u, (w, u) ∈ rest → ∃ x, σ w = some x ∧ PMatch eg σ x u

omit [DecidableEq Op] [Lang Op] in
/-- The variable `v` is a binder or occurs in one of the patterns. -/
def MultiOccurs (v : Var) (ps : List (Var × Term (PatOp Op))) : Prop :=
  ∃ w t, (w, t) ∈ ps ∧ (v = w ∨ Occurs v t)

omit [Lang Op] in
/-- `p` was built by `MultiPattern::new` from well-formed patterns, which denote
`ps`. -/
def IsMultiPattern (p : MultiPattern Op) (ps : List (Var × Term (PatOp Op))) : Prop :=
  ∃ ordc fuel, OrdOK ordc ∧ MultiPattern.new ordc fuel p.asts = .ok p ∧
    List.Forall₂ (fun a b => a.1 = b.1 ∧ PatWF a.2 ∧ ExprTerm a.2 b.2) p.asts ps

omit [DecidableEq Op] [Lang Op] in
/-- The first of the patterns exists and is not a variable. -/
def FirstIsNode (ps : List (Var × Term (PatOp Op))) : Prop :=
  ∃ v o ts rest, ps = (v, .node (.op o) ts) :: rest

/-- A sequence of successful calls of `add`. -/
inductive AddSteps (N : Analysis Op D) : EGraph Op D → EGraph Op D → Prop where
  | refl {eg} : AddSteps N eg eg
  | tail {eg eg1 eg2 n i} : AddSteps N eg eg1 → EGraph.addUncanonical N eg1 n = .ok (eg2, i) → AddSteps N eg eg2

/-- One successful call of `union` or `union_trusted`. -/
def UnionCall (N : Analysis Op D) (eg : EGraph Op D) (a b : Id) (eg' : EGraph Op D) (did : Bool) : Prop :=
  ∃ reason, EGraph.union N eg a b reason = .ok (eg', did) ∨ EGraph.unionTrusted N eg a b reason = .ok (eg', did)

/-- `Applies N tl t eg ms ids eg'`: the right-hand side `t` is applied to the matches
`ms` of the left-hand side `tl`, one after the other.  For the match `(c, s)`: e-nodes are
added until some class `i` contains the instance of `t` under `s`; that class is
united with `c`, or (only when explanations are enabled) with a class `j` that
contains the instance of `tl` under `s`; and an id of the united class is reported exactly if the union merged two
different classes. -/
inductive Applies (N : Analysis Op D) (tl t : Term (PatOp Op)) :
    EGraph Op D → List (Id × Subst) → List Id → EGraph Op D → Prop where
  | nil {eg} : Applies N tl t eg [] [] eg
  | cons {eg eg1 eg2 eg' c s i j r did ms ids} :
      AddSteps N eg eg1 →
      PMatch eg1 s.get i t →
      (j = c ∨ eg1.explain.isSome = true ∧ PMatch eg1 s.get j tl) →
      (UnionCall N eg1 i j eg2 did ∨ UnionCall N eg1 j i eg2 did) →
      (did = true ↔ ¬ SameClass eg1 i j) →
      SameClass eg2 r i → SameClass eg2 r j →
      Applies N tl t eg2 ms ids eg' →
      Applies N tl t eg ((c, s) :: ms) (if did then r :: ids else ids) eg'

/-- Instances of the pair of patterns `(tl, t)` at the match `(c, s)` in `eg`: every
variable is replaced by a term of the class it is bound to. -/
def InstancePair (eg : EGraph Op D) (tl t : Term (PatOp Op)) (s : Subst) (u w : Term Op) : Prop :=
  ∃ τ : Var → Term Op, (∀ v x, s.get v = some x → Rep eg x (τ v)) ∧ Inst τ tl u ∧ Inst τ t w

/-- What is required of matches `ms` in order to apply the pattern `rp` to them: each
is a match of the term `tl` in `eg`, binds variables to ids of `eg`, and binds all the
variables `rp` lists.  When explanations are enabled the match must come with the
syntax of the pattern searched for, and bind the variables listed in that. -/
structure Applicable (eg : EGraph Op D) (tl : Term (PatOp Op)) (rp : Pattern Op) (ms : List (SearchMatches Op)) : Prop where
  pmatch : ∀ c s, (c, s) ∈ flat ms → PMatch eg s.get c tl
  valid : ∀ c s, (c, s) ∈ flat ms → ∀ v x, s.get v = some x → Valid eg x
  bound : ∀ c s, (c, s) ∈ flat ms → ∀ v ∈ rp.vars, s.get v ≠ none
  ast : eg.explain.isSome = true → ∀ m ∈ ms, ∃ lp : Pattern Op, m.ast = some lp.ast ∧ IsPattern lp tl ∧
    ∀ s ∈ m.substs, ∀ v ∈ lp.vars, s.get v ≠ none

/-- `Guarded check one eg ms ids eg'`: for each match in turn the condition is checked;
if it answers true then `one` is done, otherwise nothing.  `ids` collects what
`one` reported. -/
inductive Guarded (check : EGraph Op D → Id → Subst → EGraph Op D → Bool → Prop)
    (one : EGraph Op D → Id → Subst → EGraph Op D → List Id → Prop) :
    EGraph Op D → List (Id × Subst) → List Id → EGraph Op D → Prop where
  | nil {eg} : Guarded check one eg [] [] eg
  | skip {eg eg1 eg' c s ms ids} : check eg c s eg1 false → Guarded check one eg1 ms ids eg' →
      Guarded check one eg ((c, s) :: ms) ids eg'
  | apply {eg eg1 eg2 eg' c s ms ids1 ids} : check eg c s eg1 true → one eg1 c s eg2 ids1 →
      Guarded check one eg2 ms ids eg' → Guarded check one eg ((c, s) :: ms) (ids1 ++ ids) eg'

end Egg
