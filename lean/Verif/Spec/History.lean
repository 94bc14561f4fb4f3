import Verif.Model.Hooks
import Verif.Model.ShortPath
import Verif.Spec.Term
/-
Specification vocabulary: histories of e-graph operations, and what is assumed
of user-supplied analyses.
-/
namespace Egg
variable {Op D : Type} [DecidableEq Op] [Lang Op]

/-- `i` is an id of the e-graph. -/
def Valid (eg : EGraph Op D) (i : Id) : Prop := ∃ r, eg.find i = .ok r

/-- Two ids are in the same e-class: `find` gives the same answer. -/
def SameClass (eg : EGraph Op D) (a b : Id) : Prop := ∃ r, eg.find a = .ok r ∧ eg.find b = .ok r

/-- Record of one union requested by the user: the reason, the two ids, and a
term of each of the two classes. -/
structure UnionRec (Op : Type) where
  reason : Symbol
  a : Id
  b : Id
  s : Term Op
  t : Term Op

/-- The equations asserted by a list of unions. -/
def eqsOf (U : List (UnionRec Op)) : Term Op → Term Op → Prop :=
  fun s t => ∃ u ∈ U, u.s = s ∧ u.t = t

/-- What the caller of the API does: `sets eg i d` says which calls of `set_analysis_data` are made,
`optimized` whether explanations are requested while the optimization of their lengths is switched
on, `disables` whether explanations are switched off at some time. -/
structure Caller (Op : Type) [DecidableEq Op] [Lang Op] (D : Type) where
  sets : EGraph Op D → Id → D → Prop
  optimized : Prop
  disables : Prop

instance : CoeFun (Caller Op D) (fun _ => EGraph Op D → Id → D → Prop) := ⟨Caller.sets⟩

/-- No restriction. -/
def Caller.all : Caller Op D := ⟨fun _ _ _ => True, True, True⟩

/-- No call of `set_analysis_data`. -/
def Caller.noSet : Caller Op D := ⟨fun _ _ _ => False, True, True⟩

/-- Explanations are never switched off. -/
def Caller.keeps : Caller Op D := ⟨fun _ _ _ => True, True, False⟩

/-- `Step N allow eg U eg'`: one successful API call takes `eg` to `eg'`; `U` lists
the unions requested (none or one).  For a union of the classes `a` and `b` any
term `s` of `a` and `t` of `b` may be recorded.  `allow` says which calls
of `set_analysis_data`, which requests for explanations and which calls of
`with_explanations_disabled` are made. -/
inductive Step (N : Analysis Op D) (allow : Caller Op D) :
    EGraph Op D → List (UnionRec Op) → EGraph Op D → Prop where
  | explain {eg eg'} : eg.withExplanationsEnabled = .ok eg' → Step N allow eg [] eg'
  | noOptimize {eg eg'} : eg.withoutExplanationLengthOptimization = .ok eg' → Step N allow eg [] eg'
  | optimize {eg eg'} : eg.withExplanationLengthOptimization = .ok eg' → Step N allow eg [] eg'
  | query {eg eg' ch fuel a b p} : (∀ x, eg.explain = some x → x.optimize = true → allow.optimized) →
      eg.explainIdEquivalence ch fuel a b = .ok (p, eg') → Step N allow eg [] eg'
  | add {eg eg' n i} : EGraph.addUncanonical N eg n = .ok (eg', i) → Step N allow eg [] eg'
  | union {eg eg' a b caller r s t} : Rep eg a s → Rep eg b t →
      EGraph.union N eg a b caller = .ok (eg', r) → Step N allow eg [⟨caller, a, b, s, t⟩] eg'
  | unionTrusted {eg eg' a b reason r s t} : Rep eg a s → Rep eg b t →
      EGraph.unionTrusted N eg a b reason = .ok (eg', r) → Step N allow eg [⟨reason, a, b, s, t⟩] eg'
  | setData {eg eg' i d} : allow eg i d → EGraph.setAnalysisData N eg i d = .ok eg' →
      Step N allow eg [] eg'
  | rebuild {eg eg' fuel n} : EGraph.rebuild N fuel eg = .ok (eg', n) → Step N allow eg [] eg'
  | restore {eg} : Step N allow eg [] eg.restored
  | disable {eg} : allow.disables → Step N allow eg [] eg.withExplanationsDisabled

/-- Any sequence of successful API calls, in any order; the unions are listed
with the latest first. -/
inductive Steps (N : Analysis Op D) (allow : Caller Op D) :
    EGraph Op D → List (UnionRec Op) → EGraph Op D → Prop where
  | refl {eg} : Steps N allow eg [] eg
  | tail {eg eg' eg'' U V} : Steps N allow eg U eg' → Step N allow eg' V eg'' →
      Steps N allow eg (V ++ U) eg''

/-- `eg` is the state after some history of API calls on a new e-graph. -/
def Hist (N : Analysis Op D) (allow : Caller Op D) (U : List (UnionRec Op))
    (eg : EGraph Op D) : Prop := Steps N allow EGraph.new U eg

end Egg
