import Verif.Model.Proof
import Verif.Spec.Term
/-
Specification vocabulary: valid explanations, flat and tree-shaped.  Nothing here
depends on how explanations are found or flattened.
-/
namespace Egg
variable {Op : Type}

namespace FlatTerm

/-- The term that a flat term shows, without annotations. -/
def term : FlatTerm Op → Term Op
  | mk o _ _ cs => .node o (cs.attach.map fun ⟨c, _⟩ => c.term)

/-- A flat term without any rule annotation. -/
inductive Plain : FlatTerm Op → Prop where
  | mk {o cs} : (∀ c ∈ cs, Plain c) → Plain (mk o none none cs)

end FlatTerm

/-- `OneRewrite J s f`: the flat term `f` results from the term `s` by one rewrite at one position,
and is annotated there, and only there, with the rule and its direction.  `J r s t` says that the
rule `r` rewrites `s` to `t`. -/
inductive OneRewrite (J : Symbol → Term Op → Term Op → Prop) : Term Op → FlatTerm Op → Prop where
  | fwd {s o r cs} : (∀ c ∈ cs, FlatTerm.Plain c) → J r s (FlatTerm.mk o none (some r) cs).term →
      OneRewrite J s (.mk o none (some r) cs)
  | bwd {s o r cs} : (∀ c ∈ cs, FlatTerm.Plain c) → J r (FlatTerm.mk o (some r) none cs).term s →
      OneRewrite J s (.mk o (some r) none cs)
  | child {s o pre c post} : (∀ c ∈ pre, FlatTerm.Plain c) → (∀ c ∈ post, FlatTerm.Plain c) → OneRewrite J s c →
      OneRewrite J (.node o (pre.map FlatTerm.term ++ s :: post.map FlatTerm.term)) (.mk o none none (pre ++ c :: post))

/-- A sequence of single rewrites from `s` to `t`. -/
inductive Rewrites (J : Symbol → Term Op → Term Op → Prop) : Term Op → List (FlatTerm Op) → Term Op → Prop where
  | nil {t} : Rewrites J t [] t
  | cons {s f fs t} : OneRewrite J s f → Rewrites J f.term fs t → Rewrites J s (f :: fs) t

/-- A valid flat explanation of `s = t`: it starts with `s`, unannotated, and goes on by single
rewrites to `t`. -/
def ValidFlat (J : Symbol → Term Op → Term Op → Prop) (s : Term Op) (fl : List (FlatTerm Op)) (t : Term Op) : Prop :=
  ∃ f fs, fl = f :: fs ∧ f.Plain ∧ f.term = s ∧ Rewrites J s fs t

mutual
/-- A tree term read as a proof from its initial to its final term, its own annotation apart. -/
inductive TreeFrom (J : Symbol → Term Op → Term Op → Prop) : TreeTerm Op → Term Op → Term Op → Prop where
  | mk {o b f cps ss ts} : ProofsFrom J cps ss ts → TreeFrom J (.mk o b f cps) (.node o ss) (.node o ts)
/-- The child proofs of a tree term: each a proof of its own. -/
inductive ProofsFrom (J : Symbol → Term Op → Term Op → Prop) : List (List (TreeTerm Op)) → List (Term Op) → List (Term Op) → Prop where
  | nil : ProofsFrom J [] [] []
  | cons {p ps s ss t ts} : ValidTree J s p t → ProofsFrom J ps ss ts → ProofsFrom J (p :: ps) (s :: ss) (t :: ts)
/-- One step of a tree-shaped proof: an application of a rule to the whole term followed by proofs
in the children, or proofs in the children only. -/
inductive TreeStep (J : Symbol → Term Op → Term Op → Prop) : Term Op → TreeTerm Op → Term Op → Prop where
  | fwd {s u t r o cps} : J r s u → TreeFrom J (.mk o none (some r) cps) u t → TreeStep J s (.mk o none (some r) cps) t
  | bwd {s u t r o cps} : J r u s → TreeFrom J (.mk o (some r) none cps) u t → TreeStep J s (.mk o (some r) none cps) t
  | congr {s t o cps} : TreeFrom J (.mk o none none cps) s t → TreeStep J s (.mk o none none cps) t
/-- A sequence of steps. -/
inductive TreeSteps (J : Symbol → Term Op → Term Op → Prop) : Term Op → List (TreeTerm Op) → Term Op → Prop where
  | nil {t} : TreeSteps J t [] t
  | cons {s tr u trs t} : TreeStep J s tr u → TreeSteps J u trs t → TreeSteps J s (tr :: trs) t
/-- A valid tree-shaped explanation of `s = t`. -/
inductive ValidTree (J : Symbol → Term Op → Term Op → Prop) : Term Op → List (TreeTerm Op) → Term Op → Prop where
  | mk {s o cps u trs t} : TreeFrom J (.mk o none none cps) s u → TreeSteps J u trs t →
      ValidTree J s (.mk o none none cps :: trs) t
end

end Egg
