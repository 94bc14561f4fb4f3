import Verif.Model.ProofText
import Verif.Spec.Proof
/-
Specification of the text of explanations: the documented format, as a relation between proofs and
s-expressions.
-/
namespace Egg
variable {Op : Type}

mutual
/-- `f.Shown T name s`: `s` is the s-expression of the flat term `f`.  A term is written as usual;
where it is rewritten it is wrapped in `(Rewrite=> rule term)` or `(Rewrite<= rule term)`. -/
inductive FlatTerm.Shown (T : OpText Op) (name : Symbol → List Char) : FlatTerm Op → Sexp → Prop where
  | const {o} : FlatTerm.Shown T name (.mk o none none []) (.str (T.show_ o))
  | app {o c cs ss} : FlatTerm.AllShown T name (c :: cs) ss →
      FlatTerm.Shown T name (.mk o none none (c :: cs)) (.list (.str (T.show_ o) :: ss))
  | bwd {o r cs s} : FlatTerm.Shown T name (.mk o none none cs) s →
      FlatTerm.Shown T name (.mk o (some r) none cs) (.list [.str "Rewrite<=".toList, .str (name r), s])
  | fwd {o b r cs s} : FlatTerm.Shown T name (.mk o b none cs) s →
      FlatTerm.Shown T name (.mk o b (some r) cs) (.list [.str "Rewrite=>".toList, .str (name r), s])
inductive FlatTerm.AllShown (T : OpText Op) (name : Symbol → List Char) : List (FlatTerm Op) → List Sexp → Prop where
  | nil : FlatTerm.AllShown T name [] []
  | cons {c cs s ss} : FlatTerm.Shown T name c s → FlatTerm.AllShown T name cs ss → FlatTerm.AllShown T name (c :: cs) (s :: ss)
end

mutual
/-- The same for tree terms.  A child proof of one term is written as that term, a longer one as
`(Explanation term ...)`. -/
inductive TreeTerm.Shown (T : OpText Op) (name : Symbol → List Char) : TreeTerm Op → Sexp → Prop where
  | const {o} : TreeTerm.Shown T name (.mk o none none []) (.str (T.show_ o))
  | app {o p ps ss} : TreeTerm.ProofsShown T name (p :: ps) ss →
      TreeTerm.Shown T name (.mk o none none (p :: ps)) (.list (.str (T.show_ o) :: ss))
  | bwd {o r cps s} : TreeTerm.Shown T name (.mk o none none cps) s →
      TreeTerm.Shown T name (.mk o (some r) none cps) (.list [.str "Rewrite<=".toList, .str (name r), s])
  | fwd {o b r cps s} : TreeTerm.Shown T name (.mk o b none cps) s →
      TreeTerm.Shown T name (.mk o b (some r) cps) (.list [.str "Rewrite=>".toList, .str (name r), s])
inductive TreeTerm.ProofsShown (T : OpText Op) (name : Symbol → List Char) : List (List (TreeTerm Op)) → List Sexp → Prop where
  | nil : TreeTerm.ProofsShown T name [] []
  | cons {p ps s ss} : TreeTerm.ProofShown T name p s → TreeTerm.ProofsShown T name ps ss →
      TreeTerm.ProofsShown T name (p :: ps) (s :: ss)
inductive TreeTerm.ProofShown (T : OpText Op) (name : Symbol → List Char) : List (TreeTerm Op) → Sexp → Prop where
  | single {t s} : TreeTerm.Shown T name t s → TreeTerm.ProofShown T name [t] s
  | several {t t' ts ss} : TreeTerm.AllShown T name (t :: t' :: ts) ss →
      TreeTerm.ProofShown T name (t :: t' :: ts) (.list (.str "Explanation".toList :: ss))
inductive TreeTerm.AllShown (T : OpText Op) (name : Symbol → List Char) : List (TreeTerm Op) → List Sexp → Prop where
  | nil : TreeTerm.AllShown T name [] []
  | cons {t ts s ss} : TreeTerm.Shown T name t s → TreeTerm.AllShown T name ts ss → TreeTerm.AllShown T name (t :: ts) (s :: ss)
end

/-- The words of the format that operators must not be confused with. -/
def Keyword (a : List Char) : Prop := a = "Rewrite=>".toList ∨ a = "Rewrite<=".toList ∨ a = "Explanation".toList

/-- `f.Legible T name P`: all operators and rule names of the flat term satisfy `P`, no operator is a
keyword, and the language reads back each operator with its number of children. -/
inductive FlatTerm.Legible (T : OpText Op) (name : Symbol → List Char) (P : List Char → Prop) : FlatTerm Op → Prop where
  | mk {o b f cs} : P (T.show_ o) → ¬ Keyword (T.show_ o) →
      (∀ ids : List Id, ids.length = cs.length → T.fromOp (T.show_ o) ids = some ⟨o, ids⟩) →
      (∀ r, b = some r ∨ f = some r → P (name r)) → (∀ c ∈ cs, FlatTerm.Legible T name P c) →
      FlatTerm.Legible T name P (.mk o b f cs)

/-- The same for tree terms. -/
inductive TreeTerm.Legible (T : OpText Op) (name : Symbol → List Char) (P : List Char → Prop) : TreeTerm Op → Prop where
  | mk {o b f cps} : P (T.show_ o) → ¬ Keyword (T.show_ o) →
      (∀ ids : List Id, ids.length = cps.length → T.fromOp (T.show_ o) ids = some ⟨o, ids⟩) →
      (∀ r, b = some r ∨ f = some r → P (name r)) → (∀ p ∈ cps, ∀ t ∈ p, TreeTerm.Legible T name P t) →
      TreeTerm.Legible T name P (.mk o b f cps)

/-- `OpLegible T P o k`: the operator `o` prints as a text that satisfies `P` and is not a keyword, and the
language reads this text with `k` children back as `o`. -/
structure OpLegible (T : OpText Op) (P : List Char → Prop) (o : Op) (k : Nat) : Prop where
  text : P (T.show_ o)
  notKey : ¬ Keyword (T.show_ o)
  reads : ∀ ids : List Id, ids.length = k → T.fromOp (T.show_ o) ids = some ⟨o, ids⟩

end Egg
