import Verif.Spec.History
/-
Histories without redundant unions.
-/
namespace Egg
variable {Op D : Type} [DecidableEq Op] [Lang Op]

/-- A history, latest call last, in which every union that the caller asks for is of two ids that were in
different classes and stand for different terms.  (Ids of the same term can only be in different classes
when the term was added again between a union and the next `rebuild`.) -/
inductive NovelHist (N : Analysis Op D) (allow : Caller Op D) : List (UnionRec Op) → EGraph Op D → Prop where
  | new : NovelHist N allow [] EGraph.new
  | step {U V eg eg'} : NovelHist N allow U eg → Step N allow eg V eg' → 
      (∀ u ∈ V, ¬ SameClass eg u.a u.b ∧ ∀ t, TermOf eg.nodes u.a t → ¬ TermOf eg.nodes u.b t) →
      NovelHist N allow (V ++ U) eg'

theorem NovelHist.hist {N : Analysis Op D} {allow : Caller Op D} {U : List (UnionRec Op)} {eg : EGraph Op D}
    (h : NovelHist N allow U eg) : Hist N allow U eg := by
  induction h with
  | new => exact .refl
  | step _ hs _ ih => exact .tail ih hs

end Egg
