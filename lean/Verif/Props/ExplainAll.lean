import Verif.Props.Explanations
import Verif.Lemmas.GreedyHist
/-
C33: requests for explanations are answered, with and without the optimization of lengths.
-/
namespace Egg
variable {Op D : Type} [DecidableEq Op] [Lang Op]

/-- **C33.**  Take any history of adds, unions, rebuilds, changes of data, snapshots and requests, as long
as none of these requests optimized lengths.  Now ask for any number of explanations of equalities that hold,
with the optimization of lengths on, off, or changing from request to request: all of them are answered,
however hash tables and heaps are ordered.  (Rust's hash tables are deterministic here, so all requests use
the same orders.) -/
theorem c33_requests {A : UserAnalysis Op D} {depth : Nat} {sets : EGraph Op D → Id → D → Prop} {U : List (UnionRec Op)} {eg : EGraph Op D}
    (h : Hist (A.at depth) (Caller.unoptimized sets) U eg) (hx : eg.explain.isSome) (ch : Explain.Choices) (as : List Ask)
    (has : ∀ a b, .explain a b ∈ as → SameClass eg a b) :
    ∃ f0 ps eg', ∀ fuel, f0 ≤ fuel → eg.asks ch fuel as = .ok (ps, eg') := by
  have hg := hist_good_plain h
  obtain ⟨x, hx⟩ := Option.isSome_iff_exists.1 hx
  obtain ⟨L, cn, hr⟩ := EGraph.reqReady hg id hx ch
  have he : ({ eg with explain := some x } : EGraph Op D) = eg := by rw [← hx]
  obtain ⟨f0, ⟨ps, eg'⟩, _, h2⟩ := EGraph.asks_ok hg ch as x L cn (by rw [he]; exact hr) has
  refine ⟨f0, ps, eg', fun fuel hf => ?_⟩
  have := h2 fuel hf
  rwa [he] at this

/-- **C33** for one request: with explanations enabled, a request about any two ids in the same class
returns, also with the (default) optimization of lengths. -/
theorem c33_explains {A : UserAnalysis Op D} {depth : Nat} {sets : EGraph Op D → Id → D → Prop} {U : List (UnionRec Op)} {eg : EGraph Op D}
    (h : Hist (A.at depth) (Caller.unoptimized sets) U eg) (hx : eg.explain.isSome) (ch : Explain.Choices) {a b : Id} (hab : SameClass eg a b) :
    ∃ f0 p eg', ∀ fuel, f0 ≤ fuel → eg.explainIdEquivalence ch fuel a b = .ok (p, eg') := by
  obtain ⟨f0, ps, eg', h1⟩ := c33_requests h hx ch [.explain a b] (by
    intro a' b' hm
    rw [List.mem_singleton] at hm
    cases hm
    exact hab)
  have h2 : ∀ fuel, f0 ≤ fuel → ∃ p, eg.explainIdEquivalence ch fuel a b = .ok (p, eg') := by
    intro fuel hf
    have h2 := h1 fuel hf
    rw [EGraph.asks] at h2
    obtain ⟨⟨p, eg1⟩, h3, h4⟩ := bind_eq_ok.1 h2
    cases h4
    exact ⟨p, h3⟩
  obtain ⟨p, hp⟩ := h2 f0 (le_refl _)
  refine ⟨f0, p, eg', fun fuel hf => ?_⟩
  obtain ⟨q, hq⟩ := h2 fuel hf
  rcases (eg.explainIdEquivalence_mono ch a b).le hf with h3 | h3
  · rw [hp] at h3; cases h3
  · rw [← h3]; exact hp

/-- **C33** for `explain_equivalence`: if adding the two expressions succeeds and they are equal, the
request returns. -/
theorem c33_exprs {A : UserAnalysis Op D} {depth : Nat} {sets : EGraph Op D → Id → D → Prop} {U : List (UnionRec Op)} {eg eg1 eg2 : EGraph Op D}
    (h : Hist (A.at depth) (Caller.unoptimized sets) U eg) (ch : Explain.Choices) {e1 e2 : List (ENode Op)} {a b : Id}
    (h1 : EGraph.addExprUncanonical (A.at depth) eg e1 = .ok (eg1, a)) (h2 : EGraph.addExprUncanonical (A.at depth) eg1 e2 = .ok (eg2, b))
    (hx : eg2.explain.isSome) (hab : SameClass eg2 a b) :
    ∃ f0 p eg', ∀ fuel, f0 ≤ fuel → EGraph.explainEquivalence (A.at depth) eg ch fuel e1 e2 = .ok (p, eg') := by
  obtain ⟨f0, p, eg', h3⟩ := c33_explains (addExpr_hist (addExpr_hist h h1) h2) hx ch hab
  refine ⟨f0, p, eg', fun fuel hf => ?_⟩
  unfold EGraph.explainEquivalence
  simp only [h1, h2, ok_bind]
  exact h3 fuel hf

/-! ### Examples -/

/-- The hypotheses are met after `union a b` and `rebuild`: `f a = f b` is a congruence, `a = b` a rule. -/
example (ch : Explain.Choices) : ∃ f0 ps eg', ∀ fuel, f0 ≤ fuel →
    Ex.x6.asks ch fuel [.explain 2 3, .lengths false, .explain 0 1, .lengths true, .explain 3 2] = .ok (ps, eg') := by
  refine c33_requests Ex.histx6_un rfl ch _ ?_
  intro a b h
  simp at h
  rcases h with ⟨rfl, rfl⟩ | ⟨rfl, rfl⟩ | ⟨rfl, rfl⟩
  · exact ⟨_, rfl, rfl⟩
  · exact ⟨_, rfl, rfl⟩
  · exact ⟨_, rfl, rfl⟩

end Egg
