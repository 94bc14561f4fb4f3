import Verif.Lemmas.IdToExpr
import Verif.Lemmas.AddAgain
import Verif.Props.Structure
import Verif.ExampleTools
/-
C15, C16: `id_to_expr`, and uncanonical adds with explanations enabled.
-/
namespace Egg
variable {Op D : Type} [DecidableEq Op] [Lang Op]

/-- `id_to_expr` of a valid id always returns a well-formed expression, whose term is
represented in the class of the id. -/
theorem c15_id_to_expr {A : UserAnalysis Op D} {depth : Nat} {allow : Caller Op D}
    {U : List (UnionRec Op)} {eg : EGraph Op D} (h : Hist (A.at depth) allow U eg) {i : Id} (hi : Valid eg i) :
    ∃ e t, eg.idToExpr i = .ok e ∧ WFExpr e ∧ ExprTerm e t ∧ Rep eg i t := by
  have hg := hist_good h
  have hil := hg.inv.valid_iff.1 hi
  obtain ⟨st, h1, h2, h3, h4, _⟩ := idToExprTop_ok hg.inv.core.dag hil
  obtain ⟨t, ht⟩ := hg.inv.core.dag.exists_term i hil
  exact ⟨st.1, t, by simp [EGraph.idToExpr, h1], ⟨h3, h2⟩, h4 t ht, hg.inv.rep_of_termOf t ht⟩

/-- An id that is not valid makes `id_to_expr` panic. -/
theorem c15_id_to_expr_invalid {A : UserAnalysis Op D} {depth : Nat} {allow : Caller Op D}
    {U : List (UnionRec Op)} {eg : EGraph Op D} (h : Hist (A.at depth) allow U eg) {i : Id} (hi : ¬ Valid eg i) :
    eg.idToExpr i = .error .panic := by
  have hg := hist_good h
  rw [hg.inv.valid_iff] at hi
  have : getIdx eg.nodes i = .error .panic := by
    unfold getIdx; rw [List.getElem?_eq_none (by omega)]
  simp [EGraph.idToExpr, idToExprGo, AMap.get?, this]

/-- On a rebuilt e-graph, looking the expression up gives the canonical id. -/
theorem c15_lookup {A : UserAnalysis Op D} {depth : Nat} {allow : Caller Op D}
    {U : List (UnionRec Op)} {eg0 eg : EGraph Op D} {fuel k : Nat}
    (h0 : Hist (A.at depth) allow U eg0) (hr : EGraph.rebuild (A.at depth) fuel eg0 = .ok (eg, k))
    {i : Id} {e : List (ENode Op)} (he : eg.idToExpr i = .ok e) :
    ∃ r, eg.find i = .ok r ∧ eg.lookupExpr e = .ok (some r) := by
  have h : Hist (A.at depth) allow U eg := Steps.tail (V := []) h0 (.rebuild hr)
  have hg := hist_good h
  by_cases hi : Valid eg i
  · have hil := hg.inv.valid_iff.1 hi
    obtain ⟨st, h1, h2, h3, h4, h5⟩ := idToExprTop_ok hg.inv.core.dag hil
    have hst : st.1 = e := by simpa [EGraph.idToExpr, h1] using he
    subst hst
    obtain ⟨t, ht⟩ := hg.inv.core.dag.exists_term i hil
    obtain ⟨o, g1, g2⟩ := c06_lookup_expr h0 hr (e := st.1) ⟨h3, h2⟩
    refine ⟨eg.rt i, hg.inv.find hil, ?_⟩
    rw [g1, (g2 (eg.rt i)).2]
    refine ⟨?_, t, h4 t ht, ?_, ?_⟩
    · intro j s hs
      obtain ⟨x, h6, h7⟩ := h5 j hs.lt
      obtain ⟨u, hu⟩ := hg.inv.core.dag.exists_term x h6
      rw [hs.unique (h7 u hu)]
      exact ⟨x, hg.inv.rep_of_termOf u hu⟩
    · exact hg.inv.rep_congr (hg.inv.core.rtLt _ hil) (hg.inv.core.rtIdem i).symm (hg.inv.rep_of_termOf t ht)
    · rw [hg.inv.find_iff]
      exact ⟨hg.inv.core.rtLt _ hil, hg.inv.core.rtIdem i⟩
  · rw [c15_id_to_expr_invalid h hi] at he; cases he

/-- With explanations enabled, the id returned by `add_expr_uncanonical` keeps standing for
the expression that was added: after any further operations `id_to_expr` returns an
expression that denotes exactly the same term. -/
theorem c16_remembers {A : UserAnalysis Op D} {depth : Nat} {allow : Caller Op D}
    {U : List (UnionRec Op)} {eg : EGraph Op D} (h : Hist (A.at depth) allow U eg) (hx : eg.explain.isSome)
    {e : List (ENode Op)} (he : WFExpr e) {eg1 : EGraph Op D} {i : Id}
    (ha : EGraph.addExprUncanonical (A.at depth) eg e = .ok (eg1, i))
    {V : List (UnionRec Op)} {eg2 : EGraph Op D} (hs : Steps (A.at depth) allow eg1 V eg2) :
    ∃ e' t, eg2.idToExpr i = .ok e' ∧ ExprTerm e t ∧ ExprTerm e' t := by
  have hg := hist_good h
  have hN := (soundFor_true A).hookOK (E := fun _ => True) trivial depth
  have h1 : Hist (A.at depth) allow U eg1 := by
    have := Steps.trans h (EGraph.addExprUncanonical_steps (allow := allow) ha)
    simpa [Hist] using this
  have hg1 := hist_good h1
  obtain ⟨hg2, hgr⟩ := steps_grow hs hg1
  have hd : Dag e := he.2
  have hne : 0 < e.length := List.length_pos_iff.2 he.1
  obtain ⟨t, ht⟩ := hd.exists_term (e.length - 1) (by omega)
  have hte := EGraph.addExprUncanonical_exact hN hd hg hx ha t ⟨he.1, ht⟩
  have hte2 : TermOf eg2.nodes i t := by
    obtain ⟨l, hl⟩ := hgr.nodes
    rw [hl]; exact hte.append
  obtain ⟨st, g1, _, _, g4, _⟩ := idToExprTop_ok hg2.inv.core.dag hte2.lt
  exact ⟨st.1, t, by simp [EGraph.idToExpr, g1], ⟨he.1, ht⟩, g4 t hte2⟩

/-- Adding the same expression again changes nothing and returns the same id, when the
analysis has no `modify` hook (with or without explanations). -/
theorem c16_add_again {A : UserAnalysis Op D} {depth : Nat} {allow : Caller Op D}
    {U : List (UnionRec Op)} {eg : EGraph Op D} (h : Hist (A.at depth) allow U eg) (hm : ∀ i, A.modify i = .done)
    {e : List (ENode Op)} {eg1 : EGraph Op D} {i : Id}
    (ha : EGraph.addExprUncanonical (A.at depth) eg e = .ok (eg1, i)) :
    EGraph.addExprUncanonical (A.at depth) eg1 e = .ok (eg1, i) := by
  have hg := hist_good h
  have hN := (soundFor_true A).hookOK (E := fun _ => True) trivial depth
  exact EGraph.addExprUncanonical_again hN (fun eg i eg' he => UserAnalysis.quiet_modify hm he) hg ha

/-- Without explanations the id stands for an equal term only: after `union a b`, adding
`f b` returns an id whose expression is `f a`. -/
theorem c16_needs_explanations_counterexample :
    EGraph.addExprUncanonical Ex.N0 Ex.e6 [Ex.leaf .b, Ex.app .f [0]] = .ok (Ex.e6, 2) ∧
    Ex.e6.idToExpr 2 = .ok [Ex.leaf .a, Ex.app .f [0]] := by
  refine ⟨rfl, rfl⟩

/-- Hypotheses of C15 are met. -/
example : Hist (Ex.U0.at 1) .noSet [Ex.un] Ex.e6 ∧ Valid Ex.e6 3 ∧ ¬ Valid Ex.e6 9 ∧
    Ex.e6.idToExpr 2 = .ok [Ex.leaf .a, Ex.app .f [0]] := by
  refine ⟨Ex.hist6 _, ⟨2, rfl⟩, ?_, rfl⟩
  rintro ⟨r, h⟩
  cases h

example : Hist (Ex.U0.at 1) .noSet [Ex.un] Ex.e5 ∧
    EGraph.rebuild (Ex.U0.at 1) 20 Ex.e5 = .ok (Ex.e6, 1) ∧
    Ex.e6.idToExpr 3 = .ok [Ex.leaf .b, Ex.app .f [0]] := ⟨Ex.hist5 _, Ex.reb6, rfl⟩

/-- Hypotheses of C16 are met: `f b` added to the e-graph where `a = b` and explanations
are on; its id stands for `f b`, not for `f a`. -/
example : Hist (Ex.U0.at 1) .noSet [Ex.un] Ex.x6 ∧ Ex.x6.explain.isSome ∧
    WFExpr [Ex.leaf .b, Ex.app .g [0], Ex.app .f [1]] ∧
    ∃ eg1, EGraph.addExprUncanonical Ex.N0 Ex.x6 [Ex.leaf .b, Ex.app .g [0], Ex.app .f [1]] = .ok (eg1, 5) :=
  ⟨Ex.histx6 _, rfl, wfExpr_of rfl rfl, _, rfl⟩

end Egg
