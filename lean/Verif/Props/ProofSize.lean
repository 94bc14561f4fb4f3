import Verif.Props.ProofText
import Mathlib.Data.Set.Card
/-
C69: the size of explanations, and their first and last terms.
-/
namespace Egg
variable {Op D : Type} [DecidableEq Op] [Lang Op]

/-- **C69.**  `get_tree_size` of an explanation of an e-graph does not panic, and returns the number of
different unions that the explanation uses: the number of unordered pairs of ids that its rule steps connect.  Each of these
steps is by a union between its two ids, in the direction of its annotation. -/
theorem c69_tree_size {A : UserAnalysis Op D} {J : Symbol → Id → Id → Prop}
    (hA : A.OK (Cfg.ofR (fun _ _ => True) isCongruence_true J) anyErr) {depth : Nat}
    {allow : Caller Op D} {U : List (UnionRec Op)} {eg : EGraph Op D}
    (h : Hist (A.at depth) allow U eg) (hU : ∀ u ∈ U, J u.reason u.a u.b)
    {ch : Explain.Choices} {fuel : Nat} {a b : Id} {p : List (TreeTerm Op)} {eg' : EGraph Op D}
    (he : eg.explainIdEquivalence ch fuel a b = .ok (p, eg')) :
    ∃ ts : List (RcTree Op), eg.explainIdShared ch fuel a b = .ok ts ∧ ts.map RcTree.tree = p ∧
      RcTree.getTreeSize ts = .ok (RcTree.ruleEdges ts).ncard ∧
      ∀ u : RcTree Op, u.OccursIn ts → (∀ r, u.fwd = some r → J r u.last u.current) ∧ (∀ r, u.bwd = some r → J r u.current u.last) := by
  have hg := good_of_J hA h hU
  obtain ⟨ts, h1, h2, h3, h4⟩ := EGraph.explainId_shared hg he
  exact ⟨ts, h1, h2, RcTree.getTreeSize_ok h3 (fun u hu => (h4 u hu).well), fun u hu => ⟨(h4 u hu).fwd, (h4 u hu).bwd⟩⟩

/-- **C69** without a `modify` hook: the size is at most the number of unions that the caller asserted. -/
theorem c69_le_unions {A : UserAnalysis Op D} (hA : ∀ i, A.modify i = .done) {depth : Nat}
    {allow : Caller Op D} {U : List (UnionRec Op)} {eg : EGraph Op D} (h : Hist (A.at depth) allow U eg)
    {ch : Explain.Choices} {fuel : Nat} {a b : Id} {p : List (TreeTerm Op)} {eg' : EGraph Op D}
    (he : eg.explainIdEquivalence ch fuel a b = .ok (p, eg')) :
    ∃ ts n, eg.explainIdShared ch fuel a b = .ok ts ∧ ts.map RcTree.tree = p ∧ RcTree.getTreeSize ts = .ok n ∧ n ≤ U.length := by
  obtain ⟨ts, h1, h2, h3, h4⟩ := c69_tree_size (ok_of_quiet hA _ _ _) h (J := Asserted U) (fun u hu => ⟨u, hu, rfl, rfl, rfl⟩) he
  refine ⟨ts, _, h1, h2, h3, ?_⟩
  have hsub : RcTree.ruleEdges ts ⊆ (U.map (fun u => s(u.a, u.b))).toFinset := by
    rintro e ⟨u, hu, hr, rfl⟩
    obtain ⟨k1, k2⟩ := h4 u hu
    rw [Finset.mem_coe, List.mem_toFinset, List.mem_map]
    rcases hr with hr | hr
    · obtain ⟨r, hr⟩ := Option.ne_none_iff_exists'.1 hr
      obtain ⟨v, hv, _, e1, e2⟩ := k2 r hr
      exact ⟨v, hv, by rw [e1, e2]⟩
    · obtain ⟨r, hr⟩ := Option.ne_none_iff_exists'.1 hr
      obtain ⟨v, hv, _, e1, e2⟩ := k1 r hr
      exact ⟨v, hv, by rw [e1, e2, Sym2.eq_swap]⟩
  refine (Set.ncard_le_ncard hsub (Finset.finite_toSet _)).trans ?_
  rw [Set.ncard_coe_finset]
  exact (List.toFinset_card_le _).trans (by rw [List.length_map])

omit [DecidableEq Op] [Lang Op] in
theorem TreeTerm.lastOf_eq : ∀ {p : List (TreeTerm Op)} {t : TreeTerm Op}, p.getLast? = some t → TreeTerm.lastOf p = t.getLast
  | [t'], t, h => by
    simp only [List.getLast?_singleton, Option.some.injEq] at h
    rw [TreeTerm.lastOf, h]
  | a :: b :: p, t, h => by
    rw [TreeTerm.lastOf]
    rw [List.getLast?_cons_cons] at h
    exact lastOf_eq h

/-- **C69**, the ends: `get_initial_flat_term` of the first term of an explanation shows the
expression of the first id, `get_last_flat_term` of the last one that of the second. -/
theorem c69_ends {A : UserAnalysis Op D} {depth : Nat}
    {allow : Caller Op D} {U : List (UnionRec Op)} {eg : EGraph Op D} (h : Hist (A.at depth) allow U eg)
    {ch : Explain.Choices} {fuel : Nat} {a b : Id} {p : List (TreeTerm Op)} {eg' : EGraph Op D}
    (he : eg.explainIdEquivalence ch fuel a b = .ok (p, eg')) :
    ∃ e1 e2 s t first last f l, eg.idToExpr a = .ok e1 ∧ eg.idToExpr b = .ok e2 ∧ ExprTerm e1 s ∧ ExprTerm e2 t ∧
      p.head? = some first ∧ first.getInitial = .ok f ∧ f.term = s ∧
      p.getLast? = some last ∧ last.getLast = .ok l ∧ l.term = t := by
  have hg := hist_good h
  have hd := hg.inv.core.dag
  obtain ⟨s, t, hs, ht, hv⟩ := EGraph.explainId_valid hg he (Q := fun _ _ _ => True) (fun _ _ _ _ _ _ _ _ => trivial)
  obtain ⟨e1, h1, h2⟩ := idToExpr_of_termOf hd hs
  obtain ⟨e2, h3, h4⟩ := idToExpr_of_termOf hd ht
  obtain ⟨tr, trs, f, l, rfl, k1, k2, k3, k4⟩ := TreeTerm.ends_valid hv
  obtain ⟨last, hl⟩ : ∃ last, (tr :: trs).getLast? = some last := ⟨_, List.getLast?_eq_some_getLast (by simp)⟩
  rw [TreeTerm.lastOf_eq hl] at k3
  exact ⟨e1, e2, s, t, tr, last, f, l, h1, h3, h2, h4, rfl, k1, k2, hl, k3, k4⟩

/-! ### Finding -/

/-- The constants `a` and `b`, `b` reached by the rule 7, and `a` reached back. -/
def Ex.atA : RcTree Ex.S := .mk 0 0 0 .a none none []
def Ex.atB : RcTree Ex.S := .mk 1 0 0 .b none none []
def Ex.toB : RcTree Ex.S := .mk 2 1 0 .b none (some 7) []
def Ex.toA : RcTree Ex.S := .mk 3 0 1 .a (some 7) none []

/-- The explanation of `f a b = f b a` with the union of `a` and `b`. -/
def Ex.swapped : List (RcTree Ex.S) :=
  [.mk 4 0 0 .f none none [[Ex.atA], [Ex.atB]], .mk 5 0 0 .f none none [[Ex.atA, Ex.toB], [Ex.atB, Ex.toA]]]

theorem Ex.let_swapped : RcTree.sexpWithLet Ex.text Ex.ruleName Ex.swapped =
    .ok (.list [.str "Explanation".toList, .list [.str ['f'], .str ['a'], .str ['b']],
      .list [.str ['f'], .list [.str "Explanation".toList, .str ['a'], .list [.str "Rewrite=>".toList, .str (Ex.ruleName 7), .str ['b']]],
        .list [.str "Explanation".toList, .str ['b'], .list [.str "Rewrite<=".toList, .str (Ex.ruleName 7), .str ['a']]]]]) := by
  simp [RcTree.sexpWithLet, RcTree.findInAll, RcTree.findToLetBind, RcTree.findInProofs, RcTree.genBindings, RcTree.sexpWith, RcTree.proofsWith,
    RcTree.proofWith, RcTree.allWith, AMap.get?, RcTree.wrapLets, annotate, Ex.text, RcTree.ptr, Ex.swapped, Ex.atA, Ex.atB, Ex.toA, Ex.toB]

/-- **C69**, finding: the size is documented as the number of rewrites in the let-bound form.  But a union
that is used in both directions counts once: here there are two rewrites, which are not shared, and the size is 1. -/
theorem c69_both_directions : RcTree.getTreeSize Ex.swapped = .ok 1 ∧
    ∃ s, RcTree.sexpWithLet Ex.text Ex.ruleName Ex.swapped = .ok s ∧
      showSexp s = "(Explanation (f a b) (f (Explanation a (Rewrite=> r7 b)) (Explanation b (Rewrite<= r7 a))))".toList := by
  constructor
  · simp [RcTree.getTreeSize, RcTree.sizeAll, RcTree.treeSize, RcTree.sizeProofs, RcTree.ownSize, Ex.swapped, Ex.atA, Ex.atB, Ex.toA, Ex.toB]
  · exact ⟨_, Ex.let_swapped, by decide +kernel⟩

/-! ### Examples -/

/-- The hypotheses are met by the explanation of `f a = f b`. -/
example : ∃ p eg' ts n, Ex.x6.explainIdEquivalence Ex.ch0 20 2 3 = .ok (p, eg') ∧ Ex.x6.explainIdShared Ex.ch0 20 2 3 = .ok ts ∧
    RcTree.getTreeSize ts = .ok n ∧ n ≤ 1 := by
  have hok : ∃ p eg', Ex.x6.explainIdEquivalence Ex.ch0 20 2 3 = .ok (p, eg') := exists_of_isOk (by decide +kernel)
  obtain ⟨p, eg', hp⟩ := hok
  obtain ⟨ts, n, h1, _, h2, h3⟩ := c69_le_unions (fun _ => rfl) (Ex.histx6 .noSet) hp
  exact ⟨p, eg', ts, n, hp, h1, h2, h3⟩

end Egg
