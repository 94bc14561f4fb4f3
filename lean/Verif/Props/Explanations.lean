import Verif.Spec.Explain
import Verif.Lemmas.ExplainHist
import Verif.Props.IdToExpr
import Verif.Props.UnionEqualities
import Verif.Props.Rewrite
import Verif.ExampleExplain
/-
C33, C34: explanations.
-/
namespace Egg
variable {Op D : Type} [DecidableEq Op] [Lang Op]

/-! ### C34 -/

theorem good_of_J {A : UserAnalysis Op D} {J : Symbol → Id → Id → Prop}
    (hA : A.OK (Cfg.ofR (fun _ _ => True) isCongruence_true J) anyErr) {depth : Nat}
    {allow : Caller Op D} {U : List (UnionRec Op)} {eg : EGraph Op D}
    (h : Hist (A.at depth) allow U eg) (hU : ∀ u ∈ U, J u.reason u.a u.b) :
    EGraph.Good (Cfg.ofR (fun _ _ => True) isCongruence_true J) eg :=
  (EGraph.Hist.good (hA.hookOK trivial depth)
    (fun _ _ _ _ _ => ⟨fun _ _ => ⟨trivial, trivial⟩, fun _ _ => trivial⟩) h
    (fun u hu => ⟨trivial, hU u hu⟩)).1

theorem idToExpr_of_termOf {eg : EGraph Op D} (hd : Dag eg.nodes) {i : Id} {t : Term Op} (h : TermOf eg.nodes i t) :
    ∃ e, eg.idToExpr i = .ok e ∧ ExprTerm e t := by
  obtain ⟨sa, h1, _, _, h2, _⟩ := idToExprTop_ok hd h.lt
  exact ⟨sa.1, by simp [EGraph.idToExpr, h1], h2 t h⟩

theorem termOf_of_idToExpr {eg : EGraph Op D} (hd : Dag eg.nodes) {i : Id} {e : List (ENode Op)} {t : Term Op}
    (hi : i < eg.nodes.length) (he : eg.idToExpr i = .ok e) (ht : ExprTerm e t) : TermOf eg.nodes i t := by
  obtain ⟨u, hu⟩ := hd.exists_term i hi
  obtain ⟨e', h1, h2⟩ := idToExpr_of_termOf hd hu
  rw [he] at h1; cases h1
  rw [ht.2.unique h2.2]; exact hu

theorem stepsBy_of {eg : EGraph Op D} (hd : Dag eg.nodes) {J : Symbol → Id → Id → Prop} :
    ∀ r a b s t, J r a b → TermOf eg.nodes a s → TermOf eg.nodes b t → StepsBy eg J r s t := by
  intro r a b s t hJ hs ht
  obtain ⟨e1, h1, h2⟩ := idToExpr_of_termOf hd hs
  obtain ⟨e2, h3, h4⟩ := idToExpr_of_termOf hd ht
  exact ⟨a, b, e1, e2, hJ, h1, h3, h2, h4⟩

/-- **C34**, validity: an explanation that is returned is a valid proof, also when flattened, from
the expression of the first id to the expression of the second.  Its steps are by unions between
ids that satisfy `J`, which is any relation that all the unions of the user (and of the `modify` hook)
satisfy.  Optimization of the length may be on or off, and other explanations may have been asked for before. -/
theorem c34_valid {A : UserAnalysis Op D} {J : Symbol → Id → Id → Prop}
    (hA : A.OK (Cfg.ofR (fun _ _ => True) isCongruence_true J) anyErr) {depth : Nat}
    {allow : Caller Op D} {U : List (UnionRec Op)} {eg : EGraph Op D}
    (h : Hist (A.at depth) allow U eg) (hU : ∀ u ∈ U, J u.reason u.a u.b)
    {ch : Explain.Choices} {fuel : Nat} {a b : Id} {p : List (TreeTerm Op)} {eg' : EGraph Op D}
    (he : eg.explainIdEquivalence ch fuel a b = .ok (p, eg')) :
    ∃ e1 e2 s t, eg.idToExpr a = .ok e1 ∧ eg.idToExpr b = .ok e2 ∧ ExprTerm e1 s ∧ ExprTerm e2 t ∧
      ValidTree (StepsBy eg J) s p t ∧ ∃ fl, TreeTerm.flattenProof p [] = .ok fl ∧ ValidFlat (StepsBy eg J) s fl t := by
  have hg := good_of_J hA h hU
  have hd := hg.inv.core.dag
  obtain ⟨s, t, hs, ht, hv⟩ := EGraph.explainId_valid hg he (stepsBy_of (J := J) hd)
  obtain ⟨e1, h1, h2⟩ := idToExpr_of_termOf hd hs
  obtain ⟨e2, h3, h4⟩ := idToExpr_of_termOf hd ht
  exact ⟨e1, e2, s, t, h1, h3, h2, h4, hv, TreeTerm.flatten_valid p hv⟩

/-- **C34** without a `modify` hook: the steps of explanations are unions that the caller asserted,
with their reasons and directions. -/
theorem c34_valid_asserted {A : UserAnalysis Op D} (hA : ∀ i, A.modify i = .done) {depth : Nat}
    {allow : Caller Op D} {U : List (UnionRec Op)} {eg : EGraph Op D} (h : Hist (A.at depth) allow U eg)
    {ch : Explain.Choices} {fuel : Nat} {a b : Id} {p : List (TreeTerm Op)} {eg' : EGraph Op D}
    (he : eg.explainIdEquivalence ch fuel a b = .ok (p, eg')) :
    ∃ e1 e2 s t, eg.idToExpr a = .ok e1 ∧ eg.idToExpr b = .ok e2 ∧ ExprTerm e1 s ∧ ExprTerm e2 t ∧
      ValidTree (StepsBy eg (Asserted U)) s p t ∧
      ∃ fl, TreeTerm.flattenProof p [] = .ok fl ∧ ValidFlat (StepsBy eg (Asserted U)) s fl t :=
  c34_valid (ok_of_quiet hA _ _ _) h (fun u hu => ⟨u, hu, rfl, rfl, rfl⟩) he

theorem addExpr_hist {A : UserAnalysis Op D} {depth : Nat} {allow : Caller Op D} {U : List (UnionRec Op)} {eg : EGraph Op D}
    (h : Hist (A.at depth) allow U eg) {e : List (ENode Op)} {eg1 : EGraph Op D} {i : Id}
    (ha : EGraph.addExprUncanonical (A.at depth) eg e = .ok (eg1, i)) : Hist (A.at depth) allow U eg1 := by
  have := Steps.trans h (EGraph.addExprUncanonical_steps (allow := allow) ha)
  simpa [Hist] using this

/-- **C34** for `explain_equivalence`: the explanation goes from the term of the first to the term of the
second of the given expressions themselves. -/
theorem c34_valid_exprs {A : UserAnalysis Op D} {J : Symbol → Id → Id → Prop}
    (hA : A.OK (Cfg.ofR (fun _ _ => True) isCongruence_true J) anyErr) {depth : Nat}
    {allow : Caller Op D} {U : List (UnionRec Op)} {eg : EGraph Op D}
    (h : Hist (A.at depth) allow U eg) (hU : ∀ u ∈ U, J u.reason u.a u.b)
    {ch : Explain.Choices} {fuel : Nat} {e1 e2 : List (ENode Op)} (hw1 : WFExpr e1) (hw2 : WFExpr e2)
    {p : List (TreeTerm Op)} {eg' : EGraph Op D}
    (he : EGraph.explainEquivalence (A.at depth) eg ch fuel e1 e2 = .ok (p, eg')) :
    ∃ s t, ExprTerm e1 s ∧ ExprTerm e2 t ∧
      ValidTree (StepsBy eg' J) s p t ∧ ∃ fl, TreeTerm.flattenProof p [] = .ok fl ∧ ValidFlat (StepsBy eg' J) s fl t := by
  unfold EGraph.explainEquivalence at he
  obtain ⟨⟨eg1, l⟩, h1, he⟩ := bind_eq_ok.1 he
  obtain ⟨⟨eg2, r⟩, h2, he⟩ := bind_eq_ok.1 he
  have he : eg2.explainIdEquivalence ch fuel l r = .ok (p, eg') := he
  have hh1 := addExpr_hist h h1
  have hh2 := addExpr_hist hh1 h2
  have hN := hA.hookOK trivial depth
  have hg := good_of_J hA h hU
  have hg1 := good_of_J hA hh1 hU
  have hg2 := good_of_J hA hh2 hU
  have hd := hg2.inv.core.dag
  have hx2 : ∃ x x', eg2.explain = some x ∧ eg' = { eg2 with explain := some x' } := by
    obtain ⟨_, _, _, x, x', hx, hx', _⟩ := EGraph.explainId_ok hg2 he
    exact ⟨x, x', hx, hx'⟩
  obtain ⟨x, x', hx2, rfl⟩ := hx2
  have hpos1 : 0 < e1.length := List.length_pos_iff.2 hw1.1
  have hpos2 : 0 < e2.length := List.length_pos_iff.2 hw2.1
  obtain ⟨s0, hs0⟩ := Dag.exists_term (show Dag _ from hw1.2) (e1.length - 1) (by omega)
  obtain ⟨t0, ht0⟩ := Dag.exists_term (show Dag _ from hw2.2) (e2.length - 1) (by omega)
  have g1 := (EGraph.addExprUncanonical_post hN (.inl hw1) hg).elim h1
  have g2 := (EGraph.addExprUncanonical_post hN (.inl hw2) hg1).elim h2
  have x1 : eg1.explain.isSome := by rw [← g2.2.1.expl, hx2]; rfl
  have x0 : eg.explain.isSome := by rw [← g1.2.1.expl]; exact x1
  have k1 := EGraph.addExprUncanonical_exact hN hw1.2 hg x0 h1 s0 ⟨hw1.1, hs0⟩
  have k2 := EGraph.addExprUncanonical_exact hN hw2.2 hg1 x1 h2 t0 ⟨hw2.1, ht0⟩
  have k1' : TermOf eg2.nodes l s0 := by
    obtain ⟨z, hz⟩ := g2.2.1.nodes
    rw [hz]; exact k1.append
  obtain ⟨s, t, hs, ht, hv⟩ := EGraph.explainId_valid hg2 he
    (stepsBy_of (J := J) (eg := { eg2 with explain := some x' }) hd)
  rw [hs.unique k1', ht.unique k2] at hv
  exact ⟨s0, t0, ⟨hw1.1, hs0⟩, ⟨hw2.1, ht0⟩, hv, TreeTerm.flatten_valid p hv⟩

omit [DecidableEq Op] [Lang Op] in
theorem le_sum_of_mem' {l : List Nat} {n : Nat} (h : n ∈ l) : n ≤ l.sum := by
  induction l with
  | nil => simp at h
  | cons a l ih =>
    rw [List.sum_cons]
    rcases List.mem_cons.1 h with rfl | h
    · omega
    · have := ih h; omega

/-- **C34**, the proof checker: if, for every rule of the list that has two patterns, all the unions
asserted under its name unite instances of its patterns, then `check_proof` accepts every explanation. -/
theorem c34_check_proof {A : UserAnalysis Op D} {J : Symbol → Id → Id → Prop}
    (hA : A.OK (Cfg.ofR (fun _ _ => True) isCongruence_true J) anyErr) {depth : Nat}
    {allow : Caller Op D} {U : List (UnionRec Op)} {eg : EGraph Op D}
    (h : Hist (A.at depth) allow U eg) (hU : ∀ u ∈ U, J u.reason u.a u.b)
    {rules : List (RuleInfo Op)}
    (hrules : ∀ info ∈ rules, ∀ lhs rhs, info.lhs = some lhs → info.rhs = some rhs → PatternsOK lhs rhs ∧
      ∀ s t, StepsBy eg J info.name s t → IsInstance lhs rhs s t)
    {ch : Explain.Choices} {fuel : Nat} {a b : Id} {p : List (TreeTerm Op)} {eg' : EGraph Op D}
    (he : eg.explainIdEquivalence ch fuel a b = .ok (p, eg')) :
    ∃ f0, ∀ f, f0 ≤ f → checkProof f rules p = .ok () := by
  obtain ⟨e1, e2, s, t, _, _, _, _, hv, _⟩ := c34_valid hA h hU he
  refine ⟨(rules.map (fun i => (i.rhs.map List.length).getD 0)).sum, fun f hf => ?_⟩
  refine checkProof_ok (J := StepsBy eg J) ?_ hv
  intro r info lhs rhs s t hg hl hr hj
  obtain ⟨hm, rfl⟩ := makeRuleTable_mem hg
  obtain ⟨hp, hi⟩ := hrules info hm lhs rhs hl hr
  obtain ⟨τ, L, R, i1, i2, i3, i4⟩ := hi s t hj
  refine ⟨τ, L, R, i1, i2, hp.right.1.2, ?_, hp.vars L R i1 i2, i3, i4⟩
  have : rhs.length ∈ rules.map (fun i => (i.rhs.map List.length).getD 0) :=
    List.mem_map.2 ⟨info, hm, by rw [hr]; rfl⟩
  exact le_trans (le_sum_of_mem' this) hf

/-! #### Histories in which all unions are made by rules -/

/-- `s = t` is an instance of a rule of the list called `r`. -/
def ByRule (rules : List (RuleInfo Op)) (r : Symbol) (s t : Term Op) : Prop :=
  ∃ info ∈ rules, info.name = r ∧ ∃ lhs rhs, info.lhs = some lhs ∧ info.rhs = some rhs ∧ IsInstance lhs rhs s t

theorem RuleSteps.steps {A : UserAnalysis Op D} (hA : ∀ i, A.modify i = .done) {depth : Nat} {allow : Caller Op D} {rules : List (RuleInfo Op)}
    (hr : ∀ info ∈ rules, ∀ lhs rhs, info.lhs = some lhs → info.rhs = some rhs → PatternsOK lhs rhs)
    {eg0 eg : EGraph Op D} (h0 : Hist (A.at depth) allow [] eg0) (hx : eg0.explain.isSome) (hdis : ¬ allow.disables) (h : RuleSteps (A.at depth) allow rules eg0 eg) :
    eg.explain.isSome ∧ ∃ U, Hist (A.at depth) allow U eg ∧ ∀ u ∈ U, ∃ s t, TermOf eg.nodes u.a s ∧ TermOf eg.nodes u.b t ∧
      ByRule rules u.reason s t := by
  induction h with
  | refl => exact ⟨hx, [], h0, by simp⟩
  | @other eg1 eg2 _ hs ih =>
    obtain ⟨ih1, U, ih2, ih3⟩ := ih
    have hh : Hist (A.at depth) allow U eg2 := Steps.tail (V := []) ih2 hs
    have hgr := (steps_grow (Steps.single hs) (hist_good ih2)).2
    refine ⟨?_, U, hh, fun u hu => ?_⟩
    · exact steps_expl (Steps.single hs) (hist_good ih2) hdis ih1
    · obtain ⟨s, t, h1, h2, h3⟩ := ih3 u hu
      obtain ⟨z, hz⟩ := hgr.nodes
      exact ⟨s, t, by rw [hz]; exact h1.append, by rw [hz]; exact h2.append, h3⟩
  | @rule eg1 eg2 info lhs rhs s i did _ hm hl hrh hs hu ih => 
    obtain ⟨ih1, U, ih2, ih3⟩ := ih
    have hp := hr info hm lhs rhs hl hrh
    have hg := hist_good ih2
    have hN := (soundFor_true A).hookOK (E := fun _ => True) trivial depth
    have hq : EGraph.QuietMod (A.at depth) := fun eg i eg' he => UserAnalysis.quiet_modify hA he
    unfold EGraph.unionInstantiations at hu
    obtain ⟨⟨eg3, id1⟩, h1, hu⟩ := bind_eq_ok.1 hu
    obtain ⟨⟨eg4, id2⟩, h2, hu⟩ := bind_eq_ok.1 hu
    obtain ⟨⟨eg5, d⟩, h3, hu⟩ := bind_eq_ok.1 hu
    obtain ⟨j, _, hu⟩ := bind_eq_ok.1 hu
    cases hu
    have hval : ∀ v x, s.get v = some x → x < eg1.nodes.length := fun v x hv => hg.valid_iff.1 (hs v x hv)
    have hh3 : Hist (A.at depth) allow U eg3 := by
      simpa [Hist] using Steps.trans ih2 ((EGraph.addInst_steps h1).steps (allow := allow))
    have hh4 : Hist (A.at depth) allow U eg4 := by
      simpa [Hist] using Steps.trans hh3 ((EGraph.addInst_steps h2).steps (allow := allow))
    have hg4 := hist_good hh4
    have hv12 : Valid eg4 id1 ∧ Valid eg4 id2 := by
      by_contra hc
      have := (EGraph.union_error (N := A.at depth) (caller := info.name) hg4 hc).2
      unfold EGraph.unionTrusted at this
      rw [h3] at this; cases this
    have hop : Nonempty Op := by
      have := hg4.valid_iff.1 hv12.1
      obtain ⟨n, hn⟩ : ∃ n, eg4.nodes[id1]? = some n := ⟨_, List.getElem?_eq_getElem this⟩
      exact ⟨n.op⟩
    have hτ : ∃ τ : Var → Term Op, ∀ v x, s.get v = some x → TermOf eg1.nodes (eg1.rt x) (τ v) := by
      have : ∀ v, ∃ t, ∀ x, s.get v = some x → TermOf eg1.nodes (eg1.rt x) t := by
        intro v
        cases hv : s.get v with
        | none => exact ⟨.node hop.some [], by simp⟩
        | some x =>
          obtain ⟨t, ht⟩ := hg.inv.core.dag.exists_term _ (hg.inv.core.rtLt x (hval v x hv))
          exact ⟨t, by rintro y ⟨⟩; exact ht⟩
      exact ⟨fun v => (this v).choose, fun v => (this v).choose_spec⟩
    obtain ⟨τ, hτ⟩ := hτ
    obtain ⟨a1, a2, a3, a4⟩ := EGraph.addInst_exact (τ := τ) hN hq hp.left hg ih1 (fun v x hv => ⟨hval v x hv, hτ v x hv⟩) h1
    obtain ⟨b1, b2, b3, b4⟩ := EGraph.addInst_exact (τ := τ) hN hq hp.right a1 a3 (fun v x hv => by
      have hlt := hval v x hv
      obtain ⟨z, hz⟩ := a2.nodes
      refine ⟨by rw [hz]; simp; omega, ?_⟩
      rw [a2.rt x hlt, hz]; exact (hτ v x hv).append) h2
    obtain ⟨L, hL⟩ : ∃ L, ExprTerm lhs L := by
      have := List.length_pos_iff.2 hp.left.1.1
      obtain ⟨L, hL⟩ := Dag.exists_term (show Dag _ from hp.left.1.2) (lhs.length - 1) (by omega)
      exact ⟨L, hp.left.1.1, hL⟩
    obtain ⟨R, hR⟩ : ∃ R, ExprTerm rhs R := by
      have := List.length_pos_iff.2 hp.right.1.1
      obtain ⟨R, hR⟩ := Dag.exists_term (show Dag _ from hp.right.1.2) (rhs.length - 1) (by omega)
      exact ⟨R, hp.right.1.1, hR⟩
    obtain ⟨tl, i1, i2⟩ := a4 L hL
    obtain ⟨tr, i3, i4⟩ := b4 R hR
    have i2' : TermOf eg4.nodes id1 tl := by
      obtain ⟨z, hz⟩ := b2.nodes
      rw [hz]; exact i2.append
    have hstep : Step (A.at depth) allow eg4 [⟨info.name, id1, id2, tl, tr⟩] eg2 :=
      .unionTrusted (hg4.inv.rep_of_termOf _ i2') (hg4.inv.rep_of_termOf _ i4) h3
    have hgr := (steps_grow (Steps.single hstep) hg4).2
    refine ⟨steps_expl (Steps.single hstep) hg4 hdis b3, _, Steps.tail hh4 hstep, ?_⟩
    obtain ⟨z, hz⟩ := hgr.nodes
    intro u hu
    rcases List.mem_append.1 hu with hu | hu
    · rw [List.mem_singleton] at hu
      subst hu
      refine ⟨tl, tr, by rw [hz]; exact i2'.append, by rw [hz]; exact i4.append, info, hm, rfl, lhs, rhs, hl, hrh, τ, L, R, hL, hR, i1, i3⟩
    · obtain ⟨s', t', k1, k2, k3⟩ := ih3 u hu
      obtain ⟨z1, hz1⟩ := a2.nodes
      obtain ⟨z2, hz2⟩ := b2.nodes
      refine ⟨s', t', ?_, ?_, k3⟩
      · rw [hz, hz2, hz1]; exact k1.append.append.append
      · rw [hz, hz2, hz1]; exact k2.append.append.append

/-- **C34**: if all unions are made by applying rules with two patterns, from a state with
explanations enabled, which are not switched off, and the rules have different names, then every step of an explanation
is an instance of the rule that it names, and `check_proof` accepts the explanation. -/
theorem c34_rules {A : UserAnalysis Op D} (hA : ∀ i, A.modify i = .done) {depth : Nat} {allow : Caller Op D} {rules : List (RuleInfo Op)}
    (hr : ∀ info ∈ rules, ∀ lhs rhs, info.lhs = some lhs → info.rhs = some rhs → PatternsOK lhs rhs)
    (hnames : (rules.map (·.name)).Nodup)
    {eg0 eg : EGraph Op D} (h0 : Hist (A.at depth) allow [] eg0) (hx : eg0.explain.isSome) (hdis : ¬ allow.disables) (h : RuleSteps (A.at depth) allow rules eg0 eg)
    {ch : Explain.Choices} {fuel : Nat} {a b : Id} {p : List (TreeTerm Op)} {eg' : EGraph Op D}
    (he : eg.explainIdEquivalence ch fuel a b = .ok (p, eg')) :
    (∃ e1 e2 s t, eg.idToExpr a = .ok e1 ∧ eg.idToExpr b = .ok e2 ∧ ExprTerm e1 s ∧ ExprTerm e2 t ∧
      ∃ fl, TreeTerm.flattenProof p [] = .ok fl ∧ ValidFlat (ByRule rules) s fl t) ∧
    ∃ f0, ∀ f, f0 ≤ f → checkProof f rules p = .ok () := by
  obtain ⟨_, U, hh, hU⟩ := RuleSteps.steps hA hr h0 hx hdis h
  have hg := good_of_J (J := Asserted U) (ok_of_quiet hA _ _ _) hh (fun u hu => ⟨u, hu, rfl, rfl, rfl⟩ : ∀ u ∈ U, Asserted U u.reason u.a u.b)
  have hd := hg.inv.core.dag
  have hQ : ∀ r a b s t, Asserted U r a b → TermOf eg.nodes a s → TermOf eg.nodes b t → ByRule rules r s t := by
    rintro r a b s t ⟨u, hu, rfl, rfl, rfl⟩ hs ht
    obtain ⟨s', t', h1, h2, h3⟩ := hU u hu
    rw [hs.unique h1, ht.unique h2]; exact h3
  obtain ⟨s, t, hs, ht, hv⟩ := EGraph.explainId_valid hg he hQ
  obtain ⟨e1, h1, h2⟩ := idToExpr_of_termOf hd hs
  obtain ⟨e2, h3, h4⟩ := idToExpr_of_termOf hd ht
  refine ⟨⟨e1, e2, s, t, h1, h3, h2, h4, TreeTerm.flatten_valid p hv⟩, ?_⟩
  refine c34_check_proof (ok_of_quiet hA _ _ (Asserted U)) hh (fun u hu => ⟨u, hu, rfl, rfl, rfl⟩) (fun info hm lhs rhs hl hrh => ⟨hr info hm lhs rhs hl hrh, ?_⟩) he
  rintro s t ⟨a, b, e1, e2, ⟨u, hu, hur, rfl, rfl⟩, k1, k2, k3, k4⟩
  obtain ⟨s', t', q1, q2, info', hm', hn', l', r', hl', hr', hi⟩ := hU u hu
  have : info' = info := by
    have := List.inj_on_of_nodup_map hnames hm' hm (by rw [hn', hur])
    exact this
  subst this
  rw [hl] at hl'; cases hl'
  rw [hrh] at hr'; cases hr'
  rw [(termOf_of_idToExpr hd q1.lt k1 k3).unique q1, (termOf_of_idToExpr hd q2.lt k2 k4).unique q2]
  exact hi

theorem unionInst_steps {A : UserAnalysis Op D} {depth : Nat} {allow : Caller Op D} {U : List (UnionRec Op)} {eg eg' : EGraph Op D}
    (h : Hist (A.at depth) allow U eg) {l e : PatternAst Op} {s : Subst} {rule : Symbol} {i : Id} {did : Bool}
    (hu : eg.unionInstantiations (A.at depth) l e s rule = .ok (eg', i, did)) :
    ∃ V, Steps (A.at depth) allow eg V eg' ∧ EGraph.Grow eg eg' ∧ (eg.explain.isSome → eg'.explain.isSome) := by
  unfold EGraph.unionInstantiations at hu
  obtain ⟨⟨eg3, id1⟩, h1, hu⟩ := bind_eq_ok.1 hu
  obtain ⟨⟨eg4, id2⟩, h2, hu⟩ := bind_eq_ok.1 hu
  obtain ⟨⟨eg5, d⟩, h3, hu⟩ := bind_eq_ok.1 hu
  obtain ⟨j, _, hu⟩ := bind_eq_ok.1 hu
  cases hu
  have hs4 : ∀ allow : Caller Op D, Steps (A.at depth) allow eg [] eg4 := by
    intro allow
    simpa using Steps.trans ((EGraph.addInst_steps h1).steps (allow := allow)) ((EGraph.addInst_steps h2).steps (allow := allow))
  have hg := hist_good h
  have hg4 := (steps_grow (hs4 allow) hg).1
  have hv : Valid eg4 id1 ∧ Valid eg4 id2 := by
    by_contra hc
    have := (EGraph.union_error (N := A.at depth) (caller := rule) hg4 hc).2
    unfold EGraph.unionTrusted at this
    rw [h3] at this; cases this
  obtain ⟨s, hs⟩ := hg4.inv.exists_rep (hg4.valid_iff.1 hv.1)
  obtain ⟨t, ht⟩ := hg4.inv.exists_rep (hg4.valid_iff.1 hv.2)
  have hst : ∀ allow : Caller Op D, Steps (A.at depth) allow eg4 [⟨rule, id1, id2, s, t⟩] eg' := fun allow => Steps.single (.unionTrusted hs ht h3)
  exact ⟨_, Steps.trans (hs4 _) (hst _), (steps_grow (Steps.trans (hs4 allow) (hst allow)) hg).2,
    steps_expl (allow := ⟨fun _ _ _ => False, False, False⟩) (Steps.trans (hs4 _) (hst _)) hg id⟩

theorem unionInst_hist {A : UserAnalysis Op D} {depth : Nat} {allow : Caller Op D} {U : List (UnionRec Op)} {eg eg' : EGraph Op D}
    (h : Hist (A.at depth) allow U eg) {l e : PatternAst Op} {s : Subst} {rule : Symbol} {i : Id} {did : Bool}
    (hu : eg.unionInstantiations (A.at depth) l e s rule = .ok (eg', i, did)) :
    ∃ U', Hist (A.at depth) allow U' eg' ∧ EGraph.Grow eg eg' ∧ (eg.explain.isSome → eg'.explain.isSome) := by
  obtain ⟨V, h1, h2⟩ := unionInst_steps h hu
  exact ⟨_, Steps.trans h h1, h2⟩

/-- **C34**: with explanations enabled, `apply_matches` of a rule with two patterns, on matches of its
left pattern, is such a sequence of rule applications. -/
theorem c34_apply_matches {A : UserAnalysis Op D} {depth : Nat} {allow : Caller Op D} {U : List (UnionRec Op)}
    {rules : List (RuleInfo Op)} {lp rp : Pattern Op} {name : Symbol} (hm : ⟨name, some lp.ast, some rp.ast⟩ ∈ rules)
    {eg eg' : EGraph Op D} (h : Hist (A.at depth) allow U eg) (hx : eg.explain.isSome) {ms : List (SearchMatches Op)}
    (hast : ∀ m ∈ ms, m.ast = some lp.ast) (hval : ∀ m ∈ ms, ∀ s ∈ m.substs, ∀ v x, s.get v = some x → Valid eg x)
    {ids : List Id} (ha : rp.applyMatches (A.at depth) eg ms name = .ok (eg', ids)) :
    RuleSteps (A.at depth) allow rules eg eg' := by
  have hvalid : ∀ (eg1 eg2 : EGraph Op D) (U : List (UnionRec Op)) (U' : List (UnionRec Op)), Hist (A.at depth) allow U eg1 →
      Hist (A.at depth) allow U' eg2 → EGraph.Grow eg1 eg2 → ∀ x, Valid eg1 x → Valid eg2 x := by
    intro eg1 eg2 U U' h1 h2 hg x hv
    rw [(hist_good h1).valid_iff] at hv
    rw [(hist_good h2).valid_iff]
    exact lt_of_lt_of_le hv hg.len
  have hsub : ∀ (ss : List Subst) (c : Id) (eg1 eg2 : EGraph Op D) (U1 : List (UnionRec Op)) (buf buf' added added' : List Id),
      Hist (A.at depth) allow U1 eg1 → eg1.explain.isSome → (∀ s ∈ ss, ∀ v x, s.get v = some x → Valid eg1 x) →
      rp.applySubsts (A.at depth) (some lp.ast) c name eg1 ss buf added = .ok (eg2, buf', added') →
      RuleSteps (A.at depth) allow rules eg eg1 →
      RuleSteps (A.at depth) allow rules eg eg2 ∧ eg2.explain.isSome ∧ ∃ U2, Hist (A.at depth) allow U2 eg2 ∧ EGraph.Grow eg1 eg2 := by
    intro ss c
    induction ss with
    | nil =>
      intro eg1 eg2 U1 buf buf' added added' g1 g2 g3 g4 g5
      cases g4
      exact ⟨g5, g2, U1, g1, EGraph.Grow.refl _⟩
    | cons s ss ih =>
      intro eg1 eg2 U1 buf buf' added added' g1 g2 g3 g4 g5
      unfold Pattern.applySubsts at g4
      rw [if_pos g2] at g4
      simp only [unwrap, ok_bind] at g4
      obtain ⟨⟨eg3, i, did⟩, k1, k2⟩ := bind_eq_ok.1 g4
      obtain ⟨U3, k3, k4, k5⟩ := unionInst_hist g1 k1
      have := ih eg3 eg2 U3 _ _ _ _ k3 (k5 g2) (fun s hs v x hv => hvalid _ _ _ _ g1 k3 k4 x (g3 s (by simp [hs]) v x hv)) k2
        (g5.rule hm rfl rfl (g3 s (by simp)) k1)
      obtain ⟨q1, q2, U2, q3, q4⟩ := this
      exact ⟨q1, q2, U2, q3, k4.trans q4⟩
  have hgo : ∀ (ms : List (SearchMatches Op)) (eg1 eg2 : EGraph Op D) (U1 : List (UnionRec Op)) (buf added ids : List Id),
      (∀ m ∈ ms, m.ast = some lp.ast) → (∀ m ∈ ms, ∀ s ∈ m.substs, ∀ v x, s.get v = some x → Valid eg1 x) →
      Hist (A.at depth) allow U1 eg1 → eg1.explain.isSome →
      rp.applyMatchesGo (A.at depth) name eg1 ms buf added = .ok (eg2, ids) →
      RuleSteps (A.at depth) allow rules eg eg1 → RuleSteps (A.at depth) allow rules eg eg2 := by
    intro ms
    induction ms with
    | nil =>
      intro eg1 eg2 U1 buf added ids _ _ _ _ g5 g6
      cases g5
      exact g6
    | cons m ms ih =>
      intro eg1 eg2 U1 buf added ids g1 g2 g3 g4 g5 g6
      unfold Pattern.applyMatchesGo at g5
      rw [g1 m (by simp)] at g5
      obtain ⟨⟨eg3, buf3, added3⟩, k1, k2⟩ := bind_eq_ok.1 g5
      obtain ⟨q1, q2, U2, q3, q4⟩ := hsub _ _ _ _ _ _ _ _ _ g3 g4 (g2 m (by simp)) k1 g6
      exact ih eg3 eg2 U2 _ _ _ (fun m hm => g1 m (by simp [hm]))
        (fun m hm s hs v x hv => hvalid _ _ _ _ g3 q3 q4 x (g2 m (by simp [hm]) s hs v x hv)) q3 q2 k2 q1
  exact hgo ms eg eg' U _ _ _ hast hval h hx ha .refl

/-! ### C33 -/

/-- The caller never asks for an explanation while the optimization of lengths is on, except that
the history may contain any other operation. -/
def Caller.unoptimized (sets : EGraph Op D → Id → D → Prop) : Caller Op D := ⟨sets, False, True⟩

/-- The assumptions on unions and data are void; no optimized request was made. -/
def plainCfg : Cfg Op D := { (Cfg.ofR (fun _ _ => True) isCongruence_true anyReason) with optimized := False }

theorem safe_plain (N : Analysis Op D) : ∀ (p : Prog Op D) (eg : EGraph Op D),
    Sensible (plainCfg (Op := Op) (D := D)) eg → p.Safe (plainCfg (Op := Op) (D := D)) anyErr N eg := by
  intro p
  induction p with
  | done => intro eg _; trivial
  | panic => intro eg _; trivial
  | read k ih => intro eg h; exact ih eg eg h
  | add n k ih => intro eg h; exact ⟨Or.inr trivial, fun eg' i _ hl _ => ih i eg' hl.sensible⟩
  | union a b caller k ih =>
    intro eg h
    refine ⟨Or.inr trivial, ?_, fun eg' r _ hl _ => ih r eg' hl.sensible⟩
    intro ha hb
    obtain ⟨s, hs⟩ := h.inhabited a ha
    obtain ⟨t, ht⟩ := h.inhabited b hb
    exact ⟨⟨s, t, hs, ht, trivial⟩, trivial⟩
  | setData i d k ih =>
    intro eg h
    exact ⟨Or.inr trivial, ⟨fun _ _ => ⟨trivial, trivial⟩, fun _ _ => trivial⟩,
      fun eg' _ hl => ih eg' hl.sensible⟩

theorem hist_good_plain {A : UserAnalysis Op D} {depth : Nat} {sets : EGraph Op D → Id → D → Prop} {U : List (UnionRec Op)} {eg : EGraph Op D}
    (h : Hist (A.at depth) (Caller.unoptimized sets) U eg) : EGraph.Good (plainCfg (Op := Op) (D := D)) eg := by
  have hA : A.OK (plainCfg (Op := Op) (D := D)) anyErr :=
    { make := (soundFor_true A).make, remake := (soundFor_true A).remake, mergeV := fun _ _ => trivial, mergeL := fun _ _ => trivial,
      mergeR := fun _ _ => trivial, mergeLub := fun _ _ => trivial, flagL := fun _ _ _ => trivial, flagR := fun _ _ _ => trivial,
      modify := fun depth eg i hs _ => safe_plain _ _ eg hs }
  exact (EGraph.Hist.good (hA.hookOK trivial depth)
    (fun _ _ _ _ _ => ⟨fun _ _ => ⟨trivial, trivial⟩, fun _ _ => trivial⟩) h
    (fun u hu => ⟨trivial, trivial⟩) (fun h => h)).1

/-- **C33** when the optimization of lengths is off: with explanations enabled, a request about any
two ids in the same class returns, and leaves the e-graph unchanged. -/
theorem c33_unoptimized {A : UserAnalysis Op D} {depth : Nat} {sets : EGraph Op D → Id → D → Prop} {U : List (UnionRec Op)} {eg0 eg : EGraph Op D}
    (h : Hist (A.at depth) (Caller.unoptimized sets) U eg0) (he : eg0.withoutExplanationLengthOptimization = .ok eg)
    {a b : Id} (hab : SameClass eg a b) :
    ∃ f0, ∀ ch fuel, f0 ≤ fuel → ∃ p, eg.explainIdEquivalence ch fuel a b = .ok (p, eg) := by
  have h' : Hist (A.at depth) (Caller.unoptimized sets) U eg := Steps.tail (V := []) h (.noOptimize he)
  have hg := hist_good_plain h'
  unfold EGraph.withoutExplanationLengthOptimization at he
  cases hx : eg0.explain with
  | none => rw [hx] at he; cases he
  | some x =>
    rw [hx] at he; cases he
    exact EGraph.explainId_returns hg id rfl rfl hab

/-- Ids that are not in the same class, or explanations off: the request panics. -/
theorem c33_panics {A : UserAnalysis Op D} {depth : Nat} {allow : Caller Op D} {U : List (UnionRec Op)} {eg : EGraph Op D}
    (h : Hist (A.at depth) allow U eg) {a b : Id} (hab : ¬ SameClass eg a b ∨ eg.explain = none) (ch : Explain.Choices) (fuel : Nat) :
    eg.explainIdEquivalence ch fuel a b = .error .panic := by
  have hg := hist_good h
  unfold EGraph.explainIdEquivalence
  have hfind : ∀ i, i < eg.nodes.length ∨ eg.find i = .error .panic := by
    intro i
    by_cases hi : i < eg.nodes.length
    · exact .inl hi
    · right; unfold EGraph.find; exact UF.find_error_of_ge (by rw [← hg.inv.len]; exact hi)
  rcases hfind a with ha | ha
  · rcases hfind b with hb | hb
    · rw [hg.inv.find ha, hg.inv.find hb]
      simp only [ok_bind]
      by_cases hrt : eg.rt a = eg.rt b
      · rcases hab with hab | hab
        · exact absurd (hg.inv.sameClass_iff.2 ⟨ha, hb, hrt⟩) hab
        · rw [if_neg (by simpa using hrt), hab]
      · rw [if_pos hrt]
    · rw [hg.inv.find ha, hb]; rfl
  · rw [ha]; rfl

/-- Once explanations are off and the e-graph is not empty they stay off, whatever is called later; the
calls that would switch them on panic, or do nothing. -/
theorem c33_stays_off {A : UserAnalysis Op D} {depth : Nat} {allow : Caller Op D} {U V : List (UnionRec Op)} {eg eg' : EGraph Op D}
    (h : Hist (A.at depth) allow U eg) (hoff : eg.explain = none) (hne : ∃ i, Valid eg i)
    (h' : Steps (A.at depth) allow eg V eg') : eg'.explain = none := by
  have hlt : 0 < eg.nodes.length := by
    obtain ⟨i, hi⟩ := hne
    have := (hist_good h).valid_iff.1 hi
    omega
  have := hist_good h
  clear hne h
  induction h' with
  | refl => exact hoff
  | tail h1 hst ih =>
    obtain ⟨g1, g2⟩ := steps_grow h1 this
    exact EGraph.Step.explNone ((soundFor_true A).hookOK trivial depth) (fun _ _ _ _ _ => ⟨fun _ _ => ⟨trivial, trivial⟩, fun _ _ => trivial⟩)
      hst (fun _ _ => ⟨trivial, trivial⟩) g1 (by have := g2.len; intro e; rw [e, List.length_nil] at this; omega) ih

/-- Switching explanations off changes nothing else: no class, no term, no datum.  From then on every
request for an explanation panics, unless the e-graph was empty. -/
theorem c33_disabled {A : UserAnalysis Op D} {depth : Nat} {allow : Caller Op D} {U V : List (UnionRec Op)} {eg eg' : EGraph Op D}
    (h : Hist (A.at depth) allow U eg) (hall : allow.disables) (hne : ∃ i, Valid eg i)
    (h' : Steps (A.at depth) allow eg.withExplanationsDisabled V eg') :
    (∀ a b, SameClass eg.withExplanationsDisabled a b ↔ SameClass eg a b) ∧
    (∀ i, eg.withExplanationsDisabled.find i = eg.find i ∧ eg.withExplanationsDisabled.index i = eg.index i ∧
      eg.withExplanationsDisabled.idToExpr i = eg.idToExpr i) ∧
    eg.withExplanationsDisabled.areExplanationsEnabled = false ∧ eg'.areExplanationsEnabled = false ∧
    eg'.withExplanationsEnabled = .error .panic ∧
    ∀ (ch : Explain.Choices) (fuel : Nat) (a b : Id), eg'.explainIdEquivalence ch fuel a b = .error .panic := by
  have hd : Hist (A.at depth) allow U eg.withExplanationsDisabled := Steps.tail (V := []) h (.disable hall)
  have hoff := c33_stays_off hd rfl hne h'
  have h2 : Hist (A.at depth) allow _ eg' := Steps.trans hd h'
  refine ⟨fun a b => Iff.rfl, fun i => ⟨rfl, rfl, rfl⟩, rfl, by simp [EGraph.areExplanationsEnabled, hoff], ?_, fun ch fuel a b => c33_panics h2 (.inr hoff) ch fuel⟩
  unfold EGraph.withExplanationsEnabled
  rw [hoff]
  dsimp only
  rw [if_pos]
  have hg := hist_good h2
  obtain ⟨i, hi⟩ := hne
  have h3 := (hist_good h).valid_iff.1 hi
  have h4 := (steps_grow h' (hist_good hd)).2.len
  have h5 : eg.withExplanationsDisabled.nodes = eg.nodes := rfl
  rw [h5] at h4
  unfold EGraph.totalSize
  apply Nat.pos_of_ne_zero
  intro e
  rw [hg.inv.memoNodup.2 (List.length_eq_zero_iff.1 e), List.length_nil] at h4
  omega

/-! ### Examples -/

/-- Hypotheses of C34 are met: after `union a b` and `rebuild`, an (optimized) explanation of
`f a = f b` is returned. -/
example : Hist (Ex.U0.at 1) .noSet [Ex.un] Ex.x6 ∧ (∀ i, Ex.U0.modify i = .done) ∧
    ∃ p eg', Ex.x6.explainIdEquivalence Ex.ch0 20 2 3 = .ok (p, eg') :=
  ⟨Ex.histx6 _, fun _ => rfl, exists_of_isOk (by decide +kernel)⟩

/-- The same for the expressions `f b` and `f a`. -/
example : WFExpr [Ex.leaf .b, Ex.app .f [0]] ∧ WFExpr [Ex.leaf .a, Ex.app .f [0]] ∧ ∃ p eg',
    EGraph.explainEquivalence (Ex.U0.at 1) Ex.x6 Ex.ch0 20 [Ex.leaf .b, Ex.app .f [0]] [Ex.leaf .a, Ex.app .f [0]] = .ok (p, eg') :=
  ⟨wfExpr_of rfl rfl, wfExpr_of rfl rfl, exists_of_isOk (by decide +kernel)⟩

def Ex.x6n : Ex.G := { Ex.x6 with explain := Ex.x6.explain.map (fun x => { x with optimize := false }) }

/-- Explanations are switched off after a union; more calls follow. -/
example : Hist (Ex.U0.at 1) .all [Ex.un] Ex.x6 ∧ (∃ i, Valid Ex.x6 i) ∧ Ex.x6.explain.isSome = true ∧
    ∃ eg', Steps (Ex.U0.at 1) .all Ex.x6.withExplanationsDisabled [] eg' ∧ Ex.x6.nodes.length < eg'.nodes.length := by
  have h : (match EGraph.addUncanonical (Ex.U0.at 1) Ex.x6.withExplanationsDisabled ⟨.g, [3]⟩ with
    | .ok r => decide (Ex.x6.nodes.length < r.1.nodes.length) | .error _ => false) = true := by decide +kernel
  split at h
  case h_2 => cases h
  next r h1 =>
  obtain ⟨eg', i⟩ := r
  have h2 := of_decide_eq_true h
  exact ⟨Ex.histx6 _, ⟨0, 0, rfl⟩, rfl, eg', .single (.add h1), h2⟩

theorem Ex.histx6_un : Hist (Ex.U0.at 1) (Caller.unoptimized (fun _ _ _ => False)) [Ex.un] Ex.x6 := Ex.histx6 _

/-- Hypotheses of C33 are met: the explanation of `f a = f b` exists. -/
example : ∃ f0, ∀ ch fuel, f0 ≤ fuel → ∃ p, Ex.x6n.explainIdEquivalence ch fuel 2 3 = .ok (p, Ex.x6n) :=
  c33_unoptimized Ex.histx6_un rfl ⟨_, rfl, rfl⟩

/-- The rule `f ?x => g ?x`. -/
def Ex.infoFG : RuleInfo Ex.S := ⟨9, some Ex.astFx, some Ex.astGx⟩

theorem Ex.infoFG_ok : ∀ info ∈ [Ex.infoFG], ∀ lhs rhs, info.lhs = some lhs → info.rhs = some rhs → PatternsOK lhs rhs := by
  intro info hi lhs rhs h1 h2
  rw [List.mem_singleton] at hi
  subst hi
  cases h1; cases h2
  refine ⟨patWF_of rfl rfl rfl, patWF_of rfl rfl rfl, ?_⟩
  intro L R hL hR v hv
  rw [hL.2.unique (exprTerm_of (t := Ex.termFx) (f := 5) rfl rfl).2]
  rw [hR.2.unique (exprTerm_of (t := Ex.termGx) (f := 5) rfl rfl).2] at hv
  cases hv with
  | arg h1 h2 => exact .arg (t := _) (by simpa using h1) h2

def Ex.x7 : Ex.G := Ex.st (EGraph.unionInstantiations Ex.N0 Ex.x4 Ex.astFx Ex.astGx [(Ex.vx, 0)] 9)

theorem Ex.rules7 (allow) : RuleSteps (Ex.U0.at 1) allow [Ex.infoFG] Ex.x4 Ex.x7 :=
  RuleSteps.rule (info := Ex.infoFG) (s := [(Ex.vx, 0)]) (i := 2) (did := true) .refl (by simp) rfl rfl (by
    intro v x h
    have : x = 0 := by
      rw [Subst.get, Subst.get] at h
      split at h <;> simp_all
    subst this
    exact ⟨0, rfl⟩) rfl

/-- Hypotheses of `c34_rules` are met: the rule was applied to `f a`, and the explanation of
`f a = g a` is returned. -/
example : Hist (Ex.U0.at 1) .keeps [] Ex.x4 ∧ Ex.x4.explain.isSome = true ∧ ([Ex.infoFG].map (·.name)).Nodup ∧
    ∃ p eg', Ex.x7.explainIdEquivalence Ex.ch0 20 2 4 = .ok (p, eg') :=
  ⟨Ex.histx4 _, rfl, by decide, exists_of_isOk (by decide +kernel)⟩

/-- A proof of `a = f b`, by the rule 9 under the function symbol of a term that was not there. -/
def Ex.badProof : List (TreeTerm Ex.S) :=
  [.mk .a none none [], .mk .f none none [[.mk .b none (some 9) []]]]

/-- **C34, finding.**  `check_proof` does not compare the parts of two consecutive terms outside the
position of the rewrite: it accepts a proof of `a = f b` from the rule `a => a`. -/
theorem c34_checker_unsound_counterexample : ∃ (p : List (TreeTerm Ex.S)) (first last : FlatTerm Ex.S),
    TreeTerm.flattenProof p [] = .ok [first, last] ∧ first.term = Ex.ta ∧ last.term = Ex.tfb ∧
    checkProof 10 [⟨9, some [⟨.op .a, []⟩], some [⟨.op .a, []⟩]⟩] p = .ok () :=
  ⟨Ex.badProof, .mk .a none none [], .mk .f none none [.mk .b none (some 9) []],
    rfl, by simp [FlatTerm.term, Ex.ta, Ex.T], by simp [FlatTerm.term, Ex.tfb, Ex.tb, Ex.T], rfl⟩

end Egg
