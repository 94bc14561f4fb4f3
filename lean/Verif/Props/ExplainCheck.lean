import Verif.Model.ExplainCheck
import Verif.Props.Explanations
/-
C55: the self-check of explanations that the runner makes in debug builds.
C56: explanations of matches.
-/
namespace Egg
variable {Op D : Type} [DecidableEq Op] [Lang Op]

/-! ### C55 -/

omit [Lang Op] in
theorem nodeToFlat_ok {nodes : List (ENode Op)} (hd : Dag nodes) : ∀ (f : Nat) (i : Id) (t : Term Op), i < f → TermOf nodes i t →
    ∃ ft, Explain.nodeToFlat nodes f i = .ok ft ∧ ft.term = t
  | 0, i, _, hi, _ => absurd hi (Nat.not_lt_zero _)
  | f + 1, i, t, hi, ht => by
    obtain ⟨op, ts⟩ := t
    rw [termOf_iff] at ht
    obtain ⟨n, hn, rfl, hc⟩ := ht
    have hlt : ∀ c ∈ n.children, c < f := fun c hc => by have : c < i := hd i _ hn c hc; omega
    have hall : ∀ (cs : List Id) (ts : List (Term Op)), (∀ c ∈ cs, c < f) → List.Forall₂ (TermOf nodes) cs ts →
        ∃ fs, cs.mapM (Explain.nodeToFlat nodes f) = .ok fs ∧ fs.map FlatTerm.term = ts := by
      intro cs ts hlt hc
      induction hc with
      | nil => exact ⟨[], rfl, rfl⟩
      | @cons c t cs ts h1 h2 ih =>
        obtain ⟨ft, k1, k2⟩ := nodeToFlat_ok hd f c t (hlt c List.mem_cons_self) h1
        obtain ⟨fs, k3, k4⟩ := ih (fun c hc => hlt c (List.mem_cons_of_mem _ hc))
        exact ⟨ft :: fs, by rw [List.mapM_cons, k1, ok_bind, k3]; rfl, by simp [k2, k4]⟩
    obtain ⟨fs, h1, h2⟩ := hall _ _ hlt hc
    refine ⟨.new n.op fs, ?_, ?_⟩
    · simp only [Explain.nodeToFlat, getIdx, hn, ok_bind, h1]
      rfl
    · rw [FlatTerm.new, FlatTerm.term_mk, h2]

theorem checkEachGo_ok {nodes : List (ENode Op)} {table : AMap Symbol (RuleInfo Op)} {fuel : Nat} :
    ∀ (es : List ExplainNode) (i : Id), (∀ (k : Nat) e, es[k]? = some e → Explain.checkExplainNode nodes table fuel (i + k) e = .ok true) →
    Explain.checkEachGo nodes table fuel i es = .ok true
  | [], _, _ => rfl
  | e :: es, i, h => by
    have h0 := h 0 e rfl
    simp only [Explain.checkEachGo]
    rw [show i = i + 0 from rfl, h0]
    exact checkEachGo_ok es (i + 1) (fun k e' hk => by
      have := h (k + 1) e' hk
      rwa [show i + (k + 1) = i + 1 + k by omega] at this)

/-- **C55.**  If, for every rule of the list that has two patterns, all the unions asserted under its
name unite instances of its patterns, then the self-check of explanations passes, in every state of
every history. -/
theorem c55_check_each_explain {A : UserAnalysis Op D} {J : Symbol → Id → Id → Prop}
    (hA : A.OK (Cfg.ofR (fun _ _ => True) isCongruence_true J) anyErr) {depth : Nat}
    {allow : Caller Op D} {U : List (UnionRec Op)} {eg : EGraph Op D}
    (h : Hist (A.at depth) allow U eg) (hU : ∀ u ∈ U, J u.reason u.a u.b)
    {rules : List (RuleInfo Op)}
    (hrules : ∀ info ∈ rules, ∀ lhs rhs, info.lhs = some lhs → info.rhs = some rhs → PatternsOK lhs rhs ∧
      ∀ s t, StepsBy eg J info.name s t → IsInstance lhs rhs s t)
    (hx : eg.explain.isSome) : ∃ f0, ∀ f, f0 ≤ f → eg.checkEachExplain f rules = .ok true := by
  have hg := good_of_J hA h hU
  have hd := hg.inv.core.dag
  obtain ⟨x, hx⟩ := Option.isSome_iff_exists.1 hx
  obtain ⟨L, hL⟩ := hg.inv.expl x hx
  refine ⟨(rules.map (fun i => (i.rhs.map List.length).getD 0)).sum + eg.nodes.length + 1, fun f hf => ?_⟩
  have hT : TableOK f (makeRuleTable rules) (StepsBy eg J) := by
    intro r info lhs rhs s t hg hl hr hj
    obtain ⟨hm, rfl⟩ := makeRuleTable_mem hg
    obtain ⟨hp, hi⟩ := hrules info hm lhs rhs hl hr
    obtain ⟨τ, L, R, i1, i2, i3, i4⟩ := hi s t hj
    refine ⟨τ, L, R, i1, i2, hp.right.1.2, ?_, hp.vars L R i1 i2, i3, i4⟩
    have : rhs.length ∈ rules.map (fun i => (i.rhs.map List.length).getD 0) :=
      List.mem_map.2 ⟨info, hm, by rw [hr]; rfl⟩
    have := le_sum_of_mem' this
    omega
  unfold EGraph.checkEachExplain
  rw [hx]
  refine checkEachGo_ok _ _ (fun k e he => ?_)
  rw [Nat.zero_add]
  unfold Explain.checkExplainNode
  split
  · rename_i hne
    obtain ⟨q, a, b, h1, h2, h3⟩ := hL.inv.edge k e he hne
    obtain ⟨hal, hbl⟩ := hL.inv.logLt a b _ (List.mem_of_getElem? h1)
    obtain ⟨s, hs⟩ := hd.exists_term a hal
    obtain ⟨t, ht⟩ := hd.exists_term b hbl
    obtain ⟨fa, k1, k2⟩ := nodeToFlat_ok hd f a s (by omega) hs
    obtain ⟨fb, k3, k4⟩ := nodeToFlat_ok hd f b t (by omega) ht
    have key : ∀ name info, e.parent.justification = .rule name → (makeRuleTable rules).get? name = some info →
        checkRewrite f fa fb info = .ok true := by
      intro name info hj hi
      rw [hj] at h1
      exact hT.check hi (by
        rw [k2, k4]
        exact stepsBy_of hd _ _ _ _ _ (hL.logJ a b name (List.mem_of_getElem? h1)) hs ht)
    rcases h3 with ⟨e1, rfl, e2⟩ | ⟨e1, rfl, e2⟩
    · rw [e2, k1, k3]
      simp only [ok_bind, e1, if_true]
      cases hj : e.parent.justification with
      | congruence => rfl
      | rule name =>
        simp only
        cases hi : AMap.get? (makeRuleTable rules) name with
        | none => rfl
        | some info => exact key name info hj hi
    · rw [e2, k1, k3]
      simp only [ok_bind, e1, Bool.false_eq_true, if_false]
      cases hj : e.parent.justification with
      | congruence => rfl
      | rule name =>
        simp only
        cases hi : AMap.get? (makeRuleTable rules) name with
        | none => rfl
        | some info => exact key name info hj hi
  · rfl

/-- **C55**: if all unions are made by applying rules with two patterns, from a state with
explanations enabled, which are not switched off, and the rules have different names, the self-check of explanations passes. -/
theorem c55_rules {A : UserAnalysis Op D} (hA : ∀ i, A.modify i = .done) {depth : Nat} {allow : Caller Op D} {rules : List (RuleInfo Op)}
    (hr : ∀ info ∈ rules, ∀ lhs rhs, info.lhs = some lhs → info.rhs = some rhs → PatternsOK lhs rhs)
    (hnames : (rules.map (·.name)).Nodup)
    {eg0 eg : EGraph Op D} (h0 : Hist (A.at depth) allow [] eg0) (hx : eg0.explain.isSome) (hdis : ¬ allow.disables)
    (h : RuleSteps (A.at depth) allow rules eg0 eg) :
    ∃ f0, ∀ f, f0 ≤ f → eg.checkEachExplain f rules = .ok true := by
  obtain ⟨hx', U, hh, hU⟩ := RuleSteps.steps hA hr h0 hx hdis h
  have hd := (hist_good hh).inv.core.dag
  refine c55_check_each_explain (ok_of_quiet hA _ _ (Asserted U)) hh (fun u hu => ⟨u, hu, rfl, rfl, rfl⟩) (fun info hm lhs rhs hl hrh => ⟨hr info hm lhs rhs hl hrh, ?_⟩) hx'
  rintro s t ⟨a, b, e1, e2, ⟨u, hu, hur, rfl, rfl⟩, k1, k2, k3, k4⟩
  obtain ⟨s', t', q1, q2, info', hm', hn', l', r', hl', hr', hi⟩ := hU u hu
  have : info' = info := List.inj_on_of_nodup_map hnames hm' hm (by rw [hn', hur])
  subst this
  rw [hl] at hl'; cases hl'
  rw [hrh] at hr'; cases hr'
  rw [(termOf_of_idToExpr hd q1.lt k1 k3).unique q1, (termOf_of_idToExpr hd q2.lt k2 k4).unique q2]
  exact hi

/-- Hypotheses of `c55_rules` are met after `f ?x => g ?x` was applied to `f a`. -/
example : Hist (Ex.U0.at 1) .keeps [] Ex.x4 ∧ Ex.x4.explain.isSome = true ∧ RuleSteps (Ex.U0.at 1) .keeps [Ex.infoFG] Ex.x4 Ex.x7 ∧
    Ex.x7.checkEachExplain 10 [Ex.infoFG] = .ok true :=
  ⟨Ex.histx4 _, rfl, Ex.rules7 _, rfl⟩

/-- The rule `f ?x => f ?x`, called like `f ?x => g ?x`. -/
def Ex.infoFF : RuleInfo Ex.S := ⟨9, some Ex.astFx, some Ex.astFx⟩

/-- **C55, finding.**  The condition on the names is needed: with two rules of the same name, which
the runner only warns about, the self-check fails after a correct application of the first of them.
In a debug build the runner panics. -/
theorem c55_same_name_counterexample : RuleSteps (Ex.U0.at 1) .noSet [Ex.infoFG, Ex.infoFF] Ex.x4 Ex.x7 ∧
    Ex.x7.checkEachExplain 10 [Ex.infoFG, Ex.infoFF] = .ok false :=
  ⟨RuleSteps.rule (info := Ex.infoFG) (s := [(Ex.vx, 0)]) (i := 2) (did := true) .refl (by simp) rfl rfl (by
    intro v x h
    have : x = 0 := by
      rw [Subst.get, Subst.get] at h
      split at h <;> simp_all
    subst this
    exact ⟨0, rfl⟩) rfl, rfl⟩

/-! ### C56 -/

theorem addExpr_adds {N : Analysis Op D} : ∀ (e : List (ENode Op)) (eg : EGraph Op D) (ids : List Id) {eg' : EGraph Op D}
    {ids' : List Id}, EGraph.addExprGo N eg e ids = .ok (eg', ids') → AddSteps N eg eg' := by
  intro e
  induction e with
  | nil => intro eg ids eg' ids' h; cases h; exact .refl
  | cons n rest ih =>
    intro eg ids eg' ids' h
    unfold EGraph.addExprGo at h
    rw [bind_eq_ok] at h
    obtain ⟨m, _, h⟩ := h
    rw [bind_eq_ok] at h
    obtain ⟨⟨eg1, i⟩, h1, h⟩ := h
    exact AddSteps.trans (.tail .refl h1) (ih eg1 _ h)

/-- **C56.**  An explanation that `explain_matches` returns is a valid proof, also when flattened, from
the given expression to the instance of the pattern in which every variable is replaced by the
expression of the class that the substitution gives it. -/
theorem c56_explain_matches {A : UserAnalysis Op D} (hA : ∀ i, A.modify i = .done) {depth : Nat}
    {allow : Caller Op D} {U : List (UnionRec Op)} {eg : EGraph Op D} (h : Hist (A.at depth) allow U eg)
    {ch : Explain.Choices} {fuel : Nat} {left : List (ENode Op)} (hw : WFExpr left) {right : PatternAst Op} (hp : PatWF right)
    {σ : Subst} (hσ : ∀ v x, σ.get v = some x → Valid eg x) {p : List (TreeTerm Op)} {eg' : EGraph Op D}
    (he : EGraph.explainMatches (A.at depth) eg ch fuel left right σ = .ok (p, eg')) :
    ∃ s P τ t, ExprTerm left s ∧ ExprTerm right P ∧ Inst τ P t ∧
      (∀ v x r, σ.get v = some x → eg.find x = .ok r → ∃ e, eg.idToExpr r = .ok e ∧ ExprTerm e (τ v)) ∧
      ValidTree (StepsBy eg' (Asserted U)) s p t ∧
      ∃ fl, TreeTerm.flattenProof p [] = .ok fl ∧ ValidFlat (StepsBy eg' (Asserted U)) s fl t := by
  have hOK := ok_of_quiet hA (fun _ _ => True) isCongruence_true (Asserted U)
  have hUU : ∀ u ∈ U, Asserted U u.reason u.a u.b := fun u hu => ⟨u, hu, rfl, rfl, rfl⟩
  unfold EGraph.explainMatches at he
  obtain ⟨⟨eg1, l⟩, h1, he⟩ := bind_eq_ok.1 he
  obtain ⟨⟨eg2, r⟩, h2, he⟩ := bind_eq_ok.1 he
  have he : eg2.explainIdEquivalence ch fuel l r = .ok (p, eg') := he
  have hh1 := addExpr_hist h h1
  have hh2 : Hist (A.at depth) allow U eg2 := by
    simpa [Hist] using Steps.trans hh1 ((EGraph.addInst_steps h2).steps (allow := allow))
  have hN := hOK.hookOK trivial depth
  have hq : EGraph.QuietMod (A.at depth) := fun eg i eg' he => UserAnalysis.quiet_modify hA he
  have hg := good_of_J hOK h hUU
  have hg1 := good_of_J hOK hh1 hUU
  have hg2 := good_of_J hOK hh2 hUU
  have hd := hg2.inv.core.dag
  have hx2 : ∃ x x', eg2.explain = some x ∧ eg' = { eg2 with explain := some x' } := by
    obtain ⟨_, _, _, x, x', hx, hx', _⟩ := EGraph.explainId_ok hg2 he
    exact ⟨x, x', hx, hx'⟩
  obtain ⟨x, x', hx2, rfl⟩ := hx2
  have hpos1 : 0 < left.length := List.length_pos_iff.2 hw.1
  have hpos2 : 0 < right.length := List.length_pos_iff.2 hp.1.1
  obtain ⟨s0, hs0⟩ := Dag.exists_term (show Dag _ from hw.2) (left.length - 1) (by omega)
  obtain ⟨P, hP⟩ := Dag.exists_term (show Dag _ from hp.1.2) (right.length - 1) (by omega)
  have g1 := (EGraph.addExprUncanonical_post hN (.inl hw) hg).elim h1
  have x1 : eg1.explain.isSome := by
    have := (AddSteps.ext hN (EGraph.addInst_steps h2) hg1).2
    rw [← this.expl, hx2]; rfl
  have x0 : eg.explain.isSome := by rw [← g1.2.1.expl]; exact x1
  have k1 := EGraph.addExprUncanonical_exact hN hw.2 hg x0 h1 s0 ⟨hw.1, hs0⟩
  have c1 : EGraph.Cons eg eg1 := by
    unfold EGraph.addExprUncanonical at h1
    obtain ⟨⟨eg3, ids⟩, h3, h4⟩ := bind_eq_ok.1 h1
    obtain ⟨j, _, h5⟩ := bind_eq_ok.1 h4
    cases h5
    exact (AddSteps.quiet hN hq (addExpr_adds _ _ _ h3) hg).1
  have hval : ∀ v x, σ.get v = some x → x < eg.nodes.length := fun v x hv => hg.valid_iff.1 (hσ v x hv)
  have hop : Nonempty Op := ⟨(left[0]'hpos1).op⟩
  have hτ : ∃ τ : Var → Term Op, ∀ v x, σ.get v = some x → TermOf eg.nodes (eg.rt x) (τ v) := by
    have : ∀ v, ∃ t, ∀ x, σ.get v = some x → TermOf eg.nodes (eg.rt x) t := by
      intro v
      cases hv : σ.get v with
      | none => exact ⟨.node hop.some [], by simp⟩
      | some x =>
        obtain ⟨t, ht⟩ := hg.inv.core.dag.exists_term _ (hg.inv.core.rtLt x (hval v x hv))
        exact ⟨t, by rintro y ⟨⟩; exact ht⟩
    exact ⟨fun v => (this v).choose, fun v => (this v).choose_spec⟩
  obtain ⟨τ, hτ⟩ := hτ
  obtain ⟨_, a2, _, a4⟩ := EGraph.addInst_exact (τ := τ) hN hq hp hg1 x1 (fun v x hv => by
    have hlt := hval v x hv
    obtain ⟨z, hz⟩ := c1.nodes
    refine ⟨by rw [hz]; simp; omega, ?_⟩
    rw [c1.rt x hlt, hz]; exact (hτ v x hv).append) h2
  obtain ⟨t0, i1, i2⟩ := a4 P ⟨hp.1.1, hP⟩
  have k1' : TermOf eg2.nodes l s0 := by
    obtain ⟨z, hz⟩ := a2.nodes
    rw [hz]; exact k1.append
  obtain ⟨s, t, hs, ht, hv⟩ := EGraph.explainId_valid hg2 he
    (stepsBy_of (J := Asserted U) (eg := { eg2 with explain := some x' }) hd)
  rw [hs.unique k1', ht.unique i2] at hv
  refine ⟨s0, P, τ, t0, ⟨hw.1, hs0⟩, ⟨hp.1.1, hP⟩, i1, fun v x r hvx hr => ?_, hv, TreeTerm.flatten_valid p hv⟩
  rw [← (hg.inv.find_iff.1 hr).2]
  exact idToExpr_of_termOf hg.inv.core.dag (hτ v x hvx)

/-- Hypotheses of C56 are met: after `f ?x => g ?x` was applied to `f a`, the expression `f a` matches
the pattern `g ?x`, and the explanation is returned. -/
example : WFExpr [Ex.leaf .a, Ex.app .f [0]] ∧ PatWF Ex.astGx ∧ (∀ v x, Subst.get [(Ex.vx, 0)] v = some x → Valid Ex.x7 x) ∧
    ∃ p eg', EGraph.explainMatches (Ex.U0.at 1) Ex.x7 Ex.ch0 20 [Ex.leaf .a, Ex.app .f [0]] Ex.astGx [(Ex.vx, 0)] = .ok (p, eg') :=
  ⟨wfExpr_of rfl rfl, patWF_of rfl rfl rfl, by
    intro v x h
    have : x = 0 := by
      rw [Subst.get, Subst.get] at h
      split at h <;> simp_all
    subst this
    exact ⟨0, rfl⟩, exists_of_isOk (by decide +kernel)⟩

end Egg
