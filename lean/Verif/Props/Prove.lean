import Verif.Props.Builder
import Verif.Props.RunExplain
import Verif.Props.ExplainAll
import Verif.Props.Fold
/-
C92: proving an equation: configure a runner with explanations, give it two expressions, run rules, ask for a proof.
-/
namespace Egg
variable {Op D S H : Type} [DecidableEq Op] [Lang Op]
variable {A : UserAnalysis Op D} {depth : Nat} {sets : EGraph Op D → Id → D → Prop}
variable {env : RunEnv Op D} {sch : Scheduler Op D S} {rules : List (Rewrite Op D)} {infos : List (RuleInfo Op)}
  {b : Builder Op D S H} {cs : List (Setting Op D S H)} {r' : Runner Op D S H}

/-- A caller that does not switch explanations off and asks for none before the end. -/
def Caller.silent (sets : EGraph Op D → Id → D → Prop) : Caller Op D := ⟨sets, False, False⟩

/-- The methods `make` and `merge` of the analysis always return. -/
abbrev AnalysisReturns (A : UserAnalysis Op D) : Prop :=
  A.OK (Cfg.ofR (fun _ _ => True) isCongruence_true anyReason) (fun _ => False)

theorem hookOK_returns (hA : ∀ i, A.modify i = .done) (hT : AnalysisReturns A) (hdep : 0 < depth) :
    EGraph.HookOK (Cfg.ofR (fun _ _ => True) isCongruence_true anyReason) (fun _ => False) (A.at depth) := by
  cases depth with
  | zero => omega
  | succ k =>
    refine ⟨hT.make, hT.remake, hT.mergeV, hT.mergeL, hT.mergeR, hT.mergeLub, hT.flagL, hT.flagR, ?_⟩
    intro eg i h hi
    show Post _ ((A.modify i).run (A.at k) eg) _
    rw [hA i]
    exact ⟨h, EGraph.Ext.refl eg⟩

/-- Explanations are on after a chain that enables them and neither disables them nor replaces the e-graph. -/
theorem Builder.explained : ∀ (cs : List (Setting Op D S H)) (b b' : Builder Op D S H) {U : List (UnionRec Op)},
    Hist (A.at depth) (Caller.silent sets) U b.runner.egraph → (∀ g, .egraph g ∉ cs) → (∀ e, .expr e ∈ cs → WFExpr e) → .noExplanations ∉ cs →
    b.setAll (A.at depth) cs = .ok b' → (b.runner.egraph.explain.isSome ∨ .explanations ∈ cs) → b'.runner.egraph.explain.isSome := by
  intro cs
  induction cs with
  | nil =>
    intro b b' U _ _ _ _ hs hx
    cases hs
    exact hx.resolve_right (by simp)
  | cons c cs ih =>
    intro b b' U h hne hwf hno hs hx
    unfold Builder.setAll at hs
    obtain ⟨b1, h1, h2⟩ := bind_eq_ok.1 hs
    obtain ⟨s1, -⟩ := Builder.set_graph h (fun g e => hne g (by simp [e])) (fun e he => hwf e (by simp [he]))
      (fun e => absurd (by simp [e]) hno) h1
    refine ih b1 b' (Steps.trans h s1) (fun g hm => hne g (by simp [hm])) (fun e hm => hwf e (by simp [hm])) (fun hm => hno (by simp [hm])) h2 ?_
    rcases hx with hx | hx
    · exact .inl (steps_expl s1 (hist_good h) (fun k => k) hx)
    · rcases List.mem_cons.1 hx with hx | hx
      · left
        subst hx
        unfold Builder.set at h1
        dsimp only at h1
        obtain ⟨g, h3, h4⟩ := bind_eq_ok.1 h1
        cases h4
        unfold EGraph.withExplanationsEnabled at h3
        split at h3
        · cases h3; simp [*]
        · split at h3
          · cases h3
          · cases h3; rfl
      · exact .inr hx

theorem addExprUncanonical_adds {N : Analysis Op D} {eg eg' : EGraph Op D} {e : List (ENode Op)} {i : Id}
    (h : EGraph.addExprUncanonical N eg e = .ok (eg', i)) : AddSteps N eg eg' := by
  have go : ∀ (e : List (ENode Op)) (eg : EGraph Op D) (ids : List Id) {eg' : EGraph Op D} {ids' : List Id},
      EGraph.addExprGo N eg e ids = .ok (eg', ids') → AddSteps N eg eg' := by
    intro e
    induction e with
    | nil => intro eg ids eg' ids' h; cases h; exact .refl
    | cons n rest ih =>
      intro eg ids eg' ids' h
      unfold EGraph.addExprGo at h
      obtain ⟨m, _, h⟩ := bind_eq_ok.1 h
      obtain ⟨⟨eg1, i⟩, h1, h⟩ := bind_eq_ok.1 h
      exact (AddSteps.tail .refl h1).trans (ih eg1 _ h)
  unfold EGraph.addExprUncanonical at h
  obtain ⟨⟨eg1, ids⟩, h1, h⟩ := bind_eq_ok.1 h
  obtain ⟨j, _, h⟩ := bind_eq_ok.1 h
  cases h
  exact go e eg [] h1

theorem closed_rep_unique {C : Cfg Op D} {eg : EGraph Op D} (hcl : EGraph.Closed eg) (h : EGraph.Inv C eg) : ∀ (t : Term Op) {c d : Id},
    Rep eg c t → Rep eg d t → SameClass eg c d := by
  intro t
  induction t using Term.ind with
  | h op ts ih =>
    intro c d hc hd
    obtain ⟨r, k, n, h1, h2, h3, h4, h5⟩ := EGraph.rep_iff.1 hc
    obtain ⟨r', k', n', g1, g2, g3, g4, g5⟩ := EGraph.rep_iff.1 hd
    refine hcl.holds_unique h (k := k) (l := k') ?_ ?_ h3 g3 (h4.trans g4.symm)
      (forall₂_comp h5 (forall₂_flip g5) (fun x t y _ ht _ k1 k2 => ih t ht k1 k2))
    · unfold EGraph.index; rw [h1]; simp [h2, unwrap]
    · unfold EGraph.index; rw [g1]; simp [g2, unwrap]

/-- `explain_equivalence` for two expressions whose terms are in the e-graph, in the classes `x` and `y`, when no union is pending. -/
theorem explain_known (hA : ∀ i, A.modify i = .done) (hT : AnalysisReturns A) (hdep : 0 < depth) {U : List (UnionRec Op)} {eg : EGraph Op D}
    (h : Hist (A.at depth) (Caller.silent sets) U eg) (hc : eg.clean = true) (hx : eg.explain.isSome) {e1 e2 : List (ENode Op)} (hw1 : WFExpr e1) (hw2 : WFExpr e2)
    {s t : Term Op} (hs : ExprTerm e1 s) (ht : ExprTerm e2 t) {x y : Id} (hsx : Rep eg x s) (hty : Rep eg y t) :
    ∃ eg1 eg2 l r, EGraph.addExprUncanonical (A.at depth) eg e1 = .ok (eg1, l) ∧ EGraph.addExprUncanonical (A.at depth) eg1 e2 = .ok (eg2, r) ∧
      Hist (A.at depth) (Caller.silent sets) U eg2 ∧ eg2.explain.isSome ∧ TermOf eg2.nodes l s ∧ TermOf eg2.nodes r t ∧
      (SameClass eg2 l r ↔ SameClass eg x y) := by
  have hN := hookOK_returns hA hT hdep
  have hg := hist_good h
  have p1 := EGraph.addExprUncanonical_post hN (.inl hw1) hg
  cases h1 : EGraph.addExprUncanonical (A.at depth) eg e1 with
  | error e => rw [h1] at p1; exact False.elim p1
  | ok q =>
    obtain ⟨eg1, l⟩ := q
    have g1 := p1.elim h1
    have hh1 := addExpr_hist h h1
    have hg1 := hist_good hh1
    have p2 := EGraph.addExprUncanonical_post hN (.inl hw2) hg1
    cases h2 : EGraph.addExprUncanonical (A.at depth) eg1 e2 with
    | error e => rw [h2] at p2; exact False.elim p2
    | ok q =>
      obtain ⟨eg2, r⟩ := q
      have g2 := p2.elim h2
      have hh2 := addExpr_hist hh1 h2
      have hg2 := hist_good hh2
      have x1 : eg1.explain.isSome := by rw [g1.2.1.expl]; exact hx
      have x2 : eg2.explain.isSome := by rw [g2.2.1.expl]; exact x1
      have k1 := EGraph.addExprUncanonical_exact hN hw1.2 hg hx h1 s hs
      have k2 := EGraph.addExprUncanonical_exact hN hw2.2 hg1 x1 h2 t ht
      have k1' : TermOf eg2.nodes l s := by
        obtain ⟨z, hz⟩ := g2.2.1.nodes
        rw [hz]; exact k1.append
      refine ⟨eg1, eg2, l, r, rfl, h2, hh2, x2, k1', k2, ?_⟩
      have rs : Rep eg2 l s := hg2.inv.rep_of_termOf _ k1'
      have rt : Rep eg2 r t := hg2.inv.rep_of_termOf _ k2
      have hq : EGraph.QuietMod (A.at depth) := fun _ _ _ => UserAnalysis.quiet_modify hA
      have ad := (addExprUncanonical_adds h1).trans (addExprUncanonical_adds h2)
      obtain ⟨q1, q2⟩ := ad.quiet hN hq hg
      have hcl := q2 (EGraph.closed_of_pending hg.inv (c47_clean_means_rebuilt h hc).pending)
      have hext := (ad.ext hN hg).2
      have rs' := closed_rep_unique hcl hg2.inv s rs (hext.rep hg.inv hg2.inv _ hsx)
      have rt' := closed_rep_unique hcl hg2.inv t rt (hext.rep hg.inv hg2.inv _ hty)
      have hxl := hg.inv.rep_lt hsx
      have hyl := hg.inv.rep_lt hty
      have e1 := (hg2.inv.sameClass_iff.1 rs')
      have e2 := (hg2.inv.sameClass_iff.1 rt')
      rw [hg2.inv.sameClass_iff, hg.inv.sameClass_iff, e1.2.2, e2.2.2, q1.rt x hxl, q1.rt y hyl]
      exact ⟨fun k => ⟨hxl, hyl, k.2.2⟩, fun k => ⟨e1.1, e2.1, k.2.2⟩⟩

/-- **C92.**  Proving an equation.  Configure a new runner by any chain of builder calls that enables explanations and neither
switches them off nor replaces the e-graph; let `e1` and `e2` be the expressions number `i` and `j` of the chain, `s` and `t` their
terms, `x` and `y` their roots.  Run rules with two patterns (with or without conditions) and distinct names.  Whatever the
scheduler selected and whatever the reason for stopping: if the two roots are in the same class, `explain_equivalence` for the
two expressions returns a proof; the proof starts with `s`, ends with `t`, each step rewrites one position by an instance of
the rule that it names, forward or backward, and `check_proof` accepts it.  If the roots are in different classes, it panics. -/
theorem c92_prove (hA : ∀ i, A.modify i = .done) (hT : AnalysisReturns A) (hdep : 0 < depth)
    (hN : env.analysis = A.at depth) (hord : ∀ i eg, (env.ord i eg).OK eg) (hd : DiscContiguous Op) (hsch : sch.Honest env)
    (hh : HooksOK (A.at depth) (Caller.silent sets) (fun _ _ => False) (cs.filterMap Setting.hook?))
    (hr : List.Forall₂ (Described (A.at depth)) rules infos) (hnames : (rules.map (·.name)).Nodup)
    (hne : ∀ g, .egraph g ∉ cs) (hwf : ∀ e, .expr e ∈ cs → WFExpr e) (hno : .noExplanations ∉ cs) (hon : .explanations ∈ cs)
    {s0 : S} {h0 : H} (hb : (Builder.new s0 h0).setAll (A.at depth) cs = .ok b) {f : Nat} (hrun : b.run env sch rules f = .ok r')
    {i j : Nat} {x y : Id} {e1 e2 : List (ENode Op)} {s t : Term Op} (he1 : (exprsOf cs)[i]? = some e1) (he2 : (exprsOf cs)[j]? = some e2)
    (hx : r'.roots[i]? = some x) (hy : r'.roots[j]? = some y) (hs : ExprTerm e1 s) (ht : ExprTerm e2 t) (ch : Explain.Choices) :
    (SameClass r'.egraph x y → ∃ f0 p eg' fl, (∀ fuel, f0 ≤ fuel → EGraph.explainEquivalence (A.at depth) r'.egraph ch fuel e1 e2 = .ok (p, eg')) ∧
      TreeTerm.flattenProof p [] = .ok fl ∧ ValidFlat (ByRule infos) s fl t ∧ ∃ f1, ∀ f, f1 ≤ f → checkProof f infos p = .ok ()) ∧
    (¬ SameClass r'.egraph x y → ∀ fuel, EGraph.explainEquivalence (A.at depth) r'.egraph ch fuel e1 e2 = .error .panic) := by
  obtain ⟨s1, ids, k2, k3⟩ := c91_roots (A := A) (depth := depth) (U := []) (allow := Caller.silent sets) (b := Builder.new s0 h0)
    (show Hist _ _ _ EGraph.new from .refl) hne hwf (fun k => absurd k hno) hb
  have hist0 : Hist (A.at depth) (Caller.silent sets) [] b.runner.egraph := s1
  have k2 : b.runner.roots = ids := k2
  have hx0 : b.runner.egraph.explain.isSome := Builder.explained (sets := sets) cs _ b (U := []) (show Hist _ _ _ EGraph.new from .refl) hne hwf hno hb (.inr hon)
  have hk := (c91_parameters hb).2.2.2.2.1
  have hk : b.hooks = cs.filterMap Setting.hook? := hk
  rw [← hk] at hh
  unfold Builder.run at hrun
  have hdis : ¬ (Caller.silent sets : Caller Op D).disables := fun k => k
  have hdesc : ∀ rw' ∈ rules, ∃ info ∈ infos, Described (A.at depth) rw' info := fun rw' hm => forall₂_mem_left hr hm
  have hok : ∀ info ∈ infos, ∀ lhs rhs, info.lhs = some lhs → info.rhs = some rhs → PatternsOK lhs rhs := by
    intro info hm
    obtain ⟨rw', _, hd'⟩ := forall₂_mem_left hr.flip hm
    exact Described.ok hd'
  have hname : infos.map (·.name) = rules.map (·.name) := by
    clear hnames hrun hdesc
    induction hr with
    | nil => rfl
    | cons h1 _ ih =>
      obtain ⟨lp, rp, tl, t, -, -, -, rfl, -⟩ := h1
      rw [List.map_cons, List.map_cons, ih]
      exact fun info hm => hok info (List.mem_cons_of_mem _ hm)
  rw [← hname] at hnames
  have hst := c57_run_steps hN hord hd hsch hh hdis hdesc hist0 hx0 hrun
  obtain ⟨hx', U, hh', _⟩ := RuleSteps.steps hA hok hist0 hx0 hdis hst
  have hclean : r'.egraph.clean = true := by
    unfold Runner.run at hrun
    obtain ⟨⟨eg, n⟩, h1, h2⟩ := bind_eq_ok.1 hrun
    rw [hN] at h1
    exact (Runner.runLoop_explained hN hord hd hsch hh hdis hdesc f _ _ ([] ++ []) (Steps.trans hist0 (.single (.rebuild h1))) (EGraph.rebuild_clean h1)
      (steps_expl (allow := Caller.silent sets) (.single (.rebuild h1)) (hist_good hist0) hdis hx0) h2).1
  have hroots : r'.roots = ids := by rw [Runner.run_roots hrun, k2]
  obtain ⟨V, hsteps⟩ := RuleSteps.hist hist0 hst
  have at_ : ∀ (i : Nat) e x, (exprsOf cs)[i]? = some e → r'.roots[i]? = some x → ∀ t, ExprTerm e t → Rep r'.egraph x t := by
    intro i e x h1 h3 t ht
    rw [hroots] at h3
    obtain ⟨l1, q1⟩ := List.getElem?_eq_some_iff.1 h1
    obtain ⟨l2, q2⟩ := List.getElem?_eq_some_iff.1 h3
    have := (List.forall₂_iff_get.1 k3).2 i l1 l2
    simp only [List.get_eq_getElem, q1, q2] at this
    exact (steps_grow hsteps (hist_good hist0)).2.rep _ _ (this t ht)
  have wf_ : ∀ (i : Nat) e, (exprsOf cs)[i]? = some e → WFExpr e := by
    intro i e h1
    obtain ⟨c, hc, h2⟩ := List.mem_filterMap.1 (List.mem_of_getElem? h1)
    cases c with
    | expr e' => cases h2; exact hwf _ hc
    | _ => cases h2
  obtain ⟨eg1, eg2, l, r, h1, h2, h3, h4, h5, h6, h7⟩ := explain_known hA hT hdep hh' hclean hx' (wf_ _ _ he1) (wf_ _ _ he2) hs ht
    (at_ _ _ _ he1 hx _ hs) (at_ _ _ _ he2 hy _ ht)
  constructor
  · intro hxy
    obtain ⟨f0, p, eg', h8⟩ := c33_exprs (sets := sets) (Steps.weaken (allow := Caller.silent sets) (allow' := Caller.unoptimized sets) (fun _ _ _ k => k) (fun k => k) (fun _ => trivial) hh') ch h1 h2 h4 (h7.2 hxy)
    have h9 := h8 f0 (le_refl _)
    have h10 : eg2.explainIdEquivalence ch f0 l r = .ok (p, eg') := by
      unfold EGraph.explainEquivalence at h9
      simp only [h1, h2, ok_bind] at h9
      exact h9
    have hst2 : RuleSteps (A.at depth) (Caller.silent sets) infos b.runner.egraph eg2 :=
      hst.append ((RuleSteps.of_adds (addExprUncanonical_adds h1)).append (.of_adds (addExprUncanonical_adds h2)))
    obtain ⟨⟨d1, d2, s', t', m1, m2, m3, m4, fl, m5, m6⟩, m7⟩ := c34_rules hA hok hnames hist0 hx0 hdis hst2 h10
    have hdag := (hist_good h3).inv.core.dag
    have es : s' = s := (termOf_of_idToExpr hdag h5.lt m1 m3).unique h5
    have et : t' = t := (termOf_of_idToExpr hdag h6.lt m2 m4).unique h6
    subst es et
    exact ⟨f0, p, eg', fl, h8, m5, m6, m7⟩
  · intro hxy fuel
    unfold EGraph.explainEquivalence
    simp only [h1, h2, ok_bind]
    exact c33_panics h3 (.inl fun k => hxy (h7.1 k)) ch fuel

/-! ### An example: the rule `(f ?x) => (g ?x)` proves `f a = g a`, and nothing about `a` -/

def Ex.settingsP : List (Setting Ex.S Unit Unit Unit) :=
  [.explanations, .iterLimit 7, .expr Ex.exprFa1, .hook Ex.hookN, .expr Ex.exprGa1, .expr [Ex.leaf .a]]
def Ex.builtP : Builder Ex.S Unit Unit Unit := Ex.stBuilder ((Builder.new () ()).setAll Ex.N0 Ex.settingsP)
def Ex.proved : Runner Ex.S Unit Unit Unit := Ex.stR () (Ex.builtP.run Ex.renv simpleScheduler [Ex.ruleFG] 10)

theorem Ex.returns : AnalysisReturns Ex.U0 where
  make := fun _ _ _ _ _ => ⟨trivial, fun _ _ => trivial, fun _ _ => trivial⟩
  remake := fun _ _ _ _ _ => ⟨trivial, fun _ _ => trivial, fun _ _ => trivial⟩
  mergeV := fun _ _ => trivial
  mergeL := fun _ _ => trivial
  mergeR := fun _ _ => trivial
  mergeLub := fun _ _ => trivial
  flagL := fun _ _ _ => trivial
  flagR := fun _ _ _ => trivial
  modify := fun _ _ _ _ _ => trivial

theorem Ex.proved_use {i j : Nat} {x y : Id} {e1 e2 : List (ENode Ex.S)} {s t : Term Ex.S}
    (he1 : (exprsOf Ex.settingsP)[i]? = some e1) (he2 : (exprsOf Ex.settingsP)[j]? = some e2) (hx : Ex.proved.roots[i]? = some x)
    (hy : Ex.proved.roots[j]? = some y) (hs : ExprTerm e1 s) (ht : ExprTerm e2 t) (ch : Explain.Choices) :
    (SameClass Ex.proved.egraph x y → ∃ f0 p eg' fl, (∀ fuel, f0 ≤ fuel → EGraph.explainEquivalence (Ex.U0.at 1) Ex.proved.egraph ch fuel e1 e2 = .ok (p, eg')) ∧
      TreeTerm.flattenProof p [] = .ok fl ∧ ValidFlat (ByRule [Ex.infoFG]) s fl t ∧ ∃ f1, ∀ f, f1 ≤ f → checkProof f [Ex.infoFG] p = .ok ()) ∧
    (¬ SameClass Ex.proved.egraph x y → ∀ fuel, EGraph.explainEquivalence (Ex.U0.at 1) Ex.proved.egraph ch fuel e1 e2 = .error .panic) :=
  c92_prove (A := Ex.U0) (depth := 1) (sets := fun _ _ _ => False) (env := Ex.renv) (sch := simpleScheduler) (rules := [Ex.ruleFG])
    (infos := [Ex.infoFG]) (cs := Ex.settingsP) (b := Ex.builtP) (r' := Ex.proved) (f := 10) (s0 := ()) (h0 := ()) (fun _ => rfl) Ex.returns (by omega)
    rfl (fun _ eg => Ex.ordOK eg) Ex.discContiguous simple_honest (Ex.hookNOK _ _) (.cons (Ex.describedFG _) .nil) (by simp)
    (by intro g h; simp [Ex.settingsP] at h)
    (by
      intro e h
      simp [Ex.settingsP] at h
      rcases h with rfl | rfl | rfl
      · exact wfExpr_of rfl rfl
      · exact wfExpr_of rfl rfl
      · exact wfExpr_of rfl rfl)
    (by intro h; simp [Ex.settingsP] at h) (by simp [Ex.settingsP]) rfl rfl he1 he2 hx hy hs ht ch

example (ch : Explain.Choices) : ∃ f0 p eg' fl, (∀ fuel, f0 ≤ fuel →
      EGraph.explainEquivalence (Ex.U0.at 1) Ex.proved.egraph ch fuel Ex.exprFa1 Ex.exprGa1 = .ok (p, eg')) ∧
    TreeTerm.flattenProof p [] = .ok fl ∧ ValidFlat (ByRule [Ex.infoFG]) Ex.tfa fl (.node .g [Ex.ta]) ∧ ∃ f1, ∀ f, f1 ≤ f → checkProof f [Ex.infoFG] p = .ok () :=
  (Ex.proved_use (i := 0) (j := 1) (x := 1) (y := 2) rfl rfl rfl rfl (exprTerm_of (f := 5) rfl rfl) (exprTerm_of (f := 5) rfl rfl) ch).1 ⟨_, rfl, rfl⟩

example (ch : Explain.Choices) (fuel : Nat) :
    EGraph.explainEquivalence (Ex.U0.at 1) Ex.proved.egraph ch fuel Ex.exprFa1 [Ex.leaf .a] = .error .panic :=
  (Ex.proved_use (i := 0) (j := 2) (x := 1) (y := 0) rfl rfl rfl rfl (exprTerm_of (f := 5) rfl rfl) (exprTerm_of (t := Ex.ta) (f := 5) rfl rfl) ch).2
    (by rintro ⟨r, h1, h2⟩; cases h1; cases h2) fuel

end Egg
