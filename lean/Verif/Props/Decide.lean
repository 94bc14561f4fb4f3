import Verif.Spec.Decide
import Verif.Props.Below
import Verif.Props.Simplify
/-
C83: what a saturated run decides.
-/
namespace Egg
variable {Op D S H Cost : Type} [DecidableEq Op] [Lang Op]
variable {A : UserAnalysis Op D} {depth : Nat} {allow : Caller Op D}
variable {env : RunEnv Op D} {sch : Scheduler Op D S} {hooks : List (Hook Op D H)} {rules : List (Rewrite Op D)}
  {eqs : List (Term (PatOp Op) × Term (PatOp Op))}
  {r r1 r' : Runner Op D S H} {U : List (UnionRec Op)} {I : Nat → S → Prop}

/-- What is needed of a saturated run. -/
theorem saturated_facts {Q : Term Op → Term Op → Prop} (hN : env.analysis = A.at depth) (hord : ∀ i eg, (env.ord i eg).OK eg) (hd : DiscContiguous Op)
    (hcyc : (A.at depth).allowCycles = true) (hs : sch.Honest env) (hlim : sch.Limited env) (hth : sch.Thorough env r.limits I)
    (hI : I r.iterations.length r.scheduler) (hh : HooksOK (A.at depth) allow Q hooks) (hr : RulesFor rules eqs)
    (h : Hist (A.at depth) allow U r.egraph) {f : Nat} (hrun : r.run env sch hooks rules f = .ok r')
    (hsat : r'.stopReason = some .saturated) (hfit : ∀ rw' ∈ rules, Fits env r'.egraph rw') :
    ∃ V, Steps (A.at depth) allow r.egraph V r'.egraph ∧ r'.egraph.clean = true ∧ (∀ tl t, (tl, t) ∈ eqs → ClosedTerms r'.egraph tl t) ∧
      ∀ s t, eqsOf U s t → RelIn r'.egraph s t := by
  obtain ⟨c1, V, s1, -⟩ := c25_run_reach hN hord hd hs hh (fun rw' hm => (hr.1 rw' hm).imp fun tl h => h.imp fun t h => ⟨h.1, Or.inl h.2⟩) h hrun
  have h' := Steps.trans h s1
  have hF := Full.of_hist h' c1
  refine ⟨V, s1, c1, fun tl t hm => ?_, fun s t hst => ?_⟩
  · obtain ⟨rw', k1, k2⟩ := hr.2 tl t hm
    exact closedTerms_of hF (c26_saturated_closed hN hord hd hcyc hs hlim hth hh hr.1 h hI hrun hsat hfit rw' k1 tl t k2)
  · obtain ⟨u, hu, rfl, rfl⟩ := hst
    obtain ⟨k1, k2, k3⟩ := (hist_good_of_sound (soundFor_true A) h (fun _ _ _ => trivial)).2 u hu
    have gr := (steps_grow s1 (hist_good h)).2
    have hg := hist_good h
    exact hF.rel (gr.rep _ _ k1) (gr.rep _ _ (hg.inv.rep_congr (hg.inv.rep_lt k1) k3.symm k2))

theorem rep_of_rewrites {M : EGraph Op D} (hF : Full M) {E : Term Op → Term Op → Prop} (hE : ∀ s t c, E s t → Rep M c s → Rep M c t) {s t : Term Op}
    (hst : RewritesTo E s t) : ∀ c, Rep M c s → Rep M c t := by
  induction hst with
  | rule h => intro c hc; exact hE _ _ c h hc
  | refl => intro c hc; exact hc
  | trans _ _ ih1 ih2 => intro c hc; exact ih2 c (ih1 c hc)
  | congr op hlen _ ih =>
    intro c hc
    rw [hF.good.inv.rep_iff] at hc ⊢
    obtain ⟨h1, k, n, h2, h3, h4, h5⟩ := hc
    refine ⟨h1, k, n, h2, h3, h4, List.forall₂_iff_get.2 ⟨h5.length_eq.trans hlen, fun i hi hi' => ?_⟩⟩
    have hi2 : i < _ := h5.length_eq ▸ hi
    exact ih i _ _ (List.getElem?_eq_getElem hi2) (List.getElem?_eq_getElem hi') _ (h5.get hi hi2)

/-- **C83.**  A saturated e-graph contains everything that can be reached by rewriting: if a class represents `s`, and `s`
can be rewritten to `t` with the rules and the equations asserted before, in any number of steps anywhere in the term, then it
represents `t`. -/
theorem c83_reachable {Q : Term Op → Term Op → Prop} (hN : env.analysis = A.at depth) (hord : ∀ i eg, (env.ord i eg).OK eg) (hd : DiscContiguous Op)
    (hcyc : (A.at depth).allowCycles = true) (hs : sch.Honest env) (hlim : sch.Limited env) (hth : sch.Thorough env r.limits I)
    (hI : I r.iterations.length r.scheduler) (hh : HooksOK (A.at depth) allow Q hooks) (hr : RulesFor rules eqs)
    (h : Hist (A.at depth) allow U r.egraph) {f : Nat} (hrun : r.run env sch hooks rules f = .ok r')
    (hsat : r'.stopReason = some .saturated) (hfit : ∀ rw' ∈ rules, Fits env r'.egraph rw')
    {c : Id} {s t : Term Op} (hc : Rep r'.egraph c s) (hst : RewritesTo (RunSteps U eqs) s t) : Rep r'.egraph c t := by
  obtain ⟨V, s1, c1, hcl, hU⟩ := saturated_facts hN hord hd hcyc hs hlim hth hI hh hr h hrun hsat hfit
  refine rep_of_rewrites (Full.of_hist (Steps.trans h s1) c1) (fun s t c hst hc => ?_) hst c hc
  rcases hst with hst | hst | ⟨tl, tr, hm, τ, k1, k2⟩
  · exact (hU s t hst c).1 hc
  · exact (hU t s hst c).2 hc
  · exact hcl tl tr hm τ s t c k1 k2 hc

/-- **C83.**  Saturation with rules that are given in both directions decides the equations.  Of a class that represents
`s`, the terms are exactly those that are equal to `s` by the rules and the equations asserted before. -/
theorem c83_decides (hA : ∀ i, A.modify i = .done) (hN : env.analysis = A.at depth) (hord : ∀ i eg, (env.ord i eg).OK eg) (hd : DiscContiguous Op)
    (hcyc : (A.at depth).allowCycles = true) (hs : sch.Honest env) (hlim : sch.Limited env) (hth : sch.Thorough env r.limits I)
    (hI : I r.iterations.length r.scheduler) (hh : HooksOK (A.at depth) allow (fun _ _ => False) hooks) (hr : RulesFor rules eqs)
    (hsym : ∀ tl t, (tl, t) ∈ eqs → (t, tl) ∈ eqs)
    (h : Hist (A.at depth) allow U r.egraph) {f : Nat} (hrun : r.run env sch hooks rules f = .ok r')
    (hsat : r'.stopReason = some .saturated) (hfit : ∀ rw' ∈ rules, Fits env r'.egraph rw')
    {c : Id} {s : Term Op} (hc : Rep r'.egraph c s) (t : Term Op) : Rep r'.egraph c t ↔ GEq (RunEqs U eqs) s t := by
  constructor
  · intro ht
    obtain ⟨V, s1, c1, hcl, hU⟩ := saturated_facts hN hord hd hcyc hs hlim hth hI hh hr h hrun hsat hfit
    have hg := hist_good (Steps.trans h s1)
    have hfind := hg.inv.find (hg.inv.rep_lt hc)
    exact c25_eqsat_sound .geq (soundFor_of_quiet hA _ _) hN hord hd hs hh
      (fun rw' hm => (hr.1 rw' hm).imp fun tl h => h.imp fun t h => ⟨h.1, Or.inl h.2⟩) h (fun _ _ h => .ax (Or.inl h)) (fun _ _ h => .ax (Or.inr h))
      (fun _ _ h => h.elim) hrun ⟨_, hfind, hfind⟩ hc ht
  · intro hst
    refine c83_reachable hN hord hd hcyc hs hlim hth hI hh hr h hrun hsat hfit hc ?_
    suffices hb : RewritesTo (RunSteps U eqs) s t ∧ RewritesTo (RunSteps U eqs) t s from hb.1
    clear hc
    induction hst with
    | ax h =>
      rcases h with h | ⟨tl, tr, hm, τ, k1, k2⟩
      · exact ⟨.rule (Or.inl h), .rule (Or.inr (Or.inl h))⟩
      · exact ⟨.rule (Or.inr (Or.inr ⟨tl, tr, hm, τ, k1, k2⟩)), .rule (Or.inr (Or.inr ⟨tr, tl, hsym _ _ hm, τ, k2, k1⟩))⟩
    | refl t => exact ⟨.refl t, .refl t⟩
    | symm _ ih => exact ⟨ih.2, ih.1⟩
    | trans _ _ ih1 ih2 => exact ⟨.trans ih1.1 ih2.1, .trans ih2.2 ih1.2⟩
    | congr op hlen _ ih =>
      exact ⟨.congr op hlen (fun k s t k1 k2 => (ih k s t k1 k2).1), .congr op hlen.symm (fun k s t k1 k2 => (ih k t s k2 k1).2)⟩

/-- **C83.**  Rules in one direction decide the equations between represented terms if rewriting with them is confluent. -/
theorem c83_confluent_rules (hA : ∀ i, A.modify i = .done) (hN : env.analysis = A.at depth) (hord : ∀ i eg, (env.ord i eg).OK eg) (hd : DiscContiguous Op)
    (hcyc : (A.at depth).allowCycles = true) (hs : sch.Honest env) (hlim : sch.Limited env) (hth : sch.Thorough env r.limits I)
    (hI : I r.iterations.length r.scheduler) (hh : HooksOK (A.at depth) allow (fun _ _ => False) hooks) (hr : RulesFor rules eqs)
    (hcr : ∀ s t, GEq (RunEqs U eqs) s t → ∃ u, RewritesTo (RunSteps U eqs) s u ∧ RewritesTo (RunSteps U eqs) t u)
    (h : Hist (A.at depth) allow U r.egraph) {f : Nat} (hrun : r.run env sch hooks rules f = .ok r')
    (hsat : r'.stopReason = some .saturated) (hfit : ∀ rw' ∈ rules, Fits env r'.egraph rw')
    {c d : Id} {s t : Term Op} (hc : Rep r'.egraph c s) (hdt : Rep r'.egraph d t) : SameClass r'.egraph c d ↔ GEq (RunEqs U eqs) s t := by
  obtain ⟨V, s1, c1, hcl, hU⟩ := saturated_facts hN hord hd hcyc hs hlim hth hI hh hr h hrun hsat hfit
  have hF := Full.of_hist (Steps.trans h s1) c1
  constructor
  · intro hcd
    exact c25_eqsat_sound .geq (soundFor_of_quiet hA _ _) hN hord hd hs hh
      (fun rw' hm => (hr.1 rw' hm).imp fun tl h => h.imp fun t h => ⟨h.1, Or.inl h.2⟩) h (fun _ _ h => .ax (Or.inl h)) (fun _ _ h => .ax (Or.inr h))
      (fun _ _ h => h.elim) hrun hcd hc hdt
  · intro hst
    obtain ⟨u, k1, k2⟩ := hcr s t hst
    have r1 := c83_reachable hN hord hd hcyc hs hlim hth hI hh hr h hrun hsat hfit hc k1
    have r2 := c83_reachable hN hord hd hcyc hs hlim hth hI hh hr h hrun hsat hfit hdt k2
    exact hF.good.inv.sameClass_iff.2 ⟨hF.good.inv.rep_lt r1, hF.good.inv.rep_lt r2, EGraph.InvW.rep_unique hF.good.inv hF.pending u r1 r2⟩

/-- **C83.**  Simplification to the optimum.  Give an expression for the term `s` to a runner, run rules until it stops with `Saturated`, and extract.
The result is an expression whose term is equal to `s`, and no term to which `s` can be rewritten is cheaper.  If the rules are
given in both directions, no term that is equal to `s` is cheaper. -/
theorem c83_simplest (hA : ∀ i, A.modify i = .done) (hN : env.analysis = A.at depth) (hord : ∀ i eg, (env.ord i eg).OK eg) (hd : DiscContiguous Op)
    (hcyc : (A.at depth).allowCycles = true) (hs : sch.Honest env) (hlim : sch.Limited env) (hth : sch.Thorough env r1.limits I)
    (hI : I r1.iterations.length r1.scheduler) (hh : HooksOK (A.at depth) allow (fun _ _ => False) hooks) (hr : RulesFor rules eqs)
    (h : Hist (A.at depth) allow U r.egraph) {e : List (ENode Op)} (hwf : WFExpr e) {s : Term Op} (hse : ExprTerm e s)
    (hw : r.withExpr (A.at depth) e = .ok r1) {f : Nat} (hrun : r1.run env sch hooks rules f = .ok r')
    (hsat : r'.stopReason = some .saturated) (hfit : ∀ rw' ∈ rules, Fits env r'.egraph rw')
    {cf : CostFn Op Cost} (hcf : cf.OK) {ks : List (EClass Op D)} (hks : ks.Perm (r'.egraph.classes.map Prod.snd))
    {passes : Nat} (hp : r'.egraph.classes.length < passes) :
    ∃ root x fuel cost e' t, r'.roots = r.roots ++ [root] ∧ Extractor.new cf r'.egraph ks passes = .ok x ∧
      (∀ f, fuel ≤ f → x.findBest r'.egraph f root = .ok (cost, e')) ∧ WFExpr e' ∧ ExprTerm e' t ∧
      GEq (RunEqs U eqs) s t ∧ cf.Same cost (termCost cf t) ∧
      (∀ t', RewritesTo (RunSteps U eqs) s t' → cf.Le cost (termCost cf t')) ∧
      ((∀ tl t, (tl, t) ∈ eqs → (t, tl) ∈ eqs) → ∀ t', GEq (RunEqs U eqs) s t' → cf.Le cost (termCost cf t')) := by
  obtain ⟨root, h1, h2, h3⟩ := withExpr_spec h hwf hse hw
  obtain ⟨root', x, fuel, cost, e', t, k1, k2, k3, k4, k5, k6, k7, -, k8⟩ := c58_simplify .geq (soundFor_of_quiet hA _ _) hN hord hd hs hh
    (fun rw' hm => (hr.1 rw' hm).imp fun tl h => h.imp fun t h => ⟨h.1, Or.inl h.2⟩) h (fun _ _ h => .ax (Or.inl h)) (fun _ _ h => .ax (Or.inr h))
    (fun _ _ h => h.elim) hwf hse hw hrun hcf hks hp
  have e1 : root' = root := by
    rw [Runner.run_roots hrun, h1] at k1
    simpa using k1.symm
  subst e1
  obtain ⟨V, s1, c1, -, -⟩ := saturated_facts hN hord hd hcyc hs hlim hth hI hh hr h3 hrun hsat hfit
  have hrep : Rep r'.egraph root' s := (steps_grow s1 (hist_good h3)).2.rep _ _ h2
  refine ⟨root', x, fuel, cost, e', t, k1, k2, k3, k4, k5, k6, k7, fun t' ht' => ?_, fun hsym t' ht' => ?_⟩
  · exact k8 t' (c83_reachable hN hord hd hcyc hs hlim hth hI hh hr h3 hrun hsat hfit hrep ht')
  · exact k8 t' ((c83_decides hA hN hord hd hcyc hs hlim hth hI hh hr hsym h3 hrun hsat hfit hrep t').2 ht')

/-! The hypotheses on concrete runs. -/

/-- `?x => (f ?x)`. -/
def Ex.ruleXF : Rewrite Ex.S Unit := ⟨7, Ex.patX.searcher, Ex.patFx.applier⟩
def Ex.eqsB : List (Term (PatOp Ex.S) × Term (PatOp Ex.S)) := [(Ex.termFx, .node (.var Ex.vx) []), (.node (.var Ex.vx) [], Ex.termFx)]
def Ex.runD : Runner Ex.S Unit Unit Unit := Ex.stR () (Ex.runnerS1.run Ex.renv simpleScheduler [] [Ex.ruleFX, Ex.ruleXF] 10)

theorem Ex.rulesForB : RulesFor [Ex.ruleFX, Ex.ruleXF] Ex.eqsB := by
  have hXF : PatternRule Ex.ruleXF (.node (.var Ex.vx) []) Ex.termFx := by
    refine ⟨Ex.patX, Ex.patFx, Ex.isPatX, fun v hv => ?_, Ex.isPatFx, rfl⟩
    have : v ∈ [Ex.vx] := hv
    cases List.mem_singleton.1 this
    exact .refl
  have hFX := Ex.tightFX.pattern
  refine ⟨fun rw' h => ?_, fun tl t h => ?_⟩
  all_goals simp only [List.mem_cons, List.not_mem_nil, or_false, Ex.eqsB, Prod.mk.injEq] at h
  · rcases h with rfl | rfl
    · exact ⟨_, _, by simp [Ex.eqsB], hFX⟩
    · exact ⟨_, _, by simp [Ex.eqsB], hXF⟩
  · rcases h with ⟨rfl, rfl⟩ | ⟨rfl, rfl⟩
    · exact ⟨_, by simp, hFX⟩
    · exact ⟨_, by simp, hXF⟩

theorem Ex.symB : ∀ tl t, (tl, t) ∈ Ex.eqsB → (t, tl) ∈ Ex.eqsB := by
  intro tl t h
  simp only [List.mem_cons, List.not_mem_nil, or_false, Ex.eqsB, Prod.mk.injEq] at h ⊢
  tauto

theorem Ex.fitsB : ∀ rw' ∈ [Ex.ruleFX, Ex.ruleXF], Fits Ex.renv Ex.runD.egraph rw' := by
  intro rw' h
  simp only [List.mem_cons, List.not_mem_nil, or_false] at h
  rcases h with rfl | rfl
  · exact ⟨Ex.ord _, _, Ex.ordOK _, rfl, by decide⟩
  · exact ⟨Ex.ord _, _, Ex.ordOK _, rfl, by decide⟩

/-- `c83_decides`: from `f (f a)`, with `(f ?x) <=> ?x`. -/
theorem Ex.decidesB {c : Id} {s : Term Ex.S} (hc : Rep Ex.runD.egraph c s) (t : Term Ex.S) : Rep Ex.runD.egraph c t ↔ GEq (RunEqs [] Ex.eqsB) s t :=
  c83_decides (A := Ex.U0) (depth := 1) (allow := .all) (env := Ex.renv) (sch := simpleScheduler) (hooks := []) (rules := [Ex.ruleFX, Ex.ruleXF])
    (r := Ex.runnerS1) (I := fun _ _ => True) (f := 10) (fun _ => rfl) rfl (fun _ eg => Ex.ordOK eg) Ex.discContiguous rfl simple_honest simple_limited
    (simple_thorough _) trivial (Ex.hooksOK _ _) Ex.rulesForB Ex.symB Ex.histS1 rfl rfl Ex.fitsB hc t

/-- The only class is `{a, f ·}`: it represents every `f (f (… a))`, and only these are equal to `a`: neither `b` nor `g a` is. -/
example : Ex.runD.egraph.numberOfClasses = 1 ∧ Ex.runD.egraph.totalNumberOfNodes = 2 := by decide +kernel
example : GEq (RunEqs [] Ex.eqsB) (.node .a []) (.node .f [.node .f [.node .f [.node .a []]]]) ∧ ¬ GEq (RunEqs [] Ex.eqsB) (.node .a []) (.node .b []) := by
  have ha : Rep Ex.runD.egraph 0 (.node .a []) := Ex.repLeaf rfl rfl (by decide +kernel)
  have hf : ∀ {t}, Rep Ex.runD.egraph 0 t → Rep Ex.runD.egraph 0 (.node .f [t]) := fun h => by
    refine EGraph.rep_iff.2 ⟨_, _, Ex.app .f [0], rfl, rfl, by decide +kernel, rfl, .cons h .nil⟩
  refine ⟨(Ex.decidesB ha _).1 (hf (hf (hf ha))), fun h => ?_⟩
  obtain ⟨r, k, n, h1, h2, h3, h4, -⟩ := EGraph.rep_iff.1 ((Ex.decidesB ha _).2 h)
  cases h1; cases h2
  have h5 : ∀ n ∈ [Ex.leaf .a, Ex.app .f [0]], n.op ≠ .b := by decide
  exact h5 n h3 h4

/-- `c83_simplest`, with the same rules: `a` is the smallest of the infinitely many terms equal to `f (f a)`. -/
example : ∃ root x fuel cost e' t, Ex.runD.roots = [] ++ [root] ∧
    Extractor.new Ex.cf Ex.runD.egraph (Ex.runD.egraph.classes.map Prod.snd) 10 = .ok x ∧
    (∀ f, fuel ≤ f → x.findBest Ex.runD.egraph f root = .ok (cost, e')) ∧ WFExpr e' ∧ ExprTerm e' t ∧
    GEq (RunEqs [] Ex.eqsB) (.node .f [Ex.tfa]) t ∧ Ex.cf.Same cost (termCost Ex.cf t) ∧
    (∀ t', RewritesTo (RunSteps [] Ex.eqsB) (.node .f [Ex.tfa]) t' → Ex.cf.Le cost (termCost Ex.cf t')) ∧
    ((∀ tl t, (tl, t) ∈ Ex.eqsB → (t, tl) ∈ Ex.eqsB) → ∀ t', GEq (RunEqs [] Ex.eqsB) (.node .f [Ex.tfa]) t' → Ex.cf.Le cost (termCost Ex.cf t')) :=
  c83_simplest (A := Ex.U0) (depth := 1) (allow := .all) (env := Ex.renv) (sch := simpleScheduler) (hooks := []) (rules := [Ex.ruleFX, Ex.ruleXF])
    (r := Ex.runnerS) (r1 := Ex.runnerS1) (I := fun _ _ => True) (f := 10) (fun _ => rfl) rfl (fun _ eg => Ex.ordOK eg) Ex.discContiguous rfl simple_honest
    simple_limited (simple_thorough _) trivial (Ex.hooksOK _ _) Ex.rulesForB .refl
    (e := Ex.exprFfa) (wfExpr_of rfl rfl) (exprTerm_of (f := 5) rfl rfl) rfl rfl rfl Ex.fitsB (c30_astSize_ok 100) (.refl _) (by decide)

/-- `c83_confluent_rules`: `(f ?x) => (g ?x)` alone, on `f (f a)`.  Rewriting replaces every `f` by `g`. -/
def Ex.norm : Term Ex.S → Term Ex.S
  | .node op args => .node (if op = .f ∧ args.length = 1 then .g else op) (args.attach.map fun ⟨t, _⟩ => Ex.norm t)

theorem Ex.norm_node (op : Ex.S) (args : List (Term Ex.S)) :
    Ex.norm (.node op args) = .node (if op = .f ∧ args.length = 1 then .g else op) (args.map Ex.norm) := by
  rw [Ex.norm]
  simp

def Ex.runG : Runner Ex.S Unit Unit Unit := Ex.stR () (Ex.runnerS1.run Ex.renv simpleScheduler [] [Ex.ruleFG] 10)

theorem Ex.instFG {s t : Term Ex.S} (h : RuleInstance [(Ex.termFx, Ex.termGx)] s t) : ∃ x, s = .node .f [x] ∧ t = .node .g [x] := by
  obtain ⟨tl, tr, hm, τ, h1, h2⟩ := h
  simp only [List.mem_singleton, Prod.mk.injEq] at hm
  obtain ⟨rfl, rfl⟩ := hm
  refine ⟨τ Ex.vx, ?_, ?_⟩
  · cases h1 with
    | node hl hj =>
      rename_i ts
      match ts, hl with
      | [x], _ => cases hj 0 _ _ rfl rfl; rfl
  · cases h2 with
    | node hl hj =>
      rename_i ts
      match ts, hl with
      | [x], _ => cases hj 0 _ _ rfl rfl; rfl

theorem Ex.confluentFG (s t : Term Ex.S) (h : GEq (RunEqs [] [(Ex.termFx, Ex.termGx)]) s t) :
    ∃ u, RewritesTo (RunSteps [] [(Ex.termFx, Ex.termGx)]) s u ∧ RewritesTo (RunSteps [] [(Ex.termFx, Ex.termGx)]) t u := by
  have hn : ∀ {s t}, GEq (RunEqs [] [(Ex.termFx, Ex.termGx)]) s t → Ex.norm s = Ex.norm t := by
    intro s t h
    induction h with
    | ax h =>
      rcases h with ⟨u, hu, _⟩ | h
      · cases hu
      · obtain ⟨x, rfl, rfl⟩ := Ex.instFG h
        simp [Ex.norm_node]
    | refl => rfl
    | symm _ ih => exact ih.symm
    | trans _ _ ih1 ih2 => exact ih1.trans ih2
    | congr op hlen _ ih =>
      rw [Ex.norm_node, Ex.norm_node, hlen]
      congr 1
      refine List.ext_getElem (by simpa using hlen) fun k h1 h2 => ?_
      simp only [List.length_map] at h1 h2
      simp only [List.getElem_map]
      exact ih k _ _ (List.getElem?_eq_getElem h1) (List.getElem?_eq_getElem h2)
  have hr : ∀ s : Term Ex.S, RewritesTo (RunSteps [] [(Ex.termFx, Ex.termGx)]) s (Ex.norm s) := by
    intro s
    induction s using Term.ind with
    | h op args ih =>
      rw [Ex.norm_node]
      have h1 : RewritesTo (RunSteps [] [(Ex.termFx, Ex.termGx)]) (.node op args) (.node op (args.map (Ex.norm))) := by
        refine .congr op (by simp) fun k s t hs ht => ?_
        rw [List.getElem?_map, hs] at ht
        cases ht
        exact ih s (List.mem_of_getElem? hs)
      split
      · rename_i hf
        obtain ⟨rfl, hl⟩ := hf
        match args, hl, h1 with
        | [x], _, h1 =>
          refine .trans h1 (.rule (Or.inr (Or.inr ⟨_, _, List.mem_singleton.2 rfl, fun _ => Ex.norm x, ?_, ?_⟩)))
          · exact .node rfl fun j q t hq ht => by
              match j with
              | 0 => cases hq; cases ht; exact .var (τ := fun _ => Ex.norm x)
          · exact .node rfl fun j q t hq ht => by
              match j with
              | 0 => cases hq; cases ht; exact .var (τ := fun _ => Ex.norm x)
      · exact h1
  exact ⟨_, hr s, hn h ▸ hr t⟩

example {c d : Id} {s t : Term Ex.S} (hc : Rep Ex.runG.egraph c s) (hd : Rep Ex.runG.egraph d t) :
    SameClass Ex.runG.egraph c d ↔ GEq (RunEqs [] [(Ex.termFx, Ex.termGx)]) s t :=
  c83_confluent_rules (A := Ex.U0) (depth := 1) (allow := .all) (env := Ex.renv) (sch := simpleScheduler) (hooks := []) (rules := [Ex.ruleFG])
    (r := Ex.runnerS1) (I := fun _ _ => True) (f := 10) (fun _ => rfl) rfl (fun _ eg => Ex.ordOK eg) Ex.discContiguous rfl simple_honest simple_limited
    (simple_thorough _) trivial (Ex.hooksOK _ _) ⟨Ex.areRules, fun tl t h => by
      simp only [List.mem_singleton, Prod.mk.injEq] at h
      obtain ⟨rfl, rfl⟩ := h
      exact ⟨_, List.mem_singleton.2 rfl, Ex.patternRule⟩⟩ Ex.confluentFG Ex.histS1 rfl rfl
    (fun rw' h => by
      simp only [List.mem_singleton] at h
      subst h
      exact ⟨Ex.ord _, _, Ex.ordOK _, rfl, by decide⟩) hc hd

/-- Three classes, of `a`, of `f a` and `g a`, and of `f (f a)`, `g (f a)`, `f (g a)` and `g (g a)`. -/
example : Ex.runG.egraph.numberOfClasses = 3 ∧ Ex.runG.egraph.totalNumberOfNodes = 5 := by decide +kernel

end Egg
