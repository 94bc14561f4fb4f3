import Verif.Lemmas.Quiet
import Verif.Props.Guard
/-
C90: what `Saturated` means for rules of any kind.
-/
namespace Egg
variable {Op D S H : Type} [DecidableEq Op] [Lang Op]
variable {A : UserAnalysis Op D} {depth : Nat} {allow : Caller Op D}
variable {env : RunEnv Op D} {sch : Scheduler Op D S} {hooks : List (Hook Op D H)} {rules : List (Rewrite Op D)}
  {r r' : Runner Op D S H} {U : List (UnionRec Op)} {I : Nat → S → Prop} {rw' : Rewrite Op D} {lp rp : Pattern Op} {tl t : Term (PatOp Op)}
  {σ : Var → Option Id} {c : Id}

theorem SameSize.quiescent {egS fin g : EGraph Op D} (h : SameSize (A.at depth) allow egS fin) {V W : List (UnionRec Op)}
    (h1 : Steps (A.at depth) allow egS V g) (h2 : Steps (A.at depth) allow g W fin) : Quiescent (A.at depth) allow g fin :=
  ⟨⟨W, h2⟩, fun _ _ _ k1 k2 => h.between (Steps.trans h1 k1) k2⟩

/-- **C90, rules of any kind.**  If a run stops with the reason `Saturated`, then for every rule and every match of its left side in the final e-graph,
the applier of the rule was given this match in the last iteration, in an e-graph that was like the final one already; and whatever
it did changed nothing. -/
theorem c90_considered (hN : env.analysis = A.at depth) (hord : ∀ i eg, (env.ord i eg).OK eg) (hd : DiscContiguous Op)
    (hcyc : (A.at depth).allowCycles = true) (hsh : sch.Honest env) (hlim : sch.Limited env) (hs : sch.Thorough env r.limits I)
    (hh : HooksOK (A.at depth) allow (fun _ _ => True) hooks) (hr : ∀ rw' ∈ rules, UsesApi env (A.at depth) allow rw')
    (h : Hist (A.at depth) allow U r.egraph) (hI : I r.iterations.length r.scheduler) {f : Nat}
    (hrun : r.run env sch hooks rules f = .ok r') (hsat : r'.stopReason = some .saturated)
    (hrw : rw' ∈ rules) (hfit : Fits env r'.egraph rw') (hl : IsPattern lp tl) (hsr : rw'.searcher = lp.searcher)
    (hm : PMatch r'.egraph σ c tl) :
    ∃ c' s ms eg eg' ids, CanonicalMatch r'.egraph tl σ c s c' ∧ (c', s) ∈ flat ms ∧ Reachable (A.at depth) allow eg ∧
      rw'.applier.applyMatches (A.at depth) eg ms rw'.name = .ok (eg', ids) ∧
      Quiescent (A.at depth) allow eg r'.egraph ∧ Quiescent (A.at depth) allow eg' r'.egraph := by
  obtain ⟨egS, i, hss, hall⟩ := Runner.run_quiet hN hsh hlim hs hh hr h hI hrun hsat
  obtain ⟨eg, eg', ms, hrr⟩ := hall rw' hrw
  obtain ⟨c', s, k1, k2⟩ := found_of_quiet hN hord hd hcyc hss hrr hl hsr hfit hm
  obtain ⟨V, hV⟩ := hrr.before
  obtain ⟨W, hW⟩ := hrr.after
  obtain ⟨ids, ha⟩ := hrr.apply
  obtain ⟨U', hU'⟩ := hss.reach
  obtain ⟨limit, hms, -⟩ := hrr.found
  obtain ⟨X, hX, -⟩ := hr rw' hrw _ _ _ _ _ _ _ _ _ hU' (fun _ _ => trivial) hss.clean
    (found_of_search (limit := limit) (by rw [hN]; exact hms)) hV (fun _ _ => trivial) (Part.refl' _) ha
  exact ⟨c', s, ms, eg, eg', ids, k2, k1, ⟨_, Steps.trans hU' hV⟩, ha, hss.quiescent hV (Steps.trans hX hW),
    hss.quiescent (Steps.trans hV hX) hW⟩

/-- **C90, appliers written by the user.**  ... `apply_one` was called on this match. -/
theorem c90_user_applier (hN : env.analysis = A.at depth) (hord : ∀ i eg, (env.ord i eg).OK eg) (hd : DiscContiguous Op)
    (hcyc : (A.at depth).allowCycles = true) (hsh : sch.Honest env) (hlim : sch.Limited env) (hs : sch.Thorough env r.limits I)
    (hh : HooksOK (A.at depth) allow (fun _ _ => True) hooks) (hr : ∀ rw' ∈ rules, UsesApi env (A.at depth) allow rw')
    (h : Hist (A.at depth) allow U r.egraph) (hI : I r.iterations.length r.scheduler) {f : Nat}
    (hrun : r.run env sch hooks rules f = .ok r') (hsat : r'.stopReason = some .saturated)
    (hrw : rw' ∈ rules) (hfit : Fits env r'.egraph rw') (hl : IsPattern lp tl) (hlive : ∀ v ∈ lp.vars, Occurs v tl)
    (hsr : rw'.searcher = lp.searcher) (hdef : rw'.applier.UsesDefault)
    (hap : rw'.applier.SoundOn (A.at depth) allow (fun _ _ => True) lp tl (fun _ => True))
    (hm : PMatch r'.egraph σ c tl) :
    ∃ c' s g ast g' ids, CanonicalMatch r'.egraph tl σ c s c' ∧ Reachable (A.at depth) allow g ∧
      (ast = some lp.ast ∧ g.explain.isSome = true ∨ ast = none) ∧
      PMatch g s.get c' tl ∧ (∀ v x, s.get v = some x → g.find x = .ok x) ∧ (∀ v ∈ lp.vars, s.get v ≠ none) ∧
      rw'.applier.applyOne (A.at depth) g c' s ast rw'.name = .ok (g', ids) ∧
      Quiescent (A.at depth) allow g r'.egraph ∧ Quiescent (A.at depth) allow g' r'.egraph := by
  obtain ⟨egS, i, hss, hall⟩ := Runner.run_quiet hN hsh hlim hs hh hr h hI hrun hsat
  obtain ⟨eg, eg', ms, hrr⟩ := hall rw' hrw
  obtain ⟨c', s, k1, k2⟩ := found_of_quiet hN hord hd hcyc hss hrr hl hsr hfit hm
  obtain ⟨V, hV⟩ := hrr.before
  obtain ⟨W, hW⟩ := hrr.after
  obtain ⟨ids, ha⟩ := hrr.apply
  obtain ⟨U', hU'⟩ := hss.reach
  obtain ⟨limit, hms, -⟩ := hrr.found
  have hf : Found env i egS rw' ms := found_of_search (limit := limit) (by rw [hN]; exact hms)
  obtain ⟨V1, g, ast, g', ids', W1, a1, a2, a3, a4⟩ :=
    each_applied hN hord hd hl hlive hsr hdef hap hU' hss.clean hf hV ha c' s k1
  have happ := found_applicable hN hord hd hl hlive (fun v hv => hv) hsr hU' hss.clean hf (Part.refl' _) a1
  obtain ⟨⟨X, hX, -⟩, -⟩ := hap g c' s ast _ g' ids' ⟨_, Steps.trans hU' a1, fun _ _ => trivial⟩ (happ.pmatch _ _ k1)
    (happ.valid _ _ k1) (happ.bound _ _ k1) a2 (fun _ _ => trivial) a3
  have q1 := hss.quiescent a1 (Steps.trans hX (Steps.trans a4 hW))
  refine ⟨c', s, g, ast, g', ids', k2, ⟨_, Steps.trans hU' a1⟩, a2, happ.pmatch _ _ k1, fun v x hx => ?_, happ.bound _ _ k1, a3,
    q1, hss.quiescent (Steps.trans a1 hX) (Steps.trans a4 hW)⟩
  have hv := k2.2.2 v (by simp [hx])
  obtain ⟨y, z, h1, h2, h3⟩ := k2.2.1 v hv
  rw [hx] at h3
  cases h3
  exact (q1.2 _ _ _ .refl (Steps.trans hX (Steps.trans a4 hW))).canonical _ _ h2

/-- **C90, rules with conditions** (as made by `rewrite!(..; lhs => rhs if c₁ if c₂ ..)`).  For every match of the left side in the final e-graph, the
right side is in the class of the match, or some condition answered no to this very match, in an e-graph like the final one. -/
theorem c90_conditions {k : Condition Op D} {ks : List (Condition Op D)} {name : Symbol}
    (hN : env.analysis = A.at depth) (hord : ∀ i eg, (env.ord i eg).OK eg) (hd : DiscContiguous Op)
    (hcyc : (A.at depth).allowCycles = true) (hsh : sch.Honest env) (hlim : sch.Limited env) (hs : sch.Thorough env r.limits I)
    (hh : HooksOK (A.at depth) allow (fun _ _ => True) hooks) (hr : ∀ rw' ∈ rules, UsesApi env (A.at depth) allow rw')
    (h : Hist (A.at depth) allow U r.egraph) (hI : I r.iterations.length r.scheduler) {f : Nat}
    (hrun : r.run env sch hooks rules f = .ok r') (hsat : r'.stopReason = some .saturated)
    (hrw : rw' ∈ rules) (hfit : Fits env r'.egraph rw') (hl : IsPattern lp tl) (hlive : ∀ v ∈ lp.vars, Occurs v tl)
    (hrp : IsPattern rp t) (hnew : Rewrite.new name lp.searcher (condApplier rp.applier (k :: ks)) = .ok rw')
    (hc : ∀ c ∈ k :: ks, c.OnlyAdds (A.at depth) allow) (hm : PMatch r'.egraph σ c tl) :
    PMatch r'.egraph σ c t ∨ ∃ c' s, CanonicalMatch r'.egraph tl σ c s c' ∧ ∃ cond ∈ k :: ks, ∃ g g', Reachable (A.at depth) allow g ∧
      Quiescent (A.at depth) allow g r'.egraph ∧ Quiescent (A.at depth) allow g' r'.egraph ∧
      cond.check (A.at depth) g c' s = .ok (g', false) := by
  obtain ⟨hv, hrw'⟩ := rewrite_new_inv hnew
  have hS : SoundlyMerging (A.at depth) allow (fun _ _ => True) := fun _ _ _ _ _ _ _ _ _ => trivial
  have main : ∀ (cs : List (Condition Op D)), (∀ c ∈ cs, c.OnlyAdds (A.at depth) allow) →
      (∀ v ∈ (condApplier (rp.applier (D := D)) cs).vars, v ∈ lp.vars) →
      (condApplier (rp.applier (D := D)) cs).SoundOn (A.at depth) allow (fun _ _ => True) lp tl (fun _ => True) := by
    intro cs
    induction cs with
    | nil => intro _ hv; exact c89_pattern isCongruence_true hl hrp hv (fun _ _ _ _ _ _ => trivial)
    | cons c cs ih =>
      intro h1 hv
      have := ih (fun c hc => h1 c (by simp [hc])) (fun v hv' => hv v (List.mem_append.2 (Or.inl hv')))
      exact c89_conditional (P' := fun _ => True) isCongruence_true hS (fun _ _ _ _ => trivial) (h1 c (by simp))
        (fun v hv' => hv v (List.mem_append.2 (Or.inr hv'))) (fun eg c s ast rule eg' ids a1 a2 a3 a4 a5 a6 =>
          this eg c s ast rule eg' ids a1 a2 a3 a4 a5 (fun _ _ => trivial))
  have hap : rw'.applier.SoundOn (A.at depth) allow (fun _ _ => True) lp tl (fun _ => True) := by rw [hrw']; exact main _ hc hv
  obtain ⟨c', s, g, ast, g', ids, hcm, hg, hast, hmg, hcan, hbd, h1, q1, q2⟩ := c90_user_applier hN hord hd hcyc hsh hlim hs hh hr h hI hrun hsat hrw hfit hl
    hlive (by rw [hrw']) (by rw [hrw']; intro N eg ms rule; rfl) hap hm
  have hfin : Hist (A.at depth) allow _ r'.egraph := Steps.trans hg.choose_spec q1.1.choose_spec
  have hpend : r'.egraph.pending = [] := by
    obtain ⟨egS, i, hss, -⟩ := Runner.run_quiet hN hsh hlim hs hh hr h hI hrun hsat
    exact (c47_clean_means_rebuilt hfin hss.fclean).pending
  have gf := hist_good hfin
  -- from the canonical match to the match
  have back : PMatch r'.egraph s.get c' t → PMatch r'.egraph σ c t := by
    intro hp
    have hcc : SameClass r'.egraph c' c := by
      obtain ⟨e1, e2⟩ := gf.inv.find_iff.1 hcm.1
      exact gf.inv.sameClass_iff.2 ⟨e2 ▸ gf.inv.core.rtLt _ e1, e1, by rw [← e2, gf.inv.core.rtIdem]⟩
    refine PMatch.mono (fun v y _ hy => ?_) (gf.inv.pmatch_congr hcc hp)
    obtain ⟨x, y', e1, e2, e3⟩ := hcm.2.1 v (hcm.2.2 v (by simp [hy]))
    rw [hy] at e3; cases e3
    refine ⟨x, e1, fun w hw => ?_⟩
    obtain ⟨e4, e5⟩ := gf.inv.find_iff.1 e2
    rw [gf.inv.sameClass_iff] at hw ⊢
    exact ⟨e4, hw.2.1, by rw [← hw.2.2, ← e5, gf.inv.core.rtIdem]⟩
  have step : ∀ (cs : List (Condition Op D)) (g g' : EGraph Op D) (ids : List Id), (∀ c ∈ cs, c.OnlyAdds (A.at depth) allow) →
      (∀ v ∈ (condApplier (rp.applier (D := D)) cs).vars, v ∈ lp.vars) → Reachable (A.at depth) allow g →
      Quiescent (A.at depth) allow g r'.egraph → Quiescent (A.at depth) allow g' r'.egraph → PMatch g s.get c' tl → BindsIds g s →
      (ast = some lp.ast ∧ g.explain.isSome = true ∨ ast = none) →
      (condApplier (rp.applier (D := D)) cs).applyOne (A.at depth) g c' s ast rw'.name = .ok (g', ids) →
      PMatch r'.egraph s.get c' t ∨ ∃ cond ∈ cs, ∃ g g', Reachable (A.at depth) allow g ∧
        Quiescent (A.at depth) allow g r'.egraph ∧ Quiescent (A.at depth) allow g' r'.egraph ∧
        cond.check (A.at depth) g c' s = .ok (g', false) := by
    intro cs
    induction cs with
    | nil =>
      intro g g' ids _ hv hg q1 q2 hmg hb hast h1
      left
      obtain ⟨U, hU⟩ := hg
      have hg := hist_good hU
      have happ := c23_apply_one (tl := tl) hU hrp hmg hb (fun v hv' => hbd v (hv v hv')) (fun l hl' => by
        rcases hast with ⟨e, hx⟩ | e
        · rw [e] at hl'; cases hl'; exact ⟨hx, lp, rfl, hl, hbd⟩
        · rw [e] at hl'; cases hl') h1
      obtain ⟨U', s1, g1, x1, -, k2⟩ := EGraph.Applies.result (allow := allow) ((soundFor_true A).hookOK trivial depth)
        (fun _ _ => trivial) (fun _ _ _ => trivial) hg happ hg (EGraph.Grow.refl _) (fun c s' hcs => by
          simp only [List.mem_singleton, Prod.mk.injEq] at hcs
          obtain ⟨rfl, rfl⟩ := hcs
          exact ⟨hmg, fun v x hx => hg.valid_iff.1 (hb v x hx)⟩)
      obtain ⟨i, j, p1, p2, p3⟩ := k2 c' s (by simp)
      obtain ⟨W, hst⟩ := q2.1
      obtain ⟨g2, x2⟩ := steps_grow hst g1
      have hpc : PMatch r'.egraph s.get c' tl := x2.pmatch g1.inv g2.inv (x1.pmatch hg.inv g1.inv hmg)
      have hjc : SameClass r'.egraph j c' := by
        rcases p1 with rfl | p1
        · have := g2.inv.pmatch_lt hpc
          exact g2.inv.sameClass_iff.2 ⟨this, this, rfl⟩
        · have p1 := x2.pmatch g1.inv g2.inv p1.2
          exact g2.inv.sameClass_iff.2 ⟨g2.inv.pmatch_lt p1, g2.inv.pmatch_lt hpc,
            (g2.inv.sameClass_iff.1 (EGraph.InvW.pmatch_det g2.inv hpend _ p1 hpc)).2.2⟩
      have hij : SameClass r'.egraph i j := by
        rw [g1.inv.sameClass_iff] at p3
        exact g2.inv.sameClass_iff.2 ⟨lt_of_lt_of_le p3.1 x2.len, lt_of_lt_of_le p3.2.1 x2.len, x2.rt _ _ p3.1 p3.2.1 p3.2.2⟩
      exact g2.inv.pmatch_congr (g2.inv.sameClass_trans hij hjc) (x2.pmatch g1.inv g2.inv p2)
    | cons cond cs ih =>
      intro g g' ids hc hv hg q1 q2 hmg hb hast h1
      have h1 : conditionalOne cond (condApplier rp.applier cs) (A.at depth) g c' s ast rw'.name = .ok (g', ids) := h1
      unfold conditionalOne at h1
      rw [bind_eq_ok] at h1
      obtain ⟨⟨g1, bb⟩, h2, h1⟩ := h1
      obtain ⟨U, hU⟩ := hg
      have hS' : SoundState (A.at depth) allow (fun _ _ => True) g := ⟨U, hU, fun _ _ => trivial⟩
      obtain ⟨ad, -⟩ := hc cond (by simp) g c' s g1 bb hS' hb
        (fun v hv' => hbd v (hv v (List.mem_append.2 (Or.inr hv')))) h2
      obtain ⟨gd1, x1⟩ := AddSteps.ext ((soundFor_true A).hookOK trivial depth) ad (hist_good hU)
      obtain ⟨X, hX, -⟩ : SoundSteps (A.at depth) allow (fun _ _ => True) g g1 := .adds ad
      cases bb with
      | false =>
        cases h1
        exact .inr ⟨cond, by simp, g, _, ⟨U, hU⟩, q1, q2, h2⟩
      | true =>
        have hv1 : ∀ v ∈ (condApplier (rp.applier (D := D)) cs).vars, v ∈ lp.vars := fun v hv' => hv v (List.mem_append.2 (Or.inl hv'))
        have hb1 : BindsIds g1 s := fun v x hx => gd1.valid_iff.2 (lt_of_lt_of_le ((hist_good hU).valid_iff.1 (hb v x hx)) x1.len)
        have hm1 := x1.pmatch (hist_good hU).inv gd1.inv hmg
        have hast1 : ast = some lp.ast ∧ g1.explain.isSome = true ∨ ast = none := hast.imp (fun ⟨e, hx⟩ => ⟨e, by rw [x1.expl]; exact hx⟩) id
        have hr1 : Reachable (A.at depth) allow g1 := ⟨_, Steps.trans hU hX⟩
        obtain ⟨⟨Y, hY, -⟩, -⟩ := main cs (fun c h => hc c (by simp [h])) hv1 g1 c' s ast _ g' ids ⟨_, hr1.choose_spec, fun _ _ => trivial⟩ hm1 hb1 hbd hast1
          (fun _ _ => trivial) h1
        obtain ⟨W, hW⟩ := q2.1
        have q3 : Quiescent (A.at depth) allow g1 r'.egraph :=
          ⟨⟨_, Steps.trans hY hW⟩, fun _ _ _ k1 k2 => q1.2 _ _ _ (Steps.trans hX k1) k2⟩
        rcases ih g1 g' ids (fun c h => hc c (by simp [h])) hv1 hr1 q3 q2 hm1 hb1 hast1 h1 with h | ⟨cond', h3, h4⟩
        · exact .inl h
        · exact .inr ⟨cond', by simp [h3], h4⟩
  rw [hrw'] at h1
  rcases step _ g g' ids hc hv hg q1 q2 hmg (fun v x hx => ⟨x, hcan v x hx⟩) hast (by rw [hrw']; exact h1) with h | h
  · exact .inl (back h)
  · exact .inr ⟨c', s, hcm, h⟩

/-- **C90, `ConditionEqual`.**  If nothing happens any more between `g` and the rebuilt e-graph `fin`, and `ConditionEqual` answers no in `g`, then its two
sides are not in one class of `fin` (nor do both get there if they are added).  Compare C48: there the answer may be wrong, if the
e-graph is not rebuilt, or the analysis has a `modify` hook. -/
theorem c90_equal {p1 p2 : Pattern Op} {t1 t2 : Term (PatOp Op)} {g g' fin : EGraph Op D} {s : Subst} (h1 : IsPattern p1 t1)
    (h2 : IsPattern p2 t2) (hg : Reachable (A.at depth) allow g) (hq : Quiescent (A.at depth) allow g fin)
    (hq' : Quiescent (A.at depth) allow g' fin) (hc : fin.clean = true)
    (hv : ∀ v x, s.get v = some x → fin.find x = .ok x) (hb : ∀ v ∈ (Condition.equal (D := D) p1 p2).vars, s.get v ≠ none)
    (he : (Condition.equal p1 p2).check (A.at depth) g c s = .ok (g', false)) :
    ¬ ∃ x, PMatch fin s.get x t1 ∧ PMatch fin s.get x t2 := by
  rintro ⟨x, x1, x2⟩
  obtain ⟨U, hU⟩ := hg
  obtain ⟨W0, hW0⟩ := hq.1
  have hg := hist_good hU
  have hN := (soundFor_true A).hookOK trivial depth
  have hfin : Hist (A.at depth) allow _ fin := Steps.trans hU hW0
  have gf := hist_good hfin
  have hpend := (c47_clean_means_rebuilt hfin hc).pending
  have un := hq.2 _ _ _ .refl hW0
  have hvg : ∀ v x, s.get v = some x → Valid g x := fun v x hx => ⟨x, un.canonical _ _ (hv v x hx)⟩
  have he' : (do
    let (eg, _, a1) ← applyPat (A.at depth) (List.replicate p1.ast.length 0) p1.ast g s
    let (eg, _, a2) ← applyPat (A.at depth) (List.replicate p2.ast.length 0) p2.ast eg s
    return (eg, decide (a1 = a2)) : Res (EGraph Op D × Bool)) = .ok (g', false) := he
  have hb1 := binds_of (p := p1) hg hvg (fun v hv' => hb v (List.mem_append.2 (Or.inl hv')))
  have hb2 := binds_of (p := p2) hg hvg (fun v hv' => hb v (List.mem_append.2 (Or.inr hv')))
  rw [bind_eq_ok] at he'
  obtain ⟨⟨eg1, b1, a1⟩, e1, he'⟩ := he'
  rw [bind_eq_ok] at he'
  obtain ⟨⟨eg2, b2, a2⟩, e2, he'⟩ := he'
  injection he' with he'
  injection he' with he1 he2
  subst he1
  have hne : a1 ≠ a2 := by simpa using he2
  obtain ⟨k1, k2, -, k4, k3⟩ := (EGraph.applyPat_post hN h1.wf.1 hg hb1 (by simp)).elim e1
  obtain ⟨m1, m2, -, m4, m3⟩ := (EGraph.applyPat_post hN h2.wf.1 k1 (hb2.ext k2) (by simp)).elim e2
  obtain ⟨X1, s1, -⟩ : SoundSteps (A.at depth) allow (fun _ _ => True) g eg1 := .adds (EGraph.applyPat_steps e1)
  obtain ⟨X2, s2, -⟩ : SoundSteps (A.at depth) allow (fun _ _ => True) eg1 eg2 := .adds (EGraph.applyPat_steps e2)
  obtain ⟨W, hW⟩ := hq'.1
  have g1 := (steps_grow (Steps.trans s2 hW) k1).2
  have g2 := (steps_grow hW m1).2
  have u1 := hq.2 _ _ _ s1 (Steps.trans s2 hW)
  have u2 := hq.2 _ _ _ (Steps.trans s1 s2) hW
  have r1 : fin.find a1 = .ok a1 := by
    rcases EGraph.applyPat_last h1.wf.1.1.1 (by simp) e1 with ⟨v, hx⟩ | ⟨j, hj⟩
    · exact hv v a1 hx
    · have := u1.find _ _ hj
      exact u1.find _ _ (u1.canonical _ _ this)
  have r2 : fin.find a2 = .ok a2 := by
    rcases EGraph.applyPat_last h2.wf.1.1.1 (by simp) e2 with ⟨v, hx⟩ | ⟨j, hj⟩
    · exact hv v a2 hx
    · have := u2.find _ _ hj
      exact u2.find _ _ (u2.canonical _ _ this)
  have d1 := EGraph.InvW.pmatch_det gf.inv hpend _ (g1.pmatch k1.inv gf.inv (k3 _ h1.wf.2)) x1
  have d2 := EGraph.InvW.pmatch_det gf.inv hpend _ x2 (g2.pmatch m1.inv gf.inv (m3 _ h2.wf.2))
  have := (gf.inv.sameClass_iff.1 (gf.inv.sameClass_trans d1 d2)).2.2
  rw [(gf.inv.find_iff.1 r1).2, (gf.inv.find_iff.1 r2).2] at this
  exact hne this

/-- **C90, rules `lhs => rhs if ConditionEqual(p₁, p₂)`** are closed in the final e-graph of a run that saturates: wherever the left side matches, and
the two sides of the condition are in one class, the right side is in the class of the match. -/
theorem c90_equal_closed {p1 p2 : Pattern Op} {t1 t2 : Term (PatOp Op)} {name : Symbol}
    (hN : env.analysis = A.at depth) (hord : ∀ i eg, (env.ord i eg).OK eg) (hd : DiscContiguous Op)
    (hcyc : (A.at depth).allowCycles = true) (hsh : sch.Honest env) (hlim : sch.Limited env) (hs : sch.Thorough env r.limits I)
    (hh : HooksOK (A.at depth) allow (fun _ _ => True) hooks) (hr : ∀ rw' ∈ rules, UsesApi env (A.at depth) allow rw')
    (h : Hist (A.at depth) allow U r.egraph) (hI : I r.iterations.length r.scheduler) {f : Nat}
    (hrun : r.run env sch hooks rules f = .ok r') (hsat : r'.stopReason = some .saturated)
    (hrw : rw' ∈ rules) (hfit : Fits env r'.egraph rw') (hl : IsPattern lp tl) (hlive : ∀ v ∈ lp.vars, Occurs v tl)
    (hrp : IsPattern rp t) (h1 : IsPattern p1 t1) (h2 : IsPattern p2 t2)
    (hnew : Rewrite.new name lp.searcher (condApplier rp.applier [Condition.equal p1 p2]) = .ok rw')
    (hm : PMatch r'.egraph σ c tl) {x : Id} (hx1 : PMatch r'.egraph σ x t1) (hx2 : PMatch r'.egraph σ x t2) : PMatch r'.egraph σ c t := by
  have hadd : (Condition.equal (D := D) p1 p2).OnlyAdds (A.at depth) allow :=
    fun eg c s eg' b a1 a2 a3 a4 => ⟨(c89_equal h1 h2 (fun _ _ _ _ _ _ _ _ _ => trivial) eg c s eg' b a1 a2 a3 a4).1, fun _ _ _ => trivial⟩
  rcases c90_conditions hN hord hd hcyc hsh hlim hs hh hr h hI hrun hsat hrw hfit hl hlive hrp hnew (by simpa using hadd) hm with
    h3 | ⟨c', s, hcm, cond, hcond, g, g', hg, q1, q2, hk⟩
  · exact h3
  exfalso
  obtain rfl : cond = Condition.equal p1 p2 := by simpa using hcond
  have hfin : Hist (A.at depth) allow _ r'.egraph := Steps.trans hg.choose_spec q1.1.choose_spec
  have gf := hist_good hfin
  obtain ⟨egS, i, hss, -⟩ := Runner.run_quiet hN hsh hlim hs hh hr h hI hrun hsat
  obtain ⟨hv, -⟩ := rewrite_new_inv hnew
  have hvars : ∀ v ∈ (Condition.equal (D := D) p1 p2).vars, Occurs v tl := fun v hv' => hlive v (hv v (List.mem_append.2 (Or.inr hv')))
  have conv : ∀ t0, (∀ v, Occurs v t0 → v ∈ (Condition.equal (D := D) p1 p2).vars) → PMatch r'.egraph σ x t0 → PMatch r'.egraph s.get x t0 := by
    intro t0 ht0 hp
    refine PMatch.mono (fun v y hv' hy => ?_) hp
    obtain ⟨x0, y', e1, e2, e3⟩ := hcm.2.1 v (hvars v (ht0 v hv'))
    rw [hy] at e1; cases e1
    refine ⟨y', e3, fun w hw => ?_⟩
    obtain ⟨e4, e5⟩ := gf.inv.find_iff.1 e2
    rw [gf.inv.sameClass_iff] at hw ⊢
    exact ⟨e5 ▸ gf.inv.core.rtLt _ e4, hw.2.1, by rw [← hw.2.2, ← e5, gf.inv.core.rtIdem]⟩
  refine c90_equal h1 h2 hg q1 q2 hss.fclean (fun v y hy => ?_) (fun v hv' => ?_) hk
    ⟨x, conv t1 (fun v ho => List.mem_append.2 (Or.inl (h1.occurs_vars ho))) hx1,
      conv t2 (fun v ho => List.mem_append.2 (Or.inr (h2.occurs_vars ho))) hx2⟩
  · obtain ⟨x0, y', e1, e2, e3⟩ := hcm.2.1 v (hcm.2.2 v (by simp [hy]))
    rw [hy] at e3; cases e3
    obtain ⟨e4, e5⟩ := gf.inv.find_iff.1 e2
    exact gf.inv.find_iff.2 ⟨e5 ▸ gf.inv.core.rtLt _ e4, by rw [← e5, gf.inv.core.rtIdem]⟩
  · obtain ⟨x0, y', e1, e2, e3⟩ := hcm.2.1 v (hvars v hv')
    simp [e3]

/-- **C90, conditions on e-nodes.**  If the test of the operators says no in `g`, then the class of `v` has no term with such an operator in `fin`. -/
theorem c90_nodes {g g' fin : EGraph Op D} {s : Subst} {v : Var} {p : Op → Bool} (hg : Reachable (A.at depth) allow g)
    (hq : Quiescent (A.at depth) allow g fin) (he : (Condition.onNodes v p).check (A.at depth) g c s = .ok (g', false)) :
    ∃ x, s.get v = some x ∧ ∀ op ts, Rep fin x (.node op ts) → p op = false := by
  simp only [Condition.onNodes, bind_eq_ok] at he
  obtain ⟨x, h1, k, h2, he⟩ := he
  injection he with he
  injection he with _ he
  obtain ⟨U, hU⟩ := hg
  have hi := (hist_good hU).inv
  obtain ⟨W, hW⟩ := hq.1
  unfold EGraph.index at h2
  obtain ⟨r, hr, h2⟩ := bind_eq_ok.1 h2
  have h2 := unwrap_eq_ok.1 h2
  refine ⟨x, unwrap_eq_ok.1 h1, fun op ts ht => ?_⟩
  have ht := ((hq.2 _ _ _ .refl hW).rep x _ ⟨r, hr⟩).2 ht
  obtain ⟨hx, k', n, e1, e2, e3, -⟩ := hi.rep_iff.1 ht
  rw [(hi.find_iff.1 hr).2, h2] at e1
  cases e1
  cases hp : p op with
  | false => rfl
  | true =>
    have : k.nodes.any (fun n => p n.op) = true := List.any_eq_true.2 ⟨n, e2, by rw [e3]; exact hp⟩
    rw [this] at he
    cases he

/-! ### Examples -/

namespace Ex

/-- The pattern `a`. -/
def patA : Pattern Ex.S := ⟨[⟨.op .a, []⟩], ⟨[.bind (leaf .a) 0 1], []⟩⟩
def termA : Term (PatOp Ex.S) := .node (.op .a) []
theorem isPatA : IsPattern patA termA :=
  ⟨ordc, 10, patA.ast, ordcOK, patWF_of rfl rfl rfl, rfl, exprTerm_of (f := 5) rfl rfl⟩

/-- `f ?x => g ?x if ?x = a`. -/
def ruleIfA : Rewrite Ex.S Unit := ⟨9, patFx.searcher, condApplier patGx.applier [Condition.equal patX patA]⟩

/-- The e-graph with a = b and f a = f b, to which c and f c are added. -/
def q1 : EGraph Ex.S Unit := st (EGraph.addUncanonical N0 e6 (leaf .c))
def q2 : EGraph Ex.S Unit := st (EGraph.addUncanonical N0 q1 (app .f [4]))
theorem histQi (allow) : Hist N0 allow [un] q2 :=
  .tail (V := []) (.tail (V := []) (hist6 allow) (.add (n := leaf .c) (i := 4) rfl)) (.add (n := app .f [4]) (i := 5) rfl)

def runnerQi : Runner Ex.S Unit Unit Unit := { runner () with egraph := q2 }
def doneQi : Runner Ex.S Unit Unit Unit := stR () (runnerQi.run renv simpleScheduler [] [ruleIfA] 10)

theorem usesApiIfA (allow) : UsesApi renv (U0.at 1) allow ruleIfA :=
  c89_conditions (name := 9) (k := Condition.equal patX patA) (ks := []) (Ps := [fun _ => True]) isCongruence_true
    (fun _ _ _ _ _ _ _ _ _ => trivial) rfl (fun _ eg => ordOK eg) discContiguous isPatFx live isPatGx rfl
    (.cons ⟨fun _ _ _ _ => trivial, fun eg c s eg' b a1 a2 a3 a4 =>
      ⟨(c89_equal isPatX isPatA (fun _ _ _ _ _ _ _ _ _ => trivial) eg c s eg' b a1 a2 a3 a4).1, fun _ _ _ => trivial⟩⟩ .nil)
    (fun _ _ _ _ _ _ => trivial)

/-- The run saturates, and the rule is closed: g a is in the class of f a; but f c got no g c. -/
example : doneQi.stopReason = some .saturated ∧
    (∀ σ c x, PMatch doneQi.egraph σ c termFx → PMatch doneQi.egraph σ x (.node (.var vx) []) → PMatch doneQi.egraph σ x termA →
      PMatch doneQi.egraph σ c termGx) ∧
    doneQi.egraph.classes.map (fun k => k.2.nodes) = [[leaf .a, leaf .b], [app .f [0], app .g [0]], [leaf .c], [app .f [4]]] := by
  refine ⟨rfl, fun σ c x h1 h2 h3 => ?_, rfl⟩
  exact c90_equal_closed (A := U0) (depth := 1) (allow := Caller.all) (env := renv) (sch := simpleScheduler) (hooks := []) (rules := [ruleIfA]) (I := fun _ _ => True)
    (r := runnerQi) (r' := doneQi) (f := 10) (rw' := ruleIfA) (lp := patFx) (rp := patGx) (name := 9) rfl (fun _ eg => ordOK eg) discContiguous rfl simple_honest simple_limited (simple_thorough _)
    (hooksOK _ _) (by simpa using usesApiIfA _) (histQi _) trivial rfl rfl (by simp) ⟨ord _, _, ordOK _, rfl, by decide⟩ isPatFx live isPatGx isPatX isPatA rfl h1 h2 h3

/-! A rule that is conditional on a datum, and a rule that sets data. -/

/-- An analysis with a flag, which is not set at first. -/
def UQ : UserAnalysis Ex.S Bool := ⟨fun _ _ _ => .ok false, fun _ _ _ => .ok false, fun a b => (a || b, (a || b) != a, (a || b) != b), fun _ => .done, true⟩
def NQ : Analysis Ex.S Bool := UQ.at 1
def renvQ : RunEnv Ex.S Bool := ⟨NQ, fun _ eg => ord eg, fun _ => 0, 20, 8⟩

/-- `f ?x => g ?x if the flag of ?x is set`. -/
def ruleFlag : Rewrite Ex.S Bool := ⟨10, patFx.searcher, condApplier patGx.applier [Condition.onData vx id]⟩

/-- An applier that sets the flag of `?x`. -/
def flagOne (N : Analysis Ex.S Bool) (eg : EGraph Ex.S Bool) (s : Subst) : Res (EGraph Ex.S Bool × List Id) := do
  let x ← s.index vx
  let eg ← eg.setAnalysisData N x true
  return (eg, [])
def flagger : Applier Ex.S Bool where
  applyOne := fun N eg _ s _ _ => flagOne N eg s
  applyMatches := fun N eg ms rule => defaultApplyMatches (fun eg _ s _ _ => flagOne N eg s) rule eg ms []
  vars := []
def ruleSet : Rewrite Ex.S Bool := ⟨11, patFx.searcher, flagger⟩

def stB (x : Res (EGraph Ex.S Bool × Id)) : EGraph Ex.S Bool := match x with | .ok (g, _) => g | _ => .new
def f1 : EGraph Ex.S Bool := stB (EGraph.addUncanonical NQ .new (leaf .a))
def f2 : EGraph Ex.S Bool := stB (EGraph.addUncanonical NQ f1 (app .f [0]))
theorem histF (allow) : Hist NQ allow [] f2 :=
  .tail (V := []) (.tail (V := []) .refl (.add (n := leaf .a) (i := 0) rfl)) (.add (n := app .f [0]) (i := 1) rfl)
def runnerF : Runner Ex.S Bool Unit Unit := { (Runner.new () () : Runner Ex.S Bool Unit Unit) with egraph := f2 }
def doneF : Runner Ex.S Bool Unit Unit := match runnerF.run renvQ simpleScheduler [] [ruleFlag, ruleSet] 10 with | .ok r => r | _ => runnerF

theorem onlyAddsFlag (allow) : (Condition.onData (Op := Ex.S) vx (id : Bool → Bool)).OnlyAdds NQ allow := by
  intro eg c s eg' b _ _ _ h
  simp only [Condition.onData, bind_eq_ok] at h
  obtain ⟨x, _, k, _, h⟩ := h
  cases h
  exact ⟨.refl, fun _ _ _ => trivial⟩

theorem usesApiFlag (allow) : UsesApi renvQ NQ allow ruleFlag :=
  c89_conditions (A := UQ) (depth := 1) (name := 10) (k := Condition.onData vx id) (ks := []) (Ps := [fun _ => True]) isCongruence_true
    (fun _ _ _ _ _ _ _ _ _ => trivial) rfl (fun _ eg => ordOK eg) discContiguous isPatFx live isPatGx rfl
    (.cons ⟨fun _ _ _ _ => trivial, onlyAddsFlag allow⟩ .nil) (fun _ _ _ _ _ _ => trivial)

theorem usesApiSet : UsesApi renvQ NQ Caller.all ruleSet := by
  refine c89_user_applier (A := UQ) (depth := 1) rfl (fun _ eg => ordOK eg) discContiguous isPatFx live rfl (fun _ _ _ _ => rfl) ?_
  intro eg c s ast rule eg' ids hS hm hb hbl _ _ h1
  have h1 : flagOne NQ eg s = .ok (eg', ids) := h1
  unfold flagOne at h1
  obtain ⟨x, hx, h1⟩ := bind_eq_ok.1 h1
  obtain ⟨g, hg, h1⟩ := bind_eq_ok.1 h1
  injection h1 with h1
  injection h1 with h1 _
  subst h1
  have hst : Steps NQ Caller.all eg ([] ++ []) g := Steps.single (.setData trivial hg)
  refine ⟨⟨_, hst, fun _ _ => trivial⟩, fun he => ?_⟩
  unfold EGraph.setAnalysisData at hg
  obtain ⟨⟨uf, i⟩, _, hg⟩ := bind_eq_ok.1 hg
  obtain ⟨k, _, hg⟩ := bind_eq_ok.1 hg
  have hg : Except.ok _ = Except.ok g := hg
  injection hg with hg
  subst hg
  exact he

end Ex

/-- **C90 is not true of conditions on data.**  The first rule is conditional on a flag, the second sets the flag: the run reports `Saturated` after one
iteration, although the condition of the first rule holds now, and its right side is missing; running once more adds it. -/
theorem c90_data_counterexample : ∃ (env : RunEnv Ex.S Bool) (rules : List (Rewrite Ex.S Bool)) (rw' : Rewrite Ex.S Bool) (r r' r'' : Runner Ex.S Bool Unit Unit)
    (s : Subst) (g : EGraph Ex.S Bool),
    (∀ rw' ∈ rules, UsesApi env Ex.NQ Caller.all rw') ∧ Hist Ex.NQ Caller.all [] r.egraph ∧
    r.run env simpleScheduler [] rules 10 = .ok r' ∧ r'.stopReason = some .saturated ∧ rw' ∈ rules ∧
    rw' = ⟨10, Ex.patFx.searcher, condApplier Ex.patGx.applier [Condition.onData Ex.vx id]⟩ ∧
    PMatch r'.egraph s.get 1 Ex.termFx ∧ (Condition.onData Ex.vx id).check Ex.NQ r'.egraph 1 s = .ok (g, true) ∧
    (¬ ∃ c, PMatch r'.egraph s.get c Ex.termGx) ∧
    ({ r with egraph := r'.egraph } : Runner Ex.S Bool Unit Unit).run env simpleScheduler [] rules 10 = .ok r'' ∧
    r''.egraph.totalSize = 3 ∧ r'.egraph.totalSize = 2 := by
  refine ⟨Ex.renvQ, [Ex.ruleFlag, Ex.ruleSet], Ex.ruleFlag, Ex.runnerF, Ex.doneF,
    (match ({ Ex.runnerF with egraph := Ex.doneF.egraph } : Runner Ex.S Bool Unit Unit).run Ex.renvQ simpleScheduler [] [Ex.ruleFlag, Ex.ruleSet] 10 with | .ok r => r | _ => Ex.runnerF),
    [(Ex.vx, 0)], Ex.doneF.egraph, ?_, Ex.histF _, rfl, rfl, by simp, rfl, ?_, rfl, ?_, rfl, rfl, rfl⟩
  · intro rw' h
    simp only [List.mem_cons, List.not_mem_nil, or_false] at h
    rcases h with rfl | rfl
    · exact Ex.usesApiFlag _
    · exact Ex.usesApiSet
  · exact .node (n := Ex.app .f [0]) (k := ⟨1, [Ex.app .f [0]], false, []⟩) rfl (by simp) rfl (fun j d q h1 h2 => by
      rcases j with _ | j
      · cases h1; cases h2; exact .var (x := 0) rfl ⟨0, rfl, rfl⟩
      · cases h1)
  · rintro ⟨c, h⟩
    unfold Ex.termGx at h
    generalize ht : (Term.node (PatOp.op Ex.S.g) [Term.node (PatOp.var Ex.vx) []]) = t at h
    cases h with
    | var => cases ht
    | @node _ k n ps h1 h2 =>
      unfold EGraph.index at h1
      obtain ⟨r, _, h1⟩ := bind_eq_ok.1 h1
      have h1 := AMap.mem_of_get? (unwrap_eq_ok.1 h1)
      have key : ∀ kc ∈ Ex.doneF.egraph.classes, ∀ n ∈ kc.2.nodes, n.op ≠ .g := by decide +kernel
      injection ht with ht _
      injection ht with ht
      exact key _ h1 n h2 ht.symm

end Egg
