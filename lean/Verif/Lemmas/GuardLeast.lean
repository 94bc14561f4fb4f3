import Verif.Spec.GuardLeast
import Verif.Props.GuardChase
/-
The last iteration of a saturated run with rules that may have `ConditionEqual`s.
-/
namespace Egg
variable {Op D S H : Type} [DecidableEq Op] [Lang Op]
variable {A : UserAnalysis Op D} {depth : Nat} {allow : Caller Op D} {U : List (UnionRec Op)}
variable {env : RunEnv Op D} {sch : Scheduler Op D S} {hooks : List (Hook Op D H)} {rules : List (Rewrite Op D)}
variable {r r' : Runner Op D S H} {f : Nat} {s t : Term Op} {K : Term Op → Term Op → Prop} {cs : List (EqRule Op)} {I : Nat → S → Prop}

/-- What `CondsThen` makes of a list of conditions, as guards. -/
theorem ensured_equal (hK : PCong K) (hA : ∀ i, A.modify i = .done) {ps : List (Pattern Op × Pattern Op)} {ts : List (Term (PatOp Op) × Term (PatOp Op))}
    (hp : List.Forall₂ (fun p t => ExactPattern p.1 t.1 ∧ ExactPattern p.2 t.2) ps ts) {G : (Var → Term Op) → Prop} :
    ∀ {Q : (Var → Term Op) → Prop}, (∀ τ, Q τ → CondsThen K τ (G τ) ts) →
    (∀ k ∈ ps.map (fun p => Condition.equal (D := D) p.1 p.2), k.Adds (A.at depth)) ∧
    Ensured (A.at depth) allow K Q (ps.map fun p => Condition.equal p.1 p.2) (ts.map fun t τ => ∀ u w, Inst τ t.1 u → Inst τ t.2 w → K u w) := by
  induction hp with
  | nil => exact fun _ => ⟨by simp, .nil⟩
  | @cons p t ps ts h _ ih =>
    intro Q hQ
    obtain ⟨p1, p2⟩ := p
    obtain ⟨t1, t2⟩ := t
    obtain ⟨k1, k2⟩ := c107_equal (A := A) (depth := depth) (allow := allow) (Q := Q) hK hA h.1.1 h.2.1 h.1.2 h.2.2 (fun τ hτ => by
      obtain ⟨a, b, ha, hb, ka, kb, -⟩ := hQ τ hτ
      exact ⟨⟨a, ha, ka⟩, ⟨b, hb, kb⟩⟩)
    obtain ⟨q1, q2⟩ := ih (Q := fun τ => Q τ ∧ ∀ u w, Inst τ t1 u → Inst τ t2 w → K u w) (fun τ ⟨hτ, hP⟩ => by
      obtain ⟨a, b, ha, hb, -, -, hr⟩ := hQ τ hτ
      exact hr (hP a b ha hb))
    refine ⟨fun k hk => ?_, .cons k2 q2⟩
    rcases List.mem_cons.1 hk with rfl | hk
    · exact k1
    · exact q1 k hk

omit [DecidableEq Op] [Lang Op] in
theorem CondsThen.goal {τ : Var → Term Op} {G : Prop} : ∀ {ts : List (Term (PatOp Op) × Term (PatOp Op))}, CondsThen K τ G ts →
    (∀ P ∈ ts.map (fun (t : Term (PatOp Op) × Term (PatOp Op)) (τ : Var → Term Op) => ∀ u w, Inst τ t.1 u → Inst τ t.2 w → K u w), P τ) → G
  | [], h, _ => h
  | _ :: _, ⟨a, b, ha, hb, _, _, hr⟩, hP => (hr (hP _ List.mem_cons_self a b ha hb)).goal (fun P h => hP P (List.mem_cons_of_mem _ h))

theorem EqRule.holdsIn {rw' : Rewrite Op D} {c : EqRule Op} (hK : PCong K) (hA : ∀ i, A.modify i = .done) (hc : IsEqRule rw' c) (h : c.Closes K) :
    HoldsIn (A.at depth) allow K rw' := by
  obtain ⟨lp, rp, ps, hl, hlive, hr, hp, hnew⟩ := hc
  obtain ⟨k1, k2⟩ := ensured_equal (A := A) (depth := depth) (allow := allow) hK hA hp (Q := Exists K c.lhs)
    (G := fun τ => ∀ u w, Inst τ c.lhs u → Inst τ c.rhs w → K u w) (by
      rintro τ ⟨u, hu, hk⟩
      have := h τ u hu hk
      have e : (∀ w, Inst τ c.rhs w → K u w) = ∀ u w, Inst τ c.lhs u → Inst τ c.rhs w → K u w :=
        propext ⟨fun h u' w hu' hw => by rw [← hu.unique hu']; exact h w hw, fun h w hw => h u w hu hw⟩
      rwa [e] at this)
  exact .inl ⟨⟨c.lhs, c.rhs, _⟩, ⟨lp, rp, _, hl.1, hl.2, hlive, hr.1, hr.2, k1, k2, hnew⟩,
    fun τ u w hP hu hw hk => (h τ u hu hk).goal hP w hw⟩

omit [DecidableEq Op] [Lang Op] in
theorem pcong_true : PCong (fun _ _ : Term Op => True) := ⟨fun _ => trivial, fun _ _ => trivial, fun _ _ => trivial, fun _ _ => trivial⟩

theorem IsEqRule.closes_true {rw' : Rewrite Op D} {c : EqRule Op} (hc : IsEqRule rw' c) : c.Closes (fun _ _ => True) := by
  intro τ u _ _
  obtain ⟨lp, rp, ps, hl, hlive, hr, hp, hnew⟩ := hc
  have hG : ∀ w, Inst τ c.rhs w → True := fun _ _ => trivial
  revert hG
  generalize (∀ w, Inst τ c.rhs w → True) = G
  intro hG
  clear hnew
  generalize c.conds = ts at hp ⊢
  induction hp with
  | nil => exact hG
  | @cons p t ps ts h _ ih =>
    obtain ⟨a, ha⟩ := inst_exists h.1.1.wf.1 τ _ _ h.1.1.wf.2.2
    obtain ⟨b, hb⟩ := inst_exists h.2.1.wf.1 τ _ _ h.2.1.wf.2.2
    exact ⟨a, b, ha, hb, trivial, trivial, fun _ => ih⟩

theorem IsEqRule.usesApi {rw' : Rewrite Op D} {c : EqRule Op} (hA : ∀ i, A.modify i = .done) (hN : env.analysis = A.at depth)
    (hord : ∀ i eg, (env.ord i eg).OK eg) (hd : DiscContiguous Op) (hc : IsEqRule rw' c) : UsesApi env (A.at depth) allow rw' :=
  (EqRule.holdsIn (allow := allow) pcong_true hA hc hc.closes_true).sound hN hord hd

/-- From the match with canonical ids to the match. -/
theorem CanonicalMatch.back {C : Cfg Op D} {eg : EGraph Op D} (gf : EGraph.Good C eg) {tl t0 : Term (PatOp Op)} {σ : Var → Option Id} {c c' x : Id} {sub : Subst}
    (hcm : CanonicalMatch eg tl σ c sub c') (hp : PMatch eg sub.get x t0) : PMatch eg σ x t0 := by
  refine PMatch.mono (fun v y _ hy => ?_) hp
  obtain ⟨x, y', e1, e2, e3⟩ := hcm.2.1 v (hcm.2.2 v (by simp [hy]))
  rw [hy] at e3; cases e3
  refine ⟨x, e1, fun w hw => ?_⟩
  obtain ⟨e4, e5⟩ := gf.inv.find_iff.1 e2
  rw [gf.inv.sameClass_iff] at hw ⊢
  exact ⟨e4, hw.2.1, by rw [← hw.2.2, ← e5, gf.inv.core.rtIdem]⟩

theorem CanonicalMatch.same {C : Cfg Op D} {eg : EGraph Op D} (gf : EGraph.Good C eg) {tl : Term (PatOp Op)} {σ : Var → Option Id} {c c' : Id} {sub : Subst}
    (hcm : CanonicalMatch eg tl σ c sub c') : SameClass eg c' c := by
  obtain ⟨e1, e2⟩ := gf.inv.find_iff.1 hcm.1
  exact gf.inv.sameClass_iff.2 ⟨e2 ▸ gf.inv.core.rtLt _ e1, e1, by rw [← e2, gf.inv.core.rtIdem]⟩

section
variable {rw' : Rewrite Op D} {lp rp p1 p2 : Pattern Op} {tl tr t1 t2 : Term (PatOp Op)} {σ : Var → Option Id} {c : Id}

/-- A rule without conditions is closed in the final e-graph, whatever kinds of rules the others are. -/
theorem plain_closed (hN : env.analysis = A.at depth) (hord : ∀ i eg, (env.ord i eg).OK eg) (hd : DiscContiguous Op)
    (hcyc : (A.at depth).allowCycles = true) (hsh : sch.Honest env) (hlim : sch.Limited env) (hs : sch.Thorough env r.limits I)
    (hh : HooksOK (A.at depth) allow (fun _ _ => True) hooks) (hr : ∀ rw' ∈ rules, UsesApi env (A.at depth) allow rw')
    (h : Hist (A.at depth) allow U r.egraph) (hI : I r.iterations.length r.scheduler)
    (hrun : r.run env sch hooks rules f = .ok r') (hsat : r'.stopReason = some .saturated)
    (hrw : rw' ∈ rules) (hfit : Fits env r'.egraph rw') (hl : IsPattern lp tl) (hlive : ∀ v ∈ lp.vars, Occurs v tl)
    (hrp : IsPattern rp tr) (hnew : Rewrite.new rw'.name lp.searcher rp.applier = .ok rw') (hm : PMatch r'.egraph σ c tl) : PMatch r'.egraph σ c tr := by
  obtain ⟨hv, hrw'⟩ := rewrite_new_inv hnew
  have hsr : rw'.searcher = lp.searcher := by rw [hrw']
  obtain ⟨egS, i, hss, hall⟩ := Runner.run_quiet hN hsh hlim hs hh hr h hI hrun hsat
  obtain ⟨eg, eg', ms, hrr⟩ := hall rw' hrw
  obtain ⟨c', sub, k1, hcm⟩ := found_of_quiet hN hord hd hcyc hss hrr hl hsr hfit hm
  obtain ⟨V, hV⟩ := hrr.before
  obtain ⟨W, hW⟩ := hrr.after
  obtain ⟨ids, ha⟩ := hrr.apply
  obtain ⟨U', hU'⟩ := hss.reach
  obtain ⟨limit, hms, -⟩ := hrr.found
  have hf : Found env i egS rw' ms := found_of_search (limit := limit) (by rw [hN]; exact hms)
  have happ := found_applicable (rp := rp) hN hord hd hl hlive hv hsr hU' hss.clean hf (Part.refl' _) hV
  have hg := hist_good (Steps.trans hU' hV)
  rw [hrw'] at ha
  have hap := c23_apply_matches (Steps.trans hU' hV) hrp happ ha
  obtain ⟨U1, s1, g1, x1, -, q⟩ := EGraph.Applies.result (allow := allow) ((soundFor_true A).hookOK trivial depth)
    (fun _ _ => trivial) (fun _ _ _ => trivial) hg hap hg (EGraph.Grow.refl _)
    (fun c s hcs => ⟨happ.pmatch c s hcs, fun v x hx => hg.valid_iff.1 (happ.valid c s hcs v x hx)⟩)
  obtain ⟨i, j, p1, p2, p3⟩ := q c' sub k1
  obtain ⟨g2, x2⟩ := steps_grow hW g1
  have hpend := (c47_clean_means_rebuilt (Steps.trans hU' (Steps.trans hV (Steps.trans s1 hW))) hss.fclean).pending
  have hpc : PMatch r'.egraph sub.get c' tl := x2.pmatch g1.inv g2.inv (x1.pmatch hg.inv g1.inv (happ.pmatch _ _ k1))
  have hjc : SameClass r'.egraph j c' := by
    rcases p1 with rfl | p1
    · have := g2.inv.pmatch_lt hpc
      exact g2.inv.sameClass_iff.2 ⟨this, this, rfl⟩
    · exact EGraph.InvW.pmatch_det g2.inv hpend _ (x2.pmatch g1.inv g2.inv p1.2) hpc
  have hij : SameClass r'.egraph i j := by
    rw [g1.inv.sameClass_iff] at p3
    exact g2.inv.sameClass_iff.2 ⟨lt_of_lt_of_le p3.1 x2.len, lt_of_lt_of_le p3.2.1 x2.len, x2.rt _ _ p3.1 p3.2.1 p3.2.2⟩
  exact g2.inv.pmatch_congr (hcm.same g2) (hcm.back g2 (g2.inv.pmatch_congr (g2.inv.sameClass_trans hij hjc) (x2.pmatch g1.inv g2.inv p2)))

/-- The sides of the conditions have classes in `eg`, as far as conditions hold, and if all hold, the right side is in the class `c`. -/
def CheckedIn (eg : EGraph Op D) (σ : Var → Option Id) (c : Id) (t : Term (PatOp Op)) : List (Term (PatOp Op) × Term (PatOp Op)) → Prop
  | [] => PMatch eg σ c t
  | (p, q) :: conds => (∃ x, PMatch eg σ x p) ∧ (∃ x, PMatch eg σ x q) ∧ ((∃ x, PMatch eg σ x p ∧ PMatch eg σ x q) → CheckedIn eg σ c t conds)

/-- Where a rule with `ConditionEqual`s matches in the final e-graph, conditions were checked, and the right side is there if they hold. -/
theorem sides_there {ps : List (Pattern Op × Pattern Op)} {ts : List (Term (PatOp Op) × Term (PatOp Op))} (hne : ps ≠ [])
    (hN : env.analysis = A.at depth) (hord : ∀ i eg, (env.ord i eg).OK eg) (hd : DiscContiguous Op)
    (hcyc : (A.at depth).allowCycles = true) (hsh : sch.Honest env) (hlim : sch.Limited env) (hs : sch.Thorough env r.limits I)
    (hh : HooksOK (A.at depth) allow (fun _ _ => True) hooks) (hr : ∀ rw' ∈ rules, UsesApi env (A.at depth) allow rw')
    (h : Hist (A.at depth) allow U r.egraph) (hI : I r.iterations.length r.scheduler)
    (hrun : r.run env sch hooks rules f = .ok r') (hsat : r'.stopReason = some .saturated)
    (hrw : rw' ∈ rules) (hfit : Fits env r'.egraph rw') (hl : IsPattern lp tl) (hlive : ∀ v ∈ lp.vars, Occurs v tl)
    (hrp : IsPattern rp tr) (hps : List.Forall₂ (fun p t => ExactPattern p.1 t.1 ∧ ExactPattern p.2 t.2) ps ts)
    (hnew : Rewrite.new rw'.name lp.searcher (condApplier rp.applier (ps.map fun p => Condition.equal p.1 p.2)) = .ok rw') (hm : PMatch r'.egraph σ c tl) :
    ∃ c' sub, CanonicalMatch r'.egraph tl σ c sub c' ∧ CheckedIn r'.egraph sub.get c' tr ts := by
  obtain ⟨hv, hrw'⟩ := rewrite_new_inv hnew
  have hNok := (soundFor_true A).hookOK trivial depth
  have hadd : ∀ {p1 p2 : Pattern Op} {t1 t2 : Term (PatOp Op)}, IsPattern p1 t1 → IsPattern p2 t2 → (Condition.equal (D := D) p1 p2).OnlyAdds (A.at depth) allow :=
    fun h1 h2 eg c s eg' b a1 a2 a3 a4 => ⟨(c89_equal h1 h2 (fun _ _ _ _ _ _ _ _ _ => trivial) eg c s eg' b a1 a2 a3 a4).1, fun _ _ _ => trivial⟩
  have main : ∀ {ps : List (Pattern Op × Pattern Op)} {ts : List (Term (PatOp Op) × Term (PatOp Op))},
      List.Forall₂ (fun p t => ExactPattern p.1 t.1 ∧ ExactPattern p.2 t.2) ps ts →
      (∀ v ∈ (condApplier (rp.applier (D := D)) (ps.map fun p => Condition.equal p.1 p.2)).vars, v ∈ lp.vars) →
      (condApplier (rp.applier (D := D)) (ps.map fun p => Condition.equal p.1 p.2)).SoundOn (A.at depth) allow (fun _ _ => True) lp tl (fun _ => True) := by
    intro ps ts hps
    induction hps with
    | nil => intro hv; exact c89_pattern isCongruence_true hl hrp hv (fun _ _ _ _ _ _ => trivial)
    | cons hp _ ih =>
      intro hv
      have := ih (fun v hv' => hv v (List.mem_append.2 (Or.inl hv')))
      exact c89_conditional (P' := fun _ => True) isCongruence_true (fun _ _ _ _ _ _ _ _ _ => trivial) (fun _ _ _ _ => trivial) (hadd hp.1.1 hp.2.1)
        (fun v hv' => hv v (List.mem_append.2 (Or.inr hv'))) (fun eg c s ast rule eg' ids a1 a2 a3 a4 a5 a6 =>
          this eg c s ast rule eg' ids a1 a2 a3 a4 a5 (fun _ _ => trivial))
  have hdef : rw'.applier.UsesDefault := by
    rw [hrw']
    cases ps with
    | nil => exact absurd rfl hne
    | cons p ps => intro N eg ms rule; rfl
  obtain ⟨c', sub, g, ast, g', ids, hcm, hg, hast, hmg, hcan, hbd, ha, q1, q2⟩ := c90_user_applier hN hord hd hcyc hsh hlim hs hh hr h hI hrun hsat hrw hfit hl
    hlive (by rw [hrw']) hdef (by rw [hrw']; exact main hps hv) hm
  refine ⟨c', sub, hcm, ?_⟩
  have hfin : Hist (A.at depth) allow _ r'.egraph := Steps.trans hg.choose_spec q1.1.choose_spec
  have hfc : r'.egraph.clean = true := by
    obtain ⟨egS, i, hss, -⟩ := Runner.run_quiet hN hsh hlim hs hh hr h hI hrun hsat
    exact hss.fclean
  have hpend := (c47_clean_means_rebuilt hfin hfc).pending
  have gf := hist_good hfin
  have hcanf : ∀ v y, sub.get v = some y → r'.egraph.find y = .ok y := fun v y hy => by
    obtain ⟨x0, y', e1, e2, e3⟩ := hcm.2.1 v (hcm.2.2 v (by simp [hy]))
    rw [hy] at e3; cases e3
    obtain ⟨e4, e5⟩ := gf.inv.find_iff.1 e2
    exact gf.inv.find_iff.2 ⟨e5 ▸ gf.inv.core.rtLt _ e4, by rw [← e5, gf.inv.core.rtIdem]⟩
  rw [hrw'] at ha
  have hb : BindsIds g sub := fun v x hx => ⟨x, hcan v x hx⟩
  clear hne hdef hrw' hnew hcan hfin
  revert g g' ids
  induction hps with
  | nil =>
    intro g g' ids hg hast hmg ha q1 q2 hb
    obtain ⟨Ug, hU⟩ := hg
    have hg := hist_good hU
    have happ := c23_apply_one (tl := tl) hU hrp hmg hb (fun v hv' => hbd v (hv v hv')) (fun l hl' => by
      rcases hast with ⟨e, hx⟩ | e
      · rw [e] at hl'; cases hl'; exact ⟨hx, lp, rfl, hl, hbd⟩
      · rw [e] at hl'; cases hl') ha
    obtain ⟨U', s1, g1, x1, -, k2⟩ := EGraph.Applies.result (allow := allow) hNok
      (fun _ _ => trivial) (fun _ _ _ => trivial) hg happ hg (EGraph.Grow.refl _) (fun c s' hcs => by
        simp only [List.mem_singleton, Prod.mk.injEq] at hcs
        obtain ⟨rfl, rfl⟩ := hcs
        exact ⟨hmg, fun v x hx => hg.valid_iff.1 (hb v x hx)⟩)
    obtain ⟨i, j, p1, p2, p3⟩ := k2 c' sub (by simp)
    obtain ⟨W, hst⟩ := q2.1
    obtain ⟨g2, x2⟩ := steps_grow hst g1
    have hpc : PMatch r'.egraph sub.get c' tl := x2.pmatch g1.inv g2.inv (x1.pmatch hg.inv g1.inv hmg)
    have hjc : SameClass r'.egraph j c' := by
      rcases p1 with rfl | p1
      · have := g2.inv.pmatch_lt hpc
        exact g2.inv.sameClass_iff.2 ⟨this, this, rfl⟩
      · exact EGraph.InvW.pmatch_det g2.inv hpend _ (x2.pmatch g1.inv g2.inv p1.2) hpc
    have hij : SameClass r'.egraph i j := by
      rw [g1.inv.sameClass_iff] at p3
      exact g2.inv.sameClass_iff.2 ⟨lt_of_lt_of_le p3.1 x2.len, lt_of_lt_of_le p3.2.1 x2.len, x2.rt _ _ p3.1 p3.2.1 p3.2.2⟩
    exact g2.inv.pmatch_congr (g2.inv.sameClass_trans hij hjc) (x2.pmatch g1.inv g2.inv p2)
  | @cons p t ps ts hp hps ih =>
    intro g g' ids hg hast hmg ha q1 q2 hb
    obtain ⟨p1, p2⟩ := p
    obtain ⟨t1, t2⟩ := t
    have h1 : IsPattern p1 t1 := hp.1.1
    have h2 : IsPattern p2 t2 := hp.2.1
    have hv1 : ∀ v ∈ (condApplier (rp.applier (D := D)) (ps.map fun p => Condition.equal p.1 p.2)).vars, v ∈ lp.vars :=
      fun v hv' => hv v (List.mem_append.2 (Or.inl hv'))
    have ha : conditionalOne (Condition.equal p1 p2) (condApplier rp.applier (ps.map fun p => Condition.equal p.1 p.2)) (A.at depth) g c' sub ast rw'.name = .ok (g', ids) := ha
    unfold conditionalOne at ha
    rw [bind_eq_ok] at ha
    obtain ⟨⟨g3, bb⟩, he, ha⟩ := ha
    have hreach := hg
    obtain ⟨Ug, hUg⟩ := hg
    have hgg := hist_good hUg
    have he' : (do
      let (eg, _, a1) ← applyPat (A.at depth) (List.replicate p1.ast.length 0) p1.ast g sub
      let (eg, _, a2) ← applyPat (A.at depth) (List.replicate p2.ast.length 0) p2.ast eg sub
      return (eg, decide (a1 = a2)) : Res (EGraph Op D × Bool)) = .ok (g3, bb) := he
    have hvc : ∀ v ∈ (Condition.equal (D := D) p1 p2).vars, sub.get v ≠ none := fun v hv' => hbd v (hv v (List.mem_append.2 (Or.inr hv')))
    have hb1 := binds_of (p := p1) hgg hb (fun v hv' => hvc v (List.mem_append.2 (Or.inl hv')))
    have hb2 := binds_of (p := p2) hgg hb (fun v hv' => hvc v (List.mem_append.2 (Or.inr hv')))
    rw [bind_eq_ok] at he'
    obtain ⟨⟨eg1, b1, a1⟩, e1, he'⟩ := he'
    rw [bind_eq_ok] at he'
    obtain ⟨⟨eg2, b2, a2⟩, e2, he'⟩ := he'
    obtain rfl : eg2 = g3 := by cases he'; rfl
    obtain ⟨k1, k2, -, -, k3⟩ := (EGraph.applyPat_post hNok h1.wf.1 hgg hb1 (by simp)).elim e1
    obtain ⟨m1, m2, -, -, m3⟩ := (EGraph.applyPat_post hNok h2.wf.1 k1 (hb2.ext k2) (by simp)).elim e2
    obtain ⟨X1, s1, -⟩ : SoundSteps (A.at depth) allow (fun _ _ => True) g eg1 := .adds (EGraph.applyPat_steps e1)
    obtain ⟨X2, s2, -⟩ : SoundSteps (A.at depth) allow (fun _ _ => True) eg1 eg2 := .adds (EGraph.applyPat_steps e2)
    have hr2 : Reachable (A.at depth) allow eg2 := ⟨_, Steps.trans (Steps.trans hUg s1) s2⟩
    have hm2 := m2.pmatch k1.inv m1.inv (k2.pmatch hgg.inv k1.inv hmg)
    have hbi2 : BindsIds eg2 sub := fun v x hx => m1.valid_iff.2 (lt_of_lt_of_le (lt_of_lt_of_le (hgg.valid_iff.1 (hb v x hx)) k2.len) m2.len)
    have hast2 : ast = some lp.ast ∧ eg2.explain.isSome = true ∨ ast = none := hast.imp (fun ⟨e, hx⟩ => ⟨e, by rw [m2.expl, k2.expl]; exact hx⟩) id
    obtain ⟨W, hW⟩ := q2.1
    dsimp only at ha
    obtain ⟨Y, hY⟩ : ∃ Y, Steps (A.at depth) allow eg2 Y g' := by
      split at ha
      · obtain ⟨⟨Y, hY, -⟩, -⟩ := main hps hv1 eg2 c' sub ast _ g' ids ⟨_, hr2.choose_spec, fun _ _ => trivial⟩ hm2 hbi2 hbd hast2 (fun _ _ => trivial) ha
        exact ⟨Y, hY⟩
      · cases ha; exact ⟨_, .refl⟩
    obtain ⟨g4, x4⟩ := steps_grow (Steps.trans s2 (Steps.trans hY hW)) k1
    obtain ⟨g5, x5⟩ := steps_grow (Steps.trans hY hW) m1
    have q3 : Quiescent (A.at depth) allow eg2 r'.egraph :=
      ⟨⟨_, Steps.trans hY hW⟩, fun _ _ _ k1 k2 => q1.2 _ _ _ (Steps.trans (Steps.trans s1 s2) k1) k2⟩
    refine ⟨⟨a1, x4.pmatch k1.inv g4.inv (k3 _ h1.wf.2)⟩, ⟨a2, x5.pmatch m1.inv g5.inv (m3 _ h2.wf.2)⟩, fun hx => ?_⟩
    cases bb with
    | false => exact absurd hx (c90_equal h1 h2 hreach q1 q3 hfc hcanf hvc he)
    | true => exact ih hv1 eg2 g' ids hr2 hast2 hm2 (by simpa using ha) q3 q2 hbi2
end

end Egg
