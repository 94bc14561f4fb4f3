import Verif.Spec.Chase
import Verif.Lemmas.Round
import Verif.Props.MultiRule
/-
Lemmas about what rules derive.
-/
namespace Egg
variable {Op D S H : Type} [DecidableEq Op] [Lang Op]
variable {A : UserAnalysis Op D} {depth : Nat} {allow : Caller Op D} {U V W : List (UnionRec Op)}
variable {env : RunEnv Op D} {sch : Scheduler Op D S} {hooks : List (Hook Op D H)} {rules : List (Rewrite Op D)} {cs : List (Clause Op)}
  {egS eg eg' g : EGraph Op D}

theorem EGraph.Grow.equal (h : EGraph.Grow eg eg') {s t : Term Op} : Equal eg s t → Equal eg' s t :=
  fun ⟨c, h1, h2⟩ => ⟨c, h.rep _ _ h1, h.rep _ _ h2⟩

omit [DecidableEq Op] [Lang Op] in
theorem Clause.Derives.mono {E E' : Term Op → Term Op → Prop} (h : ∀ s t, E s t → E' s t) {c : Clause Op} {s t : Term Op} (hd : c.Derives E s t) :
    c.Derives E' s t := by
  cases c with
  | rewrite tl t => obtain ⟨τ, h1, h2, h3⟩ := hd; exact ⟨τ, h1, h2, h _ _ h3⟩
  | horn ls rs =>
    obtain ⟨τ, h1, h2⟩ := hd
    exact ⟨τ, fun v p hvp => by obtain ⟨u, q1, q2⟩ := h1 v p hvp; exact ⟨u, q1, h _ _ q2⟩, h2⟩

/-- A rebuilt e-graph knows what follows from its equalities. -/
theorem Full.known (h : Full eg) {E : Term Op → Term Op → Prop} (hE : ∀ s t, E s t → Equal eg s t) {s t : Term Op} (hk : EqHull E s t) : Equal eg s t := by
  induction hk with
  | base h => exact hE _ _ h
  | symm _ ih => obtain ⟨c, h1, h2⟩ := ih; exact ⟨c, h2, h1⟩
  | trans _ _ ih1 ih2 =>
    obtain ⟨c, h1, h2⟩ := ih1
    obtain ⟨d, h3, h4⟩ := ih2
    exact ⟨c, h1, (h.rel h3 h4 c).1 h2⟩
  | @arg op ss s _ hs ih =>
    obtain ⟨c, h1, -⟩ := ih
    rw [h.good.inv.rep_iff] at h1
    obtain ⟨_, k, n, _, _, rfl, h4⟩ := h1
    obtain ⟨d, -, hd⟩ := forall₂_mem_left (forall₂_flip h4) hs
    exact ⟨d, hd, hd⟩
  | @congr op ss ts _ hl _ ih1 ih2 =>
    obtain ⟨c, h1, -⟩ := ih1
    refine ⟨c, h1, (h.cong.congr op (ss := ss) (ts := ts) ?_ c).1 h1⟩
    refine List.forall₂_iff_get.2 ⟨hl.symm, fun i h1 h2 => ?_⟩
    obtain ⟨d, q1, q2⟩ := ih2 i _ _ (List.getElem?_eq_getElem h1) (List.getElem?_eq_getElem h2)
    exact h.rel q1 q2

/-- Matches of a pattern rule that were all applied. -/
theorem PatternRule.performs {rw' : Rewrite Op D} {tl t : Term (PatOp Op)} (hr : PatternRule rw' tl t) (hd : DiscContiguous Op)
    (hcyc : (A.at depth).allowCycles = true) {ord : IterOrd} (ho : ord.OK egS) (h : Hist (A.at depth) allow U egS) (hc : egS.clean = true)
    {max : Nat} {ms : List (SearchMatches Op)} (hms : rw'.searcher.search (A.at depth) egS ord max = .ok ms) (hmax : (flat ms).length < max)
    (hst : Steps (A.at depth) allow egS V eg) {ids : List Id} (ha : rw'.applier.applyMatches (A.at depth) eg ms rw'.name = .ok (eg', ids))
    (hst' : Steps (A.at depth) allow eg' W g) (hcg : g.clean = true) {U' : List (UnionRec Op)} (hgh : Hist (A.at depth) allow U' g) (gr : EGraph.Grow egS g) {s w : Term Op}
    (hD : (Clause.rewrite tl t).Derives (Equal egS) s w) : Equal g s w := by
  classical
  obtain ⟨τ, hsi, hwi, c, hcs, -⟩ := hD
  obtain ⟨lp, rp, hl, hlive, hrp, hnew⟩ := hr
  obtain ⟨hv, hrw⟩ := rewrite_new_inv hnew
  have hms : lp.searchWithLimit (A.at depth) egS ord max = .ok ms := by rw [hrw] at hms; exact hms
  have ha : rp.applyMatches (A.at depth) eg ms rw'.name = .ok (eg', ids) := by rw [hrw] at ha; exact ha
  have happ := apply_later (Steps.trans h hst) hrp (search_applicable h hc hd ho hl hlive hv hms hst (fun c s hcs => hcs) (search_ast hms)) ha hst'
    (c47_clean_means_rebuilt hgh hcg).pending
  have hgS := hist_good h
  have hge := hist_good hgh
  have hpS := (c47_clean_means_rebuilt h hc).pending
  let σ : Var → Option Id := fun v => if hx : ∃ x, Rep egS x (τ v) then some hx.choose else none
  have hσ1 : ∀ v x, σ v = some x → Rep egS x (τ v) := by
    intro v x hx
    simp only [σ] at hx
    split at hx
    · next he => cases hx; exact he.choose_spec
    · cases hx
  have hσ2 : ∀ v, Occurs v tl → (σ v).isSome := by
    intro v hv
    have := rep_subterm hgS.inv (inst_subterm hsi v hv) hcs
    simp [σ, this]
  have hm := EGraph.InvW.rep_pmatch hgS.inv hpS hσ1 tl hcs hsi hσ2
  obtain ⟨rr, sb, q1, q2, q3⟩ := search_full hd ho ho hcyc h hc hl hms hms hmax σ c hm
  have hrep : Rep g rr w := hge.inv.pmatch_rep _ (happ rr sb q2) (fun v x hvo hx => by
    obtain ⟨a, b, y1, y2, y3⟩ := q3 v (hlive v (hv v (hrp.occurs_vars hvo)))
    rw [hx] at y3
    cases y3
    have y2 := hgS.inv.find_iff.1 y2
    have := hσ1 v a y1
    exact gr.rep _ _ (hgS.inv.rep_congr (y2.2 ▸ hgS.inv.core.rtLt _ y2.1) (by rw [← y2.2, hgS.inv.core.rtIdem]) this)) hwi
  have q1 := hgS.inv.find_iff.1 q1
  have hcl : c < g.nodes.length := lt_of_lt_of_le q1.1 gr.len
  exact ⟨c, gr.rep _ _ hcs,
    hge.inv.rep_congr hcl (gr.rt _ _ (q1.2 ▸ hgS.inv.core.rtLt _ q1.1) q1.1 (by rw [← q1.2, hgS.inv.core.rtIdem])) hrep⟩

/-- The right-hand sides, present for some bindings, in terms of terms. -/
theorem concluded_equal {C : Cfg Op D} (hg : EGraph.Good C g) {σ : Var → Option Id} :
    ∀ (asts : List (Var × PatternAst Op)) (rs : List (Var × Term (PatOp Op))) (_ : List.Forall₂ (fun a b => a.1 = b.1 ∧ PatWF a.2 ∧ ExprTerm a.2 b.2) asts rs)
    {bound : Var → Prop} {bs : List Var} {τ : Var → Term Op},
    (∀ v ∈ bs, bound v) → (∀ v ∈ applierVars asts bs, bound v) → (∀ v, bound v → ∃ x, σ v = some x ∧ Rep g x (τ v)) →
    (∀ w q, (w, q) ∈ rs → ∃ x, σ w = some x ∧ PMatch g σ x q) → ∀ s t, Concluded bound τ rs s t → Equal g s t
  | _, _, .nil, bound, bs, τ, _, _, _, _, s, t, h => h.elim
  | _ :: _, _ :: _, .cons (a := a) (b := b) hab hrest, bound, bs, τ, h1, h2, h3, h4, s, t, h => by
    obtain ⟨w', p⟩ := a
    obtain ⟨w, q⟩ := b
    obtain ⟨e, hw, ht⟩ := hab
    have e : w' = w := e
    subst e
    obtain ⟨u, hu, h⟩ := h
    obtain ⟨x, hx, hm⟩ := h4 w' q (by simp)
    have hb : ∀ v, Occurs v q → bound v := by
      intro v hv
      by_cases hbs : v ∈ bs
      · exact h1 v hbs
      · refine h2 v ?_
        unfold applierVars
        rw [List.mem_append, List.mem_filter]
        left
        refine ⟨?_, by simpa using hbs⟩
        obtain ⟨j, hj⟩ := termOf_subterm hv ht.2
        obtain ⟨n, n1, n2, _⟩ := termOf_iff.1 hj
        unfold nodeVars
        rw [List.mem_filterMap]
        exact ⟨n, List.mem_of_getElem? n1, by simp only [n2]⟩
    have hxu : Rep g x u := hg.inv.pmatch_rep q hm (fun v y hv hy => by
      obtain ⟨z, z1, z2⟩ := h3 v (hb v hv)
      rw [hy] at z1; cases z1
      exact z2) hu
    rcases h with ⟨rfl, rfl⟩ | ⟨hbw, rfl, rfl⟩ | ⟨hbw, h⟩ | ⟨hbw, h⟩
    · exact ⟨x, hxu, hxu⟩
    · obtain ⟨z, z1, z2⟩ := h3 w' hbw
      rw [hx] at z1; cases z1
      exact ⟨x, z2, hxu⟩
    · refine concluded_equal hg _ _ hrest (bs := w' :: bs) (fun v hv => ?_) (fun v hv => ?_) h3 (fun w q hwq => h4 w q (by simp [hwq])) s t h
      · rcases List.mem_cons.1 hv with rfl | hv
        · exact hbw
        · exact h1 v hv
      · exact h2 v (by unfold applierVars; exact List.mem_append.2 (.inr hv))
    · refine concluded_equal hg _ _ hrest (bs := w' :: bs) (fun v hv => ?_) (fun v hv => ?_) (fun v hv => ?_) (fun w q hwq => h4 w q (by simp [hwq])) s t h
      · rcases List.mem_cons.1 hv with rfl | hv
        · exact .inr rfl
        · exact .inl (h1 v hv)
      · exact .inl (h2 v (by unfold applierVars; exact List.mem_append.2 (.inr hv)))
      · by_cases e : v = w'
        · subst e
          exact ⟨x, hx, by rw [if_pos rfl]; exact hxu⟩
        · rw [if_neg e]
          exact h3 v (hv.resolve_right e)

/-- Matches of a multi-pattern rule that were all applied. -/
theorem MultiRule.performs {rw' : Rewrite Op D} {ls rs : List (Var × Term (PatOp Op))} (hr : MultiRule rw' ls rs) (hN : env.analysis = A.at depth)
    (hord : ∀ i eg, (env.ord i eg).OK eg) (hd : DiscContiguous Op)
    (hcyc : (A.at depth).allowCycles = true) {i : Nat} (h : Hist (A.at depth) allow U egS) (hc : egS.clean = true)
    {max : Nat} {ms : List (SearchMatches Op)} (hms : rw'.searcher.search (A.at depth) egS (env.ord i egS) max = .ok ms) (hmax : (flat ms).length < max)
    (hst : Steps (A.at depth) allow egS V eg) {ids : List Id} (ha : rw'.applier.applyMatches (A.at depth) eg ms rw'.name = .ok (eg', ids))
    (hst' : Steps (A.at depth) allow eg' W g) (hcg : g.clean = true) {s w : Term Op}
    (hD : (Clause.horn ls rs).Derives (Equal egS) s w) : Equal g s w := by
  classical
  obtain ⟨τ, hτ, hcon⟩ := hD
  obtain ⟨⟨V1, s1⟩, hhold, -⟩ := (c62_effect hN hord hd hr h hc (.inr ⟨max, ms, by rw [hN]; exact hms, Part.refl' _⟩) hst (Part.refl' ms)).2 eg' ids ha
  obtain ⟨lp, rp, hl, hfn, hlive, hrp, hnew⟩ := hr
  obtain ⟨hv, hrw⟩ := rewrite_new_inv hnew
  have hms : (lp.searcher (D := D)).search (A.at depth) egS (env.ord i egS) max = .ok ms := by rw [hrw] at hms; exact hms
  have hst1 : Steps (A.at depth) allow egS _ eg' := Steps.trans hst s1
  have hst2 : Steps (A.at depth) allow egS _ g := Steps.trans hst1 hst'
  have hgS := hist_good h
  have hg' := hist_good (Steps.trans h hst1)
  have hge := hist_good (Steps.trans h hst2)
  have gr := (steps_grow hst2 hgS).2
  have gr' := (steps_grow hst' hg').2
  have hpS := (c47_clean_means_rebuilt h hc).pending
  let σ : Var → Option Id := fun v => if hx : ∃ x, Rep egS x (τ v) then some hx.choose else none
  have hσ1 : ∀ v x, σ v = some x → Rep egS x (τ v) := by
    intro v x hx
    simp only [σ] at hx
    split at hx
    · next he => cases hx; exact he.choose_spec
    · cases hx
  have each : ∀ v t, (v, t) ∈ ls → ∃ x, σ v = some x ∧ PMatch egS σ x t ∧ egS.find x = .ok (egS.rt x) := by
    intro v t hvt
    obtain ⟨u, hu, c, hcv, hcu⟩ := hτ v t hvt
    have hex : ∃ x, Rep egS x (τ v) := ⟨c, hcv⟩
    have hsv : σ v = some hex.choose := by simp only [σ, dif_pos hex]
    have hx := hσ1 v _ hsv
    have hxl := hgS.inv.rep_lt hx
    have e := EGraph.InvW.rep_unique hgS.inv hpS _ hcv hx
    have hxu : Rep egS hex.choose u := hgS.inv.rep_congr hxl e hcu
    have hm := EGraph.InvW.rep_pmatch hgS.inv hpS hσ1 t hxu hu (fun w hw => by
      have := rep_subterm hgS.inv (inst_subterm hu w hw) hxu
      simp [σ, this])
    exact ⟨_, hsv, hm, hgS.inv.find hxl⟩
  obtain ⟨F, f1, -, f3, -⟩ := c22_search h hc hd (hord i egS) hl hfn
  obtain ⟨ms1, e1, e2⟩ := f1 max
  rw [hms] at e1; cases e1
  have hF : flat ms = F := by
    rw [e2]
    apply List.take_of_length_le
    rw [e2, List.length_take] at hmax
    omega
  have hM : ∃ c, MultiMatch egS σ c ls := by
    obtain ⟨v, o, ts, rest, rfl⟩ := hfn
    obtain ⟨x, q1, q2, q3⟩ := each v _ (List.mem_cons_self ..)
    exact ⟨x, ⟨x, q1, _, q3, q3⟩, q2, fun w u hwu => by
      obtain ⟨y, z1, z2, -⟩ := each w u (List.mem_cons_of_mem _ hwu)
      exact ⟨y, z1, z2⟩⟩
  obtain ⟨c, hM⟩ := hM
  obtain ⟨r, sb, -, k2, k3⟩ := f3 hcyc σ c hM
  rw [← hF] at k2
  obtain ⟨σ', p1, p2⟩ := EGraph.MultiHolds.grow (hhold r sb k2) hg' hge gr'
  obtain ⟨ordc, fuel, -, -, hf2⟩ := hrp
  refine concluded_equal hge _ _ hf2 (bs := []) (bound := fun v => MultiOccurs v ls) (by simp) (fun v hv' => ?_) (fun v hvo => ?_) p2 s w hcon
  · refine hlive v (hv v ?_)
    exact hv'
  · obtain ⟨x, y, q1, q2, q3⟩ := k3 v hvo
    obtain ⟨z, z1, z2⟩ := p1 v y q3
    refine ⟨z, z1, ?_⟩
    have hx := hσ1 v x q1
    have q2 := hgS.inv.find_iff.1 q2
    have hy : Rep egS y (τ v) := hgS.inv.rep_congr (q2.2 ▸ hgS.inv.core.rtLt _ q2.1) (by rw [← q2.2, hgS.inv.core.rtIdem]) hx
    rw [hge.inv.sameClass_iff] at z2
    exact hge.inv.rep_congr z2.2.1 z2.2.2 (gr.rep _ _ hy)

/-! ### Runs -/

/-- Any rewrite that is a rule can be applied. -/
theorem IsClause.sound {rw' : Rewrite Op D} {c : Clause Op} (hN : env.analysis = A.at depth) (hord : ∀ i eg, (env.ord i eg).OK eg) (hd : DiscContiguous Op)
    (h : IsClause rw' c) : SoundRule env (A.at depth) allow (fun _ _ => True) rw' := by
  cases c with
  | rewrite tl t => exact c62_pattern_sound isCongruence_true hN hord hd (.inl h) (fun _ _ _ _ _ => trivial)
  | horn ls rs =>
    refine c62_multi_sound isCongruence_true (soundFor_true A) hN hord hd h ?_
    have : ∀ (rs : List (Var × Term (PatOp Op))) bound τ, Concludes (fun _ _ => True) bound τ rs := by
      intro rs
      induction rs with
      | nil => intro _ _; trivial
      | cons a rs ih => intro bound τ; obtain ⟨w, q⟩ := a; intro u _; exact ⟨fun _ => ⟨trivial, ih _ _⟩, fun _ => ih _ _⟩
    exact fun τ _ => this _ _ _

/-- Applying rules one after the other. -/
theorem Runner.applyEachRule_all {i : Nat} (hN : env.analysis = A.at depth) (hs : sch.Eager env)
    (h : Hist (A.at depth) allow U egS) (hc : egS.clean = true) :
    ∀ (l : List (Rewrite Op D × List (SearchMatches Op))) (r r1 : Runner Op D S H) (ap ap' : AMap Symbol Nat) (o : Option StopReason)
      (V : List (UnionRec Op)),
    (∀ rw' ms, (rw', ms) ∈ l → rw'.searcher.search (A.at depth) egS (env.ord i egS) env.usizeMax = .ok ms ∧
      SoundRule env (A.at depth) allow (fun _ _ => True) rw') →
    Steps (A.at depth) allow egS V r.egraph →
    applyEachRule env sch l r ap = .ok (r1, ap', o) → (∃ W, Steps (A.at depth) allow r.egraph W r1.egraph) ∧
      (o = none → ∀ rw' ms, (rw', ms) ∈ l → ∃ V1 eg eg' ids W1, Steps (A.at depth) allow egS V1 eg ∧
        rw'.applier.applyMatches (A.at depth) eg ms rw'.name = .ok (eg', ids) ∧ Steps (A.at depth) allow eg' W1 r1.egraph) := by
  intro l
  induction l with
  | nil => intro r r1 ap ap' o V _ _ h; cases h; exact ⟨⟨[], .refl⟩, by simp⟩
  | cons x l ih =>
    intro r r1 ap ap' o V hl hst ha
    obtain ⟨rw', ms⟩ := x
    unfold applyEachRule at ha
    rw [bind_eq_ok] at ha
    obtain ⟨⟨s, eg, n⟩, h1, ha⟩ := ha
    obtain ⟨-, ids, h2, h3⟩ := hs.apply _ _ _ _ _ _ _ _ h1
    obtain ⟨hf, hr⟩ := hl rw' ms (by simp)
    rw [hN] at h2
    obtain ⟨W, s1, -⟩ := hr _ egS i ms _ _ ms _ _ h (fun _ _ => trivial) hc (.inr ⟨_, ms, by rw [hN]; exact hf, Part.refl' _⟩) hst (fun _ _ => trivial) (Part.refl' _) h2
    dsimp only at ha
    split at ha
    · cases ha; exact ⟨⟨W, s1⟩, by intro h; cases h⟩
    · obtain ⟨⟨W2, s2⟩, k⟩ := ih _ r1 _ ap' o _ (fun a b hab => hl a b (by simp [hab])) (Steps.trans hst s1) ha
      refine ⟨⟨_, Steps.trans s1 s2⟩, fun ho rw2 ms2 hm => ?_⟩
      rcases List.mem_cons.1 hm with e | hm
      · cases e
        exact ⟨_, _, _, _, _, hst, h2, s2⟩
      · exact k ho rw2 ms2 hm

/-- After an iteration that is not cut short everything that one application of a rule derives is there. -/
theorem Runner.runOne_derives {r r4 : Runner Op D S H} (hN : env.analysis = A.at depth) (hord : ∀ i eg, (env.ord i eg).OK eg) (hd : DiscContiguous Op)
    (hcyc : (A.at depth).allowCycles = true) (hs : sch.Eager env) (hlim : sch.Limited env) (hh : HooksRead hooks) (hr : AreClauses rules cs) {it : Iteration}
    (h : Hist (A.at depth) allow U r.egraph) (hc : r.egraph.clean = true) (hfit : ∀ rw' ∈ rules, FitsAny env r.egraph rw')
    (ho : runOne env sch hooks rules r = .ok (r4, it)) :
    r4.egraph.clean = true ∧ (∃ V, Steps (A.at depth) allow r.egraph V r4.egraph) ∧
    (it.Completed → ∀ c ∈ cs, ∀ s t, c.Derives (Equal r.egraph) s t → Equal r4.egraph s t) := by
  obtain ⟨_, r1, res1, r2, ms, r3, applied, res3, eg, nReb, quiet, p1, p2, p3, p4, p5, -, -, -, e2⟩ := runOne_inv ho
  obtain ⟨f2, g2⟩ := searchPhase_frame p2
  obtain ⟨f4, g4⟩ := quietPhase_frame p5
  have g4 : r4.egraph = eg := g4
  have g1 := hookPhase_read hh p1
  rw [hN] at p4
  have h1 : Hist (A.at depth) allow U r1.egraph := by rw [g1]; exact h
  have c1 : r1.egraph.clean = true := by rw [g1]; exact hc
  have hst3 : Steps (A.at depth) allow r3.egraph ([] ++ []) eg := Steps.single (.rebuild p4)
  have hce : eg.clean = true := EGraph.rebuild_clean p4
  rw [g4, ← g1]
  refine ⟨hce, ?_⟩
  cases ms with
  | error reason =>
    cases p3
    rw [g2] at hst3
    refine ⟨⟨_, hst3⟩, fun hnone => ?_⟩
    exfalso
    unfold Iteration.Completed at hnone
    rw [e2] at hnone
    rcases hnone with h | h
    · cases h
    injection h with h
    subst h
    unfold searchPhase at p2
    split at p2
    · cases p2
      unfold hookPhase at p1
      split at p1
      · next hk => cases p1; exact check_ne_saturated hk
      · rw [bind_eq_ok] at p1
        obtain ⟨⟨h1, eg1, o⟩, k1, k2⟩ := p1
        cases o <;> cases k2
    · rw [bind_eq_ok] at p2
      obtain ⟨⟨s1, tick, ms0⟩, k1, k2⟩ := p2
      cases k2
      obtain ⟨k, hk⟩ := hlim _ _ _ _ _ _ _ _ _ k1
      exact check_ne_saturated hk
  | ok mss =>
    unfold searchPhase at p2
    split at p2
    · cases p2
    rw [bind_eq_ok] at p2
    obtain ⟨⟨sS, tick, ms0⟩, k1, k2⟩ := p2
    cases k2
    have full := hs.search _ _ _ _ _ _ _ _ _ k1
    rw [hN] at full
    unfold applyPhase at p3
    dsimp only at p3
    obtain ⟨⟨W, s2⟩, hall⟩ := applyEachRule_all (i := r1.iterations.length) hN hs h1 c1 _ _ r3 _ _ _ []
      (fun rw' ms hm => ⟨mem_zip_forall₂ full hm, by
        obtain ⟨c, -, q2⟩ := hr.1 rw' (List.of_mem_zip hm).1
        exact q2.sound hN hord hd⟩) (by exact .refl) p3
    have s2 : Steps (A.at depth) allow r1.egraph W r3.egraph := s2
    have hst : Steps (A.at depth) allow r1.egraph _ eg := Steps.trans s2 hst3
    refine ⟨⟨_, hst⟩, fun hnone c hcm s t hD => ?_⟩
    have hres : res3 = none := by
      cases res3 with
      | none => rfl
      | some s =>
        exfalso
        unfold Iteration.Completed at hnone
        rw [e2] at hnone
        rcases hnone with h | h
        · cases h
        injection h with h
        subst h
        obtain ⟨k, hk⟩ := applyEachRule_reason _ p3
        exact check_ne_saturated hk
    obtain ⟨rw', hrw, hcl⟩ := hr.2 c hcm
    obtain ⟨ms, hms⟩ : ∃ ms, (rw', ms) ∈ rules.zip mss := by
      clear hfit hr p3 hall k1 ho
      induction full with
      | nil => cases hrw
      | @cons a b l l' hab _ ih =>
        rcases List.mem_cons.1 hrw with rfl | hrw
        · exact ⟨b, by simp⟩
        · obtain ⟨ms, hm⟩ := ih hrw
          exact ⟨ms, by simp [hm]⟩
    have hlimit := mem_zip_forall₂ full hms
    have hmax := hfit rw' hrw r1.iterations.length ms (by rw [hN, ← g1]; exact hlimit)
    obtain ⟨V1, ega, egb, ids, W1, t1, t2, t3⟩ := hall hres rw' ms hms
    have t4 : Steps (A.at depth) allow egb _ eg := Steps.trans t3 hst3
    cases c with
    | rewrite tl t =>
      exact PatternRule.performs hcl hd hcyc (hord _ _) h1 c1 hlimit hmax t1 t2 t4 hce (Steps.trans h1 hst) (steps_grow hst (hist_good h1)).2 hD
    | horn ls rs => exact MultiRule.performs hcl hN hord hd hcyc h1 c1 hlimit hmax t1 t2 t4 hce hD

omit [DecidableEq Op] [Lang Op] in
theorem EqHull.mono {E E' : Term Op → Term Op → Prop} (h : ∀ s t, E s t → E' s t) {s t : Term Op} (hk : EqHull E s t) : EqHull E' s t := by
  induction hk with
  | base q => exact .base (h _ _ q)
  | symm _ ih => exact .symm ih
  | trans _ _ ih1 ih2 => exact .trans ih1 ih2
  | arg _ hs ih => exact .arg ih hs
  | congr _ hl _ ih1 ih2 => exact .congr ih1 hl ih2

omit [DecidableEq Op] [Lang Op] in
/-- A further round at the start, when its results are known. -/
theorem Chase.shift {E E' : Term Op → Term Op → Prop} (h0 : ∀ s t, Chase cs E 1 s t → EqHull E' s t) : ∀ (k : Nat) {s t : Term Op},
    Chase cs E (k + 1) s t → Chase cs E' k s t
  | 0, s, t, h => h0 s t h
  | k + 1, s, t, h => by
    refine EqHull.mono (fun s t hst => ?_) h
    rcases hst with hst | ⟨c, hc, hst⟩
    · exact .inl (Chase.shift h0 k hst)
    · exact .inr ⟨c, hc, hst.mono (fun s t hst => Chase.shift h0 k hst)⟩

omit [DecidableEq Op] [Lang Op] in
theorem Chase.mono {E E' : Term Op → Term Op → Prop} (h : ∀ s t, E s t → E' s t) : ∀ (k : Nat) {s t : Term Op}, Chase cs E k s t → Chase cs E' k s t
  | 0, _, _, h1 => EqHull.mono h h1
  | k + 1, s, t, h1 => by
    refine EqHull.mono (fun s t hst => ?_) h1
    rcases hst with hst | ⟨c, hc, hst⟩
    · exact .inl (Chase.mono h k hst)
    · exact .inr ⟨c, hc, hst.mono (fun s t hst => Chase.mono h k hst)⟩

theorem Runner.runLoop_chase (hN : env.analysis = A.at depth) (hord : ∀ i eg, (env.ord i eg).OK eg) (hd : DiscContiguous Op)
    (hcyc : (A.at depth).allowCycles = true) (hs : sch.Eager env) (hlim : sch.Limited env) (hh : HooksRead hooks) (hr : AreClauses rules cs) :
    ∀ (f : Nat) (r r' : Runner Op D S H) (U : List (UnionRec Op)), Hist (A.at depth) allow U r.egraph → r.egraph.clean = true →
    (∀ k rk, Runner.after env sch hooks rules k r = some rk → ∀ rw' ∈ rules, FitsAny env rk.egraph rw') →
    runLoop env sch hooks rules f r = .ok r' → (∀ it, r'.iterations.getLast? = some it → it.Completed) →
    (r'.egraph.clean = true ∧ ∃ V, Steps (A.at depth) allow r.egraph V r'.egraph) ∧
    ∀ k s t, r.iterations.length + k ≤ r'.iterations.length → Chase cs (Equal r.egraph) k s t → Equal r'.egraph s t := by
  intro f
  induction f with
  | zero => intro r r' U _ _ _ h; cases h
  | succ f ih =>
    intro r r' U h hc hfit hl hlast
    obtain ⟨fb, r1, it, e, hb1, hb2, hb3⟩ := runLoop_step hl
    cases e
    obtain ⟨cb, ⟨Vb, sb⟩, hD⟩ := runOne_derives hN hord hd hcyc hs hlim hh hr h hc (hfit 0 r rfl) hb1
    have hnone : it.Completed := by
      rcases hb3 with ⟨s, h1, h2⟩ | ⟨h1, _⟩ | ⟨h1, _⟩
      · exact hlast it (by rw [h2]; simp)
      · exact .inl h1
      · exact .inl h1
    have hD := hD hnone
    have h1 : Hist (A.at depth) allow _ r1.egraph := Steps.trans h sb
    have hF := Full.of_hist h1 cb
    have hF0 := Full.of_hist h hc
    have gr := (steps_grow sb (hist_good h)).2
    have one : ∀ s t, Chase cs (Equal r.egraph) 1 s t → Equal r1.egraph s t := by
      intro s t hst
      refine hF.known (fun s t hst => ?_) hst
      have h0 : ∀ s t, EqHull (Equal r.egraph) s t → Equal r.egraph s t := fun s t hst => hF0.known (fun _ _ h => h) hst
      rcases hst with hst | ⟨c, hcm, hst⟩
      · exact gr.equal (h0 s t hst)
      · exact hD c hcm s t (hst.mono h0)
    rcases hb3 with ⟨s, h2, rfl⟩ | ⟨_, _, _, _, _, _, _, e1, e2⟩ | ⟨_, hb4, hb5⟩
    · refine ⟨⟨cb, _, sb⟩, fun k s t hlen hch => ?_⟩
      simp only [List.length_append, List.length_singleton, hb2] at hlen
      match k, hlen with
      | 0, _ => exact gr.equal (hF0.known (fun _ _ h => h) hch)
      | 1, _ => exact one s t hch
      | k + 2, hlen => omega
    · rw [e1]
      refine ⟨⟨cb, _, sb⟩, fun k s t hlen hch => ?_⟩
      rw [e2, hb2, List.length_append, List.length_singleton] at hlen
      match k, hlen with
      | 0, _ => exact gr.equal (hF0.known (fun _ _ h => h) hch)
      | 1, _ => exact one s t hch
      | k + 2, hlen => omega
    · obtain ⟨⟨q1, V2, q2⟩, q3⟩ := ih _ r' _ (by exact h1) (by exact cb) (fun k bk hk => hfit (k + 1) bk (after_succ hb4 hk)) hb5 hlast
      refine ⟨⟨q1, _, Steps.trans sb q2⟩, fun k s t hlen hch => ?_⟩
      cases k with
      | zero => exact (steps_grow q2 (hist_good h1)).2.equal (gr.equal (hF0.known (fun _ _ h => h) hch))
      | succ k =>
        refine q3 k s t ?_ (Chase.shift (fun s t h => .base (one s t h)) k hch)
        simp only [List.length_append, List.length_singleton, hb2]
        omega

/-- The last iteration of a run. -/
theorem Runner.runLoop_lastOne (hN : env.analysis = A.at depth) (hord : ∀ i eg, (env.ord i eg).OK eg) (hd : DiscContiguous Op)
    (hcyc : (A.at depth).allowCycles = true) (hs : sch.Eager env) (hlim : sch.Limited env) (hh : HooksRead hooks) (hr : AreClauses rules cs) :
    ∀ (f : Nat) (r r' : Runner Op D S H) (U : List (UnionRec Op)), Hist (A.at depth) allow U r.egraph → r.egraph.clean = true →
    (∀ k rk, Runner.after env sch hooks rules k r = some rk → ∀ rw' ∈ rules, FitsAny env rk.egraph rw') →
    runLoop env sch hooks rules f r = .ok r' →
    ∃ (rk r4 : Runner Op D S H) (it : Iteration) (V : List (UnionRec Op)), Hist (A.at depth) allow V rk.egraph ∧ rk.egraph.clean = true ∧
      (∀ rw' ∈ rules, FitsAny env rk.egraph rw') ∧ runOne env sch hooks rules rk = .ok (r4, it) ∧ r'.egraph = r4.egraph ∧
      r'.iterations.getLast? = some it := by
  intro f
  induction f with
  | zero => intro r r' U _ _ _ h; cases h
  | succ f ih =>
    intro r r' U h hc hfit hl
    obtain ⟨fb, r1, it, e, hb1, hb2, hb3⟩ := runLoop_step hl
    cases e
    obtain ⟨cb, ⟨Vb, sb⟩, -⟩ := runOne_derives hN hord hd hcyc hs hlim hh hr h hc (hfit 0 r rfl) hb1
    rcases hb3 with ⟨s, h2, rfl⟩ | ⟨_, _, _, _, _, _, _, e1, e2⟩ | ⟨_, hb4, hb5⟩
    · exact ⟨r, r1, it, _, h, hc, hfit 0 r rfl, hb1, rfl, by simp⟩
    · exact ⟨r, r1, it, _, h, hc, hfit 0 r rfl, hb1, e1, by rw [e2]; simp⟩
    · exact ih _ r' _ (by exact Steps.trans h sb) (by exact cb) (fun k bk hk => hfit (k + 1) bk (after_succ hb4 hk)) hb5

/-- Nothing new when the numbers of e-nodes and classes do not change. -/
theorem Equal.back (h : Hist (A.at depth) allow U eg) (hst : Steps (A.at depth) allow eg V eg') (hc' : eg'.clean = true)
    (hs : eg'.totalSize = eg.totalSize) (hn : eg'.numberOfClasses = eg.numberOfClasses) {s t : Term Op} : Equal eg' s t → Equal eg s t := by
  rintro ⟨c, h1, h2⟩
  have hga := hist_good h
  obtain ⟨hg1, gr1⟩ := steps_grow hst hga
  have hp := (c47_clean_means_rebuilt (Steps.trans h hst) hc').pending
  obtain ⟨j, hj, e⟩ := EGraph.old_id hga.inv hg1.inv hp gr1 hs (hg1.inv.rep_lt h1)
  exact ⟨j, EGraph.rep_back hga.inv hg1.inv hp gr1 hs hn s h1 hj e, EGraph.rep_back hga.inv hg1.inv hp gr1 hs hn t h2 hj e⟩

end Egg
