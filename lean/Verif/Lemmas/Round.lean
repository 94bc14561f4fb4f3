import Verif.Spec.Round
import Verif.Lemmas.Eager
/-
Lemmas about rounds of rewriting.
-/
namespace Egg
variable {Op D S H : Type} [DecidableEq Op] [Lang Op]
variable {A : UserAnalysis Op D} {depth : Nat} {allow : Caller Op D}

section
variable {U : List (UnionRec Op)} {egS : EGraph Op D} {eqs : List (Term (PatOp Op) × Term (PatOp Op))} {max : Nat}

/-- Applying all rules. -/
theorem AppliedAll.result (hd : DiscContiguous Op) (h : Hist (A.at depth) allow U egS) (hc : egS.clean = true) :
    ∀ (l : List (Rewrite Op D × List (SearchMatches Op))) {eg eg' : EGraph Op D} {V : List (UnionRec Op)},
    (∀ rw ms, (rw, ms) ∈ l → (∃ ord, IterOrd.OK ord egS ∧ rw.search (A.at depth) egS ord max = .ok ms) ∧
      ∃ tl t, (tl, t) ∈ eqs ∧ PatternRule rw tl t) →
    Steps (A.at depth) allow egS V eg → AppliedAll (A.at depth) l eg eg' →
    ∃ V', Steps (A.at depth) allow eg V' eg' ∧ (∀ u ∈ V', LeftIn egS eqs u.s u.t ∨ LeftIn egS eqs u.t u.s) ∧
      ∀ rw ms tl t, (rw, ms) ∈ l → PatternRule rw tl t → ∀ W g, Steps (A.at depth) allow eg' W g → g.pending = [] →
        ∀ c s, (c, s) ∈ flat ms → PMatch g s.get c t := by
  intro l
  induction l with
  | nil =>
    intro eg eg' V _ _ ha
    cases ha
    exact ⟨[], .refl, by simp, by simp⟩
  | cons p l ih =>
    intro eg eg2 V hl hst ha
    cases ha with
    | @cons rw' ms _ _ eg1 _ ids ha1 ha2 =>
    obtain ⟨⟨ord, ho, hs⟩, tl, t, hmem, hr⟩ := hl rw' ms (by simp)
    have gS := hist_good h
    have appl : ∀ {tl t lp rp}, IsPattern lp tl → (∀ v ∈ lp.vars, Occurs v tl) → IsPattern rp t →
        Rewrite.new rw'.name lp.searcher rp.applier = .ok rw' →
        (∀ g W, Steps (A.at depth) allow egS W g → Applicable g tl rp ms) ∧ rp.applyMatches (A.at depth) eg ms rw'.name = .ok (eg1, ids) := by
      intro tl t lp rp hlp hlive hrp hnew
      obtain ⟨hv, hrw⟩ := rewrite_new_inv hnew
      unfold Rewrite.search at hs
      unfold Rewrite.apply at ha1
      rw [hrw] at hs ha1
      exact ⟨fun g W hg => search_applicable h hc hd ho hlp hlive hv hs hg (fun c s hcs => hcs) (search_ast hs), ha1⟩
    obtain ⟨lp, rp, hlp, hlive, hrp, hnew⟩ := hr
    obtain ⟨q1, q2⟩ := appl hlp hlive hrp hnew
    have hap := c23_apply_matches (Steps.trans h hst) hrp (q1 _ _ hst) q2
    obtain ⟨gE, grE⟩ := steps_grow hst gS
    have a0 := q1 _ _ (.refl)
    obtain ⟨V1, s1, g1, x1, k1, -⟩ := EGraph.Applies.result (allow := allow) ((soundFor_true A).hookOK trivial depth)
      (fun _ _ => trivial) (fun _ _ _ => trivial) gS hap gE grE (fun c s hcs => ⟨a0.pmatch c s hcs, fun v x hx => gS.valid_iff.1 (a0.valid c s hcs v x hx)⟩)
    obtain ⟨V2, s2, k2, k3⟩ := ih (fun rw ms hm => hl rw ms (by simp [hm])) (Steps.trans hst s1) ha2
    refine ⟨V2 ++ V1, Steps.trans s1 s2, fun u hu => ?_, fun rw ms' tl' t' hm hpr W g hg hp => ?_⟩
    · rcases List.mem_append.1 hu with hu | hu
      · exact k2 u hu
      · obtain ⟨c, s, hcs, hq⟩ := k1 u hu
        have key : ∀ u w, InstancePair egS tl t s u w → LeftIn egS eqs u w := by
          rintro u w ⟨τ, h1, h2, h3⟩
          exact ⟨⟨tl, t, hmem, τ, h2, h3⟩, c, gS.inv.pmatch_rep _ (a0.pmatch c s hcs) (fun v x _ hx => h1 v x hx) h2⟩
        exact hq.imp (key _ _) (key _ _)
    · rcases List.mem_cons.1 hm with e | hm
      · cases e
        obtain ⟨lp', rp', hlp', hlive', hrp', hnew'⟩ := hpr
        obtain ⟨q1', q2'⟩ := appl hlp' hlive' hrp' hnew'
        exact apply_later (Steps.trans h hst) hrp' (q1' _ _ hst) q2' (Steps.trans s2 hg) hp
      · exact k3 rw ms' tl' t' hm hpr W g hg hp

/-- After a round the results of all rules on the terms of the e-graph at its start are there, in the classes of these terms;
and the round makes no other unions. -/
theorem Round.closes (hd : DiscContiguous Op) (hcyc : (A.at depth).allowCycles = true) {rules : List (Rewrite Op D)} (hr : RulesAre rules eqs)
    (h : Hist (A.at depth) allow U egS) (hc : egS.clean = true) {fuel : Nat} {eg' : EGraph Op D} (hfit : AllFit (A.at depth) max rules egS)
    (hR : Round (A.at depth) max fuel rules egS eg') :
    ∃ eg1 V n, Steps (A.at depth) allow egS V eg1 ∧ eg1.rebuild (A.at depth) fuel = .ok (eg', n) ∧
      (∀ u ∈ V, LeftIn egS eqs u.s u.t ∨ LeftIn egS eqs u.t u.s) ∧
      ∀ tl t, (tl, t) ∈ eqs → ∀ (τ : Var → Term Op) s w c, Inst τ tl s → Inst τ t w → Rep egS c s → Rep eg' c w := by
  classical
  obtain ⟨mss, eg1, n, full, hall, hreb⟩ := hR
  obtain ⟨V, s1, k1, k2⟩ := AppliedAll.result (max := max) hd h hc (rules.zip mss) (eqs := eqs)
    (fun rw' ms hm => ⟨mem_zip_forall₂ full hm, by
      obtain ⟨tl, t, q1, q2⟩ := hr.1 rw' (List.of_mem_zip hm).1
      exact ⟨tl, t, q1, q2.pattern⟩⟩) (.refl) hall
  refine ⟨eg1, V, n, s1, hreb, k1, ?_⟩
  intro tl t hmem τ s w c hsi hwi hcs
  obtain ⟨rw', hrw, htr⟩ := hr.2 tl t hmem
  obtain ⟨ms, hms⟩ : ∃ ms, (rw', ms) ∈ rules.zip mss := by
    clear hfit hr hall k2
    induction full with
    | nil => cases hrw
    | @cons a b l l' hab _ ih =>
      rcases List.mem_cons.1 hrw with rfl | hrw
      · exact ⟨b, by simp⟩
      · obtain ⟨ms, hm⟩ := ih hrw
        exact ⟨ms, by simp [hm]⟩
  obtain ⟨ord, hord, hlimit⟩ := mem_zip_forall₂ full hms
  have hst3 : Steps (A.at depth) allow eg1 ([] ++ []) eg' := Steps.single (.rebuild hreb)
  have hst : Steps (A.at depth) allow egS _ eg' := Steps.trans s1 hst3
  have hce : eg'.clean = true := EGraph.rebuild_clean hreb
  have hpe : eg'.pending = [] := (c47_clean_means_rebuilt (Steps.trans h hst) hce).pending
  have happ := k2 rw' ms tl t hms htr.pattern _ eg' hst3 hpe
  obtain ⟨lp, rp, hl, hlive, hrp, hnew⟩ := htr.pattern
  obtain ⟨hv, hrw'⟩ := rewrite_new_inv hnew
  obtain ⟨ord', ms', w1, w2, w3⟩ := hfit rw' hrw
  unfold Rewrite.search at hlimit w2
  rw [hrw'] at hlimit w2
  have hgS := hist_good h
  obtain ⟨hge, gr⟩ := steps_grow hst hgS
  have hpS := (c47_clean_means_rebuilt h hc).pending
  let σ : Var → Option Id := fun v => if hx : ∃ x, Rep egS x (τ v) then some hx.choose else none
  have hσ1 : ∀ v x, σ v = some x → Rep egS x (τ v) := by
    intro v x hx
    simp only [σ] at hx
    split at hx
    · next he => cases hx; exact he.choose_spec
    · cases hx
  have hσ2 : ∀ v, Occurs v tl → (σ v).isSome := by
    intro v hv
    have := rep_subterm hgS.inv (inst_subterm hsi v hv) hcs
    simp [σ, this]
  have hm := EGraph.InvW.rep_pmatch hgS.inv hpS hσ1 tl hcs hsi hσ2
  obtain ⟨rr, sb, q1, q2, q3⟩ := search_full hd hord w1 hcyc h hc hl hlimit w2 w3 σ c hm
  have hrep : Rep eg' rr w := hge.inv.pmatch_rep _ (happ rr sb q2) (fun v x hvo hx => by
    obtain ⟨a, b, y1, y2, y3⟩ := q3 v (hlive v (hv v (hrp.occurs_vars hvo)))
    rw [hx] at y3
    cases y3
    have y2 := hgS.inv.find_iff.1 y2
    have := hσ1 v a y1
    exact gr.rep _ _ (hgS.inv.rep_congr (y2.2 ▸ hgS.inv.core.rtLt _ y2.1) (by rw [← y2.2, hgS.inv.core.rtIdem]) this)) hwi
  have q1 := hgS.inv.find_iff.1 q1
  have hcl : c < eg'.nodes.length := lt_of_lt_of_le q1.1 gr.len
  exact hge.inv.rep_congr hcl (gr.rt _ _ (q1.2 ▸ hgS.inv.core.rtLt _ q1.1) q1.1 (by rw [← q1.2, hgS.inv.core.rtIdem])) hrep

end

/-- If the results of `E`-steps on the terms of `eg` are in `M`, in the classes of these terms, then so are those of parallel steps. -/
theorem Par.closed {E : Term Op → Term Op → Prop} {eg M : EGraph Op D} {C : Cfg Op D} (hg : EGraph.Inv C eg) (hM : Full M) (gr : EGraph.Grow eg M)
    (hE : ∀ s w c, E s w → Rep eg c s → Rep M c w) : ∀ (s : Term Op) {t : Term Op} {c : Id}, Par E s t → Rep eg c s → Rep M c t := by
  intro s
  induction s using Term.ind with
  | h op ss ih =>
    intro t c h hc
    cases h with
    | refl => exact gr.rep _ _ hc
    | rule h => exact hE _ _ _ h hc
    | @congr _ _ ts h =>
      refine (hM.cong.congr op (ss := ss) (ts := ts) ?_ c).1 (gr.rep _ _ hc)
      rw [hg.rep_iff] at hc
      obtain ⟨hcl, k, n, hk, h2, rfl, h4⟩ := hc
      refine forall₂_mono_mem h (fun a ha b _ hab => ?_)
      obtain ⟨d, -, hd⟩ := forall₂_mem_left (forall₂_flip h4) ha
      exact hM.rel (gr.rep _ _ hd) (ih a ha hab hd)

section
variable {env : RunEnv Op D} {sch : Scheduler Op D S} {hooks : List (Hook Op D H)} {rules : List (Rewrite Op D)}
  {eqs : List (Term (PatOp Op) × Term (PatOp Op))} {known : Term Op → Term Op → Prop}

theorem known_rep {U : List (UnionRec Op)} {eg : EGraph Op D} (h : Hist (A.at depth) allow U eg) (hc : eg.clean = true) {s t : Term Op}
    (hst : GEq (eqsOf U) s t) {c : Id} (hs : Rep eg c s) : Rep eg c t := by
  obtain ⟨hg, hU⟩ := hist_good_of_sound (soundFor_true A) h (fun _ _ _ => trivial)
  exact (rebuilt_closed hg (c47_clean_means_rebuilt h hc).pending hU hst c).1 hs

theorem eqsOf_append {U V : List (UnionRec Op)} {s t : Term Op} (h : GEq (eqsOf U) s t) : GEq (eqsOf (V ++ U)) s t :=
  h.mono (by rintro s t ⟨u, hu, h1, h2⟩; exact ⟨u, List.mem_append.2 (Or.inr hu), h1, h2⟩)

/-- What is reached by `k` steps is there after `k` iterations. -/
theorem Runner.runLoop_reached (hN : env.analysis = A.at depth) (hord : ∀ i eg, (env.ord i eg).OK eg) (hd : DiscContiguous Op)
    (hcyc : (A.at depth).allowCycles = true) (hs : sch.Eager env) (hh : HooksRead hooks) (hr : RulesAre rules eqs) :
    ∀ (f : Nat) (r r' : Runner Op D S H) (U : List (UnionRec Op)), Hist (A.at depth) allow U r.egraph → r.egraph.clean = true →
    (∀ k rk, Runner.after env sch hooks rules k r = some rk → ∀ rw' ∈ rules, Fits env rk.egraph rw') →
    runLoop env sch hooks rules f r = .ok r' → (∀ it, r'.iterations.getLast? = some it → it.stopReason = none) →
    (∀ s t, known s t → GEq (eqsOf U) s t) → ∀ k c s t, r.iterations.length + k ≤ r'.iterations.length → Rep r.egraph c s →
    ReachedIn (RuleInstance eqs) known k s t → Rep r'.egraph c t := by
  intro f
  have ht : AreTightRules rules eqs := hr.1
  induction f with
  | zero => intro r r' U _ _ _ h; cases h
  | succ f ih =>
    intro r r' U h hc hfit hl hlast hk k c s t hlen hcs hreach
    obtain ⟨-, V, s1, -⟩ := runLoop_reach hN hord hd hs.honest (hh.ok (N := A.at depth) (allow := allow)) ht.areRules _ _ _ _ h hc hl
    cases hreach with
    | zero h0 => exact (steps_grow s1 (hist_good h)).2.rep _ _ (known_rep h hc (hk _ _ h0) hcs)
    | @step k _ s1' u _ h0 hpar hrest =>
      obtain ⟨fb, r1, it, e, hb1, hb2, hb3⟩ := runLoop_step hl
      cases e
      obtain ⟨cb, ⟨Vb, sb, -⟩, -⟩ := runOne_reach hN hord hd hs.honest (hh.ok (N := A.at depth) (allow := allow)) ht.areRules h hc hb1
      have hnone : it.stopReason = none := by
        rcases hb3 with ⟨s, h1, h2⟩ | ⟨h1, _⟩ | ⟨h1, _⟩
        · exact hlast it (by rw [h2]; simp)
        · exact h1
        · exact h1
      have hcl := runOne_closes hN hord hd hcyc hs hh hr h hc (hfit 0 r rfl) hb1 hnone
      have h1 : Hist (A.at depth) allow _ r1.egraph := Steps.trans h sb
      have hF := Full.of_hist h1 cb
      have gr := (steps_grow sb (hist_good h)).2
      have hu : Rep r1.egraph c u := Par.closed (hist_good h).inv hF gr (by
        rintro a w d ⟨tl, t, hm, τ, i1, i2⟩ hd
        obtain ⟨d', e1, e2⟩ := hcl tl t hm τ a w d i1 i2 hd
        exact (hF.rel e1 e2 d).1 (gr.rep _ _ hd)) _ hpar (known_rep h hc (hk _ _ h0) hcs)
      rcases hb3 with ⟨s, h2, rfl⟩ | ⟨_, _, _, _, _, _, _, e1, e2⟩ | ⟨_, hb4, hb5⟩
      · rw [hnone] at h2; cases h2
      · rw [e2, hb2, List.length_append, List.length_singleton] at hlen
        have : k = 0 := by omega
        subst this
        cases hrest with
        | zero h3 => rw [e1]; exact known_rep h1 cb (eqsOf_append (hk _ _ h3)) hu
      · refine ih _ r' _ (by exact h1) (by exact cb) (fun k bk hk => hfit (k + 1) bk (after_succ hb4 hk)) hb5 hlast
          (fun s t hst => eqsOf_append (hk _ _ hst)) k c u t ?_ (by exact hu) hrest
        simp only [List.length_append, List.length_singleton, hb2]
        omega

end
end Egg
