import Verif.Spec.Finite
import Verif.Lemmas.RunBelow
import Verif.Lemmas.Eager
/-
What rules generate, and runs.
-/
namespace Egg
variable {Op D S H : Type} [DecidableEq Op] [Lang Op]
variable {A : UserAnalysis Op D} {depth : Nat} {allow : Caller Op D} {eg0 eg eg' : EGraph Op D} {eqs : List (Term (PatOp Op) × Term (PatOp Op))}

theorem Generated.left {s t : Term Op} (h : Generated eg0 eqs s t) : Generated eg0 eqs s s := .trans h (.symm h)
theorem Generated.right {s t : Term Op} (h : Generated eg0 eqs s t) : Generated eg0 eqs t t := .trans (.symm h) h

theorem Generated.sub {s t : Term Op} (h : Subterm s t) : Generated eg0 eqs t t → Generated eg0 eqs s s := by
  induction h with
  | refl => exact id
  | arg h1 _ ih => exact fun h => ih (.arg h h1)

/-- The congruence generated by `Generated` relates a generated term only to terms that are generated and equal. -/
theorem Generated.of_geq {s t : Term Op} (h : GEq (Generated eg0 eqs) s t) :
    (Generated eg0 eqs s s → Generated eg0 eqs s t) ∧ (Generated eg0 eqs t t → Generated eg0 eqs s t) := by
  induction h with
  | ax h => exact ⟨fun _ => h, fun _ => h⟩
  | refl => exact ⟨id, id⟩
  | symm _ ih => exact ⟨fun h => .symm (ih.2 h), fun h => .symm (ih.1 h)⟩
  | trans _ _ ih1 ih2 =>
    exact ⟨fun h => .trans (ih1.1 h) (ih2.1 (ih1.1 h).right), fun h => .trans (ih1.2 (ih2.2 h).left) (ih2.2 h)⟩
  | congr op hlen _ ih =>
    refine ⟨fun h => .congr h hlen fun k s t hs ht => (ih k s t hs ht).1 (.arg h (List.mem_of_getElem? hs)), fun h => .symm (.congr h hlen.symm fun k t s ht hs => ?_)⟩
    exact .symm ((ih k s t hs ht).2 (.arg h (List.mem_of_getElem? ht)))

/-- The invariant: everything in `eg` is generated. -/
structure Inside (eg0 : EGraph Op D) (eqs : List (Term (PatOp Op) × Term (PatOp Op))) (eg : EGraph Op D) : Prop where
  good : EGraph.Good (Cfg.ofR (GEq (Generated eg0 eqs)) .geq anyReason) eg
  nodes : ∀ i t, TermOf eg.nodes i t → Generated eg0 eqs t t

theorem Inside.rep (h : Inside eg0 eqs eg) {c : Id} {s t : Term Op} (hs : Rep eg c s) (ht : Rep eg c t) : Generated eg0 eqs s t := by
  obtain ⟨u, hu⟩ := h.good.inv.core.dag.exists_term c (h.good.inv.rep_lt hs)
  have h1 := (Generated.of_geq (h.good.inv.rep_sound s hs hu)).1 (h.nodes _ _ hu)
  exact .trans (.symm h1) ((Generated.of_geq (h.good.inv.rep_sound t ht hu)).1 (h.nodes _ _ hu))

theorem Inside.add (hA : ∀ i, A.modify i = .done) (h : Inside eg0 eqs eg) {n : ENode Op} {i : Id} {ts : List (Term Op)}
    (hts : List.Forall₂ (Rep eg) n.children ts) (hd : Generated eg0 eqs (.node n.op ts) (.node n.op ts))
    (ha : EGraph.addUncanonical (A.at depth) eg n = .ok (eg', i)) : Inside eg0 eqs eg' ∧ EGraph.Ext eg eg' := by
  have hN := (soundFor_of_quiet hA (GEq (Generated eg0 eqs)) .geq).hookOK trivial depth
  have hq : EGraph.QuietMod (A.at depth) := fun _ _ _ => UserAnalysis.quiet_modify hA
  have hch : ∀ c ∈ n.children, c < eg.nodes.length := by
    intro c hc
    obtain ⟨t, _, ht⟩ := forall₂_mem_left hts hc
    exact h.good.inv.rep_lt ht
  obtain ⟨hg, hext, -⟩ := (EGraph.addUncanonical_post hN h.good hch).elim ha
  have hnodes : eg'.nodes = eg.nodes ∨ eg'.nodes = eg.nodes ++ [n] := by
    rcases EGraph.addUncanonical_cases (A.at depth) h.good.inv hch with ⟨e, j, nj, _, g2, _⟩ | ⟨e, x, eg1, g1, _, _, g4, g5, g6⟩ | ⟨g1, eg1, g2, g3⟩
    · rw [ha] at g2; cases g2; exact Or.inl rfl
    · rw [ha] at g4; cases g4; exact Or.inr g6.nodes
    · rw [ha] at g3
      have g3 := g3.symm
      rw [bind_eq_ok] at g3
      obtain ⟨d, _, g3⟩ := g3
      rw [bind_eq_ok] at g3
      obtain ⟨eg2, k, g3⟩ := g3
      cases g3
      have := hq _ _ _ k
      rw [this]
      exact Or.inr (g2 d).2.nodes
  refine ⟨⟨hg, fun j t ht => ?_⟩, hext⟩
  rcases hnodes with e | e
  · rw [e] at ht; exact h.nodes j t ht
  · have hdag := hg.inv.core.dag
    rw [e] at ht
    by_cases hj : j < eg.nodes.length
    · exact h.nodes j t (TermOf.of_append h.good.inv.core.dag ht hj)
    · have hlt := ht.lt
      rw [List.length_append, List.length_singleton] at hlt
      have : j = eg.nodes.length := by omega
      subst this
      cases t with
      | node op us =>
        rw [termOf_iff] at ht
        obtain ⟨m, h1, h2, h3⟩ := ht
        simp at h1
        subst h1
        subst h2
        refine ((Generated.of_geq (IsCongruence.geq.congr n.op (ss := us) (ts := ts) ?_)).2 hd).left
        refine forall₂_comp (forall₂_flip h3) hts (fun u c t _ hc _ huc hct => ?_)
        exact h.good.inv.rep_sound t hct (TermOf.of_append h.good.inv.core.dag huc (hch c hc))

theorem Inside.union (hA : ∀ i, A.modify i = .done) (h : Inside eg0 eqs eg) {i j : Id} {s t : Term Op}
    (hs : Rep eg i s) (ht : Rep eg j t) (hd : Generated eg0 eqs s t) {did : Bool}
    (hu : UnionCall (A.at depth) eg i j eg' did) : Inside eg0 eqs eg' ∧ EGraph.Ext eg eg' := by
  have hN := (soundFor_of_quiet hA (GEq (Generated eg0 eqs)) .geq).hookOK trivial depth
  have hq : EGraph.QuietMod (A.at depth) := fun _ _ _ => UserAnalysis.quiet_modify hA
  obtain ⟨reason, hu⟩ := hu
  have := EGraph.Good.union_post (caller := reason) hN h.good hs ht (.ax hd) trivial
  rcases hu with hu | hu
  · exact ⟨⟨(this.1.elim hu).1, by rw [(EGraph.union_nodes hq).1 hu]; exact h.nodes⟩, (this.1.elim hu).2.1⟩
  · exact ⟨⟨(this.2.elim hu).1, by rw [(EGraph.union_nodes hq).2 hu]; exact h.nodes⟩, (this.2.elim hu).2.1⟩

theorem Inside.rebuild (hA : ∀ i, A.modify i = .done) (h : Inside eg0 eqs eg) {fuel n : Nat}
    (hr : eg.rebuild (A.at depth) fuel = .ok (eg', n)) : Inside eg0 eqs eg' := by
  have hN := (soundFor_of_quiet hA (GEq (Generated eg0 eqs)) .geq).hookOK trivial depth
  have hq : EGraph.QuietMod (A.at depth) := fun _ _ _ => UserAnalysis.quiet_modify hA
  exact ⟨((EGraph.rebuild_post trivial hN _ h.good).elim hr).1, by rw [EGraph.rebuild_nodes hq hr]; exact h.nodes⟩

theorem Inside.start (hA : ∀ i, A.modify i = .done) {U : List (UnionRec Op)} (h : Hist (A.at depth) allow U eg0) : Inside eg0 eqs eg0 := by
  have h0 := hist_good h
  obtain ⟨hg, -⟩ := hist_good_of_sound (soundFor_of_quiet hA (GEq (Generated eg0 eqs)) .geq) h (by
    rintro s t ⟨u, hu, rfl, rfl⟩
    obtain ⟨h1, h2, h3⟩ := (hist_good_of_sound (soundFor_true A) h (fun _ _ _ => trivial)).2 u hu
    exact .ax (.start h1 (h0.inv.rep_congr (h0.inv.rep_lt h1) h3.symm h2)))
  refine ⟨hg, fun i t ht => ?_⟩
  obtain ⟨u, hu⟩ := hg.inv.exists_rep ht.lt
  exact ((Generated.of_geq (hg.inv.rep_sound u hu ht)).2 (.start hu hu)).left

theorem Inside.applySteps (hA : ∀ i, A.modify i = .done) {P : Term (PatOp Op) → Prop} {tl t : Term (PatOp Op)} {ms : List (Id × Subst)}
    (hP : ∀ q, P q → Subterm q tl ∨ Subterm q t)
    {k : Nat} (hst : ApplySteps (A.at depth) P tl t ms eg k eg') (h : Inside eg0 eqs eg)
    (hm : ∀ c s, (c, s) ∈ ms → ∃ (τ : Var → Term Op) (u w : Term Op), (∀ v x, s.get v = some x → Rep eg x (τ v)) ∧ Inst τ tl u ∧
      Inst τ t w ∧ Generated eg0 eqs u w) :
    Inside eg0 eqs eg' ∧ ∀ c t, Rep eg c t → Rep eg' c t := by
  induction hst with
  | refl => exact ⟨h, fun _ _ h => h⟩
  | @add _ eg1 eg2 c s n ps i _ h1 h2 h3 h4 ih =>
    obtain ⟨u1, m1⟩ := ih
    obtain ⟨τ, u, w, hτ, hu, hw, hd⟩ := hm c s h1
    have hsub : ∃ vs, List.Forall₂ (Inst τ) ps vs ∧ Generated eg0 eqs (.node n.op vs) (.node n.op vs) := by
      rcases hP _ h2 with hq | hq
      · obtain ⟨v, k1, k2⟩ := inst_of_subterm hq hu
        obtain ⟨vs, rfl, hvs⟩ := inst_node_iff.1 k1
        exact ⟨vs, hvs, hd.left.sub k2⟩
      · obtain ⟨v, k1, k2⟩ := inst_of_subterm hq hw
        obtain ⟨vs, rfl, hvs⟩ := inst_node_iff.1 k1
        exact ⟨vs, hvs, hd.right.sub k2⟩
    obtain ⟨vs, hvs, hd'⟩ := hsub
    have hr : List.Forall₂ (Rep eg1) n.children vs := forall₂_comp h3 hvs (fun a p v _ _ _ hap hpv =>
      u1.good.inv.pmatch_rep _ hap (fun v x _ hv => m1 _ _ (hτ v x hv)) hpv)
    obtain ⟨u2, x2⟩ := u1.add hA hr hd' h4
    exact ⟨u2, fun c t hc => x2.rep u1.good.inv u2.good.inv t (m1 c t hc)⟩
  | @union _ eg1 eg2 c s i j did _ h1 h2 h3 h4 _ ih =>
    obtain ⟨u1, m1⟩ := ih
    obtain ⟨τ, u, w, hτ, hu, hw, hd⟩ := hm c s h1
    have r1 : Rep eg1 i w := u1.good.inv.pmatch_rep _ h2 (fun v x _ hv => m1 _ _ (hτ v x hv)) hw
    have r2 : Rep eg1 j u := u1.good.inv.pmatch_rep _ h3 (fun v x _ hv => m1 _ _ (hτ v x hv)) hu
    obtain ⟨u2, x2⟩ : Inside eg0 eqs eg2 ∧ EGraph.Ext eg1 eg2 := by
      rcases h4 with h4 | h4
      · exact u1.union hA r1 r2 hd.symm h4
      · exact u1.union hA r2 r1 hd h4
    exact ⟨u2, fun c t hc => x2.rep u1.good.inv u2.good.inv t (m1 c t hc)⟩

section
variable {rw' : Rewrite Op D} {tl t : Term (PatOp Op)} {U V : List (UnionRec Op)} {egS eg1 eg2 : EGraph Op D}
  {ms ms' : List (SearchMatches Op)} {env : RunEnv Op D} {i : Nat} {ids : List Id}

theorem TightRule.inside (hA : ∀ i, A.modify i = .done) (hN : env.analysis = A.at depth) (hord : ∀ i eg, (env.ord i eg).OK eg) (hd : DiscContiguous Op)
    (hr : TightRule rw' tl t) (hmem : (tl, t) ∈ eqs) (h : Hist (A.at depth) allow U egS) (hc : egS.clean = true) (hS : Inside eg0 eqs egS)
    (hf : Found env i egS rw' ms) (hp : Part ms' ms) (hst : Steps (A.at depth) allow egS V eg1)
    (ha : rw'.applier.applyMatches (A.at depth) eg1 ms' rw'.name = .ok (eg2, ids)) (hu : Inside eg0 eqs eg1) : Inside eg0 eqs eg2 := by
  obtain ⟨lp, rp, hl, hll, hlive, hr, hrl, hnew⟩ := hr
  obtain ⟨hv, hrw⟩ := rewrite_new_inv hnew
  have hap := found_applicable hN hord hd hl hlive hv (by rw [hrw]) h hc hf hp hst
  have hast : ∀ m ∈ ms', m.ast = some lp.ast := by
    intro m hm
    rcases hf with rfl | ⟨limit, ms0, f1, f2⟩
    · rw [hp.nil] at hm; cases hm
    rw [hrw, hN] at f1
    obtain ⟨m1, g1, _, g3, _⟩ := (hp.trans f2) m hm
    rw [g3]; exact search_ast f1 m1 g1
  rw [hrw] at ha
  have hsteps := applyMatches_inst (Steps.trans h hst) hr hap (rule := rw'.name) ha
  have hap0 := found_applicable hN hord hd hl hlive hv (by rw [hrw]) h hc hf hp .refl
  have hg := hist_good h
  have gr := (steps_grow hst hg).2
  refine (Inside.applySteps hA (fun q hq => ?_) hsteps hu (fun c s hcs => ?_)).1
  · rcases hq with hq | ⟨_, m, hm, l, hl', hq⟩
    · exact Or.inr (entry_subterm hr.wf.1 hr.wf.2 hrl hq)
    · rw [hast m hm] at hl'
      cases hl'
      exact Or.inl (entry_subterm hl.wf.1 hl.wf.2 hll hq)
  · have hm := hap0.pmatch c s hcs
    obtain ⟨τ, hτ⟩ := EGraph.exists_assignment hg.inv (fun v x hx => hg.valid_iff.1 (hap0.valid c s hcs v x hx)) (hg.inv.pmatch_lt hm)
    obtain ⟨u, hu⟩ := EGraph.inst_of_pmatch τ _ hm
    obtain ⟨w, hw⟩ := inst_exists hr.wf.1 τ t _ hr.wf.2.2
    have hrep := hg.inv.pmatch_rep _ hm (fun v x _ hv => hτ v x hv) hu
    exact ⟨τ, u, w, fun v x hx => gr.rep _ _ (hτ v x hx), hu, hw, .rule (hS.rep hrep hrep) ⟨tl, t, hmem, τ, hu, hw⟩⟩

end

section
variable {env : RunEnv Op D} {sch : Scheduler Op D S} {hooks : List (Hook Op D H)} {rules : List (Rewrite Op D)}
  {r r1 r2 r3 r4 : Runner Op D S H} {U : List (UnionRec Op)}

theorem Runner.applyEachRule_inside {i : Nat} (hA : ∀ i, A.modify i = .done) (hN : env.analysis = A.at depth) (hord : ∀ i eg, (env.ord i eg).OK eg)
    (hd : DiscContiguous Op) (hs : sch.Honest env) {egS : EGraph Op D} (h : Hist (A.at depth) allow U egS) (hc : egS.clean = true)
    (hS : Inside eg0 eqs egS) :
    ∀ (l : List (Rewrite Op D × List (SearchMatches Op))) (r r1 : Runner Op D S H) (ap ap' : AMap Symbol Nat) (o : Option StopReason)
      (V : List (UnionRec Op)),
    (∀ rw' ms, (rw', ms) ∈ l → Found env i egS rw' ms ∧ ∃ tl t, (tl, t) ∈ eqs ∧ TightRule rw' tl t) →
    Steps (A.at depth) allow egS V r.egraph → Inside eg0 eqs r.egraph →
    applyEachRule env sch l r ap = .ok (r1, ap', o) → Inside eg0 eqs r1.egraph := by
  intro l
  induction l with
  | nil => intro r r1 ap ap' o V _ _ hu h; cases h; exact hu
  | cons x l ih =>
    intro r r1 ap ap' o V hl hst hu ha
    obtain ⟨rw', ms⟩ := x
    unfold applyEachRule at ha
    rw [bind_eq_ok] at ha
    obtain ⟨⟨s, eg, n⟩, h1, ha⟩ := ha
    obtain ⟨ms', ids, h2, h3⟩ := hs.apply _ _ _ _ _ _ _ _ h1
    obtain ⟨hf, tl, t, hm, hr⟩ := hl rw' ms (by simp)
    rw [hN] at h2
    have hu1 : Inside eg0 eqs eg := hr.inside hA hN hord hd hm h hc hS hf h3 hst h2 hu
    dsimp only at ha
    split at ha
    · cases ha; exact hu1
    · obtain ⟨W, s1, -⟩ := hr.pattern.reach hN hord hd h hc hf h3 hst h2
      exact ih _ r1 _ ap' o _ (fun a b hab => hl a b (by simp [hab])) (Steps.trans hst s1) hu1 ha

theorem Runner.runOne_inside (hA : ∀ i, A.modify i = .done) (hN : env.analysis = A.at depth) (hord : ∀ i eg, (env.ord i eg).OK eg)
    (hd : DiscContiguous Op) (hs : sch.Honest env) (hh : HooksRead hooks) (hr : AreTightRules rules eqs) {it : Iteration}
    (h : Hist (A.at depth) allow U r.egraph) (hc : r.egraph.clean = true) (hu : Inside eg0 eqs r.egraph)
    (ho : runOne env sch hooks rules r = .ok (r4, it)) : Inside eg0 eqs r4.egraph := by
  obtain ⟨_, r1, res1, r2, ms, r3, applied, res3, eg, nReb, quiet, p1, p2, p3, p4, p5, -⟩ := runOne_inv ho
  obtain ⟨f2, e2⟩ := searchPhase_frame p2
  obtain ⟨f4, e4⟩ := quietPhase_frame p5
  have e1 := hookPhase_read hh p1
  have hu3 : Inside eg0 eqs r3.egraph := by
    unfold applyPhase at p3
    split at p3
    · cases p3; rw [e2, e1]; exact hu
    next mss =>
    refine applyEachRule_inside (i := r1.iterations.length) (egS := r1.egraph) hA hN hord hd hs (by rw [e1]; exact h) (by rw [e1]; exact hc) (by rw [e1]; exact hu) _ r2 r3 _ _ _ []
      (fun rw' ms hm => ⟨?_, hr rw' (List.of_mem_zip hm).1⟩) (by rw [e2]; exact .refl) (by rw [e2, e1]; exact hu) p3
    unfold searchPhase at p2
    split at p2
    · cases p2
    rw [bind_eq_ok] at p2
    obtain ⟨⟨s, tick, ms0⟩, k1, k2⟩ := p2
    cases k2
    exact hs.search _ _ _ _ _ _ _ _ _ k1 rw' ms hm
  rw [hN] at p4
  rw [e4]
  exact hu3.rebuild hA p4

theorem Runner.runLoop_inside (hA : ∀ i, A.modify i = .done) (hN : env.analysis = A.at depth) (hord : ∀ i eg, (env.ord i eg).OK eg)
    (hd : DiscContiguous Op) (hs : sch.Honest env) (hh : HooksRead hooks) (hr : AreTightRules rules eqs) :
    ∀ (f : Nat) (r r' : Runner Op D S H) (U : List (UnionRec Op)),
    Hist (A.at depth) allow U r.egraph → r.egraph.clean = true → Inside eg0 eqs r.egraph →
    runLoop env sch hooks rules f r = .ok r' → Inside eg0 eqs r'.egraph := by
  intro f
  induction f with
  | zero => intro r r' U _ _ _ h; cases h
  | succ f ih =>
    intro r r' U h hc hu hl
    unfold runLoop at hl
    rw [bind_eq_ok] at hl
    obtain ⟨⟨r1, it⟩, h1, hl⟩ := hl
    have hu1 := runOne_inside hA hN hord hd hs hh hr h hc hu h1
    obtain ⟨c1, ⟨V, s1, -⟩, -⟩ := runOne_reach hN hord hd hs (hh.ok (N := A.at depth) (allow := allow)) hr.areRules h hc h1
    dsimp only at hl
    split at hl
    · cases hl; exact hu1
    · split at hl
      · cases hl; exact hu1
      · exact ih _ _ _ (by exact Steps.trans h s1) (by exact c1) (by exact hu1) hl

end

/-! ### What is generated is in every closed e-graph -/

theorem Generated.present {M : EGraph Op D} (hM : Full M) (h0 : ∀ c t, Rep eg0 c t → Rep M c t) (hcl : ∀ tl t, (tl, t) ∈ eqs → ClosedTerms M tl t)
    {s t : Term Op} (h : Generated eg0 eqs s t) : ∃ c, Rep M c s ∧ Rep M c t := by
  induction h with
  | @start c _ _ h1 h2 => exact ⟨c, h0 _ _ h1, h0 _ _ h2⟩
  | rule _ h ih =>
    obtain ⟨c, hc, -⟩ := ih
    obtain ⟨tl, t, hm, τ, h1, h2⟩ := h
    exact ⟨c, hc, hcl tl t hm τ _ _ c h1 h2 hc⟩
  | symm _ ih => obtain ⟨c, h1, h2⟩ := ih; exact ⟨c, h2, h1⟩
  | trans _ _ ih1 ih2 =>
    obtain ⟨c, h1, h2⟩ := ih1
    obtain ⟨d, h3, h4⟩ := ih2
    exact ⟨d, (hM.rel h1 h2 d).2 h3, h4⟩
  | arg _ hm ih =>
    obtain ⟨c, h1, -⟩ := ih
    obtain ⟨d, hd⟩ := rep_subterm hM.good.inv (.arg hm .refl) h1
    exact ⟨d, hd, hd⟩
  | congr _ hlen _ ih ih' =>
    obtain ⟨c, hc, -⟩ := ih
    refine ⟨c, hc, (hM.cong.congr _ (List.forall₂_iff_get.2 ⟨hlen, fun i hi hi' => ?_⟩) c).1 hc⟩
    obtain ⟨d, h1, h2⟩ := ih' i _ _ (List.getElem?_eq_getElem hi) (List.getElem?_eq_getElem hi')
    exact hM.rel h1 h2

end Egg
