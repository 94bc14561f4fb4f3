import Verif.Lemmas.RunBelow
import Verif.Lemmas.Count
/-
Rules do nothing to an e-graph that is closed under them.
-/
namespace Egg
variable {Op D : Type} [DecidableEq Op] [Lang Op]
variable {M : EGraph Op D} {hM : Full M} {eg eg' : EGraph Op D} {A : UserAnalysis Op D} {depth : Nat} {allow : Caller Op D}

/-- `eg` is as `M`, without work to do. -/
structure Still (M : EGraph Op D) (hM : Full M) (eg : EGraph Op D) : Prop where
  under : Under M hM eg
  pending : eg.pending = []
  apending : eg.apending.queue = []
  kept : ∀ c t, Rep M c t → Rep eg c t
  size : eg.totalSize = M.totalSize
  classes : eg.numberOfClasses = M.numberOfClasses

/-- The memo knows every e-node of a class. -/
theorem EGraph.InvW.mem_of_rep {C : Cfg Op D} (h : EGraph.Inv C eg) (hp : eg.pending = []) {n : ENode Op} {ts : List (Term Op)}
    (hts : List.Forall₂ (Rep eg) n.children ts) {d : Id} (hd : Rep eg d (.node n.op ts)) :
    ∃ j, eg.mem (n.mapChildren eg.rt) = some j := by
  rw [h.rep_iff] at hd
  obtain ⟨_, k, n1, hk, hn, ho, hc⟩ := hd
  have hcong : Cong eg.rt n1 n := by
    refine ⟨ho, ?_⟩
    rw [← forall₂_map_eq]
    exact forall₂_comp hc (forall₂_flip hts) (fun x t y _ _ _ h1 h2 => EGraph.InvW.rep_unique h hp t h1 h2)
  obtain ⟨i, m, h1, h2, h3⟩ := h.core.clsNodes _ _ (EGraph.sk_eq hk) n1 hn
  obtain ⟨r, nr, h4, h5, h6, h7⟩ := h.core.cov i m h1
  rcases h.core.congr r nr h4 h5 with hin | ⟨j, h8, h9⟩
  · rw [hp] at hin; simp at hin
  · refine ⟨j, ?_⟩
    rw [← h8, cong_iff_canon.1 ((hcong.symm.trans h3).trans h6)]

theorem EGraph.performUnion_same {C : Cfg Op D} {N : Analysis Op D} (h : EGraph.Inv C eg) {i j : Id} (hi : i < eg.nodes.length) (hj : j < eg.nodes.length)
    (hrt : eg.rt i = eg.rt j) {rule : Option Justification} {did : Bool} (hp : EGraph.performUnion N eg i j rule = .ok (eg', did)) :
    eg'.memo = eg.memo ∧ eg'.pending = eg.pending ∧ eg'.apending = eg.apending ∧ eg'.classes = eg.classes := by
  obtain ⟨uf1, hf1, hs1⟩ := h.findMut hi
  have h1 := h.same hs1
  obtain ⟨uf2, hf2, hs2⟩ := h1.findMut (i := j) hj
  rw [EGraph.rt_same hs1] at hf2
  have hf2' : UF.findMut uf1 j = .ok (uf2, eg.rt j) := hf2
  unfold EGraph.performUnion at hp
  simp only [hf1, hf2', ok_bind, hrt, if_true] at hp
  split at hp
  · obtain ⟨x, _, hp⟩ := bind_eq_ok.1 hp
    cases hp
    exact ⟨rfl, rfl, rfl, rfl⟩
  · cases hp
    exact ⟨rfl, rfl, rfl, rfl⟩

theorem Still.add (hA : ∀ i, A.modify i = .done) (h : Still M hM eg) {n : ENode Op} {i : Id} {ts : List (Term Op)}
    (hts : List.Forall₂ (Rep eg) n.children ts) {d : Id} (hd : Rep M d (.node n.op ts))
    (ha : EGraph.addUncanonical (A.at depth) eg n = .ok (eg', i)) : Still M hM eg' ∧ EGraph.Ext eg eg' := by
  obtain ⟨u, x⟩ := h.under.add hA hts hd ha
  refine ⟨?_, x⟩
  have hch : ∀ c ∈ n.children, c < eg.nodes.length := by
    intro c hc
    obtain ⟨t, _, ht⟩ := forall₂_mem_left hts hc
    exact h.under.good.inv.rep_lt ht
  obtain ⟨j, hj⟩ := EGraph.InvW.mem_of_rep h.under.good.inv h.pending hts (h.kept _ _ hd)
  have hk : ∀ c t, Rep M c t → Rep eg' c t := fun c t hr => x.rep h.under.good.inv u.good.inv t (h.kept c t hr)
  rcases EGraph.addUncanonical_cases (A.at depth) h.under.good.inv hch with ⟨e, j, nj, _, g2, _⟩ | ⟨e, x, eg1, g1, _, _, g4, g5, g6⟩ | ⟨g1, eg1, g2, g3⟩
  · rw [ha] at g2; cases g2; exact h
  · rw [ha] at g4; cases g4
    exact ⟨u, g6.pending.trans h.pending, by rw [g6.apending]; exact h.apending, hk,
      by rw [← h.size]; unfold EGraph.totalSize; rw [g6.memo], by rw [← h.classes]; unfold EGraph.numberOfClasses; rw [g6.classes]⟩
  · rw [hj] at g1; cases g1

theorem Still.union (hA : ∀ i, A.modify i = .done) (h : Still M hM eg) {i j : Id} {s t : Term Op}
    (hs : Rep eg i s) (ht : Rep eg j t) {d : Id} (hds : Rep M d s) (hdt : Rep M d t) {did : Bool}
    (hu : UnionCall (A.at depth) eg i j eg' did) : Still M hM eg' ∧ EGraph.Ext eg eg' ∧ SameClass eg i j := by
  obtain ⟨u, x⟩ := h.under.union hA hs ht hds hdt hu
  have hrt : eg.rt i = eg.rt j :=
    (EGraph.InvW.rep_unique h.under.good.inv h.pending s hs (h.kept _ _ hds)).trans
      (EGraph.InvW.rep_unique h.under.good.inv h.pending t ht (h.kept _ _ hdt)).symm
  have hil := h.under.good.inv.rep_lt hs
  have hjl := h.under.good.inv.rep_lt ht
  refine ⟨?_, x, by rw [h.under.good.inv.sameClass_iff]; exact ⟨hil, hjl, hrt⟩⟩
  have hk : ∀ c t, Rep M c t → Rep eg' c t := fun c t hr => x.rep h.under.good.inv u.good.inv t (h.kept c t hr)
  have key : ∀ (rule : Option Justification), EGraph.performUnion (A.at depth) eg i j rule = .ok (eg', did) → Still M hM eg' := by
    intro rule hp
    obtain ⟨h1, h2, h3, h4⟩ := EGraph.performUnion_same h.under.good.inv hil hjl hrt hp
    exact ⟨u, h2.trans h.pending, by rw [h3]; exact h.apending, hk,
      by rw [← h.size]; unfold EGraph.totalSize; rw [h1], by rw [← h.classes]; unfold EGraph.numberOfClasses; rw [h4]⟩
  obtain ⟨reason, hu⟩ := hu
  rcases hu with hu | hu
  · unfold EGraph.union at hu
    split at hu
    · exact key _ hu
    · exact key _ hu
  · exact key _ hu

theorem Still.rebuild (hA : ∀ i, A.modify i = .done) (h : Still M hM eg) {fuel n : Nat}
    (hr : eg.rebuild (A.at depth) fuel = .ok (eg', n)) : Still M hM eg' ∧ n = 0 := by
  have hN := (soundFor_of_quiet hA (RelIn M) hM.cong).hookOK trivial depth
  have hq : EGraph.QuietMod (A.at depth) := fun _ _ _ => UserAnalysis.quiet_modify hA
  have u := h.under.rebuild hA hr
  have hcount := EGraph.rebuild_count hN hq h.under.good hr
  have hext := ((EGraph.rebuild_post trivial hN _ h.under.good).elim hr).2.1
  unfold EGraph.rebuild at hr
  obtain ⟨⟨eg1, k⟩, h1, hr⟩ := bind_eq_ok.1 hr
  obtain ⟨rfl, rfl⟩ : eg1 = eg ∧ k = 0 := by
    cases fuel with
    | zero => cases h1
    | succ f =>
      unfold EGraph.processUnions at h1
      rw [if_pos (by simp [h.pending, h.apending, UniqueQueue.isEmpty])] at h1
      cases h1
      exact ⟨rfl, rfl⟩
  obtain ⟨uf, b, t, g1, _⟩ := EGraph.rebuildClasses_ok h.under.good.inv
  simp only [g1, ok_bind] at hr
  cases hr
  exact ⟨⟨u, h.pending, h.apending, fun c t hc => hext.rep h.under.good.inv u.good.inv t (h.kept c t hc), h.size,
    by rw [← h.classes]; exact hcount.symm⟩, rfl⟩

theorem Still.applySteps (hA : ∀ i, A.modify i = .done) {P : Term (PatOp Op) → Prop} {tl t : Term (PatOp Op)} {ms : List (Id × Subst)}
    (hcl : ClosedTerms M tl t) (hP : ∀ q, P q → Subterm q tl ∨ Subterm q t) (hit : ∀ τ : Var → Term Op, ∃ w, Inst τ t w)
    {k : Nat} (hst : ApplySteps (A.at depth) P tl t ms eg k eg') (h : Still M hM eg)
    (hm : ∀ c s, (c, s) ∈ ms → PMatch eg s.get c tl ∧ ∀ v x, s.get v = some x → x < eg.nodes.length) :
    k = 0 ∧ Still M hM eg' ∧ ∀ c s, (c, s) ∈ ms → PMatch eg' s.get c tl ∧ ∀ v x, s.get v = some x → x < eg'.nodes.length := by
  have key : ∀ (g : EGraph Op D), Under M hM g → ∀ (c : Id) (s : Subst), PMatch g s.get c tl → (∀ v x, s.get v = some x → x < g.nodes.length) →
      ∃ (τ : Var → Term Op) (u w : Term Op) (d : Id), (∀ v x, s.get v = some x → Rep g x (τ v)) ∧ Inst τ tl u ∧ Inst τ t w ∧
        Rep M d u ∧ Rep M d w := by
    intro g hg c s h1 h2
    obtain ⟨τ, hτ⟩ := EGraph.exists_assignment hg.good.inv h2 (hg.good.inv.pmatch_lt h1)
    obtain ⟨u, hu⟩ := EGraph.inst_of_pmatch τ _ h1
    obtain ⟨w, hw⟩ := hit τ
    obtain ⟨d, hd⟩ := hg.rep (hg.good.inv.pmatch_rep _ h1 (fun v x _ hv => hτ v x hv) hu)
    exact ⟨τ, u, w, d, hτ, hu, hw, hd, hcl τ u w d hu hw hd⟩
  induction hst with
  | refl => exact ⟨rfl, h, hm⟩
  | @add _ eg1 eg2 c s n ps i _ h1 h2 h3 h4 ih =>
    obtain ⟨k0, u1, m1⟩ := ih
    obtain ⟨τ, u, w, d, hτ, hu, hw, hdu, hdw⟩ := key eg1 u1.under c s (m1 c s h1).1 (m1 c s h1).2
    have hsub : ∃ vs, List.Forall₂ (Inst τ) ps vs ∧ ∃ d, Rep M d (.node n.op vs) := by
      rcases hP _ h2 with hq | hq
      · obtain ⟨v, k1, k2⟩ := inst_of_subterm hq hu
        obtain ⟨vs, rfl, hvs⟩ := inst_node_iff.1 k1
        exact ⟨vs, hvs, rep_subterm hM.good.inv k2 hdu⟩
      · obtain ⟨v, k1, k2⟩ := inst_of_subterm hq hw
        obtain ⟨vs, rfl, hvs⟩ := inst_node_iff.1 k1
        exact ⟨vs, hvs, rep_subterm hM.good.inv k2 hdw⟩
    obtain ⟨vs, hvs, d', hd'⟩ := hsub
    have hr : List.Forall₂ (Rep eg1) n.children vs := forall₂_comp h3 hvs (fun a p v _ _ _ hap hpv =>
      u1.under.good.inv.pmatch_rep _ hap (fun v x _ hv => hτ v x hv) hpv)
    obtain ⟨u2, x2⟩ := u1.add hA hr hd' h4
    exact ⟨k0, u2, fun c s hcs => ⟨x2.pmatch u1.under.good.inv u2.under.good.inv (m1 c s hcs).1, fun v x hx => x2.lt ((m1 c s hcs).2 v x hx)⟩⟩
  | @union _ eg1 eg2 c s i j did _ h1 h2 h3 h4 h5 ih =>
    obtain ⟨k0, u1, m1⟩ := ih
    obtain ⟨τ, u, w, d, hτ, hu, hw, hdu, hdw⟩ := key eg1 u1.under c s (m1 c s h1).1 (m1 c s h1).2
    have r1 : Rep eg1 i w := u1.under.good.inv.pmatch_rep _ h2 (fun v x _ hv => hτ v x hv) hw
    have r2 : Rep eg1 j u := u1.under.good.inv.pmatch_rep _ h3 (fun v x _ hv => hτ v x hv) hu
    obtain ⟨u2, x2, hsame⟩ : Still M hM eg2 ∧ EGraph.Ext eg1 eg2 ∧ SameClass eg1 i j := by
      rcases h4 with h4 | h4
      · exact u1.union hA r1 r2 hdw hdu h4
      · obtain ⟨a, b, c⟩ := u1.union hA r2 r1 hdu hdw h4
        exact ⟨a, b, c.symm⟩
    have hdid : did = false := by
      cases did
      · rfl
      · exact absurd hsame (h5.1 rfl)
    subst hdid
    exact ⟨k0, u2, fun c s hcs => ⟨x2.pmatch u1.under.good.inv u2.under.good.inv (m1 c s hcs).1, fun v x hx => x2.lt ((m1 c s hcs).2 v x hx)⟩⟩

section
variable {rw' : Rewrite Op D} {tl t : Term (PatOp Op)} {U V : List (UnionRec Op)} {egS eg1 eg2 : EGraph Op D}
  {ms ms' : List (SearchMatches Op)} {env : RunEnv Op D} {i : Nat} {ids : List Id}

theorem TightRule.still (hA : ∀ i, A.modify i = .done) (hN : env.analysis = A.at depth) (hord : ∀ i eg, (env.ord i eg).OK eg) (hd : DiscContiguous Op)
    (hr : TightRule rw' tl t) (hcl : ClosedTerms M tl t) (h : Hist (A.at depth) allow U egS) (hc : egS.clean = true)
    (hf : Found env i egS rw' ms) (hp : Part ms' ms) (hst : Steps (A.at depth) allow egS V eg1)
    (ha : rw'.applier.applyMatches (A.at depth) eg1 ms' rw'.name = .ok (eg2, ids)) (hu : Still M hM eg1) : ids = [] ∧ Still M hM eg2 := by
  obtain ⟨lp, rp, hl, hll, hlive, hr, hrl, hnew⟩ := hr
  obtain ⟨hv, hrw⟩ := rewrite_new_inv hnew
  have hap := found_applicable hN hord hd hl hlive hv (by rw [hrw]) h hc hf hp hst
  have hast : ∀ m ∈ ms', m.ast = some lp.ast := by
    intro m hm
    rcases hf with rfl | ⟨limit, ms0, f1, f2⟩
    · rw [hp.nil] at hm; cases hm
    rw [hrw, hN] at f1
    obtain ⟨m1, g1, _, g3, _⟩ := (hp.trans f2) m hm
    rw [g3]; exact search_ast f1 m1 g1
  rw [hrw] at ha
  have hsteps := applyMatches_inst (Steps.trans h hst) hr hap (rule := rw'.name) ha
  have hP : ∀ q, (EntryOf rp.ast q ∨ eg1.explain.isSome = true ∧ ∃ m ∈ ms', ∃ l, m.ast = some l ∧ EntryOf l q) → Subterm q tl ∨ Subterm q t := by
    rintro q (hq | ⟨_, m, hm, l, hl', hq⟩)
    · exact Or.inr (entry_subterm hr.wf.1 hr.wf.2 hrl hq)
    · rw [hast m hm] at hl'
      cases hl'
      exact Or.inl (entry_subterm hl.wf.1 hl.wf.2 hll hq)
  obtain ⟨k0, h1, -⟩ := Still.applySteps hA hcl hP (fun τ => inst_exists hr.wf.1 τ t _ hr.wf.2.2) hsteps hu (fun c s hcs =>
    ⟨hap.pmatch c s hcs, fun v x hx => hu.under.good.valid_iff.1 (hap.valid c s hcs v x hx)⟩)
  exact ⟨List.eq_nil_of_length_eq_zero k0, h1⟩

end

section
variable {S H : Type} {env : RunEnv Op D} {sch : Scheduler Op D S} {hooks : List (Hook Op D H)} {rules : List (Rewrite Op D)}
  {r r4 : Runner Op D S H}

/-- The number of unions that an iteration reports for its rebuild. -/
theorem Runner.runOne_rebuilds {it : Iteration} (h : runOne env sch hooks rules r = .ok (r4, it)) :
    ∀ r1 res1 r2 ms r3 applied res3, hookPhase env hooks r = .ok (r1, res1) → searchPhase env sch rules r1 res1 = .ok (r2, ms) →
      applyPhase env sch rules r2 ms = .ok (r3, applied, res3) →
      ∃ eg nReb, r3.egraph.rebuild env.analysis env.fuel = .ok (eg, nReb) ∧ it.nRebuilds = nReb := by
  intro r1 res1 r2 ms r3 applied res3 p1 p2 p3
  unfold runOne at h
  split at h
  · cases h
  simp only [p1, p2, p3, ok_bind] at h
  obtain ⟨⟨eg, n⟩, h4, ⟨r4', quiet⟩, h5, h⟩ := by simpa only [bind_eq_ok] using h
  cases h
  exact ⟨eg, n, h4, rfl⟩

end

section
variable {S H : Type} {env : RunEnv Op D} {sch : Scheduler Op D S} {hooks : List (Hook Op D H)} {rules : List (Rewrite Op D)}
  {r r1 r2 r3 r4 : Runner Op D S H} {U : List (UnionRec Op)} {eqs : List (Term (PatOp Op) × Term (PatOp Op))}

theorem Runner.applyEachRule_still {i : Nat} (hA : ∀ i, A.modify i = .done) (hN : env.analysis = A.at depth) (hord : ∀ i eg, (env.ord i eg).OK eg)
    (hd : DiscContiguous Op) (hs : sch.Counting env) {egS : EGraph Op D} (h : Hist (A.at depth) allow U egS) (hc : egS.clean = true)
    (hcl : ∀ tl t, (tl, t) ∈ eqs → ClosedTerms M tl t) :
    ∀ (l : List (Rewrite Op D × List (SearchMatches Op))) (r r1 : Runner Op D S H) (ap ap' : AMap Symbol Nat) (o : Option StopReason)
      (V : List (UnionRec Op)),
    (∀ rw' ms, (rw', ms) ∈ l → Found env i egS rw' ms ∧ ∃ tl t, (tl, t) ∈ eqs ∧ TightRule rw' tl t) →
    Steps (A.at depth) allow egS V r.egraph → Still M hM r.egraph →
    applyEachRule env sch l r ap = .ok (r1, ap', o) → Still M hM r1.egraph ∧ ap' = ap := by
  intro l
  induction l with
  | nil => intro r r1 ap ap' o V _ _ hu h; cases h; exact ⟨hu, rfl⟩
  | cons x l ih =>
    intro r r1 ap ap' o V hl hst hu ha
    obtain ⟨rw', ms⟩ := x
    unfold applyEachRule at ha
    rw [bind_eq_ok] at ha
    obtain ⟨⟨s, eg, n⟩, h1, ha⟩ := ha
    obtain ⟨ms', ids, h2, h3, h4⟩ := hs _ _ _ _ _ _ _ _ h1
    obtain ⟨hf, tl, t, hm, hr⟩ := hl rw' ms (by simp)
    rw [hN] at h2
    obtain ⟨hids, hu1⟩ : ids = [] ∧ Still M hM eg := hr.still hA hN hord hd (hcl tl t hm) h hc hf h3 hst h2 hu
    subst hids
    simp only [List.length_nil] at h4
    subst h4
    have hz : countApplied ap rw'.name 0 = ap := by unfold countApplied; rw [if_neg (Nat.lt_irrefl 0)]
    dsimp only at ha
    rw [hz] at ha
    split at ha
    · cases ha; exact ⟨hu1, rfl⟩
    · obtain ⟨W, s1, -⟩ := hr.pattern.reach hN hord hd h hc hf h3 hst h2
      exact ih _ r1 _ ap' o _ (fun a b hab => hl a b (by simp [hab])) (Steps.trans hst s1) hu1 ha

/-- One iteration of a run in an e-graph that is closed under the rules. -/
theorem Runner.runOne_still (hA : ∀ i, A.modify i = .done) (hN : env.analysis = A.at depth) (hord : ∀ i eg, (env.ord i eg).OK eg)
    (hd : DiscContiguous Op) (hs : sch.Honest env) (hcount : sch.Counting env) (hlim : sch.Limited env) (hh : HooksRead hooks) (hr : AreTightRules rules eqs)
    (hcl : ∀ tl t, (tl, t) ∈ eqs → ClosedTerms M tl t) {it : Iteration}
    (h : Hist (A.at depth) allow U r.egraph) (hc : r.egraph.clean = true) (hu : Still M hM r.egraph)
    (ho : runOne env sch hooks rules r = .ok (r4, it)) :
    Still M hM r4.egraph ∧ it.applied = [] ∧ it.egraphNodes = M.totalSize ∧ it.egraphClasses = M.numberOfClasses ∧ it.nRebuilds = 0 ∧
    (∀ reason, it.stopReason = some reason → reason = .saturated ∨
      (∃ msg, reason = .other msg ∧ ∃ k ∈ hooks, ∃ h eg h' eg', k h eg r.iterations = .ok (h', eg', some msg)) ∨
      ∃ k, ∃ eg : EGraph Op D, eg.totalSize = M.totalSize ∧ r.limits.check env k r.iterations.length eg = some reason) ∧
    (it.stopReason = none → ∃ s s', sch.canStop s r.iterations.length = .ok (s', false)) := by
  have hreb := runOne_rebuilds ho
  obtain ⟨_, r1, res1, r2, ms, r3, applied, res3, eg, nReb, quiet, p1, p2, p3, p4, p5, a1, a2, a3, a4⟩ := runOne_inv ho
  obtain ⟨f1, -⟩ := hookPhase_frame p1
  obtain ⟨f2, e2⟩ := searchPhase_frame p2
  have f3 := applyPhase_frame p3
  obtain ⟨f4, e4⟩ := quietPhase_frame p5
  have e4 : r4.egraph = eg := e4
  have e1 := hookPhase_read hh p1
  have hu3 : Still M hM r3.egraph ∧ applied = [] := by
    unfold applyPhase at p3
    split at p3
    · cases p3; rw [e2, e1]; exact ⟨hu, rfl⟩
    next mss =>
    refine applyEachRule_still (i := r1.iterations.length) (egS := r1.egraph) hA hN hord hd hcount (by rw [e1]; exact h) (by rw [e1]; exact hc) hcl _ r2 r3 _ _ _ []
      (fun rw' ms hm => ⟨?_, hr rw' (List.of_mem_zip hm).1⟩) (by rw [e2]; exact .refl) (by rw [e2, e1]; exact hu) p3
    unfold searchPhase at p2
    split at p2
    · cases p2
    rw [bind_eq_ok] at p2
    obtain ⟨⟨s, tick, ms0⟩, k1, k2⟩ := p2
    cases k2
    exact hs.search _ _ _ _ _ _ _ _ _ k1 rw' ms hm
  obtain ⟨hu3, rfl⟩ := hu3
  obtain ⟨eg', nReb', q4, q5⟩ := hreb r1 res1 r2 ms r3 [] res3 p1 p2 p3
  rw [p4] at q4
  cases q4
  rw [hN] at p4
  obtain ⟨hu4, hn⟩ := hu3.rebuild hA p4
  rw [e4]
  refine ⟨hu4, a1, by rw [a2, hu.size], by rw [a3, hu.classes], q5.trans hn, fun reason hre => ?_, fun hnone => ?_⟩
  · rw [a4] at hre
    cases res3 with
    | none =>
      simp only [] at hre
      split at hre
      · cases hre; exact Or.inl rfl
      · cases hre
    | some s =>
      right
      cases hre
      unfold applyPhase at p3
      split at p3
      · next s0 =>
        cases p3
        unfold searchPhase at p2
        split at p2
        · next s1 =>
          cases p2
          unfold hookPhase at p1
          split at p1
          · next s2 hk =>
            cases p1
            exact Or.inr ⟨r.tick, r.egraph, hu.size, hk⟩
          · rw [bind_eq_ok] at p1
            obtain ⟨⟨h1, eg1, o⟩, k1, k2⟩ := p1
            cases o with
            | none => cases k2
            | some msg =>
              cases k2
              left
              obtain ⟨k, hk, h2, eg2, h3, q⟩ := runHooks_msg hooks k1
              exact ⟨msg, rfl, k, hk, h2, eg2, h3, _, q⟩
        · rw [bind_eq_ok] at p2
          obtain ⟨⟨s1, tick, ms0⟩, k1, k2⟩ := p2
          cases k2
          obtain ⟨k, hk⟩ := hlim _ _ _ _ _ _ _ _ _ k1
          rw [f1.lim, f1.its] at hk
          exact Or.inr ⟨k, r1.egraph, by rw [e1]; exact hu.size, hk⟩
      · obtain ⟨k, hk⟩ := applyEachRule_reason _ p3
        rw [f3.lim, f2.lim, f1.lim, f3.its, f2.its, f1.its] at hk
        exact Or.inr ⟨k, r3.egraph, hu3.size, hk⟩
  · rw [a4] at hnone
    cases res3 with
    | some s => cases hnone
    | none =>
      simp only [e1, e4, hu.size, hu4.size, hu.classes, hu4.classes] at hnone
      have hq : quiet = false := by
        cases quiet
        · rfl
        · simp at hnone
      unfold quietPhase at p5
      simp only [List.isEmpty_nil, if_true] at p5
      obtain ⟨⟨s, b⟩, k1, k2⟩ := bind_eq_ok.1 p5
      cases k2
      subst hq
      refine ⟨_, _, by rw [← f1.its, ← f2.its, ← f3.its]; exact k1⟩

/-- What an iteration records if nothing happens. -/
def Idle (M : EGraph Op D) (it : Iteration) : Prop :=
  it.applied = [] ∧ it.egraphNodes = M.totalSize ∧ it.egraphClasses = M.numberOfClasses ∧ it.nRebuilds = 0

theorem Runner.runLoop_still (hA : ∀ i, A.modify i = .done) (hN : env.analysis = A.at depth) (hord : ∀ i eg, (env.ord i eg).OK eg)
    (hd : DiscContiguous Op) (hs : sch.Honest env) (hcount : sch.Counting env) (hlim : sch.Limited env) (hh : HooksRead hooks) (hr : AreTightRules rules eqs)
    (hcl : ∀ tl t, (tl, t) ∈ eqs → ClosedTerms M tl t) : ∀ (f : Nat) (r r' : Runner Op D S H) (U : List (UnionRec Op)),
    Hist (A.at depth) allow U r.egraph → r.egraph.clean = true → Still M hM r.egraph →
    runLoop env sch hooks rules f r = .ok r' → Still M hM r'.egraph ∧ ∃ its, r'.iterations = r.iterations ++ its ∧
      (∀ it ∈ its, Idle M it) ∧ ∃ reason, r'.stopReason = some reason ∧ (reason = .saturated ∨
        (∃ msg, reason = .other msg ∧ ∃ k ∈ hooks, ∃ h eg its h' eg', k h eg its = .ok (h', eg', some msg)) ∨
        ∃ k i, ∃ eg : EGraph Op D, eg.totalSize = M.totalSize ∧ r.limits.check env k i eg = some reason) ∧
      ((∀ s i s' b, sch.canStop s i = .ok (s', b) → b = true) → its.length = 1 ∧ (reason = .saturated ∨
        (∃ msg, reason = .other msg ∧ ∃ k ∈ hooks, ∃ h eg its h' eg', k h eg its = .ok (h', eg', some msg)) ∨
        ∃ k, ∃ eg : EGraph Op D, eg.totalSize = M.totalSize ∧ r.limits.check env k r.iterations.length eg = some reason)) := by
  intro f
  induction f with
  | zero => intro r r' U _ _ _ h; cases h
  | succ f ih =>
    intro r r' U h hc hu hl
    unfold runLoop at hl
    rw [bind_eq_ok] at hl
    obtain ⟨⟨r1, it⟩, h1, hl⟩ := hl
    obtain ⟨u1, a1, a2, a3, a4, a5, a6⟩ := runOne_still hA hN hord hd hs hcount hlim hh hr hcl h hc hu h1
    obtain ⟨c1, ⟨V, s1, -⟩, -⟩ := runOne_reach hN hord hd hs (hh.ok (N := A.at depth) (allow := allow)) hr.areRules h hc h1
    have fr := runOne_frame h1
    have hid : Idle M it := ⟨a1, a2, a3, a4⟩
    dsimp only at hl
    split at hl
    · next reason hre =>
      cases hl
      refine ⟨u1, [it], by rw [← fr.its], by simpa using hid, reason, rfl, ?_, fun _ => ⟨rfl, ?_⟩⟩
      · rcases a5 reason hre with e | ⟨msg, e, k, hk, h0, eg, h', eg', q⟩ | ⟨k, eg, q1, q2⟩
        · exact Or.inl e
        · exact Or.inr (Or.inl ⟨msg, e, k, hk, h0, eg, _, h', eg', q⟩)
        · exact Or.inr (Or.inr ⟨k, _, eg, q1, q2⟩)
      · rcases a5 reason hre with e | ⟨msg, e, k, hk, h0, eg, h', eg', q⟩ | ⟨k, eg, q1, q2⟩
        · exact Or.inl e
        · exact Or.inr (Or.inl ⟨msg, e, k, hk, h0, eg, _, h', eg', q⟩)
        · exact Or.inr (Or.inr ⟨k, eg, q1, q2⟩)
    · next hnone =>
      have hno : ¬ ∀ s i s' b, sch.canStop s i = .ok (s', b) → b = true := by
        intro hall
        obtain ⟨s, s', hcs⟩ := a6 hnone
        exact absurd (hall _ _ _ _ hcs) (by simp)
      split at hl
      · next reason hre =>
        cases hl
        refine ⟨u1, [it], by rw [← fr.its], by simpa using hid, reason, rfl, ?_, fun hall => absurd hall hno⟩
        refine Or.inr (Or.inr ⟨r1.tick, (r1.iterations ++ [it]).length, r1.egraph, u1.size, ?_⟩)
        rw [← fr.lim]
        exact hre
      · obtain ⟨v1, its, v2, v3, reason, v4, v5, v6⟩ := ih _ _ _ (by exact Steps.trans h s1) (by exact c1) (by exact u1) hl
        refine ⟨v1, it :: its, by rw [v2]; simp [fr.its], ?_, reason, v4, ?_, fun hall => absurd hall hno⟩
        · intro x hx
          rcases List.mem_cons.1 hx with rfl | hx
          · exact hid
          · exact v3 x hx
        · rw [← fr.lim]; exact v5

end

end Egg
