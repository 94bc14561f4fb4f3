import Verif.Spec.Eager
import Verif.Props.Still
/-
Runs compared iteration by iteration.
-/
namespace Egg
variable {Op D S H : Type} [DecidableEq Op] [Lang Op]
variable {A : UserAnalysis Op D} {depth : Nat} {allow : Caller Op D}

section
variable {env : RunEnv Op D} {sch : Scheduler Op D S}

theorem Scheduler.Eager.honest (h : sch.Eager env) : sch.Honest env where
  search := fun lim s tick i eg rules s' tick' mss hs rw ms hm =>
    Or.inr ⟨_, ms, mem_zip_forall₂ (h.search _ _ _ _ _ _ _ _ _ hs) hm, Part.refl' _⟩
  apply := fun s i eg rw ms s' eg' n ha => by
    obtain ⟨-, ids, h1, -⟩ := h.apply _ _ _ _ _ _ _ _ ha
    exact ⟨ms, ids, h1, Part.refl' _⟩

theorem Scheduler.Eager.counting (h : sch.Eager env) : sch.Counting env := by
  intro s i eg rw ms s' eg' n ha
  obtain ⟨-, ids, h1, h2⟩ := h.apply _ _ _ _ _ _ _ _ ha
  exact ⟨ms, ids, h1, Part.refl' _, h2⟩

theorem Scheduler.Eager.thorough (h : sch.Eager env) (lim : RunnerLimits) : sch.Thorough env lim (fun _ _ => True) where
  search := fun s tick i eg rules s' tick' res _ _ hs => ⟨trivial, fun mss e s'' _ => by
    subst e
    exact (h.search _ _ _ _ _ _ _ _ _ hs).imp (fun a b hab => ⟨_, hab, Or.inl rfl⟩)⟩
  apply := fun s i eg rw ms s' eg' n ha => by
    obtain ⟨h0, ids, h1, -⟩ := h.apply _ _ _ _ _ _ _ _ ha
    exact ⟨h0, ids, h1⟩
  stop := fun _ _ _ _ _ _ => trivial

end

namespace EGraph
variable {C : Cfg Op D} {eg eg' : EGraph Op D}

/-- Terms of the new e-graph are terms of the old one, if the sizes are the same. -/
theorem rep_back (h : Inv C eg) (h' : Inv C eg') (hp' : eg'.pending = []) (hx : Grow eg eg')
    (hs : eg'.totalSize = eg.totalSize) (hc : eg'.numberOfClasses = eg.numberOfClasses) :
    ∀ (t : Term Op) {c c0 : Id}, Rep eg' c t → c0 < eg.nodes.length → eg'.rt c = eg'.rt c0 → Rep eg c0 t := by
  intro t
  induction t using Term.ind with
  | h op ts ih =>
    intro c c0 hm hc0 e
    rw [h'.rep_iff] at hm
    rw [h.rep_iff]
    obtain ⟨hcl, k, n, hk, h2, rfl, h4⟩ := hm
    obtain ⟨i, m, g1, g2, g3⟩ := h'.core.clsNodes _ _ (EGraph.sk_eq hk) n h2
    obtain ⟨j, mj, f1, f2, f3⟩ := old_node h h' hp' hx hs g1
    have hj := getElem?_lt f1
    have ej : eg.rt j = eg.rt c0 := rt_back h h' hp' hx hs hc hj hc0 (by rw [← f2, g2, e])
    obtain ⟨s, n0, d1, d2, d3⟩ := h.core.nodesCls j mj f1
    obtain ⟨k0, hk0, d4⟩ : ∃ k0, eg.classes.get? (eg.rt j) = some k0 ∧ k0.nodes = s.nodes := by
      unfold EGraph.sk at d1
      cases hq : eg.classes.get? (eg.rt j) with
      | none => rw [hq] at d1; cases d1
      | some k0 => rw [hq] at d1; cases d1; exact ⟨k0, rfl, rfl⟩
    refine ⟨hc0, k0, n0, by rw [← ej]; exact hk0, by rw [d4]; exact d2, by rw [d3.1, ← f3.1, ← g3.1], ?_⟩
    have hn0lt : ∀ d ∈ n0.children, d < eg.nodes.length := h.core.congLt f1 d3
    have hcong : List.Forall₂ (fun a b => eg'.rt a = eg'.rt b) n.children n0.children := by
      have q1 : Cong eg'.rt n0 mj := by
        refine ⟨d3.1, ?_⟩
        rw [← forall₂_map_eq]
        exact forall₂_mono_mem (forall₂_map_eq.2 d3.2) (fun a ha b hb e => hx.rt a b (hn0lt a ha) (h.core.childLt f1 hb) e)
      exact forall₂_map_eq.2 ((g3.trans f3).trans q1.symm).2
    exact forall₂_comp (forall₂_flip hcong) h4 (fun a b q ha _ hq hab hbq => ih q hq hbq (hn0lt a ha) hab)

end EGraph

/-- A search that is not limited finds every match. -/
theorem search_full {U : List (UnionRec Op)} {eg : EGraph Op D} (hd : DiscContiguous Op) {ord ord' : IterOrd}
    (ho : ord.OK eg) (ho' : ord'.OK eg) (hcyc : (A.at depth).allowCycles = true)
    (h : Hist (A.at depth) allow U eg) (hc : eg.clean = true)
    {lp : Pattern Op} {tl : Term (PatOp Op)} (hl : IsPattern lp tl) {max : Nat} {ms ms' : List (SearchMatches Op)}
    (hms : lp.searchWithLimit (A.at depth) eg ord max = .ok ms)
    (hms' : lp.searchWithLimit (A.at depth) eg ord' max = .ok ms') (hmax : (flat ms').length < max) :
    ∀ σ c, PMatch eg σ c tl → ∃ r s, eg.find c = .ok r ∧ (r, s) ∈ flat ms ∧
      ∀ v, Occurs v tl → ∃ x y, σ v = some x ∧ eg.find x = .ok y ∧ s.get v = some y := by
  intro σ c hσ
  have hg := hist_good h
  have hp := (c47_clean_means_rebuilt h hc).pending
  obtain ⟨_, F, hF⟩ := c20_limit_truncates h hc hd ho hl
  obtain ⟨_, F', hF'⟩ := c20_limit_truncates h hc hd ho' hl
  obtain ⟨l0, hl0⟩ := c18_search_complete h hc hd ho hl hcyc
  obtain ⟨l1, hl1⟩ := c18_search_complete h hc hd ho' hl hcyc
  obtain ⟨mb, b1, b2⟩ := hl0 (Max.max l0 F.length) (le_max_left _ _)
  obtain ⟨mb', b1', b2'⟩ := hl1 (Max.max l1 F'.length) (le_max_left _ _)
  have fb : flat mb = F := by
    obtain ⟨m0, k1, k2⟩ := hF (Max.max l0 F.length)
    rw [b1] at k1; cases k1
    rw [k2, List.take_of_length_le (le_max_right _ _)]
  have fb' : flat mb' = F' := by
    obtain ⟨m0, k1, k2⟩ := hF' (Max.max l1 F'.length)
    rw [b1'] at k1; cases k1
    rw [k2, List.take_of_length_le (le_max_right _ _)]
  have hF'max : F'.length < max := by
    obtain ⟨m0, k1, k2⟩ := hF' max
    rw [hms'] at k1; cases k1
    rw [k2, List.length_take] at hmax
    omega
  have hle : F.length ≤ F'.length := by
    refine matches_le hg.inv hg.inv hp (EGraph.Grow.refl _) rfl rfl (t := tl) (fun c s hcs => ?_) ?_ (fun σ c hm => ?_)
    · rw [← fb] at hcs
      obtain ⟨_, k2, k3, k4, _⟩ := c17_search_sound h hc hd ho hl b1 c s hcs
      exact ⟨k2, fun v x hx => ⟨x, k3 v x hx⟩, k4⟩
    · obtain ⟨q1, q2⟩ := (c19_each_match_once h hc hd ho hl).2 mb b1
      rw [← fb]
      exact flat_pairwise q1 (fun m hm => (q2 m hm).2)
    · rw [← fb']; exact b2' σ c hm
  have hfull : flat ms = F := by
    obtain ⟨m0, k1, k2⟩ := hF max
    rw [hms] at k1; cases k1
    rw [k2]
    apply List.take_of_length_le
    omega
  rw [hfull, ← fb]
  exact b2 σ c hσ

section
variable {env : RunEnv Op D} {sch : Scheduler Op D S} {hooks : List (Hook Op D H)} {rules : List (Rewrite Op D)}
  {r r4 : Runner Op D S H} {U : List (UnionRec Op)} {eqs : List (Term (PatOp Op) × Term (PatOp Op))}

/-- After an iteration that is not cut short, the results of all rules on the terms of the e-graph at its
start are there. -/
theorem Runner.runOne_closes (hN : env.analysis = A.at depth) (hord : ∀ i eg, (env.ord i eg).OK eg) (hd : DiscContiguous Op)
    (hcyc : (A.at depth).allowCycles = true) (hs : sch.Eager env) (hh : HooksRead hooks) (hr : RulesAre rules eqs) {it : Iteration}
    (h : Hist (A.at depth) allow U r.egraph) (hc : r.egraph.clean = true) (hfit : ∀ rw' ∈ rules, Fits env r.egraph rw')
    (ho : runOne env sch hooks rules r = .ok (r4, it)) (hnone : it.stopReason = none) :
    ∀ tl t, (tl, t) ∈ eqs → ClosedFrom r.egraph r4.egraph tl t := by
  classical
  obtain ⟨_, r1, res1, r2, ms, r3, applied, res3, eg, nReb, quiet, p1, p2, p3, p4, p5, -, -, -, e2⟩ := runOne_inv ho
  obtain ⟨f1, fs1⟩ := hookPhase_frame p1
  obtain ⟨f2, g2⟩ := searchPhase_frame p2
  obtain ⟨f4, g4⟩ := quietPhase_frame p5
  have g4 : r4.egraph = eg := g4
  have g1 := hookPhase_read hh p1
  rw [hN] at p4
  cases ms with
  | error reason =>
    cases p3
    rw [e2] at hnone
    cases hnone
  | ok mss =>
    have hres : res3 = none := by
      cases res3 with
      | none => rfl
      | some s => rw [e2] at hnone; cases hnone
    subst hres
    unfold searchPhase at p2
    split at p2
    · cases p2
    rw [bind_eq_ok] at p2
    obtain ⟨⟨sS, tick, ms0⟩, k1, k2⟩ := p2
    cases k2
    have full := hs.search _ _ _ _ _ _ _ _ _ k1
    rw [hN] at full
    unfold applyPhase at p3
    dsimp only at p3
    have h1 : Hist (A.at depth) allow U r1.egraph := by rw [g1]; exact h
    have c1 : r1.egraph.clean = true := by rw [g1]; exact hc
    have hall := applyEachRule_thorough (eqs := eqs) (i := r1.iterations.length) hN hord hd (hs.thorough r.limits) h1 c1 _ _ r3 _ _ _ []
      (fun rw' ms hm => ⟨⟨_, mem_zip_forall₂ full hm⟩, by
        obtain ⟨tl, t, q1, q2⟩ := hr.1 rw' (List.of_mem_zip hm).1
        exact ⟨tl, t, q1, q2.pattern⟩⟩) (by exact .refl) p3
    obtain ⟨-, ⟨W, s2, -⟩, hall⟩ := hall
    intro tl t hmem τ s w c hsi hwi hcs
    obtain ⟨rw', hrw, htr⟩ := hr.2 tl t hmem
    obtain ⟨ms, hms⟩ : ∃ ms, (rw', ms) ∈ rules.zip mss := by
      clear hfit hr p3 hall k1 ho
      induction full with
      | nil => cases hrw
      | @cons a b l l' hab _ ih =>
        rcases List.mem_cons.1 hrw with rfl | hrw
        · exact ⟨b, by simp⟩
        · obtain ⟨ms, hm⟩ := ih hrw
          exact ⟨ms, by simp [hm]⟩
    have hlimit := mem_zip_forall₂ full hms
    have hst3 : Steps (A.at depth) allow r3.egraph ([] ++ []) eg := Steps.single (.rebuild p4)
    have hst : Steps (A.at depth) allow r1.egraph _ eg := Steps.trans s2 hst3
    have hce : eg.clean = true := EGraph.rebuild_clean p4
    have hpe : eg.pending = [] := (c47_clean_means_rebuilt (Steps.trans h1 hst) hce).pending
    have happ := hall rfl rw' ms tl t hms htr.pattern _ eg hst3 hpe
    obtain ⟨lp, rp, hl, hlive, hrp, hnew⟩ := htr.pattern
    obtain ⟨hv, hrw'⟩ := rewrite_new_inv hnew
    obtain ⟨ord', ms', w1, w2, w3⟩ := hfit rw' hrw
    rw [hrw'] at hlimit
    rw [hrw', hN] at w2
    rw [← g1] at w1 w2 hcs
    have hgS := hist_good h1
    obtain ⟨hge, gr⟩ := steps_grow hst hgS
    have hpS := (c47_clean_means_rebuilt h1 c1).pending
    let σ : Var → Option Id := fun v => if hx : ∃ x, Rep r1.egraph x (τ v) then some hx.choose else none
    have hσ1 : ∀ v x, σ v = some x → Rep r1.egraph x (τ v) := by
      intro v x hx
      simp only [σ] at hx
      split at hx
      · next he => cases hx; exact he.choose_spec
      · cases hx
    have hσ2 : ∀ v, Occurs v tl → (σ v).isSome := by
      intro v hv
      have := rep_subterm hgS.inv (inst_subterm hsi v hv) hcs
      simp [σ, this]
    have hm := EGraph.InvW.rep_pmatch hgS.inv hpS hσ1 tl hcs hsi hσ2
    obtain ⟨rr, sb, q1, q2, q3⟩ := search_full hd (hord _ _) w1 hcyc h1 c1 hl hlimit w2 w3 σ c hm
    have hrep : Rep eg rr w := hge.inv.pmatch_rep _ (happ rr sb q2) (fun v x hvo hx => by
      obtain ⟨a, b, y1, y2, y3⟩ := q3 v (hlive v (hv v (hrp.occurs_vars hvo)))
      rw [hx] at y3
      cases y3
      have y2 := hgS.inv.find_iff.1 y2
      have := hσ1 v a y1
      exact gr.rep _ _ (hgS.inv.rep_congr (y2.2 ▸ hgS.inv.core.rtLt _ y2.1) (by rw [← y2.2, hgS.inv.core.rtIdem]) this)) hwi
    have q1 := hgS.inv.find_iff.1 q1
    have hcl : c < eg.nodes.length := lt_of_lt_of_le q1.1 gr.len
    refine ⟨c, by rw [g4]; exact gr.rep _ _ hcs, ?_⟩
    rw [g4]
    exact hge.inv.rep_congr hcl (gr.rt _ _ (q1.2 ▸ hgS.inv.core.rtLt _ q1.1) q1.1 (by rw [← q1.2, hgS.inv.core.rtIdem])) hrep

end

theorem Within.trans {D' D'' : Type} {a : EGraph Op D} {b : EGraph Op D'} {c : EGraph Op D''} (h1 : Within a b) (h2 : Within b c) : Within a c := by
  intro i s t hs ht
  obtain ⟨d, h3, h4⟩ := h1 i s t hs ht
  exact h2 d s t h3 h4

theorem EGraph.Grow.within {a b : EGraph Op D} (h : EGraph.Grow a b) : Within a b :=
  fun c _ _ hs ht => ⟨c, h.rep _ _ hs, h.rep _ _ ht⟩

section
variable {env : RunEnv Op D} {sch : Scheduler Op D S} {hooks : List (Hook Op D H)} {rules : List (Rewrite Op D)}
  {r r1 r' : Runner Op D S H}

/-- What a step of the loop does. -/
theorem Runner.runLoop_step {f : Nat} (h : runLoop env sch hooks rules f r = .ok r') :
    ∃ f' r1 it, f = f' + 1 ∧ runOne env sch hooks rules r = .ok (r1, it) ∧ r1.iterations = r.iterations ∧
      ((∃ s, it.stopReason = some s ∧ r' = { r1 with iterations := r1.iterations ++ [it], stopReason := some s }) ∨
       (it.stopReason = none ∧ ∃ s k i eg, r1.limits.check env k i eg = some s ∧ r'.stopReason = some s ∧ r'.egraph = r1.egraph ∧
          r'.iterations = r1.iterations ++ [it]) ∨
       (it.stopReason = none ∧ Runner.after env sch hooks rules 1 r = some { r1 with iterations := r1.iterations ++ [it], tick := r1.tick + 1 } ∧
          runLoop env sch hooks rules f' { r1 with iterations := r1.iterations ++ [it], tick := r1.tick + 1 } = .ok r')) := by
  cases f with
  | zero => cases h
  | succ f =>
    unfold runLoop at h
    rw [bind_eq_ok] at h
    obtain ⟨⟨r1, it⟩, h1, h⟩ := h
    refine ⟨f, r1, it, rfl, h1, (runOne_frame h1).its, ?_⟩
    dsimp only at h
    split at h
    · next s hs => cases h; exact Or.inl ⟨s, hs, rfl⟩
    · next hs =>
      split at h
      · next s hk => cases h; exact Or.inr (Or.inl ⟨hs, s, _, _, _, hk, rfl, rfl, rfl⟩)
      · next hk =>
        refine Or.inr (Or.inr ⟨hs, ?_, h⟩)
        simp [Runner.after, h1, hs, hk]

theorem Runner.after_succ {k : Nat} {rk : Runner Op D S H} (h : Runner.after env sch hooks rules 1 r = some r1)
    (hk : Runner.after env sch hooks rules k r1 = some rk) : Runner.after env sch hooks rules (k + 1) r = some rk := by
  unfold Runner.after at h ⊢
  split at h
  · cases h
  · dsimp only at h ⊢
    split at h
    · cases h
    · next hn =>
      rw [if_neg hn]
      cases h
      exact hk

theorem Runner.runLoop_grows : ∀ (f : Nat) {r r' : Runner Op D S H}, runLoop env sch hooks rules f r = .ok r' →
    r.iterations.length + 1 ≤ r'.iterations.length := by
  intro f
  induction f with
  | zero => intro r r' h; cases h
  | succ f ih =>
    intro r r' h
    obtain ⟨f', r1, it, e, -, h2, h3⟩ := runLoop_step h
    cases e
    rcases h3 with ⟨s, _, rfl⟩ | ⟨_, s, k, i, eg, _, _, _, e⟩ | ⟨_, _, h4⟩
    · simp [h2]
    · simp [e, h2]
    · have := ih h4
      simp [h2] at this
      omega

end

section
variable {S' H' : Type} {env env' : RunEnv Op D} {sch : Scheduler Op D S} {sch' : Scheduler Op D S'} {hooks : List (Hook Op D H)}
  {hooks' : List (Hook Op D H')} {rules rules' : List (Rewrite Op D)} {eqs : List (Term (PatOp Op) × Term (PatOp Op))}

/-- One iteration of each run. -/
theorem Runner.runOne_within (hA : ∀ i, A.modify i = .done) (hN : env.analysis = A.at depth) (hord : ∀ i eg, (env.ord i eg).OK eg)
    (hN' : env'.analysis = A.at depth) (hord' : ∀ i eg, (env'.ord i eg).OK eg)
    (hd : DiscContiguous Op) (hcyc : (A.at depth).allowCycles = true) (hs : sch.Honest env) (hs' : sch'.Eager env') (hh : HooksRead hooks)
    (hh' : HooksRead hooks') (hr : AreTightRules rules eqs) (hr' : RulesAre rules' eqs)
    {a a1 : Runner Op D S H} {b b1 : Runner Op D S' H'} {U U' : List (UnionRec Op)} {it it' : Iteration}
    (h : Hist (A.at depth) allow U a.egraph) (hc : a.egraph.clean = true) (h' : Hist (A.at depth) allow U' b.egraph) (hc' : b.egraph.clean = true)
    (hfit : ∀ rw' ∈ rules', Fits env' b.egraph rw') (hw : Within a.egraph b.egraph)
    (ho : runOne env sch hooks rules a = .ok (a1, it)) (ho' : runOne env' sch' hooks' rules' b = .ok (b1, it')) (hnone : it'.stopReason = none) :
    Within a1.egraph b1.egraph := by
  have hcl := runOne_closes hN' hord' hd hcyc hs' hh' hr' h' hc' hfit ho' hnone
  have ht' : AreTightRules rules' eqs := hr'.1
  obtain ⟨c1, ⟨V, s1, -⟩, -⟩ := runOne_reach hN' hord' hd hs'.honest (hh'.ok (N := A.at depth) (allow := allow)) ht'.areRules h' hc' ho'
  have gr := (steps_grow s1 (hist_good h')).2
  have hF := Full.of_hist (Steps.trans h' s1) c1
  refine (runOne_under (hM := hF) hA hN hord hd hs hh hr (fun tl t ht τ s w d h1 h2 h3 => ?_) h hc
    (Under.of_below hA h (hw.trans gr.within)) ho).below
  obtain ⟨d', h4, -⟩ := hw d s s h3 h3
  exact hcl tl t ht τ s w d' h1 h2 h4

theorem Runner.runLoop_within (hA : ∀ i, A.modify i = .done) (hN : env.analysis = A.at depth) (hord : ∀ i eg, (env.ord i eg).OK eg)
    (hN' : env'.analysis = A.at depth) (hord' : ∀ i eg, (env'.ord i eg).OK eg)
    (hd : DiscContiguous Op) (hcyc : (A.at depth).allowCycles = true) (hs : sch.Honest env) (hs' : sch'.Eager env') (hh : HooksRead hooks)
    (hh' : HooksRead hooks') (hr : AreTightRules rules eqs) (hr' : RulesAre rules' eqs) :
    ∀ (f f' : Nat) (a a' : Runner Op D S H) (b b' : Runner Op D S' H') (U U' : List (UnionRec Op)),
    Hist (A.at depth) allow U a.egraph → a.egraph.clean = true → Hist (A.at depth) allow U' b.egraph → b.egraph.clean = true →
    (∀ k bk, Runner.after env' sch' hooks' rules' k b = some bk → ∀ rw' ∈ rules', Fits env' bk.egraph rw') → Within a.egraph b.egraph →
    runLoop env sch hooks rules f a = .ok a' → runLoop env' sch' hooks' rules' f' b = .ok b' →
    a'.iterations.length + b.iterations.length ≤ b'.iterations.length + a.iterations.length →
    (∀ it, b'.iterations.getLast? = some it → it.stopReason = none) → Within a'.egraph b'.egraph := by
  intro f
  have ht' : AreTightRules rules' eqs := hr'.1
  induction f with
  | zero => intro f' a a' b b' U U' _ _ _ _ _ _ h; cases h
  | succ f ih =>
    intro f' a a' b b' U U' h hc h' hc' hfit hw hl hl' hlen hlast
    obtain ⟨fa, a1, it, e, ha1, ha2, ha3⟩ := runLoop_step hl
    cases e
    obtain ⟨fb, b1, it', e, hb1, hb2, hb3⟩ := runLoop_step hl'
    cases e
    obtain ⟨ca, ⟨Va, sa, -⟩, -⟩ := runOne_reach hN hord hd hs (hh.ok (N := A.at depth) (allow := allow)) hr.areRules h hc ha1
    obtain ⟨cb, ⟨Vb, sb, -⟩, -⟩ := runOne_reach hN' hord' hd hs'.honest (hh'.ok (N := A.at depth) (allow := allow)) ht'.areRules h' hc' hb1
    have hnone : it'.stopReason = none := by
      rcases hb3 with ⟨s, h1, h2⟩ | ⟨h1, _⟩ | ⟨h1, _⟩
      · exact hlast it' (by rw [h2]; simp)
      · exact h1
      · exact h1
    have hw1 := runOne_within hA hN hord hN' hord' hd hcyc hs hs' hh hh' hr hr' h hc h' hc' (hfit 0 b rfl) hw ha1 hb1 hnone
    have hgb : Within b1.egraph b'.egraph := by
      rcases hb3 with ⟨s, h1, rfl⟩ | ⟨_, _, _, _, _, _, _, e, _⟩ | ⟨_, _, h1⟩
      · exact (EGraph.Grow.refl _).within
      · rw [e]; exact (EGraph.Grow.refl _).within
      · obtain ⟨-, V, s2, -⟩ := runLoop_reach hN' hord' hd hs'.honest (hh'.ok (N := A.at depth) (allow := allow)) ht'.areRules fb _ _ _
          (by exact Steps.trans h' sb) (by exact cb) h1
        exact (steps_grow s2 (hist_good (Steps.trans h' sb))).2.within
    rcases ha3 with ⟨s, _, rfl⟩ | ⟨_, _, _, _, _, _, _, e, _⟩ | ⟨_, _, ha4⟩
    · exact hw1.trans hgb
    · rw [e]; exact hw1.trans hgb
    · have hga := runLoop_grows _ ha4
      simp only [List.length_append, List.length_singleton, ha2] at hga
      rcases hb3 with ⟨s, h1, rfl⟩ | ⟨_, _, _, _, _, _, _, _, e⟩ | ⟨_, hb4, hb5⟩
      · rw [hnone] at h1; cases h1
      · rw [e, hb2, List.length_append, List.length_singleton] at hlen
        omega
      · refine ih fb _ a' _ b' _ _ (by exact Steps.trans h sa) (by exact ca) (by exact Steps.trans h' sb) (by exact cb)
          (fun k bk hk => hfit (k + 1) bk (after_succ hb4 hk)) (by exact hw1) ha4 hb5 ?_ hlast
        simp only [List.length_append, List.length_singleton, ha2, hb2]
        omega

/-- A run with an eager scheduler takes no more iterations than a run that saturates. -/
theorem Runner.runLoop_fastest (hA : ∀ i, A.modify i = .done) (hN : env.analysis = A.at depth) (hord : ∀ i eg, (env.ord i eg).OK eg)
    (hN' : env'.analysis = A.at depth) (hord' : ∀ i eg, (env'.ord i eg).OK eg)
    (hd : DiscContiguous Op) (hcyc : (A.at depth).allowCycles = true) (hs : sch.Honest env) (hlim : sch.Limited env)
    (hs' : sch'.Eager env') (hlim' : sch'.Limited env') (hh : HooksRead hooks)
    (hh' : HooksRead hooks') (hr : AreTightRules rules eqs) (hr' : RulesAre rules' eqs) :
    ∀ (f f' : Nat) (a a' : Runner Op D S H) (b b' : Runner Op D S' H') (U U' : List (UnionRec Op)),
    Hist (A.at depth) allow U a.egraph → a.egraph.clean = true → Hist (A.at depth) allow U' b.egraph → b.egraph.clean = true →
    b.egraph.apending.queue = [] →
    (∀ k bk, Runner.after env' sch' hooks' rules' k b = some bk → ∀ rw' ∈ rules', Fits env' bk.egraph rw') → Within a.egraph b.egraph →
    (∀ tl t, (tl, t) ∈ eqs → ClosedUnder a'.egraph tl t) → Within b.egraph a'.egraph →
    runLoop env sch hooks rules f a = .ok a' → a'.stopReason = some .saturated → runLoop env' sch' hooks' rules' f' b = .ok b' →
    b'.iterations.length + a.iterations.length ≤ a'.iterations.length + b.iterations.length := by
  intro f
  have ht' : AreTightRules rules' eqs := hr'.1
  induction f with
  | zero => intro f' a a' b b' U U' _ _ _ _ _ _ _ _ _ h; cases h
  | succ f ih =>
    intro f' a a' b b' U U' h hc h' hc' hap hfit hw hcl hwM hl hsat hl'
    have hgr := runLoop_grows _ hl
    obtain ⟨cM, VM, sM, -⟩ := runLoop_reach hN hord hd hs (hh.ok (N := A.at depth) (allow := allow)) hr.areRules _ _ _ _ h hc hl
    obtain ⟨fa, a1, it, e, ha1, ha2, ha3⟩ := runLoop_step hl
    cases e
    obtain ⟨fb, b1, it', e, hb1, hb2, hb3⟩ := runLoop_step hl'
    cases e
    obtain ⟨ca, ⟨Va, sa, -⟩, -⟩ := runOne_reach hN hord hd hs (hh.ok (N := A.at depth) (allow := allow)) hr.areRules h hc ha1
    obtain ⟨cb, ⟨Vb, sb, -⟩, -⟩ := runOne_reach hN' hord' hd hs'.honest (hh'.ok (N := A.at depth) (allow := allow)) ht'.areRules h' hc' hb1
    have hFM := Full.of_hist (Steps.trans h sM) cM
    rcases hb3 with ⟨s, h1, rfl⟩ | ⟨_, _, _, _, _, _, _, _, e⟩ | ⟨hnone, hb4, hb5⟩
    · simp only [List.length_append, List.length_singleton, hb2]; omega
    · rw [e, List.length_append, List.length_singleton, hb2]; omega
    rcases ha3 with ⟨s, hst, rfl⟩ | ⟨_, s, k, i, eg, hk, hst, _, _⟩ | ⟨_, _, ha4⟩
    · -- the other run saturates in this iteration
      exfalso
      cases hsat
      obtain ⟨_, q1, res1, q2, ms, q3, applied, res3, eg, nReb, quiet, p1, p2, p3, p4, p5, -, -, -, e2⟩ := runOne_inv ha1
      have hsz : a.egraph.totalSize = a1.egraph.totalSize ∧ a.egraph.numberOfClasses = a1.egraph.numberOfClasses := by
        rw [e2] at hst
        cases res3 with
        | some s =>
          exfalso
          injection hst with hst
          subst hst
          cases ms with
          | error reason =>
            cases p3
            unfold searchPhase at p2
            split at p2
            · cases p2
              unfold hookPhase at p1
              split at p1
              · next hk => cases p1; exact check_ne_saturated hk
              · rw [bind_eq_ok] at p1
                obtain ⟨⟨h1, eg1, o⟩, k1, k2⟩ := p1
                cases o <;> cases k2
            · rw [bind_eq_ok] at p2
              obtain ⟨⟨s1, tick, ms0⟩, k1, k2⟩ := p2
              cases k2
              obtain ⟨k, hk⟩ := hlim _ _ _ _ _ _ _ _ _ k1
              exact check_ne_saturated hk
          | ok mss =>
            obtain ⟨k, hk⟩ := applyEachRule_reason _ p3
            exact check_ne_saturated hk
        | none =>
          simp only [] at hst
          split at hst
          swap
          · cases hst
          next hq =>
          simp only [Bool.and_eq_true, decide_eq_true_eq] at hq
          exact ⟨hq.1.2, hq.2⟩
      have hga := hist_good h
      obtain ⟨hg1, gr1⟩ := steps_grow sa hga
      have hMa : Within a1.egraph a.egraph := by
        intro c s t h1 h2
        obtain ⟨j, hj, e⟩ := EGraph.old_id hga.inv hg1.inv hFM.pending gr1 hsz.1.symm (hg1.inv.rep_lt h1)
        exact ⟨j, EGraph.rep_back hga.inv hg1.inv hFM.pending gr1 hsz.1.symm hsz.2.symm s h1 hj e,
          EGraph.rep_back hga.inv hg1.inv hFM.pending gr1 hsz.1.symm hsz.2.symm t h2 hj e⟩
      have hMb : Within a1.egraph b.egraph := hMa.trans hw
      have hFb := Full.of_hist h' hc'
      have hclb : ∀ tl t, (tl, t) ∈ eqs → ClosedTerms b.egraph tl t := by
        intro tl t ht τ s w d h1 h2 h3
        obtain ⟨d', h4, -⟩ := hwM d s s h3 h3
        have h5 := closedTerms_of hFM (hcl tl t ht) τ s w d' h1 h2 h4
        obtain ⟨d2, h6, h7⟩ := hMb d' s w h4 h5
        exact (hFb.rel h6 h7 d).1 h3
      obtain ⟨-, -, -, -, -, -, hcan⟩ := runOne_still (hM := hFb) hA hN' hord' hd hs'.honest hs'.counting hlim' hh' ht' hclb h' hc' (Still.start hA h' hc' hap) hb1
      obtain ⟨s, s', hcan⟩ := hcan hnone
      exact absurd (hs'.stop _ _ _ _ hcan) (by simp)
    · rw [hst] at hsat
      cases hsat
      exact absurd hk check_ne_saturated
    · have hw1 := runOne_within hA hN hord hN' hord' hd hcyc hs hs' hh hh' hr hr' h hc h' hc' (hfit 0 b rfl) hw ha1 hb1 hnone
      have hu := Under.of_below (hM := hFM) hA h' hwM
      have hu1 := runOne_under (hM := hFM) hA hN' hord' hd hs'.honest hh' ht'
        (fun tl t ht => (closedTerms_of hFM (hcl tl t ht)).closedFrom hu) h' hc' hu hb1
      obtain ⟨V1, g1, fuel, n1, hj1, hj2⟩ := runOne_last hN' hord' hd hs'.honest (hh'.ok (N := A.at depth) (allow := allow)) ht'.areRules h' hc' hb1
      have := ih fb _ a' _ b' _ _ (by exact Steps.trans h sa) (by exact ca) (by exact Steps.trans h' sb) (by exact cb)
          (by exact (rebuilt_tidy hj1 hj2).2.apending) (fun k bk hk => hfit (k + 1) bk (after_succ hb4 hk)) (by exact hw1) hcl (by exact hu1.below) ha4 hsat hb5
      simp only [List.length_append, List.length_singleton, ha2, hb2] at this
      omega

end
end Egg
