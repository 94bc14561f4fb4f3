import Verif.Lemmas.Run
import Verif.Props.Backoff
/-
Lemmas about saturation (C26).
-/
namespace Egg
variable {Op D S H : Type} [DecidableEq Op] [Lang Op]
variable {A : UserAnalysis Op D} {depth : Nat} {allow : Caller Op D}

omit [DecidableEq Op] [Lang Op] in
theorem termOf_subterm {e : List (ENode Op)} {s t : Term Op} (hs : Subterm s t) : ∀ {i : Id}, TermOf e i t → ∃ j, TermOf e j s := by
  induction hs with
  | refl => intro i h; exact ⟨i, h⟩
  | @arg op ts t h1 h2 ih =>
    intro i h
    obtain ⟨n, _, _, h3⟩ := termOf_iff.1 h
    obtain ⟨x, hx, hr⟩ := forall₂_mem_left (forall₂_flip h3) h1
    exact ih hr

theorem IsPattern.occurs_vars {p : Pattern Op} {t : Term (PatOp Op)} (h : IsPattern p t) {v : Var} (hv : Occurs v t) : v ∈ p.vars := by
  obtain ⟨j, hj⟩ := termOf_subterm hv h.wf.2.2
  obtain ⟨n, h1, h2, _⟩ := termOf_iff.1 hj
  exact mem_vars.2 ⟨n, List.mem_of_getElem? h1, h2⟩

/-- C23 at a later time: the instance is in the class of the match in any later state without
pending congruences. -/
theorem apply_later {U : List (UnionRec Op)} {eg eg' g : EGraph Op D} {tl t : Term (PatOp Op)} {rp : Pattern Op}
    {ms : List (SearchMatches Op)} (h : Hist (A.at depth) allow U eg) (hp : IsPattern rp t) (ha : Applicable eg tl rp ms)
    {rule : Symbol} {ids : List Id}
    (he : rp.applyMatches (A.at depth) eg ms rule = .ok (eg', ids)) {W : List (UnionRec Op)} (hst : Steps (A.at depth) allow eg' W g)
    (hpend : g.pending = []) : ∀ c s, (c, s) ∈ flat ms → PMatch g s.get c t := by
  intro c s hcs
  have hg := hist_good h
  have hap := c23_apply_matches h hp ha he
  have hN := (soundFor_true A).hookOK trivial depth
  obtain ⟨U', s1, g1, x1, k1, k2⟩ := EGraph.Applies.result (allow := allow) hN
    (fun _ _ => trivial) (fun _ _ _ => trivial) hg hap hg (EGraph.Grow.refl _) (fun c s hcs => ⟨ha.pmatch c s hcs, fun v x hx => hg.valid_iff.1 (ha.valid c s hcs v x hx)⟩)
  obtain ⟨i, j, q1, q2, q3⟩ := k2 c s hcs
  obtain ⟨g2, x2⟩ := steps_grow hst g1
  have hpc : PMatch g s.get c tl := x2.pmatch g1.inv g2.inv (x1.pmatch hg.inv g1.inv (ha.pmatch c s hcs))
  have hjc : SameClass g j c := by
    rcases q1 with rfl | q1
    · rw [g2.inv.sameClass_iff]
      have := g2.inv.pmatch_lt hpc
      exact ⟨this, this, rfl⟩
    · have q1 := x2.pmatch g1.inv g2.inv q1.2
      rw [g2.inv.sameClass_iff]
      exact ⟨g2.inv.pmatch_lt q1, g2.inv.pmatch_lt hpc, (g2.inv.sameClass_iff.1 (EGraph.InvW.pmatch_det g2.inv hpend _ q1 hpc)).2.2⟩
  have hij : SameClass g i j := by
    rw [g1.inv.sameClass_iff] at q3
    rw [g2.inv.sameClass_iff]
    exact ⟨lt_of_lt_of_le q3.1 x2.len, lt_of_lt_of_le q3.2.1 x2.len, x2.rt _ _ q3.1 q3.2.1 q3.2.2⟩
  exact g2.inv.pmatch_congr (g2.inv.sameClass_trans hij hjc) (x2.pmatch g1.inv g2.inv q2)

section
variable {env : RunEnv Op D} {sch : Scheduler Op D S} {lim : RunnerLimits} {I : Nat → S → Prop} {U : List (UnionRec Op)}
  {eqs : List (Term (PatOp Op) × Term (PatOp Op))}

/-- Applying all rules completely. -/
theorem Runner.applyEachRule_thorough {i : Nat} (hN : env.analysis = A.at depth) (hord : ∀ i eg, (env.ord i eg).OK eg)
    (hd : DiscContiguous Op) (hs : sch.Thorough env lim I) {egS : EGraph Op D} (h : Hist (A.at depth) allow U egS) (hc : egS.clean = true) :
    ∀ (l : List (Rewrite Op D × List (SearchMatches Op))) (r r1 : Runner Op D S H) (ap ap' : AMap Symbol Nat) (o : Option StopReason)
      (V : List (UnionRec Op)),
    (∀ rw' ms, (rw', ms) ∈ l → (∃ limit, rw'.searcher.search (A.at depth) egS (env.ord i egS) limit = .ok ms) ∧
      ∃ tl t, (tl, t) ∈ eqs ∧ PatternRule rw' tl t) →
    Steps (A.at depth) allow egS V r.egraph →
    applyEachRule env sch l r ap = .ok (r1, ap', o) →
    r1.scheduler = r.scheduler ∧ Reach (A.at depth) allow (RunEquation eqs fun _ _ => False) r.egraph r1.egraph ∧
    (o = none → ∀ rw' ms tl t, (rw', ms) ∈ l → PatternRule rw' tl t → ∀ W g, Steps (A.at depth) allow r1.egraph W g → g.pending = [] →
      ∀ c s, (c, s) ∈ flat ms → PMatch g s.get c t) := by
  intro l
  induction l with
  | nil => intro r r1 ap ap' o V _ _ h; cases h; exact ⟨rfl, Reach.rfl', by simp⟩
  | cons x l ih =>
    intro r r1 ap ap' o V hl hst ha
    obtain ⟨rw0, ms0⟩ := x
    unfold applyEachRule at ha
    rw [bind_eq_ok] at ha
    obtain ⟨⟨s, eg, n⟩, h1, ha⟩ := ha
    obtain ⟨rfl, ids, h2⟩ := hs.apply _ _ _ _ _ _ _ _ h1
    obtain ⟨⟨limit, hlim⟩, tl, t, hm, hr⟩ := hl rw0 ms0 (by simp)
    rw [hN] at h2
    have hf : Found env i egS rw0 ms0 := found_of_search (limit := limit) (by rw [hN]; exact hlim)
    have rc : Reach (A.at depth) allow (RunEquation eqs fun _ _ => False) r.egraph eg :=
      (hr.reach hN hord hd h hc hf (Part.refl' _) hst h2).mono (fun _ _ h => h.run hm)
    dsimp only at ha
    split at ha
    · cases ha; exact ⟨rfl, rc, by simp⟩
    · obtain ⟨W0, s1, q1⟩ := rc
      obtain ⟨e1, ⟨W1, s2, q2⟩, k⟩ := ih _ r1 _ ap' o _ (fun a b hab => hl a b (by simp [hab])) (Steps.trans hst s1) ha
      refine ⟨e1, Reach.trans ⟨W0, s1, q1⟩ ⟨W1, s2, q2⟩, fun ho rw' ms tl' t' hmem hr' W g hg hp => ?_⟩
      rcases List.mem_cons.1 hmem with e | hmem
      · cases e
        obtain ⟨lp, rp, hl', hlive, hrp, hnew⟩ := hr'
        obtain ⟨hv, hrw⟩ := rewrite_new_inv hnew
        have hap := found_applicable hN hord hd hl' hlive hv (by rw [hrw]) h hc hf (Part.refl' _) hst
        rw [hrw] at h2
        exact apply_later (Steps.trans h hst) hrp hap (rule := rw0.name) h2 (Steps.trans s2 hg) hp
      · exact k ho rw' ms tl' t' hmem hr' W g hg hp

end

/-- If nothing was lost or gained between two states, the earlier has no more matches. -/
theorem matches_le {C : Cfg Op D} {eg eg' : EGraph Op D} (h : EGraph.Inv C eg) (h' : EGraph.Inv C eg') (hp' : eg'.pending = [])
    (hx : EGraph.Grow eg eg') (hs : eg'.totalSize = eg.totalSize) (hc : eg'.numberOfClasses = eg.numberOfClasses)
    {t : Term (PatOp Op)} {F F' : List (Id × Subst)}
    (h1 : ∀ c s, (c, s) ∈ F → (∀ v, (∃ x, s.get v = some x) ↔ Occurs v t) ∧ (∀ v x, s.get v = some x → Valid eg x) ∧ PMatch eg s.get c t)
    (h2 : F.Pairwise (fun a b => ¬ (SameClass eg a.1 b.1 ∧ SubstEq eg a.2 b.2)))
    (h3 : ∀ (σ : Var → Option Id) (c : Id), PMatch eg' σ c t → ∃ r s, eg'.find c = .ok r ∧ (r, s) ∈ F' ∧
      ∀ v, Occurs v t → ∃ x y, σ v = some x ∧ eg'.find x = .ok y ∧ s.get v = some y) : F.length ≤ F'.length := by
  classical
  have hch : ∀ a : Id × Subst, ∃ b : Id × Subst, a ∈ F → b ∈ F' ∧ eg'.find a.1 = .ok b.1 ∧
      ∀ v, Occurs v t → ∃ x y, a.2.get v = some x ∧ eg'.find x = .ok y ∧ b.2.get v = some y := by
    intro a
    by_cases ha : a ∈ F
    · obtain ⟨r, s, k1, k2, k3⟩ := h3 a.2.get a.1 (hx.pmatch h h' (h1 a.1 a.2 ha).2.2)
      exact ⟨(r, s), fun _ => ⟨k2, k1, k3⟩⟩
    · exact ⟨a, fun h => absurd h ha⟩
  choose f hf using hch
  have hnd : (F.map f).Nodup := by
    rw [List.nodup_iff_pairwise_ne, List.pairwise_map]
    refine h2.imp_of_mem ?_
    intro a b ha hb hne e
    obtain ⟨a1, a2, a3⟩ := hf a ha
    obtain ⟨b1, b2, b3⟩ := hf b hb
    obtain ⟨oa, va, ma⟩ := h1 a.1 a.2 ha
    obtain ⟨ob, vb, mb⟩ := h1 b.1 b.2 hb
    apply hne
    constructor
    · rw [h.sameClass_iff]
      refine ⟨h.pmatch_lt ma, h.pmatch_lt mb, EGraph.rt_back h h' hp' hx hs hc (h.pmatch_lt ma) (h.pmatch_lt mb) ?_⟩
      rw [(h'.find_iff.1 a2).2, (h'.find_iff.1 b2).2, e]
    · intro v
      by_cases hv : Occurs v t
      · right
        obtain ⟨x, y, p1, p2, p3⟩ := a3 v hv
        obtain ⟨x', y', q1, q2, q3⟩ := b3 v hv
        refine ⟨x, x', p1, q1, ?_⟩
        have hxl := (EGraph.InvW.valid_iff h).1 (va v x p1)
        have hxl' := (EGraph.InvW.valid_iff h).1 (vb v x' q1)
        rw [h.sameClass_iff]
        refine ⟨hxl, hxl', EGraph.rt_back h h' hp' hx hs hc hxl hxl' ?_⟩
        rw [e, q3] at p3
        cases p3
        rw [(h'.find_iff.1 p2).2, (h'.find_iff.1 q2).2]
      · left
        constructor
        · by_contra hn
          exact hv ((oa v).1 (Option.ne_none_iff_exists'.1 hn))
        · by_contra hn
          exact hv ((ob v).1 (Option.ne_none_iff_exists'.1 hn))
  have hsub : F.map f ⊆ F' := by
    intro b hb
    obtain ⟨a, ha, rfl⟩ := List.mem_map.1 hb
    exact (hf a ha).1
  have := (List.subperm_of_subset hnd hsub).length_le
  simpa using this

/-- The flat list of matches of a search has each match once. -/
theorem flat_pairwise {eg : EGraph Op D} {ms : List (SearchMatches Op)}
    (h1 : ms.Pairwise (fun m m' => ¬ SameClass eg m.eclass m'.eclass))
    (h2 : ∀ m ∈ ms, m.substs.Pairwise (fun s s' => ¬ SubstEq eg s s')) :
    (flat ms).Pairwise (fun a b => ¬ (SameClass eg a.1 b.1 ∧ SubstEq eg a.2 b.2)) := by
  unfold flat
  induction ms with
  | nil => simp
  | cons m ms ih =>
    rw [List.flatMap_cons, List.pairwise_append]
    rw [List.pairwise_cons] at h1
    refine ⟨?_, ih h1.2 (fun m hm => h2 m (by simp [hm])), ?_⟩
    · rw [List.pairwise_map]
      exact (h2 m (by simp)).imp (fun hn hh => hn hh.2)
    · intro a ha b hb hh
      obtain ⟨s, _, rfl⟩ := List.mem_map.1 ha
      obtain ⟨m', hm', hb⟩ := List.mem_flatMap.1 hb
      obtain ⟨s', _, rfl⟩ := List.mem_map.1 hb
      exact h1.1 m' hm' hh.1


/-- The heart of C26: if all rules were searched completely in `egS` and all matches applied, and
the sizes are the same afterwards, then the final e-graph is closed under the rules. -/
theorem closed_of_quiet {U V : List (UnionRec Op)} {egS eg' : EGraph Op D} (hd : DiscContiguous Op) {ord ord' : IterOrd}
    (ho : ord.OK egS) (ho' : ord'.OK eg') (hcyc : (A.at depth).allowCycles = true)
    (h : Hist (A.at depth) allow U egS) (hc : egS.clean = true) (hst : Steps (A.at depth) allow egS V eg') (hc' : eg'.clean = true)
    (hs : eg'.totalSize = egS.totalSize) (hcl : eg'.numberOfClasses = egS.numberOfClasses)
    {lp rp : Pattern Op} {tl t : Term (PatOp Op)} (hl : IsPattern lp tl) (hlive : ∀ v ∈ lp.vars, Occurs v tl) (hr : IsPattern rp t)
    (hv : ∀ v ∈ rp.vars, v ∈ lp.vars) {limit max : Nat} {ms ms' : List (SearchMatches Op)}
    (hms : lp.searchWithLimit (A.at depth) egS ord limit = .ok ms) (hlim : limit = max ∨ (flat ms).length < limit)
    (hms' : lp.searchWithLimit (A.at depth) eg' ord' max = .ok ms') (hmax : (flat ms').length < max)
    (happ : ∀ c s, (c, s) ∈ flat ms → PMatch eg' s.get c t) :
    ∀ σ c, PMatch eg' σ c tl → PMatch eg' σ c t := by
  classical
  intro σ c hσ
  have hv0 : ∀ v, Occurs v t → v ∈ lp.vars := fun v ho => hv v (hr.occurs_vars ho)
  have hg := hist_good h
  obtain ⟨g', hx⟩ := steps_grow hst hg
  have h' : Hist (A.at depth) allow _ eg' := Steps.trans h hst
  have hp' : eg'.pending = [] := (c47_clean_means_rebuilt h' hc').pending
  -- the full lists
  obtain ⟨_, F, hF⟩ := c20_limit_truncates h hc hd ho hl
  obtain ⟨_, F', hF'⟩ := c20_limit_truncates h' hc' hd ho' hl
  obtain ⟨l0, hl0⟩ := c18_search_complete h hc hd ho hl hcyc
  obtain ⟨l1, hl1⟩ := c18_search_complete h' hc' hd ho' hl hcyc
  obtain ⟨mb, b1, b2⟩ := hl0 (Max.max l0 F.length) (le_max_left _ _)
  obtain ⟨mb', b1', b2'⟩ := hl1 (Max.max l1 F'.length) (le_max_left _ _)
  have fb : flat mb = F := by
    obtain ⟨m0, k1, k2⟩ := hF (Max.max l0 F.length)
    rw [b1] at k1; cases k1
    rw [k2, List.take_of_length_le (le_max_right _ _)]
  have fb' : flat mb' = F' := by
    obtain ⟨m0, k1, k2⟩ := hF' (Max.max l1 F'.length)
    rw [b1'] at k1; cases k1
    rw [k2, List.take_of_length_le (le_max_right _ _)]
  have hF'max : F'.length < max := by
    obtain ⟨m0, k1, k2⟩ := hF' max
    rw [hms'] at k1; cases k1
    rw [k2, List.length_take] at hmax
    omega
  have hle : F.length ≤ F'.length := by
    refine matches_le hg.inv g'.inv hp' hx hs hcl (t := tl) (fun c s hcs => ?_) ?_ (fun σ c hm => ?_)
    · rw [← fb] at hcs
      obtain ⟨_, k2, k3, k4, _⟩ := c17_search_sound h hc hd ho hl b1 c s hcs
      exact ⟨k2, fun v x hx => ⟨x, k3 v x hx⟩, k4⟩
    · obtain ⟨q1, q2⟩ := (c19_each_match_once h hc hd ho hl).2 mb b1
      rw [← fb]
      exact flat_pairwise q1 (fun m hm => (q2 m hm).2)
    · rw [← fb']; exact b2' σ c hm
  have hfull : flat ms = F := by
    obtain ⟨m0, k1, k2⟩ := hF limit
    rw [hms] at k1; cases k1
    rw [k2]
    apply List.take_of_length_le
    rcases hlim with rfl | hlim
    · omega
    · rw [k2, List.length_take] at hlim
      omega
  -- the match in the searched e-graph
  have hcl' := g'.inv.pmatch_lt hσ
  obtain ⟨c0, hc0, ec⟩ := EGraph.old_id hg.inv g'.inv hp' hx hs hcl'
  have hold : ∀ x, ∃ x0, x < eg'.nodes.length → x0 < egS.nodes.length ∧ eg'.rt x = eg'.rt x0 := by
    intro x
    by_cases hxl : x < eg'.nodes.length
    · obtain ⟨x0, h1, h2⟩ := EGraph.old_id hg.inv g'.inv hp' hx hs hxl
      exact ⟨x0, fun _ => ⟨h1, h2⟩⟩
    · exact ⟨x, fun h => absurd h hxl⟩
  choose old hold using hold
  have hm0 : PMatch egS (fun v => (σ v).map old) c0 tl :=
    EGraph.pmatch_back hg.inv g'.inv hp' hx hs hcl (fun v x hv hxl => ⟨old x, by simp [hv], hold x hxl⟩) tl hσ hc0 ec
  obtain ⟨r, s, k1, k2, k3⟩ := b2 _ c0 hm0
  rw [fb, ← hfull] at k2
  have happ := happ r s k2
  have hr0 : eg'.rt r = eg'.rt c0 := by
    have := hg.inv.find_iff.1 k1
    have hrl : r < egS.nodes.length := this.2 ▸ hg.inv.core.rtLt _ this.1
    exact hx.rt _ _ hrl hc0 (by rw [← this.2, hg.inv.core.rtIdem])
  have hrc : SameClass eg' r c := by
    rw [g'.inv.sameClass_iff]
    exact ⟨g'.inv.pmatch_lt happ, hcl', by rw [hr0, ec]⟩
  refine PMatch.mono (fun v y hv hy => ?_) (g'.inv.pmatch_congr hrc happ)
  obtain ⟨x0, y', q1, q2, q3⟩ := k3 v (hlive v (hv0 v hv))
  rw [hy] at q3; cases q3
  cases hz : σ v with
  | none => simp [hz] at q1
  | some z =>
    simp only [hz, Option.map_some, Option.some.injEq] at q1
    refine ⟨z, rfl, fun w hw => ?_⟩
    have hzl : z < eg'.nodes.length := by
      obtain ⟨z', hz', hz2⟩ := g'.inv.pmatch_bound _ hσ v (hlive v (hv0 v hv))
      rw [hz] at hz'; cases hz'; exact hz2
    obtain ⟨o1, o2⟩ := hold z hzl
    have := hg.inv.find_iff.1 q2
    have hyl : y < egS.nodes.length := this.2 ▸ hg.inv.core.rtLt _ this.1
    have e1 : eg'.rt y = eg'.rt x0 := hx.rt _ _ hyl this.1 (by rw [← this.2, hg.inv.core.rtIdem])
    rw [g'.inv.sameClass_iff] at hw ⊢
    refine ⟨hzl, hw.2.1, ?_⟩
    rw [o2, q1, ← e1]
    exact hw.2.2

end Egg
