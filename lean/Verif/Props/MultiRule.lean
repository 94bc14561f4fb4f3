import Verif.Lemmas.MultiRule
import Verif.Props.Run
/-
C62: rules between multi-patterns, and runs with rules of any kind.
-/
namespace Egg
variable {Op D S H : Type} [DecidableEq Op] [Lang Op]
variable {A : UserAnalysis Op D} {depth : Nat} {allow : Caller Op D}
variable {env : RunEnv Op D} {sch : Scheduler Op D S} {hooks : List (Hook Op D H)} {rules : List (Rewrite Op D)}
  {Q R : Term Op → Term Op → Prop}
  {r r' : Runner Op D S H} {U V : List (UnionRec Op)} {ls rs : List (Var × Term (PatOp Op))} {rw' : Rewrite Op D}
  {egS eg eg' : EGraph Op D} {ms ms' : List (SearchMatches Op)} {ids : List Id} {i : Nat}

/-- What is known of matches found for a multi-pattern rule. -/
theorem MultiRule.found (hN : env.analysis = A.at depth) (hord : ∀ i eg, (env.ord i eg).OK eg) (hd : DiscContiguous Op)
    {lp : MultiPattern Op} (hl : IsMultiPattern lp ls) (hfn : FirstIsNode ls) (hs : rw'.searcher = lp.searcher)
    (h : Hist (A.at depth) allow U egS) (hc : egS.clean = true) (hf : Found env i egS rw' ms) (hp : Part ms' ms) :
    ∀ c s, (c, s) ∈ flat ms' → (∀ v, (∃ x, s.get v = some x) ↔ MultiOccurs v ls) ∧ MultiMatch egS s.get c ls := by
  intro c s hcs
  have hcs := hp.flat hcs
  rcases hf with rfl | ⟨limit, ms0, h1, h2⟩
  · simp [flat] at hcs
  rw [hs, hN] at h1
  obtain ⟨F, k1, k2, -⟩ := c22_search h hc hd (hord i egS) hl hfn
  obtain ⟨ms1, q1, q2⟩ := k1 limit
  rw [h1] at q1; cases q1
  have hm := h2.flat hcs
  rw [q2] at hm
  obtain ⟨_, z1, _, z2⟩ := k2 c s (List.mem_of_mem_take hm)
  exact ⟨z1, z2⟩

theorem multiMatch_binder {σ : Var → Option Id} {c : Id} {C : Cfg Op D} (hg : EGraph.Good C eg) (h : MultiMatch eg σ c ls) :
    ∀ v p, (v, p) ∈ ls → ∃ x, σ v = some x ∧ PMatch eg σ x p := by
  cases ls with
  | nil => exact h.elim
  | cons a ls =>
    obtain ⟨w, t⟩ := a
    obtain ⟨⟨x, h1, h2⟩, h3, h4⟩ := h
    intro v p hm
    rcases List.mem_cons.1 hm with e | hm
    · cases e
      exact ⟨x, h1, hg.inv.pmatch_congr (hg.inv.sameClass_symm h2) h3⟩
    · exact h4 v p hm

/-- Found matches may be used for the right-hand sides. -/
theorem MultiRule.ready {C : Cfg Op D} (hH : HornClosed C.R ls rs) (hg : EGraph.Good C egS) {c : Id} {s : Subst} {asts : List (Var × PatternAst Op)}
    (hb : ∀ v, (∃ x, s.get v = some x) ↔ MultiOccurs v ls) (hm : MultiMatch egS s.get c ls) (hv : ∀ v ∈ applierVars asts [], MultiOccurs v ls) :
    EGraph.Ready C egS asts rs s := by
  refine ⟨fun v hv' => (hb v).2 (hv v hv'), ?_⟩
  have hbind := multiMatch_binder hg hm
  have hlt : ∀ v x, s.get v = some x → x < egS.nodes.length := by
    intro v x hx
    obtain ⟨w, p, h1, h2⟩ := (hb v).1 ⟨x, hx⟩
    obtain ⟨y, h3, h4⟩ := hbind w p h1
    rcases h2 with rfl | h2
    · rw [hx] at h3; cases h3; exact hg.inv.pmatch_lt h4
    · obtain ⟨z, h5, h6⟩ := hg.inv.pmatch_bound p h4 v h2
      rw [hx] at h5; cases h5; exact h6
  have hne : ls ≠ [] := by rintro rfl; exact hm
  obtain ⟨⟨w, p⟩, ls', rfl⟩ := List.exists_cons_of_ne_nil hne
  obtain ⟨x, hx, hxp⟩ := hbind w p (by simp)
  obtain ⟨τ, hτ⟩ := EGraph.exists_assignment hg.inv hlt (hlt w x hx)
  refine ⟨τ, hτ, ?_⟩
  have := hH τ (fun v q hvq u hu => by
    obtain ⟨y, h1, h2⟩ := hbind v q hvq
    have hy := hg.inv.pmatch_rep q h2 (fun v x _ hx => hτ v x hx) hu
    exact hg.sensible.sound y y _ _ (hg.inv.sameClass_iff.2 ⟨hg.inv.rep_lt hy, hg.inv.rep_lt hy, rfl⟩) (hτ v y h1) hy)
  have e : (fun v => ∃ x, s.get v = some x) = fun v => MultiOccurs v ((w, p) :: ls') := by
    funext v; exact propext (hb v)
  rw [e]
  exact this

/-- **C62, soundness of multi-pattern rules.**  A rule between multi-patterns is sound for every congruence closed
under the rule, read as an implication between its left-hand and right-hand sides. -/
theorem c62_multi_sound (hR : IsCongruence R) (hA : SoundFor A R hR) (hN : env.analysis = A.at depth)
    (hord : ∀ i eg, (env.ord i eg).OK eg) (hd : DiscContiguous Op) (hr : MultiRule rw' ls rs) (hH : HornClosed R ls rs) :
    SoundRule env (A.at depth) allow R rw' := by
  intro U egS i ms V eg ms' eg' ids h hU hc hf hst hV hp ha
  obtain ⟨lp, rp, hl, hfn, hlive, hr, hnew⟩ := hr
  obtain ⟨hv, hrw⟩ := rewrite_new_inv hnew
  have hs : rw'.searcher = lp.searcher := by rw [hrw]
  rw [hrw] at ha
  have ha : MultiPattern.applyMatchesGo (A.at depth) rp.asts eg ms' [] = .ok (eg', ids) := ha
  have hfnd := MultiRule.found hN hord hd hl hfn hs h hc hf hp
  have hgS := (hist_good_of_sound hA h (fun s t hst => by obtain ⟨u, hu, rfl, rfl⟩ := hst; exact hU u hu)).1
  have hg := (hist_good_of_sound hA (Steps.trans h hst) (fun s t hst => by
    obtain ⟨u, hu, rfl, rfl⟩ := hst
    rcases List.mem_append.1 hu with hu | hu
    · exact hV u hu
    · exact hU u hu)).1
  have hgr := (steps_grow hst (hist_good h)).2
  obtain ⟨ordc, fuel, -, -, hf2⟩ := hr
  have := (EGraph.applyMulti_post (allow := allow) (hA.hookOK trivial depth) (fun _ _ _ => trivial) hf2 ms' eg [] hg (fun c s hcs => by
    obtain ⟨k1, k2⟩ := hfnd c s hcs
    exact (MultiRule.ready hH hgS k1 k2 (fun v hv' => hlive v (hv v hv'))).grow hgr)).elim ha
  exact this.2.2.1

/-- Pattern rules, with or without a condition, are sound for every congruence that contains their instances. -/
theorem c62_pattern_sound {tl t : Term (PatOp Op)} (hR : IsCongruence R) (hN : env.analysis = A.at depth)
    (hord : ∀ i eg, (env.ord i eg).OK eg) (hd : DiscContiguous Op)
    (hr : PatternRule rw' tl t ∨ ConditionalRule (A.at depth) rw' tl t)
    (hI : ∀ (τ : Var → Term Op) s w, Inst τ tl s → Inst τ t w → R s w) : SoundRule env (A.at depth) allow R rw' := by
  intro U egS i ms V eg ms' eg' ids h hU hc hf hst hV hp ha
  obtain ⟨W, s1, q1⟩ := IsRule.reach hN hord hd hr h hc hf hp hst ha
  refine ⟨W, s1, fun u hu => ?_⟩
  rcases q1 u hu with ⟨τ, h1, h2⟩ | ⟨τ, h1, h2⟩
  · exact hI τ _ _ h1 h2
  · exact hR.symm (hI τ _ _ h1 h2)

/-! ### Runs -/

theorem Runner.applyEachRule_sound (hN : env.analysis = A.at depth) (hs : sch.Honest env)
    (h : Hist (A.at depth) allow U egS) (hU : ∀ u ∈ U, R u.s u.t) (hc : egS.clean = true) :
    ∀ (l : List (Rewrite Op D × List (SearchMatches Op))) (r r1 : Runner Op D S H) (ap ap' : AMap Symbol Nat) (o : Option StopReason)
      (V : List (UnionRec Op)),
    (∀ rw' ms, (rw', ms) ∈ l → Found env i egS rw' ms ∧ SoundRule env (A.at depth) allow R rw') →
    Steps (A.at depth) allow egS V r.egraph → (∀ u ∈ V, R u.s u.t) →
    applyEachRule env sch l r ap = .ok (r1, ap', o) → Reach (A.at depth) allow R r.egraph r1.egraph := by
  intro l
  induction l with
  | nil => intro r r1 ap ap' o V _ _ _ h; cases h; exact Reach.rfl'
  | cons x l ih =>
    intro r r1 ap ap' o V hl hst hV ha
    obtain ⟨rw', ms⟩ := x
    unfold applyEachRule at ha
    rw [bind_eq_ok] at ha
    obtain ⟨⟨s, eg, n⟩, h1, ha⟩ := ha
    obtain ⟨ms', ids, h2, h3⟩ := hs.apply _ _ _ _ _ _ _ _ h1
    obtain ⟨hf, hr⟩ := hl rw' ms (by simp)
    rw [hN] at h2
    obtain ⟨W, s1, q1⟩ := hr _ _ _ _ _ _ _ _ _ h hU hc hf hst hV h3 h2
    dsimp only at ha
    split at ha
    · cases ha; exact ⟨W, s1, q1⟩
    · refine Reach.trans ⟨W, s1, q1⟩ ?_
      refine ih _ r1 _ ap' o _ (fun a b hab => hl a b (by simp [hab])) (Steps.trans hst s1) (fun u hu => ?_) ha
      rcases List.mem_append.1 hu with hu | hu
      · exact q1 u hu
      · exact hV u hu

theorem Runner.runOne_sound (hN : env.analysis = A.at depth) (hs : sch.Honest env) (hh : HooksOK (A.at depth) allow R hooks)
    (hr : ∀ rw' ∈ rules, SoundRule env (A.at depth) allow R rw') {it : Iteration} {r4 : Runner Op D S H}
    (h : Hist (A.at depth) allow U r.egraph) (hU : ∀ u ∈ U, R u.s u.t) (hc : r.egraph.clean = true)
    (ho : runOne env sch hooks rules r = .ok (r4, it)) :
    r4.egraph.clean = true ∧ Reach (A.at depth) allow R r.egraph r4.egraph := by
  obtain ⟨_, r1, res1, r2, ms, r3, applied, res3, eg, nReb, quiet, p1, p2, p3, p4, p5, -⟩ := runOne_inv ho
  obtain ⟨f2, e2⟩ := searchPhase_frame p2
  obtain ⟨f4, e4⟩ := quietPhase_frame p5
  obtain ⟨c1, V1, s1, q1⟩ := hookPhase_reach hh hc p1
  have h1 : Hist (A.at depth) allow _ r1.egraph := Steps.trans h s1
  have hU1 : ∀ u ∈ V1 ++ U, R u.s u.t := by
    intro u hu
    rcases List.mem_append.1 hu with hu | hu
    · exact q1 u hu
    · exact hU u hu
  have rc2 : Reach (A.at depth) allow R r2.egraph r3.egraph := by
    unfold applyPhase at p3
    split at p3
    · cases p3; exact Reach.rfl'
    next mss =>
    refine applyEachRule_sound (i := r1.iterations.length) hN hs h1 hU1 c1 _ r2 r3 _ _ _ []
      (fun rw' ms hm => ⟨?_, hr rw' (List.of_mem_zip hm).1⟩) (by rw [e2]; exact .refl) (by simp) p3
    unfold searchPhase at p2
    split at p2
    · cases p2
    rw [bind_eq_ok] at p2
    obtain ⟨⟨s, tick, ms0⟩, k1, k2⟩ := p2
    cases k2
    exact hs.search _ _ _ _ _ _ _ _ _ k1 rw' ms hm
  rw [hN] at p4
  have rc3 : Reach (A.at depth) allow R r3.egraph r4.egraph := by
    rw [e4]; exact Reach.rebuild p4
  refine ⟨by rw [e4]; exact EGraph.rebuild_clean p4, ?_⟩
  rw [e2] at rc2
  exact Reach.trans ⟨V1, s1, q1⟩ (rc2.trans rc3)

theorem Runner.runLoop_sound (hN : env.analysis = A.at depth) (hs : sch.Honest env) (hh : HooksOK (A.at depth) allow R hooks)
    (hr : ∀ rw' ∈ rules, SoundRule env (A.at depth) allow R rw') : ∀ (f : Nat) (r r' : Runner Op D S H) (U : List (UnionRec Op)),
    Hist (A.at depth) allow U r.egraph → (∀ u ∈ U, R u.s u.t) → r.egraph.clean = true →
    runLoop env sch hooks rules f r = .ok r' → Reach (A.at depth) allow R r.egraph r'.egraph := by
  intro f
  induction f with
  | zero => intro r r' U _ _ _ h; cases h
  | succ f ih =>
    intro r r' U h hU hc hl
    unfold runLoop at hl
    rw [bind_eq_ok] at hl
    obtain ⟨⟨r1, it⟩, h1, hl⟩ := hl
    obtain ⟨c1, rc⟩ := runOne_sound hN hs hh hr h hU hc h1
    dsimp only at hl
    split at hl
    · cases hl; exact rc
    · split at hl
      · cases hl; exact rc
      · obtain ⟨V, s1, q1⟩ := rc
        have rc2 := ih _ _ _ (by exact Steps.trans h s1) (fun u hu => by
          rcases List.mem_append.1 hu with hu | hu
          · exact q1 u hu
          · exact hU u hu) (by exact c1) hl
        exact Reach.trans ⟨V, s1, q1⟩ rc2

/-- **C62, soundness of runs with rules of any kind.**  If every rule is sound for the congruence `R`, every hook
unites only terms related by `R`, the initial unions are correct in `R`, and the analysis is too, then any two
terms in one class after a run are related by `R`; the scheduler may choose as it likes. -/
theorem c62_eqsat_sound (hR : IsCongruence R) (hA : SoundFor A R hR) (hN : env.analysis = A.at depth) (hs : sch.Honest env)
    (hh : HooksOK (A.at depth) allow R hooks) (hr : ∀ rw' ∈ rules, SoundRule env (A.at depth) allow R rw')
    (h : Hist (A.at depth) allow U r.egraph) (hU : ∀ s t, eqsOf U s t → R s t)
    {f : Nat} (hrun : r.run env sch hooks rules f = .ok r')
    {a b : Id} {s t : Term Op} (hab : SameClass r'.egraph a b) (ha : Rep r'.egraph a s) (hb : Rep r'.egraph b t) : R s t := by
  unfold Runner.run at hrun
  rw [bind_eq_ok] at hrun
  obtain ⟨⟨eg, n⟩, h1, h2⟩ := hrun
  rw [hN] at h1
  have hU' : ∀ u ∈ U, R u.s u.t := fun u hu => hU _ _ ⟨u, hu, rfl, rfl⟩
  have h0 : Hist (A.at depth) allow ([] ++ U) eg := Steps.trans h (.single (.rebuild h1))
  obtain ⟨V, s1, q1⟩ := Runner.runLoop_sound hN hs hh hr f _ _ ([] ++ U) h0 (by simpa using hU') (EGraph.rebuild_clean h1) h2
  refine c02_no_spurious_equality hR hA (Steps.trans h0 s1) (fun s t hst => ?_) hab ha hb
  obtain ⟨u, hu, rfl, rfl⟩ := hst
  rcases List.mem_append.1 hu with hu | hu
  · exact q1 u hu
  · exact hU' u (by simpa using hu)

/-! ### The effect -/

/-- **C62, effect.**  Applying found matches of an accepted multi-pattern rule never panics (when the analysis does
not); afterwards the right-hand sides hold for the bindings of every match; and one id is reported per match
(if the right-hand side has any pattern), whether or not the e-graph changed. -/
theorem c62_effect (hN : env.analysis = A.at depth) (hord : ∀ i eg, (env.ord i eg).OK eg) (hd : DiscContiguous Op)
    (hr : MultiRule rw' ls rs) (h : Hist (A.at depth) allow U egS) (hc : egS.clean = true) (hf : Found env i egS rw' ms)
    (hst : Steps (A.at depth) allow egS V eg) (hp : Part ms' ms) :
    (NoUserPanic A → rw'.applier.applyMatches (A.at depth) eg ms' rw'.name ≠ .error .panic) ∧
    ∀ eg' ids, rw'.applier.applyMatches (A.at depth) eg ms' rw'.name = .ok (eg', ids) →
      (∃ W, Steps (A.at depth) allow eg W eg') ∧
      (∀ c s, (c, s) ∈ flat ms' → MultiHolds eg' s rs) ∧
      ids.length = (flat ms').length * min 1 rs.length := by
  obtain ⟨lp, rp, hl, hfn, hlive, hr, hnew⟩ := hr
  obtain ⟨hv, hrw⟩ := rewrite_new_inv hnew
  have hs : rw'.searcher = lp.searcher := by rw [hrw]
  have hap : rw'.applier.applyMatches (A.at depth) eg ms' rw'.name = MultiPattern.applyMatchesGo (A.at depth) rp.asts eg ms' [] := by
    rw [hrw]; rfl
  rw [hap]
  have hfnd := MultiRule.found hN hord hd hl hfn hs h hc hf hp
  have hgr := (steps_grow hst (hist_good h)).2
  obtain ⟨ordc, fuel, -, -, hf2⟩ := hr
  have hH : HornClosed (fun _ _ => True) ls rs := by
    have : ∀ (rs : List (Var × Term (PatOp Op))) bound τ, Concludes (fun _ _ => True) bound τ rs := by
      intro rs
      induction rs with
      | nil => intro _ _; trivial
      | cons a rs ih => intro bound τ; obtain ⟨w, q⟩ := a; intro u _; exact ⟨fun _ => ⟨trivial, ih _ _⟩, fun _ => ih _ _⟩
    exact fun τ _ => this _ _ _
  constructor
  · intro hA he
    have hg := (steps_grow hst (hist_good h)).1
    have := EGraph.applyMulti_post (allow := allow) (UserAnalysis.OK.hookOK (E := fun e => e = .fuel) rfl hA depth)
      (fun _ _ _ => trivial) hf2 ms' eg [] hg (fun c s hcs => by
        obtain ⟨k1, k2⟩ := hfnd c s hcs
        exact (MultiRule.ready hH (hist_good h) k1 k2 (fun v hv' => hlive v (hv v hv'))).grow hgr)
    rw [he] at this
    cases this
  · intro eg' ids ha
    have hg := (steps_grow hst (hist_good h)).1
    have := (EGraph.applyMulti_post (allow := allow) ((soundFor_true A).hookOK trivial depth) (fun _ _ _ => trivial) hf2 ms' eg [] hg
      (fun c s hcs => by
        obtain ⟨k1, k2⟩ := hfnd c s hcs
        exact (MultiRule.ready hH (hist_good h) k1 k2 (fun v hv' => hlive v (hv v hv'))).grow hgr)).elim ha
    obtain ⟨-, -, ⟨W, s1, -⟩, e1, k1⟩ := this
    refine ⟨⟨W, s1⟩, k1, ?_⟩
    simpa [hf2.length_eq] using e1

/-! ### Examples -/

/-- `?p = (f ?x) => ?q = (g ?x), ?p = ?q`. -/
def Ex.mlAsts : List (Var × PatternAst Ex.S) := [(Ex.vp, Ex.astFx)]
def Ex.mlTerms : List (Var × Term (PatOp Ex.S)) := [(Ex.vp, Ex.termFx)]
def Ex.mrAsts : List (Var × PatternAst Ex.S) := [(Ex.vq, Ex.astGx), (Ex.vp, [⟨.var Ex.vq, []⟩])]
def Ex.mrTerms : List (Var × Term (PatOp Ex.S)) := [(Ex.vq, Ex.termGx), (Ex.vp, .node (.var Ex.vq) [])]
def Ex.multiOf (asts : List (Var × PatternAst Ex.S)) : MultiPattern Ex.S :=
  match MultiPattern.new Ex.ordc 10 asts with
  | .ok p => p
  | .error _ => ⟨[], ⟨[], []⟩⟩
def Ex.ruleM : Rewrite Ex.S Unit := ⟨11, (Ex.multiOf Ex.mlAsts).searcher, (Ex.multiOf Ex.mrAsts).applier⟩

theorem Ex.isMl : IsMultiPattern (Ex.multiOf Ex.mlAsts) Ex.mlTerms :=
  ⟨Ex.ordc, 10, Ex.ordcOK, rfl, .cons ⟨rfl, patWF_of rfl rfl rfl, exprTerm_of (f := 5) rfl rfl⟩ .nil⟩
theorem Ex.isMr : IsMultiPattern (Ex.multiOf Ex.mrAsts) Ex.mrTerms :=
  ⟨Ex.ordc, 10, Ex.ordcOK, rfl, .cons ⟨rfl, patWF_of rfl rfl rfl, exprTerm_of (f := 5) rfl rfl⟩
    (.cons ⟨rfl, patWF_of rfl rfl rfl, exprTerm_of (f := 5) rfl rfl⟩ .nil)⟩

theorem Ex.mlOccurs (v : Var) : MultiOccurs v Ex.mlTerms ↔ v = Ex.vp ∨ v = Ex.vx := by
  unfold MultiOccurs Ex.mlTerms
  constructor
  · rintro ⟨w, t, hm, h⟩
    simp only [List.mem_singleton, Prod.mk.injEq] at hm
    obtain ⟨rfl, rfl⟩ := hm
    rcases h with rfl | h
    · exact Or.inl rfl
    · right
      cases h with
      | arg hm h =>
        simp only [List.mem_singleton] at hm
        subst hm
        cases h with
        | refl => rfl
        | arg hm _ => simp at hm
  · rintro (rfl | rfl)
    · exact ⟨Ex.vp, Ex.termFx, by simp, Or.inl rfl⟩
    · exact ⟨Ex.vp, Ex.termFx, by simp, Or.inr (.arg (t := .node (.var Ex.vx) []) (by simp) .refl)⟩

theorem Ex.multiRule : MultiRule Ex.ruleM Ex.mlTerms Ex.mrTerms :=
  ⟨Ex.multiOf Ex.mlAsts, Ex.multiOf Ex.mrAsts, Ex.isMl, ⟨_, _, _, _, rfl⟩, by
    intro v hv
    rw [Ex.mlOccurs]
    have : v ∈ [Ex.vp, Ex.vx] := hv
    simpa using this, Ex.isMr, rfl⟩

/-- The congruence generated by `a = b` and `f t = g t`. -/
def Ex.RM : Term Ex.S → Term Ex.S → Prop := GEq (fun s t => eqsOf [Ex.un] s t ∨ ∃ u, s = .node .f [u] ∧ t = .node .g [u])

theorem Ex.hornM : HornClosed Ex.RM Ex.mlTerms Ex.mrTerms := by
  intro τ h
  have h1 : Ex.RM (τ Ex.vp) (.node .f [τ Ex.vx]) :=
    h Ex.vp Ex.termFx (by simp [Ex.mlTerms]) _ (inst_node_iff.2 ⟨_, rfl, .cons .var .nil⟩)
  intro u hu
  rw [Ex.termGx, inst_node_iff] at hu
  obtain ⟨us, rfl, hu⟩ := hu
  cases hu with
  | cons hu hn =>
  cases hn
  rw [inst_var_iff] at hu
  obtain ⟨_, rfl⟩ := hu
  refine ⟨fun hb => ?_, fun _ => ?_⟩
  · exact absurd ((Ex.mlOccurs _).1 hb) (by decide)
  · intro u' hu'
    rw [inst_var_iff] at hu'
    obtain ⟨_, rfl⟩ := hu'
    refine ⟨fun _ => ⟨?_, trivial⟩, fun hb => absurd (Or.inl ((Ex.mlOccurs _).2 (Or.inl rfl))) hb⟩
    show Ex.RM _ (if Ex.vp = Ex.vq then _ else τ Ex.vp)
    rw [if_pos rfl, if_neg (by decide : ¬ Ex.vp = Ex.vq)]
    exact IsCongruence.symm .geq (IsCongruence.trans .geq h1 (.ax (Or.inr ⟨_, rfl, rfl⟩)))

def Ex.doneM : Runner Ex.S Unit Unit Unit :=
  Ex.stR () (({ (Ex.runner ()) with limits := ⟨3, 1000, 5⟩ }).run Ex.renv simpleScheduler [] [Ex.ruleM] 10)

/-- C62 on the example: any two terms equated by the run follow from `a = b` and `f t = g t`; the run equates
`f a` and `g b`. -/
example {s t : Term Ex.S} {a b : Id} (hab : SameClass Ex.doneM.egraph a b) (ha : Rep Ex.doneM.egraph a s) (hb : Rep Ex.doneM.egraph b t) :
    Ex.RM s t :=
  c62_eqsat_sound (A := Ex.U0) (depth := 1) (allow := .all) (env := Ex.renv) (sch := simpleScheduler) (hooks := [])
    (rules := [Ex.ruleM]) (r := { (Ex.runner ()) with limits := ⟨3, 1000, 5⟩ }) (f := 10) .geq
    (soundFor_of_quiet (fun _ => rfl) _ _) rfl simple_honest (Ex.hooksOK _ _)
    (fun rw' h => by
      simp only [List.mem_singleton] at h
      subst h
      exact c62_multi_sound .geq (soundFor_of_quiet (fun _ => rfl) _ _) rfl (fun _ eg => Ex.ordOK eg) Ex.discContiguous
        Ex.multiRule Ex.hornM)
    (Ex.hist6 _) (fun _ _ h => .ax (Or.inl h)) (r' := Ex.doneM) rfl hab ha hb

example : Rep Ex.doneM.egraph 2 Ex.tfa ∧ Rep Ex.doneM.egraph 2 (.node .g [Ex.tb]) :=
  ⟨Ex.rep_app1 (r := 4) (i := 0) rfl rfl (by decide) (Ex.rep_leaf (r := 0) rfl rfl (by decide)),
    Ex.rep_app1 (r := 4) (i := 0) rfl rfl (by decide) (Ex.rep_leaf (r := 0) rfl rfl (by decide))⟩

/-- **C62, multi-pattern rules never saturate.**  The run of the example stops at its iteration limit: the last
iteration changed nothing, but the rule counts as applied because an id is reported for every match. -/
theorem c62_never_saturates_counterexample : ∃ (r' : Runner Ex.S Unit Unit Unit) (it1 it2 it3 : Iteration),
    ({ (Ex.runner ()) with limits := ⟨3, 1000, 5⟩ } : Runner Ex.S Unit Unit Unit).run Ex.renv simpleScheduler [] [Ex.ruleM] 10 = .ok r' ∧
    r'.stopReason = some (.iterationLimit 3) ∧ r'.iterations = [it1, it2, it3] ∧
    it3.egraphNodes = it2.egraphNodes ∧ it3.egraphClasses = it2.egraphClasses ∧ it3.applied = [(11, 1)] :=
  ⟨Ex.doneM, _, _, _, rfl, rfl, rfl, rfl, rfl, rfl⟩

end Egg
