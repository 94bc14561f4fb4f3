import Verif.Props.Run
import Verif.Props.Saturate
import Verif.Props.ExplainCheck
/-
A run with explanations enabled is a sequence of rule applications (C57).
-/
namespace Egg
variable {Op D S H : Type} [DecidableEq Op] [Lang Op]
variable {A : UserAnalysis Op D} {depth : Nat} {allow : Caller Op D} {infos : List (RuleInfo Op)}

theorem RuleSteps.append {N : Analysis Op D} {eg eg1 eg2 : EGraph Op D} (h : RuleSteps N allow infos eg eg1)
    (h' : RuleSteps N allow infos eg1 eg2) : RuleSteps N allow infos eg eg2 := by
  induction h' with
  | refl => exact h
  | other _ hs ih => exact ih.other hs
  | rule _ h1 h2 h3 h4 h5 ih => exact ih.rule h1 h2 h3 h4 h5

/-- Calls without a union are such steps. -/
theorem RuleSteps.of_steps {N : Analysis Op D} {eg eg1 : EGraph Op D} {V : List (UnionRec Op)} (h : Steps N allow eg V eg1) (hV : V = []) :
    RuleSteps N allow infos eg eg1 := by
  induction h with
  | refl => exact .refl
  | tail h hs ih =>
    obtain ⟨rfl, rfl⟩ := List.append_eq_nil_iff.1 hV
    exact (ih rfl).other hs

theorem RuleSteps.of_adds {N : Analysis Op D} {eg eg1 : EGraph Op D} (h : AddSteps N eg eg1) : RuleSteps N allow infos eg eg1 :=
  .of_steps (AddSteps.steps h) rfl

/-- They are a history. -/
theorem RuleSteps.hist {eg eg1 : EGraph Op D} {U : List (UnionRec Op)} (h : Hist (A.at depth) allow U eg)
    (h' : RuleSteps (A.at depth) allow infos eg eg1) : ∃ V, Steps (A.at depth) allow eg V eg1 := by
  induction h' with
  | refl => exact ⟨_, .refl⟩
  | other _ hs ih => obtain ⟨V, ih⟩ := ih; exact ⟨_, .tail ih hs⟩
  | @rule eg1 eg2 info lhs rhs s i did _ _ _ _ _ hu ih =>
    obtain ⟨V, ih⟩ := ih
    obtain ⟨W, hw, _⟩ := unionInst_steps (Steps.trans h ih) hu
    exact ⟨_, Steps.trans ih hw⟩

/-- The rewrite `rw` is described by `info`: made by `Rewrite::new` from two patterns, or from a
pattern and a `ConditionalApplier` on a pattern, whose condition only adds e-nodes; `info` has
its name and the two patterns. -/
def Described (N : Analysis Op D) (rw : Rewrite Op D) (info : RuleInfo Op) : Prop :=
  ∃ (lp rp : Pattern Op) (tl t : Term (PatOp Op)), IsPattern lp tl ∧ (∀ v ∈ lp.vars, Occurs v tl) ∧ IsPattern rp t ∧
    info = ⟨rw.name, some lp.ast, some rp.ast⟩ ∧
    (Rewrite.new rw.name lp.searcher rp.applier = .ok rw ∨
      ∃ cond, OnlyAdds N cond ∧ Rewrite.new rw.name lp.searcher (Applier.conditional cond rp.applier) = .ok rw)

theorem Described.vars {N : Analysis Op D} {lp rp : Pattern Op} {rw' : Rewrite Op D} (h : Rewrite.new rw'.name lp.searcher rp.applier = .ok rw' ∨
      ∃ cond, OnlyAdds N cond ∧ Rewrite.new rw'.name lp.searcher (Applier.conditional cond rp.applier) = .ok rw') :
    (∀ v ∈ rp.vars, v ∈ lp.vars) ∧ rw'.searcher = lp.searcher := by
  rcases h with h | ⟨cond, -, h⟩
  · obtain ⟨hv, hrw⟩ := rewrite_new_inv h
    exact ⟨hv, by rw [hrw]⟩
  · obtain ⟨hv, hrw⟩ := rewrite_new_inv h
    exact ⟨fun v hv' => hv v (List.mem_append.2 (Or.inl hv')), by rw [hrw]⟩

theorem Described.ok {N : Analysis Op D} {rw' : Rewrite Op D} {info : RuleInfo Op} (h : Described N rw' info) :
    ∀ lhs rhs, info.lhs = some lhs → info.rhs = some rhs → PatternsOK lhs rhs := by
  obtain ⟨lp, rp, tl, t, hl, hlive, hr, rfl, hn⟩ := h
  intro lhs rhs h1 h2
  cases h1; cases h2
  refine ⟨hl.wf.1, hr.wf.1, fun L R h1 h2 v hv => ?_⟩
  have e1 : L = tl := TermOf.unique h1.2 hl.wf.2.2
  have e2 : R = t := TermOf.unique h2.2 hr.wf.2.2
  subst e1; subst e2
  exact hlive v ((Described.vars hn).1 v (hr.occurs_vars hv))

section
variable {rw' : Rewrite Op D} {info : RuleInfo Op} {U V : List (UnionRec Op)} {egS eg1 eg2 : EGraph Op D}
  {ms ms' : List (SearchMatches Op)} {env : RunEnv Op D} {i : Nat} {ids : List Id}

theorem Described.steps (hN : env.analysis = A.at depth) (hord : ∀ i eg, (env.ord i eg).OK eg) (hd : DiscContiguous Op)
    (hr : Described (A.at depth) rw' info) (hm : info ∈ infos) (h : Hist (A.at depth) allow U egS) (hc : egS.clean = true)
    (hf : Found env i egS rw' ms) (hp : Part ms' ms) (hst : Steps (A.at depth) allow egS V eg1) (hx : eg1.explain.isSome)
    (ha : rw'.applier.applyMatches (A.at depth) eg1 ms' rw'.name = .ok (eg2, ids)) :
    RuleSteps (A.at depth) allow infos eg1 eg2 := by
  obtain ⟨lp, rp, tl, t, hl, hlive, hr, rfl, hn⟩ := hr
  obtain ⟨hv, hsr⟩ := Described.vars hn
  have hast : ∀ m ∈ ms', m.ast = some lp.ast := by
    intro m hm
    rcases hf with rfl | ⟨limit, ms0, f1, f2⟩
    · rw [hp.nil] at hm; cases hm
    rw [hsr, hN] at f1
    obtain ⟨m1, g1, _, g3, _⟩ := (hp.trans f2) m hm
    rw [g3]; exact search_ast f1 m1 g1
  have happ : ∀ (g : EGraph Op D) (W : List (UnionRec Op)), Steps (A.at depth) allow egS W g → Applicable g tl rp ms' :=
    fun g W hg => found_applicable hN hord hd hl hlive hv hsr h hc hf hp hg
  rcases hn with hn | ⟨cond, hcond, hn⟩
  · obtain ⟨_, hrw⟩ := rewrite_new_inv hn
    rw [hrw] at ha
    refine c34_apply_matches hm (Steps.trans h hst) hx hast (fun m hm' s hs v x hv => ?_) (name := rw'.name) ha
    exact (happ eg1 V hst).valid _ _ (mem_flat.2 ⟨m, hm', rfl, hs⟩) v x hv
  · obtain ⟨_, hrw⟩ := rewrite_new_inv hn
    rw [hrw] at ha
    have ha : defaultApplyMatches (fun eg i s ast rule => conditionalOne cond rp.applier (A.at depth) eg i s ast rule)
      rw'.name eg1 ms' [] = .ok (eg2, ids) := ha
    have hNok := (soundFor_true A).hookOK trivial depth
    -- one substitution
    have one : ∀ (g : EGraph Op D) (W : List (UnionRec Op)) (m : SearchMatches Op) (s : Subst)
        (g' : EGraph Op D) (ids' : List Id), Steps (A.at depth) allow egS W g → m ∈ ms' → s ∈ m.substs → g.explain.isSome →
        conditionalOne cond rp.applier (A.at depth) g m.eclass s (some lp.ast) rw'.name = .ok (g', ids') →
        RuleSteps (A.at depth) allow infos g g' ∧ g'.explain.isSome ∧ ∃ W', Steps (A.at depth) allow egS W' g' := by
      intro g W m s g' ids' hg hm' hs hgx h1
      unfold conditionalOne at h1
      rw [bind_eq_ok] at h1
      obtain ⟨⟨g1, bb⟩, h2, h1⟩ := h1
      have ad := hcond _ _ _ _ _ h2
      obtain ⟨gd1, x1⟩ := AddSteps.ext hNok ad (hist_good (Steps.trans h hg))
      have hst1 := Steps.trans hg (AddSteps.steps (allow := allow) ad)
      cases bb with
      | false => cases h1; exact ⟨.of_adds ad, by rw [x1.expl]; exact hgx, _, hst1⟩
      | true =>
        have h1 : rp.applyOne (A.at depth) g1 m.eclass s (some lp.ast) rw'.name = .ok (g', ids') := h1
        unfold Pattern.applyOne at h1
        rw [bind_eq_ok] at h1
        obtain ⟨⟨g2, b2, i2⟩, h3, h1⟩ := h1
        dsimp only at h1
        rw [bind_eq_ok] at h1
        obtain ⟨⟨g3, i3, did⟩, h4, h1⟩ := h1
        cases h1
        have ad2 := EGraph.applyPat_steps h3
        obtain ⟨gd2, x2⟩ := AddSteps.ext hNok ad2 gd1
        have hst2 := Steps.trans hst1 (AddSteps.steps (allow := allow) ad2)
        obtain ⟨V3, s3, _, gr3⟩ := unionInst_steps (Steps.trans h hst2) h4
        refine ⟨RuleSteps.rule ((RuleSteps.of_adds ad).append (.of_adds ad2)) hm rfl rfl (fun v x hv => ?_) h4, gr3 (by rw [x2.expl, x1.expl]; exact hgx), _, Steps.trans hst2 s3⟩
        exact (happ _ _ hst2).valid _ _ (mem_flat.2 ⟨m, hm', rfl, hs⟩) v x hv
    have each : ∀ (m : SearchMatches Op), m ∈ ms' → ∀ (ss : List Subst), (∀ s ∈ ss, s ∈ m.substs) →
        ∀ (g : EGraph Op D) (W : List (UnionRec Op)) (added : List Id) (g' : EGraph Op D) (added' : List Id),
        Steps (A.at depth) allow egS W g → g.explain.isSome →
        applyEach (fun g s => conditionalOne cond rp.applier (A.at depth) g m.eclass s (some lp.ast) rw'.name) g ss added = .ok (g', added') →
        RuleSteps (A.at depth) allow infos g g' ∧ g'.explain.isSome ∧ ∃ W', Steps (A.at depth) allow egS W' g' := by
      intro m hm' ss
      induction ss with
      | nil => intro _ g W added g' added' hg hgx h1; cases h1; exact ⟨.refl, hgx, _, hg⟩
      | cons s ss ih =>
        intro hss g W added g' added' hg hgx h1
        unfold applyEach at h1
        rw [bind_eq_ok] at h1
        obtain ⟨⟨g1, ids1⟩, h2, h1⟩ := h1
        obtain ⟨q1, q2, W1, q3⟩ := one g W m s g1 ids1 hg hm' (hss s (by simp)) hgx h2
        obtain ⟨p1, p2, p3⟩ := ih (fun s hs => hss s (by simp [hs])) g1 _ _ g' added' q3 q2 h1
        exact ⟨q1.append p1, p2, p3⟩
    have all : ∀ (ms1 : List (SearchMatches Op)), (∀ m ∈ ms1, m ∈ ms') → ∀ (g : EGraph Op D) (W : List (UnionRec Op)) (added : List Id)
        (g' : EGraph Op D) (added' : List Id), Steps (A.at depth) allow egS W g → g.explain.isSome →
        defaultApplyMatches (fun eg i s ast rule => conditionalOne cond rp.applier (A.at depth) eg i s ast rule) rw'.name g ms1 added
          = .ok (g', added') → RuleSteps (A.at depth) allow infos g g' := by
      intro ms1
      induction ms1 with
      | nil => intro _ g W added g' added' _ _ h1; cases h1; exact .refl
      | cons m ms1 ih =>
        intro hms g W added g' added' hg hgx h1
        unfold defaultApplyMatches at h1
        rw [bind_eq_ok] at h1
        obtain ⟨⟨g1, added1⟩, h2, h1⟩ := h1
        have hm' := hms m (by simp)
        rw [if_pos hgx, hast m hm'] at h2
        obtain ⟨q1, q2, W1, q3⟩ := each m hm' m.substs (fun _ h => h) g W added g1 added1 hg hgx h2
        exact q1.append (ih (fun m hm => hms m (by simp [hm])) g1 _ _ g' added' q3 q2 h1)
    exact all ms' (fun _ h => h) eg1 V [] eg2 ids hst hx ha

end

section
variable {env : RunEnv Op D} {sch : Scheduler Op D S} {hooks : List (Hook Op D H)} {rules : List (Rewrite Op D)}
  {r r1 r2 r3 r4 : Runner Op D S H} {U : List (UnionRec Op)}

theorem Runner.applyEachRule_explained {i : Nat} (hN : env.analysis = A.at depth) (hord : ∀ i eg, (env.ord i eg).OK eg)
    (hd : DiscContiguous Op) (hs : sch.Honest env) {egS : EGraph Op D} (hdis : ¬ allow.disables) (h : Hist (A.at depth) allow U egS) (hc : egS.clean = true) :
    ∀ (l : List (Rewrite Op D × List (SearchMatches Op))) (r r1 : Runner Op D S H) (ap ap' : AMap Symbol Nat) (o : Option StopReason)
      (V : List (UnionRec Op)),
    (∀ rw' ms, (rw', ms) ∈ l → Found env i egS rw' ms ∧ ∃ info ∈ infos, Described (A.at depth) rw' info) →
    Steps (A.at depth) allow egS V r.egraph → r.egraph.explain.isSome →
    applyEachRule env sch l r ap = .ok (r1, ap', o) → RuleSteps (A.at depth) allow infos r.egraph r1.egraph := by
  intro l
  induction l with
  | nil => intro r r1 ap ap' o V _ _ _ h; cases h; exact .refl
  | cons x l ih =>
    intro r r1 ap ap' o V hl hst hx ha
    obtain ⟨rw', ms⟩ := x
    unfold applyEachRule at ha
    rw [bind_eq_ok] at ha
    obtain ⟨⟨s, eg, n⟩, h1, ha⟩ := ha
    obtain ⟨ms', ids, h2, h3⟩ := hs.apply _ _ _ _ _ _ _ _ h1
    obtain ⟨hf, info, hm, hr⟩ := hl rw' ms (by simp)
    rw [hN] at h2
    have rc := Described.steps hN hord hd hr hm h hc hf h3 hst hx h2
    dsimp only at ha
    split at ha
    · cases ha; exact rc
    · obtain ⟨W, s1⟩ := rc.hist (Steps.trans h hst)
      refine rc.append ?_
      exact ih _ r1 _ ap' o _ (fun a b hab => hl a b (by simp [hab])) (Steps.trans hst s1)
        (steps_expl s1 (hist_good (Steps.trans h hst)) hdis hx) ha

theorem Runner.runOne_explained (hN : env.analysis = A.at depth) (hord : ∀ i eg, (env.ord i eg).OK eg)
    (hd : DiscContiguous Op) (hs : sch.Honest env) (hh : HooksOK (A.at depth) allow (fun _ _ => False) hooks) (hdis : ¬ allow.disables)
    (hr : ∀ rw' ∈ rules, ∃ info ∈ infos, Described (A.at depth) rw' info) {it : Iteration}
    (h : Hist (A.at depth) allow U r.egraph) (hc : r.egraph.clean = true) (hx : r.egraph.explain.isSome)
    (ho : runOne env sch hooks rules r = .ok (r4, it)) :
    r4.egraph.clean = true ∧ RuleSteps (A.at depth) allow infos r.egraph r4.egraph := by
  obtain ⟨_, r1, res1, r2, ms, r3, applied, res3, eg, nReb, quiet, p1, p2, p3, p4, p5, -⟩ := runOne_inv ho
  obtain ⟨f2, e2⟩ := searchPhase_frame p2
  obtain ⟨f4, e4⟩ := quietPhase_frame p5
  obtain ⟨c1, V1, s1, q1⟩ := hookPhase_reach hh hc p1
  have hV1 : V1 = [] := List.eq_nil_iff_forall_not_mem.2 q1
  have rc1 : RuleSteps (A.at depth) allow infos r.egraph r1.egraph := .of_steps s1 hV1
  have h1 : Hist (A.at depth) allow _ r1.egraph := Steps.trans h s1
  have hx1 : r1.egraph.explain.isSome := steps_expl s1 (hist_good h) hdis hx
  have rc2 : RuleSteps (A.at depth) allow infos r2.egraph r3.egraph := by
    unfold applyPhase at p3
    split at p3
    · cases p3; exact .refl
    next mss =>
    refine applyEachRule_explained (i := r1.iterations.length) hN hord hd hs hdis h1 c1 _ r2 r3 _ _ _ [] (fun rw' ms hm => ⟨?_, hr rw' (List.of_mem_zip hm).1⟩) (by rw [e2]; exact .refl) (by rw [e2]; exact hx1) p3
    unfold searchPhase at p2
    split at p2
    · cases p2
    rw [bind_eq_ok] at p2
    obtain ⟨⟨s, tick, ms0⟩, k1, k2⟩ := p2
    cases k2
    exact hs.search _ _ _ _ _ _ _ _ _ k1 rw' ms hm
  rw [hN] at p4
  have rc3 : RuleSteps (A.at depth) allow infos r3.egraph r4.egraph := by
    rw [e4]; exact RuleSteps.other .refl (.rebuild p4)
  refine ⟨by rw [e4]; exact EGraph.rebuild_clean p4, ?_⟩
  rw [e2] at rc2
  exact rc1.append (rc2.append rc3)

theorem Runner.runLoop_explained (hN : env.analysis = A.at depth) (hord : ∀ i eg, (env.ord i eg).OK eg)
    (hd : DiscContiguous Op) (hs : sch.Honest env) (hh : HooksOK (A.at depth) allow (fun _ _ => False) hooks) (hdis : ¬ allow.disables)
    (hr : ∀ rw' ∈ rules, ∃ info ∈ infos, Described (A.at depth) rw' info) : ∀ (f : Nat) (r r' : Runner Op D S H) (U : List (UnionRec Op)),
    Hist (A.at depth) allow U r.egraph → r.egraph.clean = true → r.egraph.explain.isSome →
    runLoop env sch hooks rules f r = .ok r' →
    r'.egraph.clean = true ∧ RuleSteps (A.at depth) allow infos r.egraph r'.egraph := by
  intro f
  induction f with
  | zero => intro r r' U _ _ _ h; cases h
  | succ f ih =>
    intro r r' U h hc hx hl
    unfold runLoop at hl
    rw [bind_eq_ok] at hl
    obtain ⟨⟨r1, it⟩, h1, hl⟩ := hl
    obtain ⟨c1, rc⟩ := runOne_explained hN hord hd hs hh hdis hr h hc hx h1
    dsimp only at hl
    split at hl
    · cases hl; exact ⟨c1, rc⟩
    · split at hl
      · cases hl; exact ⟨c1, rc⟩
      · obtain ⟨V, s1⟩ := rc.hist h
        obtain ⟨c2, rc2⟩ := ih _ _ _ (by exact Steps.trans h s1) (by exact c1) (by exact steps_expl s1 (hist_good h) hdis hx) hl
        exact ⟨c2, rc.append rc2⟩

end
end Egg
