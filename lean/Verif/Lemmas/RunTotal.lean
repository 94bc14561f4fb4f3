import Verif.Spec.RunTotal
import Verif.Lemmas.Run
import Verif.Props.MultiRule
import Verif.Props.Backoff
import Verif.Props.Rebuild
/-
Lemmas for C94: no phase of a run adds errors of its own.
-/
namespace Egg
variable {Op D S H : Type} [DecidableEq Op] [Lang Op]
variable {A : UserAnalysis Op D} {depth : Nat} {allow : Caller Op D} {E : Err → Prop} {env : RunEnv Op D} {i : Nat}

/-- The invariant of all reachable e-graphs, with nothing said about equations. -/
abbrev anyCfg : Cfg Op D := Cfg.ofR (fun _ _ => True) isCongruence_true anyReason

theorem applyEach_post {P : EGraph Op D → Prop} {f : EGraph Op D → Subst → Res (EGraph Op D × List Id)} : ∀ (ss : List Subst),
    (∀ s ∈ ss, ∀ g, P g → Post E (f g s) (fun r => P r.1)) →
    ∀ g added, P g → Post E (applyEach f g ss added) (fun r => P r.1) := by
  intro ss
  induction ss with
  | nil => intro _ g added h; exact h
  | cons s ss ih =>
    intro hf g added h
    unfold applyEach
    refine Post.bind (hf s (by simp) g h) ?_
    rintro ⟨g1, ids⟩ h1
    exact ih (fun s hs => hf s (by simp [hs])) g1 _ h1

theorem defaultApplyMatches_post {P : EGraph Op D → Prop} {b : Bool}
    {one : EGraph Op D → Id → Subst → Option (PatternAst Op) → Symbol → Res (EGraph Op D × List Id)} {rule : Symbol}
    (hb : ∀ g, P g → g.explain.isSome = b) : ∀ (ms : List (SearchMatches Op)),
    (∀ m ∈ ms, ∀ s ∈ m.substs, ∀ g, P g → Post E (one g m.eclass s (if b then m.ast else none) rule) (fun r => P r.1)) →
    ∀ g added, P g → Post E (defaultApplyMatches one rule g ms added) (fun r => P r.1) := by
  intro ms
  induction ms with
  | nil => intro _ g added h; exact h
  | cons m ms ih =>
    intro hf g added h
    unfold defaultApplyMatches
    rw [hb g h]
    refine Post.bind (applyEach_post m.substs (fun s hs g hg => hf m (by simp) s hs g hg) g added h) ?_
    rintro ⟨g1, ids⟩ h1
    exact ih (fun m hm => hf m (by simp [hm])) g1 _ h1

/-- What is used of a rule in a run. -/
structure RuleRuns (E : Err → Prop) (env : RunEnv Op D) (N : Analysis Op D) (allow : Caller Op D) (rw' : Rewrite Op D) : Prop where
  search : ∀ U eg i, Hist N allow U eg → eg.clean = true → ∀ limit, ∃ ms, rw'.searcher.search env.analysis eg (env.ord i eg) limit = .ok ms
  apply : ∀ U egS i ms ms' V eg, Hist N allow U egS → egS.clean = true → Found env i egS rw' ms → Part ms' ms →
    Steps N allow egS V eg → Post E (rw'.applier.applyMatches N eg ms' rw'.name) (fun r => ∃ W, Steps N allow eg W r.1)

theorem PatternRule.runs {rw' : Rewrite Op D} {tl t : Term (PatOp Op)} (hA : EGraph.HookOK anyCfg E (A.at depth))
    (hN : env.analysis = A.at depth) (hord : ∀ i eg, (env.ord i eg).OK eg) (hd : DiscContiguous Op)
    (hr : PatternRule rw' tl t) : RuleRuns E env (A.at depth) allow rw' where
  search := by
    intro U eg i h hc limit
    obtain ⟨lp, rp, hl, hlive, hr, hnew⟩ := hr
    obtain ⟨hv, hrw⟩ := rewrite_new_inv hnew
    obtain ⟨F, hF⟩ := (c20_limit_truncates h hc hd (hord i eg) hl).2
    obtain ⟨ms, h1, _⟩ := hF limit
    rw [hrw, hN]
    exact ⟨ms, h1⟩
  apply := by
    intro U egS i ms ms' V eg h hc hf hp hst
    have hr' := hr
    obtain ⟨lp, rp, hl, hlive, hrp, hnew⟩ := hr
    obtain ⟨hv, hrw⟩ := rewrite_new_inv hnew
    have hap := found_applicable hN hord hd hl hlive hv (by rw [hrw]) h hc hf hp hst
    have hg := (steps_grow hst (hist_good h)).1
    obtain ⟨k1, k2⟩ := hap.matchOK hg
    have := EGraph.applyMatchesGo_post hA (fun _ _ => trivial) (fun _ _ _ => trivial)
      hrp.wf.1 hrp.wf.2 rw'.name ms' eg (List.replicate rp.ast.length 0) [] hg (by simp) k1 k2
    have he : rw'.applier.applyMatches (A.at depth) eg ms' rw'.name =
        rp.applyMatchesGo (A.at depth) rw'.name eg ms' (List.replicate rp.ast.length 0) [] := by rw [hrw]; rfl
    refine Post.mono (EGraph.Post.and (by rw [he]; exact this) (Q := fun r => ∃ W, Steps (A.at depth) allow eg W r.1) ?_) (fun a h => h.2)
    rintro ⟨eg2, ids⟩ ha
    obtain ⟨W, s1, _⟩ := hr'.reach hN hord hd h hc hf hp hst ha
    exact ⟨W, s1⟩

theorem MultiRule.runs {rw' : Rewrite Op D} {ls rs : List (Var × Term (PatOp Op))} (hA : EGraph.HookOK anyCfg E (A.at depth))
    (hN : env.analysis = A.at depth) (hord : ∀ i eg, (env.ord i eg).OK eg) (hd : DiscContiguous Op)
    (hr : MultiRule rw' ls rs) : RuleRuns E env (A.at depth) allow rw' where
  search := by
    intro U eg i h hc limit
    obtain ⟨lp, rp, hl, hfn, hlive, hr, hnew⟩ := hr
    obtain ⟨hv, hrw⟩ := rewrite_new_inv hnew
    obtain ⟨F, hF, _⟩ := c22_search h hc hd (hord i eg) hl hfn
    obtain ⟨ms, h1, _⟩ := hF limit
    rw [hrw, hN]
    exact ⟨ms, h1⟩
  apply := by
    intro U egS i ms ms' V eg h hc hf hp hst
    have hr' := hr
    obtain ⟨lp, rp, hl, hfn, hlive, hr, hnew⟩ := hr
    obtain ⟨hv, hrw⟩ := rewrite_new_inv hnew
    have hs : rw'.searcher = lp.searcher := by rw [hrw]
    have hap : rw'.applier.applyMatches (A.at depth) eg ms' rw'.name = MultiPattern.applyMatchesGo (A.at depth) rp.asts eg ms' [] := by
      rw [hrw]; rfl
    have hfnd := MultiRule.found hN hord hd hl hfn hs h hc hf hp
    have hgr := (steps_grow hst (hist_good h)).2
    obtain ⟨ordc, fuel, -, -, hf2⟩ := hr
    have hH : HornClosed (fun _ _ => True) ls rs := by
      have : ∀ (rs : List (Var × Term (PatOp Op))) bound τ, Concludes (fun _ _ => True) bound τ rs := by
        intro rs
        induction rs with
        | nil => intro _ _; trivial
        | cons a rs ih => intro bound τ; obtain ⟨w, q⟩ := a; intro u _; exact ⟨fun _ => ⟨trivial, ih _ _⟩, fun _ => ih _ _⟩
      exact fun τ _ => this _ _ _
    have hg := (steps_grow hst (hist_good h)).1
    have := EGraph.applyMulti_post (allow := allow) hA
      (fun _ _ _ => trivial) hf2 ms' eg [] hg (fun c s hcs => by
        obtain ⟨k1, k2⟩ := hfnd c s hcs
        exact (MultiRule.ready hH (hist_good h) k1 k2 (fun v hv' => hlive v (hv v hv'))).grow hgr)
    rw [hap]
    exact Post.mono this (fun r hr => ⟨hr.2.2.1.choose, hr.2.2.1.choose_spec.1⟩)

theorem conditional_runs {rw' : Rewrite Op D} {lp rp : Pattern Op} {cond : Condition Op D} {tl t : Term (PatOp Op)}
    (hA : EGraph.HookOK anyCfg E (A.at depth))
    (hN : env.analysis = A.at depth) (hord : ∀ i eg, (env.ord i eg).OK eg) (hd : DiscContiguous Op)
    (hl : IsPattern lp tl) (hlive : ∀ v ∈ lp.vars, Occurs v tl) (hr : IsPattern rp t) (hcond : OnlyAdds (A.at depth) cond)
    (hE : cond.ErrorsIn E (A.at depth) allow)
    (hnew : Rewrite.new rw'.name lp.searcher (Applier.conditional cond rp.applier) = .ok rw') : RuleRuns E env (A.at depth) allow rw' where
  search := by
    intro U eg i h hc limit
    obtain ⟨hv, hrw⟩ := rewrite_new_inv hnew
    obtain ⟨F, hF⟩ := (c20_limit_truncates h hc hd (hord i eg) hl).2
    obtain ⟨ms, h1, _⟩ := hF limit
    rw [hrw, hN]
    exact ⟨ms, h1⟩
  apply := by
    intro U egS i ms ms' V eg h hc hf hp hst
    obtain ⟨hv0, hrw⟩ := rewrite_new_inv hnew
    have hv : ∀ v ∈ rp.vars, v ∈ lp.vars := fun v hv' => hv0 v (List.mem_append.2 (Or.inl hv'))
    have hvc : ∀ v ∈ cond.vars, v ∈ lp.vars := fun v hv' => hv0 v (List.mem_append.2 (Or.inr hv'))
    have he : rw'.applier.applyMatches (A.at depth) eg ms' rw'.name = defaultApplyMatches (fun eg i s ast rule =>
        conditionalOne cond rp.applier (A.at depth) eg i s ast rule) rw'.name eg ms' [] := by rw [hrw]; rfl
    rw [he]
    refine Post.mono (defaultApplyMatches_post (b := eg.explain.isSome) (P := fun g => (∃ W, Steps (A.at depth) allow eg W g) ∧ g.explain.isSome = eg.explain.isSome)
      (fun g hg => hg.2) ms' ?_ eg [] ⟨⟨[], .refl⟩, rfl⟩) (fun r hr => hr.1)
    rintro m hm s hs g ⟨⟨W, hW⟩, hx⟩
    have hst1 := Steps.trans hst hW
    have hflat : (m.eclass, s) ∈ flat ms' := mem_flat.2 ⟨m, hm, rfl, hs⟩
    have hap := found_applicable hN hord hd hl hlive hv (by rw [hrw]) h hc hf hp hst1
    have gd := (steps_grow hst1 (hist_good h)).1
    have hlb : ∀ v ∈ lp.vars, s.get v ≠ none := by
      intro v hvl
      obtain ⟨x, hx, _⟩ := gd.inv.pmatch_bound _ (hap.pmatch _ _ hflat) v (hlive v hvl)
      rw [hx]; simp
    unfold conditionalOne
    have hck : Post E (cond.check (A.at depth) g m.eclass s) (fun r => AddSteps (A.at depth) g r.1) := by
      cases hcr : cond.check (A.at depth) g m.eclass s with
      | ok r => exact hcond _ _ _ _ _ hcr
      | error e => exact hE _ g m.eclass s e (Steps.trans h hst1) (gd.valid_iff.2 (gd.inv.pmatch_lt (hap.pmatch _ _ hflat))) (hap.valid _ _ hflat) (fun v hv' => hlb v (hvc v hv')) hcr
    refine Post.bind hck ?_
    rintro ⟨g1, b⟩ ad
    have hNok := (soundFor_true A).hookOK trivial depth
    obtain ⟨gd1, x1⟩ := AddSteps.ext hNok ad (hist_good (Steps.trans h hst1))
    have x1e : g1.explain.isSome = g.explain.isSome := x1.expl
    cases b with
    | false =>
      exact ⟨⟨_, Steps.trans hW (AddSteps.steps (allow := allow) ad)⟩, by dsimp only; rw [x1e, hx]⟩
    | true =>
      have hst2 := Steps.trans hst1 (AddSteps.steps (allow := allow) ad)
      have hap1 := found_applicable hN hord hd hl hlive hv (by rw [hrw]) h hc hf hp hst2
      have hast : ∀ l, (if eg.explain.isSome then m.ast else none) = some l → g1.explain.isSome = true ∧ l = lp.ast := by
        intro l hl'
        split at hl'
        · next hxx =>
          refine ⟨by rw [x1e, hx]; exact hxx, ?_⟩
          rcases hf with rfl | ⟨limit, ms0, f1, f2⟩
          · rw [hp.nil] at hm; cases hm
          rw [hrw, hN] at f1
          obtain ⟨m1, g1', _, g3, _⟩ := (hp.trans f2) m hm
          rw [g3, search_ast f1 m1 g1'] at hl'
          cases hl'; rfl
        · cases hl'
      have gd1' : EGraph.Good anyCfg g1 := gd1
      have hbi := binds_of (p := rp) gd1' (hap1.valid _ _ hflat) (hap1.bound _ _ hflat)
      have post := EGraph.applyOne_post hA (fun _ _ => trivial) (fun _ _ _ => trivial) (p := rp) (tl := tl) hr.wf.1 hr.wf.2 gd1'
        (c := m.eclass) (s := s) ⟨hap1.pmatch _ _ hflat, hbi⟩ (ast := if eg.explain.isSome then m.ast else none) (by
          intro hne
          obtain ⟨l, hl'⟩ := Option.ne_none_iff_exists'.1 hne
          obtain ⟨e1, e2⟩ := hast l hl'
          refine ⟨e1, lp.ast, by rw [hl', e2], hl.wf.1, hl.wf.2, binds_of gd1' (hap1.valid _ _ hflat) hlb⟩) rw'.name
      show Post E (rp.applyOne (A.at depth) g1 m.eclass s _ rw'.name) _
      refine Post.mono (EGraph.Post.and post (Q := fun r => (∃ W, Steps (A.at depth) allow eg W r.1) ∧ r.1.explain.isSome = eg.explain.isSome) ?_) (fun a h => h.2)
      rintro ⟨g', ids'⟩ ho
      have happ := c23_apply_one (tl := tl) (Steps.trans h hst2) hr (hap1.pmatch _ _ hflat) (hap1.valid _ _ hflat) (hap1.bound _ _ hflat)
        (fun l hl' => by
          obtain ⟨e1, e2⟩ := hast l hl'
          exact ⟨e1, lp, e2, hl, hlb⟩) ho
      obtain ⟨U', s1, _, x2, _⟩ := EGraph.Applies.result (allow := allow) hNok
        (fun _ _ => trivial) (fun _ _ _ => trivial) gd1 happ gd1 (EGraph.Grow.refl _) (fun c s' hcs => by
          simp only [List.mem_singleton, Prod.mk.injEq] at hcs
          obtain ⟨rfl, rfl⟩ := hcs
          exact ⟨hap1.pmatch _ _ hflat, fun v x hx => gd1.valid_iff.1 (hap1.valid _ _ hflat v x hx)⟩)
      refine ⟨⟨_, Steps.trans (Steps.trans hW (AddSteps.steps (allow := allow) ad)) s1⟩, ?_⟩
      have x2e : g'.explain.isSome = g1.explain.isSome := x2.expl
      dsimp only
      rw [x2e, x1e, hx]

theorem RuleErrorsIn.runs {rw' : Rewrite Op D} (hA : EGraph.HookOK anyCfg E (A.at depth))
    (hN : env.analysis = A.at depth) (hord : ∀ i eg, (env.ord i eg).OK eg) (hd : DiscContiguous Op)
    (hr : RuleErrorsIn E (A.at depth) allow rw') : RuleRuns E env (A.at depth) allow rw' := by
  rcases hr with ⟨tl, t, hr⟩ | ⟨lp, rp, cond, tl, t, h1, h2, h3, h4, h5, h6⟩ | ⟨ls, rs, hr⟩
  · exact hr.runs hA hN hord hd
  · exact conditional_runs hA hN hord hd h1 h2 h3 h4 h5 h6
  · exact hr.runs hA hN hord hd

end Egg
