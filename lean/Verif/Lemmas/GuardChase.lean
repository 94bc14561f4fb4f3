import Verif.Spec.GuardChase
import Verif.Lemmas.ChaseSound
import Verif.Props.Guard
/-
A run with conditional rules yields nothing but what the rules derive.
-/
namespace Egg
variable {Op D S H : Type} [DecidableEq Op] [Lang Op]

namespace EGraph
variable {C : Cfg Op D} {eg : EGraph Op D} {E : Err → Prop} {N : Analysis Op D}
  {P : Term (PatOp Op) → Prop} {tl t : Term (PatOp Op)} {L : List (Id × Subst)}

theorem applyOne_inst (hN : HookOK C E N) (hR : ∀ s t, C.R s t) (hJ : ∀ r a b, C.J r a b) {p : Pattern Op}
    (he : PatWF p.ast) (ht : ExprTerm p.ast t) {ast : Option (PatternAst Op)} {c : Id} {s : Subst} {rule : Symbol} (hL : (c, s) ∈ L)
    (hPe : ∀ q, EntryOf p.ast q → P q) (hPl : ∀ l, ast = some l → ∀ q, EntryOf l q → P q) (hg : Good C eg) (hm : MatchOK eg tl p.ast c s)
    (ha : ∀ l, ast = some l → PatWF l ∧ ExprTerm l tl ∧ Binds eg s l) {r : EGraph Op D × List Id}
    (h : p.applyOne N eg c s ast rule = .ok r) : ∃ k, ApplySteps N P tl t L eg k r.1 := by
  unfold Pattern.applyOne at h
  rw [bind_eq_ok] at h
  obtain ⟨⟨eg1, buf, i⟩, h1, h⟩ := h
  have hl : (List.replicate p.ast.length (0 : Id)).length = p.ast.length := by simp
  have st0 := applyPat_inst (tl := tl) (t := t) hN he hPe hL hg hm.binds hl h1
  obtain ⟨g1, x1, b1, hil, p1⟩ := (applyPat_post hN he hg hm.binds hl).elim h1
  cases ast with
  | some l =>
    obtain ⟨q2, q3, q4⟩ := ha l rfl
    dsimp only at h
    rw [bind_eq_ok] at h
    obtain ⟨⟨eg2, i2, did⟩, h2, h⟩ := h
    cases h
    have st := unionInst_inst hN q2 q3 he ht (hPl l rfl) hPe g1 hL (q4.ext x1) (hm.binds.ext x1) hR hJ h2
    exact ⟨_, st0.trans st⟩
  | none =>
    dsimp only at h
    rw [bind_eq_ok] at h
    obtain ⟨⟨eg2, did⟩, h2, h⟩ := h
    cases h
    have hil : i < eg1.nodes.length := hil
    have hcl : c < eg1.nodes.length := x1.lt (hg.inv.pmatch_lt hm.pmatch)
    obtain ⟨u, hu⟩ := g1.inv.exists_rep hcl
    obtain ⟨w, hw⟩ := g1.inv.exists_rep hil
    have hdid := ((Good.union_post (caller := 0) hN g1 hu hw (hR _ _) (hJ _ _ _)).1.elim h2).2.2.2
    exact ⟨_, st0.union hL (p1 _ ht) (x1.pmatch hg.inv g1.inv hm.pmatch) (Or.inr ⟨0, Or.inl h2⟩) (by
      rw [hdid, g1.inv.sameClass_iff]
      constructor
      · rintro hne ⟨_, _, e⟩; exact hne e.symm
      · intro hne e; exact hne ⟨hil, hcl, e.symm⟩)⟩

end EGraph

variable {A : UserAnalysis Op D} {depth : Nat} {allow : Caller Op D} {U V W : List (UnionRec Op)}
variable {env : RunEnv Op D} {sch : Scheduler Op D S} {hooks : List (Hook Op D H)} {rules : List (Rewrite Op D)} {cs : List (GuardedClause Op)}
  {egS eg eg' g : EGraph Op D} {K : Term Op → Term Op → Prop} {hK : PCong K}

/-- Checking conditions: either one of them says no, or all guards hold and the applier is called. -/
theorem condApplier_within (hA : ∀ i, A.modify i = .done) {ap : Applier Op D} {tl : Term (PatOp Op)} {c : Id} {s : Subst} {ast : Option (PatternAst Op)} {rule : Symbol}
    {ids : List Id} {τ : Var → Term Op} {conds : List (Condition Op D)} {Ps : List ((Var → Term Op) → Prop)}
    {Q : (Var → Term Op) → Prop} (hf : Ensured (A.at depth) allow K Q conds Ps) (hQ : Q τ) :
    (∀ k ∈ conds, k.Adds (A.at depth)) → (∀ k ∈ conds, ∀ v ∈ k.vars, s.get v ≠ none) →
    ∀ {U : List (UnionRec Op)} {g g' : EGraph Op D}, Hist (A.at depth) allow U g → InHull K hK g → PMatch g s.get c tl → BindsIds g s → Assigns g s τ →
    (condApplier ap conds).applyOne (A.at depth) g c s ast rule = .ok (g', ids) →
    ∃ g1, AddSteps (A.at depth) g g1 ∧ InHull K hK g1 ∧ Assigns g1 s τ ∧
      (g' = g1 ∨ (∀ P ∈ Ps, P τ) ∧ ap.applyOne (A.at depth) g1 c s ast rule = .ok (g', ids)) := by
  have hNok := (soundFor_true A).hookOK trivial depth
  induction hf with
  | nil => intro _ _ U g g' _ hu _ _ hτ h; exact ⟨g, .refl, hu, hτ, .inr ⟨by simp, h⟩⟩
  | @cons Q k P conds Ps hk _ ih =>
    intro hadd hvars U g g' hH hu hm hb hτ h
    have h : conditionalOne k (condApplier ap conds) (A.at depth) g c s ast rule = .ok (g', ids) := h
    unfold conditionalOne at h
    rw [bind_eq_ok] at h
    obtain ⟨⟨g1, b⟩, h1, h⟩ := h
    have ad := hadd k (by simp) _ _ _ _ _ h1
    have hg := hist_good hH
    obtain ⟨gd1, x1⟩ := AddSteps.ext hNok ad hg
    have hH1 : Hist (A.at depth) allow _ g1 := Steps.trans hH (AddSteps.steps (allow := allow) ad)
    have hτ1 : Assigns g1 s τ := fun v x hx => x1.rep hg.inv gd1.inv _ (hτ v x hx)
    obtain ⟨q1, q2⟩ := hk U g c s g1 b τ hH (fun s t hst => hu.equal hst) (hg.valid_iff.2 (hg.inv.pmatch_lt hm)) hb (hvars k (by simp)) hτ hQ h1
    have hu1 : InHull K hK g1 := InHull.start hA hH1 q1
    cases b with
    | false => cases h; exact ⟨_, ad, hu1, hτ1, .inl rfl⟩
    | true =>
      obtain ⟨g2, e1, e2, e3, e4⟩ := ih ⟨hQ, q2 rfl τ hτ1⟩ (fun k' hk' => hadd k' (by simp [hk'])) (fun k' hk' => hvars k' (by simp [hk'])) hH1 hu1
        (x1.pmatch hg.inv gd1.inv hm) (fun v x hx => gd1.valid_iff.2 (lt_of_lt_of_le (hg.valid_iff.1 (hb v x hx)) x1.len)) hτ1 h
      refine ⟨g2, ad.trans e1, e2, e3, e4.imp id (fun ⟨e4, e5⟩ => ⟨fun P' hP' => ?_, e5⟩)⟩
      rcases List.mem_cons.1 hP' with rfl | hP'
      · exact q2 rfl τ hτ1
      · exact e4 P' hP'

theorem condApplier_condVars {ap : Applier Op D} {v : Var} {k : Condition Op D} (hv : v ∈ k.vars) : ∀ (conds : List (Condition Op D)), k ∈ conds →
    v ∈ (condApplier ap conds).vars
  | c :: conds, h => by
    rcases List.mem_cons.1 h with rfl | h
    · exact List.mem_append.2 (.inr hv)
    · exact List.mem_append.2 (.inl (condApplier_condVars hv conds h))

theorem condApplier_vars {ap : Applier Op D} {v : Var} : ∀ (conds : List (Condition Op D)), v ∈ ap.vars → v ∈ (condApplier ap conds).vars
  | [], h => h
  | _ :: conds, h => List.mem_append.2 (.inl (condApplier_vars conds h))

theorem IsGuardedClause.sound {rw' : Rewrite Op D} {c : GuardedClause Op} (hN : env.analysis = A.at depth) (hord : ∀ i eg, (env.ord i eg).OK eg)
    (hd : DiscContiguous Op) (h : IsGuardedClause (A.at depth) allow K rw' c) : SoundRule env (A.at depth) allow (fun _ _ => True) rw' := by
  obtain ⟨lp, rp, conds, hl, hll, hlive, hr, hrl, hreads, -, hnew⟩ := h
  cases conds with
  | nil => exact IsClause.sound (c := .rewrite c.lhs c.rhs) hN hord hd (IsTightClause.isClause (c := .rewrite c.lhs c.rhs) ⟨lp, rp, hl, hll, hlive, hr, hrl, hnew⟩)
  | cons k ks =>
    refine c89_conditions (Ps := (k :: ks).map (fun _ _ => True)) ⟨fun _ => trivial, fun _ => trivial, fun _ _ => trivial, fun _ _ _ _ => trivial⟩
      (fun _ _ _ _ _ _ _ _ _ => trivial) hN hord hd hl hlive hr hnew ?_ (fun _ _ _ _ _ _ => trivial)
    clear hnew
    generalize k :: ks = l at hreads ⊢
    induction l with
    | nil => exact .nil
    | cons a l ih =>
      refine .cons ⟨fun _ _ _ _ => trivial, fun eg c s eg' b _ _ _ he => ?_⟩ (ih (fun k hk => hreads k (by simp [hk])))
      exact ⟨hreads a (by simp) _ _ _ _ _ he, fun _ _ _ => trivial⟩

theorem IsGuardedClause.inHull {rw' : Rewrite Op D} {c : GuardedClause Op} {i : Nat} {ms ms' : List (SearchMatches Op)} {ids : List Id}
    (hA : ∀ i, A.modify i = .done) (hN : env.analysis = A.at depth) (hord : ∀ i eg, (env.ord i eg).OK eg) (hd : DiscContiguous Op)
    (hr : IsGuardedClause (A.at depth) allow K rw' c) (hcl : c.Closes K) (h : Hist (A.at depth) allow U egS) (hc : egS.clean = true)
    (hf : Found env i egS rw' ms) (hp : Part ms' ms) (hst : Steps (A.at depth) allow egS V eg)
    (ha : rw'.applier.applyMatches (A.at depth) eg ms' rw'.name = .ok (eg', ids)) (hu : InHull K hK eg) : InHull K hK eg' := by
  obtain ⟨lp, rp, conds, hl, hll, hlive, hr, hrl, hreads, hens, hnew⟩ := hr
  cases conds with
  | nil =>
    cases c with
    | mk tl t gs =>
    cases hens
    refine TightRule.inHull (tl := tl) (t := t) hA hN hord hd ⟨lp, rp, hl, hll, hlive, hr, hrl, hnew⟩ (fun s w hsw => ?_) h hc hf hp hst ha hu
    obtain ⟨τ, h1, h2, b, h3, -⟩ := hsw
    exact hcl τ s w (by simp) h1 h2 (hu.rep ((steps_grow hst (hist_good h)).2.rep _ _ h3))
  | cons k0 ks =>
  obtain ⟨hv, hrw⟩ := rewrite_new_inv hnew
  have hcv : ∀ k ∈ k0 :: ks, ∀ v ∈ k.vars, v ∈ lp.vars := fun k hk v hv' => hv v (condApplier_condVars hv' _ hk)
  have hv : ∀ v ∈ rp.vars, v ∈ lp.vars := fun v hv' => hv v (condApplier_vars (k0 :: ks) hv')
  rw [hrw] at ha
  have ha : defaultApplyMatches (fun eg i s ast rule => (condApplier rp.applier (k0 :: ks)).applyOne (A.at depth) eg i s ast rule)
    rw'.name eg ms' [] = .ok (eg', ids) := ha
  have hNok := (soundFor_true A).hookOK trivial depth
  -- one substitution
  have one : ∀ (g : EGraph Op D) (m : SearchMatches Op) (s : Subst) (ast : Option (PatternAst Op)) (rule : Symbol)
      (g' : EGraph Op D) (ids' : List Id), SoundSteps (A.at depth) allow (fun _ _ => True) egS g → InHull K hK g → m ∈ ms' → s ∈ m.substs →
      (ast = some lp.ast ∧ g.explain.isSome = true ∨ ast = none) →
      (condApplier rp.applier (k0 :: ks)).applyOne (A.at depth) g m.eclass s ast rule = .ok (g', ids') →
      SoundSteps (A.at depth) allow (fun _ _ => True) egS g' ∧ InHull K hK g' ∧ (g.explain.isSome = true → g'.explain.isSome = true) := by
    intro g m s ast rule g' ids' hg hu hm hs hast h1
    obtain ⟨W, hst0, -⟩ := hg
    have hH0 := Steps.trans h hst0
    have hgd0 := hist_good hH0
    have hflat : (m.eclass, s) ∈ flat ms' := mem_flat.2 ⟨m, hm, rfl, hs⟩
    have hap0 := found_applicable hN hord hd hl hlive hv (by rw [hrw]) h hc hf hp hst0
    have hlb : ∀ v ∈ lp.vars, s.get v ≠ none := by
      intro v hvl
      obtain ⟨x, hx, _⟩ := hgd0.inv.pmatch_bound _ (hap0.pmatch _ _ hflat) v (hlive v hvl)
      rw [hx]; simp
    obtain ⟨τ, hτ0⟩ := EGraph.exists_assignment hgd0.inv (fun v x hx => hgd0.valid_iff.1 (hap0.valid _ _ hflat v x hx)) (hgd0.inv.pmatch_lt (hap0.pmatch _ _ hflat))
    have hQ : Exists K c.lhs τ := by
      obtain ⟨u, hiu⟩ := EGraph.inst_of_pmatch τ _ (hap0.pmatch _ _ hflat)
      exact ⟨u, hiu, hu.rep (hgd0.inv.pmatch_rep _ (hap0.pmatch _ _ hflat) (fun v x _ hv => hτ0 v x hv) hiu)⟩
    obtain ⟨g1, ad, hu1, hτ, h1⟩ := condApplier_within hA hens hQ hreads (fun k hk v hv' => hlb v (hcv k hk v hv')) hH0 hu (hap0.pmatch _ _ hflat)
      (hap0.valid _ _ hflat) hτ0 h1
    have hst1 := Steps.trans hst0 (AddSteps.steps (allow := allow) ad)
    obtain ⟨-, x1⟩ := AddSteps.ext hNok ad hgd0
    rcases h1 with rfl | ⟨hP, h1⟩
    · exact ⟨⟨_, hst1, fun _ _ => trivial⟩, hu1, fun h => by rw [x1.expl]; exact h⟩
    have hast : ast = some lp.ast ∧ g1.explain.isSome = true ∨ ast = none := hast.imp (fun ⟨e, h⟩ => ⟨e, by rw [x1.expl]; exact h⟩) id
    have hH := Steps.trans h hst1
    have hS : SoundState (A.at depth) allow (fun _ _ => True) g1 := ⟨_, hH, fun _ _ => trivial⟩
    have hgd := hist_good hH
    have hap := found_applicable hN hord hd hl hlive hv (by rw [hrw]) h hc hf hp hst1
    have hm0 := hap.pmatch _ _ hflat
    have hval := hap.valid _ _ hflat
    obtain ⟨k1, k2⟩ := c89_pattern (A := A) (depth := depth) (allow := allow) (R := fun _ _ => True) (P := fun _ => True)
      ⟨fun _ => trivial, fun _ => trivial, fun _ _ => trivial, fun _ _ _ _ => trivial⟩ hl hr hv (fun _ _ _ _ _ _ => trivial)
      g1 _ s ast rule g' ids' hS hm0 hval hlb hast (fun _ _ => trivial) h1
    refine ⟨SoundSteps.trans ⟨_, hst1, fun _ _ => trivial⟩ k1, ?_, fun h => k2 (by rw [x1.expl]; exact h)⟩
    have h1 : rp.applyOne (A.at depth) g1 m.eclass s ast rule = .ok (g', ids') := h1
    obtain ⟨k, hsteps⟩ := EGraph.applyOne_inst (P := fun q => EntryOf rp.ast q ∨ EntryOf lp.ast q) (tl := c.lhs) (t := c.rhs)
      (L := [(m.eclass, s)]) hNok (fun _ _ => trivial) (fun _ _ _ => trivial) hr.wf.1 hr.wf.2 (by simp) (fun _ h => .inl h)
      (fun l hl' q hq => by
        rcases hast with ⟨e, _⟩ | e <;> rw [e] at hl' <;> cases hl'
        exact .inr hq)
      hgd ⟨hm0, binds_of hgd hval (fun v hv' => hlb v (hv v hv'))⟩
      (fun l hl' => by
        rcases hast with ⟨e, _⟩ | e <;> rw [e] at hl' <;> cases hl'
        exact ⟨hl.wf.1, hl.wf.2, binds_of hgd hval hlb⟩) h1
    refine (InHull.applySteps hA (fun q hq => ?_) hsteps hu1 (fun c' s' hcs => ?_)).1
    · rcases hq with hq | hq
      · exact Or.inr (entry_subterm hr.wf.1 hr.wf.2 hrl hq)
      · exact Or.inl (entry_subterm hl.wf.1 hl.wf.2 hll hq)
    · simp only [List.mem_singleton, Prod.mk.injEq] at hcs
      obtain ⟨rfl, rfl⟩ := hcs
      obtain ⟨u, hiu⟩ := EGraph.inst_of_pmatch τ _ hm0
      obtain ⟨w, hw⟩ := inst_exists hr.wf.1 τ c.rhs _ hr.wf.2.2
      have hur := hgd.inv.pmatch_rep _ hm0 (fun v x _ hv => hτ v x hv) hiu
      exact ⟨τ, u, w, hτ, hiu, hw, hcl τ u w hP hiu hw (hu1.rep hur)⟩
  have each : ∀ (m : SearchMatches Op) (ast : Option (PatternAst Op)) (rule : Symbol), m ∈ ms' → ∀ (ss : List Subst), (∀ s ∈ ss, s ∈ m.substs) →
      ∀ (g : EGraph Op D) (added : List Id) (g' : EGraph Op D) (added' : List Id),
      SoundSteps (A.at depth) allow (fun _ _ => True) egS g → InHull K hK g → (ast = some lp.ast ∧ g.explain.isSome = true ∨ ast = none) →
      applyEach (fun g s => (condApplier rp.applier (k0 :: ks)).applyOne (A.at depth) g m.eclass s ast rule) g ss added = .ok (g', added') →
      SoundSteps (A.at depth) allow (fun _ _ => True) egS g' ∧ InHull K hK g' := by
    intro m ast rule hm ss
    induction ss with
    | nil => intro _ g added g' added' hg hu _ h1; cases h1; exact ⟨hg, hu⟩
    | cons s ss ih =>
      intro hss g added g' added' hg hu hast h1
      unfold applyEach at h1
      rw [bind_eq_ok] at h1
      obtain ⟨⟨g1, ids1⟩, h2, h1⟩ := h1
      obtain ⟨s1, u1, hx⟩ := one g m s ast rule g1 ids1 hg hu hm (hss s (by simp)) hast h2
      exact ih (fun s hs => hss s (by simp [hs])) g1 _ g' added' s1 u1 (hast.imp (fun ⟨e, h⟩ => ⟨e, hx h⟩) id) h1
  have all : ∀ (rule : Symbol) (ms1 : List (SearchMatches Op)), (∀ m ∈ ms1, m ∈ ms') → ∀ (g : EGraph Op D) (added : List Id)
      (g' : EGraph Op D) (added' : List Id), SoundSteps (A.at depth) allow (fun _ _ => True) egS g → InHull K hK g →
      defaultApplyMatches (fun eg i s ast rule => (condApplier rp.applier (k0 :: ks)).applyOne (A.at depth) eg i s ast rule) rule g ms1 added
        = .ok (g', added') → InHull K hK g' := by
    intro rule ms1
    induction ms1 with
    | nil => intro _ g added g' added' _ hu h1; cases h1; exact hu
    | cons m ms1 ih =>
      intro hms g added g' added' hg hu h1
      unfold defaultApplyMatches at h1
      rw [bind_eq_ok] at h1
      obtain ⟨⟨g1, added1⟩, h2, h1⟩ := h1
      have hm := hms m (by simp)
      obtain ⟨s1, u1⟩ := each m _ rule hm m.substs (fun _ h => h) g added g1 added1 hg hu (by
        by_cases hx : g.explain.isSome = true
        · left
          rw [if_pos hx]
          rcases hf with rfl | ⟨limit, ms0, f1, f2⟩
          · rw [hp.nil] at hm; cases hm
          rw [hrw, hN] at f1
          obtain ⟨m1, g1, _, g3, _⟩ := (hp.trans f2) m hm
          exact ⟨by rw [g3]; exact search_ast f1 m1 g1, hx⟩
        · right; rw [if_neg hx]) h2
      exact ih (fun m hm => hms m (by simp [hm])) g1 _ g' added' s1 u1 h1
  exact all _ ms' (fun _ h => h) eg [] eg' ids ⟨V, hst, fun _ _ => trivial⟩ hu ha

/-! ### Runs -/

theorem HoldsIn.sound {rw' : Rewrite Op D} (hN : env.analysis = A.at depth) (hord : ∀ i eg, (env.ord i eg).OK eg)
    (hd : DiscContiguous Op) (h : HoldsIn (A.at depth) allow K rw') : SoundRule env (A.at depth) allow (fun _ _ => True) rw' := by
  rcases h with ⟨c, h, -⟩ | ⟨c, h, -⟩
  · exact h.sound hN hord hd
  · exact h.isClause.sound hN hord hd

theorem HoldsIn.inHull {rw' : Rewrite Op D} {i : Nat} {ms ms' : List (SearchMatches Op)} {ids : List Id}
    (hA : ∀ i, A.modify i = .done) (hN : env.analysis = A.at depth) (hord : ∀ i eg, (env.ord i eg).OK eg) (hd : DiscContiguous Op)
    (hr : HoldsIn (A.at depth) allow K rw') (h : Hist (A.at depth) allow U egS) (hc : egS.clean = true)
    (hf : Found env i egS rw' ms) (hp : Part ms' ms) (hst : Steps (A.at depth) allow egS V eg)
    (ha : rw'.applier.applyMatches (A.at depth) eg ms' rw'.name = .ok (eg', ids)) (hu : InHull K hK eg) : InHull K hK eg' := by
  rcases hr with ⟨c, hr, hcl⟩ | ⟨c, hr, hcl⟩
  · exact hr.inHull hA hN hord hd hcl h hc hf hp hst ha hu
  · have hcl' : ∀ s t, c.Derives (Equal egS) s t → K s t := fun s t hst' =>
      hcl s t (hst'.mono (fun s t hst' => hu.equal ((steps_grow hst (hist_good h)).2.equal hst')))
    cases c with
    | rewrite tl t => exact TightRule.inHull hA hN hord hd hr hcl' h hc hf hp hst ha hu
    | horn ls rs => exact TightMulti.inHull hA hN hord hd hr hcl' h hc hf hp hst ha hu

theorem Runner.applyEachRule_guarded {i : Nat} (hA : ∀ i, A.modify i = .done) (hN : env.analysis = A.at depth) (hord : ∀ i eg, (env.ord i eg).OK eg)
    (hd : DiscContiguous Op) (hs : sch.Honest env) (h : Hist (A.at depth) allow U egS) (hc : egS.clean = true) :
    ∀ (l : List (Rewrite Op D × List (SearchMatches Op))) (r r1 : Runner Op D S H) (ap ap' : AMap Symbol Nat) (o : Option StopReason)
      (V : List (UnionRec Op)),
    (∀ rw' ms, (rw', ms) ∈ l → Found env i egS rw' ms ∧ HoldsIn (A.at depth) allow K rw') →
    Steps (A.at depth) allow egS V r.egraph → InHull K hK r.egraph →
    applyEachRule env sch l r ap = .ok (r1, ap', o) → InHull K hK r1.egraph := by
  intro l
  induction l with
  | nil => intro r r1 ap ap' o V _ _ hu h; cases h; exact hu
  | cons x l ih =>
    intro r r1 ap ap' o V hl hst hu ha
    obtain ⟨rw', ms⟩ := x
    unfold applyEachRule at ha
    rw [bind_eq_ok] at ha
    obtain ⟨⟨s, eg, n⟩, h1, ha⟩ := ha
    obtain ⟨ms', ids, h2, h3⟩ := hs.apply _ _ _ _ _ _ _ _ h1
    obtain ⟨hf, hr⟩ := hl rw' ms (by simp)
    rw [hN] at h2
    obtain ⟨W, s1, -⟩ := hr.sound (allow := allow) hN hord hd _ egS i ms _ _ ms' _ _ h (fun _ _ => trivial) hc hf hst (fun _ _ => trivial) h3 h2
    have hu1 : InHull K hK eg := hr.inHull hA hN hord hd h hc hf h3 hst h2 hu
    dsimp only at ha
    split at ha
    · cases ha; exact hu1
    · exact ih _ r1 _ ap' o _ (fun a b hab => hl a b (by simp [hab])) (Steps.trans hst s1) hu1 ha

theorem Runner.runOne_guarded {r r4 : Runner Op D S H} (hA : ∀ i, A.modify i = .done) (hN : env.analysis = A.at depth) (hord : ∀ i eg, (env.ord i eg).OK eg)
    (hd : DiscContiguous Op) (hs : sch.Honest env) (hh : HooksRead hooks)
    (hr : ∀ rw' ∈ rules, HoldsIn (A.at depth) allow K rw') {it : Iteration}
    (h : Hist (A.at depth) allow U r.egraph) (hc : r.egraph.clean = true) (hu : InHull K hK r.egraph)
    (ho : runOne env sch hooks rules r = .ok (r4, it)) : InHull K hK r4.egraph := by
  obtain ⟨_, r1, res1, r2, ms, r3, applied, res3, eg, nReb, quiet, p1, p2, p3, p4, p5, -⟩ := runOne_inv ho
  obtain ⟨f2, e2⟩ := searchPhase_frame p2
  obtain ⟨f4, e4⟩ := quietPhase_frame p5
  have e1 := hookPhase_read hh p1
  have hu3 : InHull K hK r3.egraph := by
    unfold applyPhase at p3
    split at p3
    · cases p3; rw [e2, e1]; exact hu
    next mss =>
    refine applyEachRule_guarded (i := r1.iterations.length) (egS := r1.egraph) hA hN hord hd hs (by rw [e1]; exact h) (by rw [e1]; exact hc) _ r2 r3 _ _ _ []
      (fun rw' ms hm => ⟨?_, hr rw' (List.of_mem_zip hm).1⟩) (by rw [e2]; exact .refl) (by rw [e2, e1]; exact hu) p3
    unfold searchPhase at p2
    split at p2
    · cases p2
    rw [bind_eq_ok] at p2
    obtain ⟨⟨s, tick, ms0⟩, k1, k2⟩ := p2
    cases k2
    exact hs.search _ _ _ _ _ _ _ _ _ k1 rw' ms hm
  rw [hN] at p4
  rw [e4]
  exact hu3.rebuild hA p4

theorem Runner.runLoop_guarded (hA : ∀ i, A.modify i = .done) (hN : env.analysis = A.at depth) (hord : ∀ i eg, (env.ord i eg).OK eg) (hd : DiscContiguous Op)
    (hs : sch.Honest env) (hh : HooksRead hooks) (hr : ∀ rw' ∈ rules, HoldsIn (A.at depth) allow K rw') :
    ∀ (f : Nat) (r r' : Runner Op D S H) (U : List (UnionRec Op)), Hist (A.at depth) allow U r.egraph → r.egraph.clean = true →
    InHull K hK r.egraph → runLoop env sch hooks rules f r = .ok r' →
    InHull K hK r'.egraph ∧ r'.egraph.clean = true ∧ ∃ V, Steps (A.at depth) allow r.egraph V r'.egraph := by
  intro f
  induction f with
  | zero => intro r r' U _ _ _ h; cases h
  | succ f ih =>
    intro r r' U h hc hu hl
    obtain ⟨fb, r1, it, e, hb1, hb2, hb3⟩ := runLoop_step hl
    cases e
    obtain ⟨cb, Vb, sb, -⟩ := runOne_sound (R := fun _ _ => True) hN hs
      (fun k hk h0 eg its h' eg' o hc he => by
        have := hh k hk _ _ _ _ _ _ he
        subst this
        exact ⟨hc, [], .refl, by simp⟩)
      (fun rw' hrw => (hr rw' hrw).sound hN hord hd) h (fun _ _ => trivial) hc hb1
    have h1 : Hist (A.at depth) allow _ r1.egraph := Steps.trans h sb
    have hu1 := runOne_guarded hA hN hord hd hs hh hr h hc hu hb1
    rcases hb3 with ⟨s, h2, rfl⟩ | ⟨_, _, _, _, _, _, _, e1, e2⟩ | ⟨_, hb4, hb5⟩
    · exact ⟨hu1, cb, _, sb⟩
    · rw [e1]; exact ⟨hu1, cb, _, sb⟩
    · obtain ⟨k1, k2, W, k3⟩ := ih _ r' _ (by exact h1) (by exact cb) (by exact hu1) hb5
      exact ⟨k1, k2, _, Steps.trans sb k3⟩

end Egg
