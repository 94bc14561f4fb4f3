import Verif.Spec.Run
import Verif.Lemmas.Saturate
import Verif.Props.Rewrite
/-
Lemmas about runs.
-/
namespace Egg
variable {Op D S H : Type} [DecidableEq Op] [Lang Op]
variable {A : UserAnalysis Op D} {depth : Nat} {allow : Caller Op D}

/-- `eg'` is reached from `eg` by API calls whose unions are all in `P`. -/
def Reach (N : Analysis Op D) (allow : Caller Op D) (P : Term Op → Term Op → Prop) (eg eg' : EGraph Op D) : Prop :=
  ∃ V, Steps N allow eg V eg' ∧ ∀ u ∈ V, P u.s u.t

section
variable {N : Analysis Op D} {P P' : Term Op → Term Op → Prop} {a b c : EGraph Op D}

theorem Reach.rfl' : Reach N allow P a a := ⟨[], .refl, by simp⟩

theorem Reach.trans (h : Reach N allow P a b) (h' : Reach N allow P b c) : Reach N allow P a c := by
  obtain ⟨V, h1, h2⟩ := h
  obtain ⟨V', h3, h4⟩ := h'
  refine ⟨V' ++ V, h1.trans h3, fun u hu => ?_⟩
  rcases List.mem_append.1 hu with h | h
  · exact h4 u h
  · exact h2 u h

theorem Reach.mono (h : Reach N allow P a b) (hP : ∀ s t, P s t → P' s t) : Reach N allow P' a b := by
  obtain ⟨V, h1, h2⟩ := h
  exact ⟨V, h1, fun u hu => hP _ _ (h2 u hu)⟩

theorem Reach.rebuild {fuel n : Nat} (h : EGraph.rebuild N fuel a = .ok (b, n)) : Reach N allow P a b :=
  ⟨[], .single (.rebuild h), by simp⟩

theorem Reach.adds (h : AddSteps N a b) : Reach N allow P a b := ⟨[], h.steps, by simp⟩

theorem Part.flat {ms' ms : List (SearchMatches Op)} (h : Part ms' ms) {c : Id} {s : Subst} (hc : (c, s) ∈ flat ms') :
    (c, s) ∈ flat ms := by
  rw [mem_flat] at hc ⊢
  obtain ⟨m, h1, rfl, h3⟩ := hc
  obtain ⟨m0, g1, g2, _, g3⟩ := h m h1
  exact ⟨m0, g1, g2.symm, g3 s h3⟩

theorem Part.trans {a b c : List (SearchMatches Op)} (h : Part a b) (h' : Part b c) : Part a c := by
  intro m hm
  obtain ⟨m1, g1, g2, g3, g4⟩ := h m hm
  obtain ⟨m2, k1, k2, k3, k4⟩ := h' m1 g1
  exact ⟨m2, k1, g2.trans k2, g3.trans k3, fun s hs => k4 s (g4 s hs)⟩

theorem Part.nil {ms : List (SearchMatches Op)} (h : Part ms []) : ms = [] := by
  rcases ms with _ | ⟨m, ms⟩
  · rfl
  · obtain ⟨_, h1, _⟩ := h m (by simp); cases h1

theorem Part.refl' (a : List (SearchMatches Op)) : Part a a := fun m hm => ⟨m, hm, rfl, rfl, fun _ h => h⟩

end

/-- Either orientation of an instance of `tl => t`. -/
def Equation (tl t : Term (PatOp Op)) (s w : Term Op) : Prop :=
  (∃ τ : Var → Term Op, Inst τ tl s ∧ Inst τ t w) ∨ ∃ τ : Var → Term Op, Inst τ tl w ∧ Inst τ t s

theorem rewrite_new_inv {name : Symbol} {sr : Searcher Op D} {ap : Applier Op D} {rw' : Rewrite Op D}
    (h : Rewrite.new name sr ap = .ok rw') : (∀ v ∈ ap.vars, v ∈ sr.vars) ∧ rw' = ⟨name, sr, ap⟩ := by
  have hv : ∀ v ∈ ap.vars, v ∈ sr.vars := by
    by_contra hn
    push Not at hn
    obtain ⟨v, _, _, h3⟩ := (c24_new name sr ap).1 hn
    rw [h] at h3; cases h3
  refine ⟨hv, ?_⟩
  have := (c24_new name sr ap).2 hv
  rw [h] at this
  injection this

section
variable {tl t : Term (PatOp Op)} {rw' : Rewrite Op D} {U V : List (UnionRec Op)} {egS eg1 eg2 : EGraph Op D}
  {ms ms' : List (SearchMatches Op)} {env : RunEnv Op D} {i : Nat} {ids : List Id}

theorem found_applicable (hN : env.analysis = A.at depth) (hord : ∀ i eg, (env.ord i eg).OK eg) (hd : DiscContiguous Op)
    {lp rp : Pattern Op} (hl : IsPattern lp tl) (hlive : ∀ v ∈ lp.vars, Occurs v tl) (hv : ∀ v ∈ rp.vars, v ∈ lp.vars)
    (hs : rw'.searcher = lp.searcher)
    (h : Hist (A.at depth) allow U egS) (hc : egS.clean = true) (hf : Found env i egS rw' ms) (hp : Part ms' ms)
    (hst : Steps (A.at depth) allow egS V eg1) : Applicable eg1 tl rp ms' := by
  rcases hf with rfl | ⟨limit, ms0, h1, h2⟩
  · have : ms' = [] := hp.nil
    subst this
    exact ⟨by simp [flat], by simp [flat], by simp [flat], by simp⟩
  rw [hs, hN] at h1
  refine search_applicable h hc hd (hord i egS) hl hlive hv h1 hst (fun c s hcs => h2.flat (hp.flat hcs)) (fun m hm => ?_)
  obtain ⟨m1, g1, _, g3, _⟩ := (hp.trans h2) m hm
  rw [g3]
  exact search_ast h1 m1 g1

theorem InstancePair.equation {eg : EGraph Op D} {s : Subst} {u w : Term Op}
    (h : InstancePair eg tl t s u w ∨ InstancePair eg tl t s w u) : Equation tl t u w := by
  rcases h with ⟨τ, _, h1, h2⟩ | ⟨τ, _, h1, h2⟩
  · exact Or.inl ⟨τ, h1, h2⟩
  · exact Or.inr ⟨τ, h1, h2⟩

/-- Applying a pattern rule. -/
theorem PatternRule.reach (hN : env.analysis = A.at depth) (hord : ∀ i eg, (env.ord i eg).OK eg) (hd : DiscContiguous Op)
    (hr : PatternRule rw' tl t) (h : Hist (A.at depth) allow U egS) (hc : egS.clean = true) (hf : Found env i egS rw' ms)
    (hp : Part ms' ms) (hst : Steps (A.at depth) allow egS V eg1)
    (ha : rw'.applier.applyMatches (A.at depth) eg1 ms' rw'.name = .ok (eg2, ids)) :
    Reach (A.at depth) allow (Equation tl t) eg1 eg2 := by
  obtain ⟨lp, rp, hl, hlive, hr, hnew⟩ := hr
  obtain ⟨hv, hrw⟩ := rewrite_new_inv hnew
  have hap := found_applicable hN hord hd hl hlive hv (by rw [hrw]) h hc hf hp hst
  rw [hrw] at ha
  obtain ⟨⟨U', q1, q2⟩, _⟩ := c23_effect (Steps.trans h hst) hr hap (rule := rw'.name) ha
  refine ⟨U', q1, fun u hu => ?_⟩
  obtain ⟨c, s, _, q⟩ := q2 u hu
  exact InstancePair.equation q

/-- Applying a conditional rule. -/
theorem ConditionalRule.reach (hN : env.analysis = A.at depth) (hord : ∀ i eg, (env.ord i eg).OK eg) (hd : DiscContiguous Op)
    (hr : ConditionalRule (A.at depth) rw' tl t) (h : Hist (A.at depth) allow U egS) (hc : egS.clean = true)
    (hf : Found env i egS rw' ms)
    (hp : Part ms' ms) (hst : Steps (A.at depth) allow egS V eg1)
    (ha : rw'.applier.applyMatches (A.at depth) eg1 ms' rw'.name = .ok (eg2, ids)) :
    Reach (A.at depth) allow (Equation tl t) eg1 eg2 := by
  obtain ⟨lp, rp, cond, hl, hlive, hr, hcond, hnew⟩ := hr
  obtain ⟨hv, hrw⟩ := rewrite_new_inv hnew
  have hv : ∀ v ∈ rp.vars, v ∈ lp.vars := fun v hv' => hv v (List.mem_append.2 (Or.inl hv'))
  rw [hrw] at ha
  have ha : defaultApplyMatches (fun eg i s ast rule => conditionalOne cond rp.applier (A.at depth) eg i s ast rule)
    rw'.name eg1 ms' [] = .ok (eg2, ids) := ha
  have hNok := (soundFor_true A).hookOK trivial depth
  -- one substitution
  have one : ∀ (g : EGraph Op D) (W : List (UnionRec Op)) (m : SearchMatches Op) (s : Subst) (ast : Option (PatternAst Op)) (rule : Symbol)
      (g' : EGraph Op D) (ids' : List Id), Steps (A.at depth) allow egS W g → m ∈ ms' → s ∈ m.substs →
      (ast = some lp.ast ∧ g.explain.isSome = true ∨ ast = none) →
      conditionalOne cond rp.applier (A.at depth) g m.eclass s ast rule = .ok (g', ids') →
      Reach (A.at depth) allow (Equation tl t) g g' ∧ g'.explain.isSome = g.explain.isSome := by
    intro g W m s ast rule g' ids' hg hm hs hast h1
    unfold conditionalOne at h1
    rw [bind_eq_ok] at h1
    obtain ⟨⟨g1, bb⟩, h2, h1⟩ := h1
    have ad := hcond _ _ _ _ _ h2
    obtain ⟨gd1, x1⟩ := AddSteps.ext hNok ad (hist_good (Steps.trans h hg))
    cases bb with
    | false => cases h1; exact ⟨Reach.adds ad, x1.expl⟩
    | true =>
      have hst1 := Steps.trans hg (AddSteps.steps (allow := allow) ad)
      have hap := found_applicable hN hord hd hl hlive hv (by rw [hrw]) h hc hf hp hst1
      have hflat : (m.eclass, s) ∈ flat ms' := mem_flat.2 ⟨m, hm, rfl, hs⟩
      have hlb : ∀ v ∈ lp.vars, s.get v ≠ none := by
        intro v hvl
        obtain ⟨x, hx, _⟩ := gd1.inv.pmatch_bound _ (hap.pmatch _ _ hflat) v (hlive v hvl)
        rw [hx]; simp
      have h1 : rp.applyOne (A.at depth) g1 m.eclass s ast rule = .ok (g', ids') := h1
      have happ := c23_apply_one (tl := tl) (Steps.trans h hst1) hr (hap.pmatch _ _ hflat) (hap.valid _ _ hflat) (hap.bound _ _ hflat)
        (fun l hl' => by
          rcases hast with ⟨e, hx⟩ | e
          · rw [e] at hl'; cases hl'
            exact ⟨by rw [x1.expl]; exact hx, lp, rfl, hl, hlb⟩
          · rw [e] at hl'; cases hl') h1
      obtain ⟨U', s1, _, x2, k1, _⟩ := EGraph.Applies.result (allow := allow) hNok
        (fun _ _ => trivial) (fun _ _ _ => trivial) gd1 happ gd1 (EGraph.Grow.refl _) (fun c s' hcs => by
          simp only [List.mem_singleton, Prod.mk.injEq] at hcs
          obtain ⟨rfl, rfl⟩ := hcs
          exact ⟨hap.pmatch _ _ hflat, fun v x hx => gd1.valid_iff.1 (hap.valid _ _ hflat v x hx)⟩)
      refine ⟨(Reach.adds ad).trans ⟨U', s1, fun u hu => ?_⟩, by rw [x2.expl, x1.expl]⟩
      obtain ⟨_, _, _, q⟩ := k1 u hu
      exact InstancePair.equation q
  have each : ∀ (m : SearchMatches Op) (ast : Option (PatternAst Op)) (rule : Symbol), m ∈ ms' → ∀ (ss : List Subst), (∀ s ∈ ss, s ∈ m.substs) →
      ∀ (g : EGraph Op D) (W : List (UnionRec Op)) (added : List Id) (g' : EGraph Op D) (added' : List Id),
      Steps (A.at depth) allow egS W g → (ast = some lp.ast ∧ g.explain.isSome = true ∨ ast = none) →
      applyEach (fun g s => conditionalOne cond rp.applier (A.at depth) g m.eclass s ast rule) g ss added = .ok (g', added') →
      Reach (A.at depth) allow (Equation tl t) g g' := by
    intro m ast rule hm ss
    induction ss with
    | nil => intro _ g W added g' added' _ _ h1; cases h1; exact Reach.rfl'
    | cons s ss ih =>
      intro hss g W added g' added' hg hast h1
      unfold applyEach at h1
      rw [bind_eq_ok] at h1
      obtain ⟨⟨g1, ids1⟩, h2, h1⟩ := h1
      obtain ⟨⟨W', s1, q1⟩, hx⟩ := one g W m s ast rule g1 ids1 hg hm (hss s (by simp)) hast h2
      exact Reach.trans ⟨W', s1, q1⟩ (ih (fun s hs => hss s (by simp [hs])) g1 _ _ g' added' (Steps.trans hg s1) (by rw [hx]; exact hast) h1)
  have all : ∀ (rule : Symbol) (ms1 : List (SearchMatches Op)), (∀ m ∈ ms1, m ∈ ms') → ∀ (g : EGraph Op D) (W : List (UnionRec Op)) (added : List Id)
      (g' : EGraph Op D) (added' : List Id), Steps (A.at depth) allow egS W g →
      defaultApplyMatches (fun eg i s ast rule => conditionalOne cond rp.applier (A.at depth) eg i s ast rule) rule g ms1 added
        = .ok (g', added') → Reach (A.at depth) allow (Equation tl t) g g' := by
    intro rule ms1
    induction ms1 with
    | nil => intro _ g W added g' added' _ h1; cases h1; exact Reach.rfl'
    | cons m ms1 ih =>
      intro hms g W added g' added' hg h1
      unfold defaultApplyMatches at h1
      rw [bind_eq_ok] at h1
      obtain ⟨⟨g1, added1⟩, h2, h1⟩ := h1
      have hm := hms m (by simp)
      obtain ⟨W', s1, q1⟩ := each m _ rule hm m.substs (fun _ h => h) g W added g1 added1 hg (by
        by_cases hx : g.explain.isSome = true
        · left
          rw [if_pos hx]
          rcases hf with rfl | ⟨limit, ms0, f1, f2⟩
          · rw [hp.nil] at hm; cases hm
          rw [hrw, hN] at f1
          obtain ⟨m1, g1, _, g3, _⟩ := (hp.trans f2) m hm
          exact ⟨by rw [g3]; exact search_ast f1 m1 g1, hx⟩
        · right; rw [if_neg hx]) h2
      exact Reach.trans ⟨W', s1, q1⟩ (ih (fun m hm => hms m (by simp [hm])) g1 _ _ g' added' (Steps.trans hg s1) h1)
  exact all _ ms' (fun _ h => h) eg1 V [] eg2 ids hst ha

end

/-! ### The phases of an iteration -/

section
variable {env : RunEnv Op D} {sch : Scheduler Op D S} {hooks : List (Hook Op D H)} {rules : List (Rewrite Op D)}
  {eqs : List (Term (PatOp Op) × Term (PatOp Op))} {Q : Term Op → Term Op → Prop}
  {r r1 r2 r3 r4 : Runner Op D S H} {U : List (UnionRec Op)}

/-- What an iteration does not change. -/
structure Frame (r r' : Runner Op D S H) : Prop where
  its : r'.iterations = r.iterations
  lim : r'.limits = r.limits
  stop : r'.stopReason = r.stopReason
  roots : r'.roots = r.roots

theorem Frame.trans {r r' r'' : Runner Op D S H} (h : Frame r r') (h' : Frame r' r'') : Frame r r'' :=
  ⟨h'.its.trans h.its, h'.lim.trans h.lim, h'.stop.trans h.stop, h'.roots.trans h.roots⟩

/-- The equation of a union made during a run: one made by a hook, or an instance of a
rule, in either orientation. -/
def RunEquation (eqs : List (Term (PatOp Op) × Term (PatOp Op))) (Q : Term Op → Term Op → Prop) (s w : Term Op) : Prop :=
  Q s w ∨ RuleInstance eqs s w ∨ RuleInstance eqs w s

theorem Runner.hookPhase_frame {o : Option StopReason} (h : hookPhase env hooks r = .ok (r1, o)) :
    Frame r r1 ∧ r1.scheduler = r.scheduler := by
  unfold hookPhase at h
  split at h
  · cases h; exact ⟨⟨rfl, rfl, rfl, rfl⟩, rfl⟩
  · rw [bind_eq_ok] at h
    obtain ⟨⟨h1, eg, o⟩, _, h⟩ := h
    cases h; exact ⟨⟨rfl, rfl, rfl, rfl⟩, rfl⟩

theorem Runner.searchPhase_frame {o : Option StopReason} {ms} (h : searchPhase env sch rules r o = .ok (r1, ms)) :
    Frame r r1 ∧ r1.egraph = r.egraph := by
  unfold searchPhase at h
  split at h
  · cases h; exact ⟨⟨rfl, rfl, rfl, rfl⟩, rfl⟩
  · rw [bind_eq_ok] at h
    obtain ⟨⟨h1, eg, o⟩, _, h⟩ := h
    cases h; exact ⟨⟨rfl, rfl, rfl, rfl⟩, rfl⟩

theorem Runner.applyEachRule_frame : ∀ (l : List (Rewrite Op D × List (SearchMatches Op))) {r r1 : Runner Op D S H} {ap ap' o},
    applyEachRule env sch l r ap = .ok (r1, ap', o) → Frame r r1 := by
  intro l
  induction l with
  | nil => intro r r1 ap ap' o h; cases h; exact ⟨rfl, rfl, rfl, rfl⟩
  | cons x l ih =>
    intro r r1 ap ap' o h
    obtain ⟨rw', ms⟩ := x
    unfold applyEachRule at h
    rw [bind_eq_ok] at h
    obtain ⟨⟨s, eg, n⟩, _, h⟩ := h
    dsimp only at h
    split at h
    · cases h; exact ⟨rfl, rfl, rfl, rfl⟩
    · have := ih h
      exact ⟨this.its, this.lim, this.stop, this.roots⟩

theorem Runner.applyPhase_frame {ms ap o} (h : applyPhase env sch rules r ms = .ok (r1, ap, o)) : Frame r r1 := by
  unfold applyPhase at h
  split at h
  · cases h; exact ⟨rfl, rfl, rfl, rfl⟩
  · exact applyEachRule_frame _ h

theorem Runner.quietPhase_frame {ap b} (h : quietPhase sch ap r = .ok (r1, b)) : Frame r r1 ∧ r1.egraph = r.egraph := by
  unfold quietPhase at h
  split at h
  · rw [bind_eq_ok] at h
    obtain ⟨⟨s, b⟩, _, h⟩ := h
    cases h; exact ⟨⟨rfl, rfl, rfl, rfl⟩, rfl⟩
  · cases h; exact ⟨⟨rfl, rfl, rfl, rfl⟩, rfl⟩

/-- The parts of an iteration. -/
theorem Runner.runOne_inv {it : Iteration} (h : runOne env sch hooks rules r = .ok (r4, it)) :
    r.stopReason = none ∧
    ∃ (r1 : Runner Op D S H) (res1 : Option StopReason) (r2 : Runner Op D S H)
      (ms : Except StopReason (List (List (SearchMatches Op)))) (r3 : Runner Op D S H) (applied : AMap Symbol Nat)
      (res3 : Option StopReason) (eg : EGraph Op D) (nReb : Nat) (quiet : Bool),
      hookPhase env hooks r = .ok (r1, res1) ∧ searchPhase env sch rules r1 res1 = .ok (r2, ms) ∧
      applyPhase env sch rules r2 ms = .ok (r3, applied, res3) ∧
      r3.egraph.rebuild env.analysis env.fuel = .ok (eg, nReb) ∧
      quietPhase sch applied { r3 with egraph := eg } = .ok (r4, quiet) ∧
      it.applied = applied ∧ it.egraphNodes = r.egraph.totalSize ∧ it.egraphClasses = r.egraph.numberOfClasses ∧
      it.stopReason = (match res3 with
        | some s => some s
        | none => if quiet
            && decide (r.egraph.totalSize = r1.egraph.totalSize) && decide (r.egraph.numberOfClasses = r1.egraph.numberOfClasses)
            && decide (r.egraph.totalSize = r4.egraph.totalSize) && decide (r.egraph.numberOfClasses = r4.egraph.numberOfClasses)
          then some .saturated else none) := by
  unfold runOne at h
  split at h
  · cases h
  next hs =>
  refine ⟨by simpa using hs, ?_⟩
  simp only [bind_eq_ok] at h
  obtain ⟨⟨r1, res1⟩, h1, ⟨r2, ms⟩, h2, ⟨r3, applied, res3⟩, h3, ⟨eg, n⟩, h4, ⟨r4', quiet⟩, h5, h⟩ := h
  cases h
  exact ⟨r1, res1, r2, ms, r3, applied, res3, eg, n, quiet, h1, h2, h3, h4, h5, rfl, rfl, rfl, rfl⟩

theorem Runner.runHooks_reach {N : Analysis Op D} {its : List Iteration} : ∀ (ks : List (Hook Op D H)), HooksOK N allow Q ks →
    ∀ {h h' : H} {eg eg' : EGraph Op D} {o}, eg.clean = true → runHooks its ks h eg = .ok (h', eg', o) →
    eg'.clean = true ∧ Reach N allow Q eg eg' := by
  intro ks
  induction ks with
  | nil => intro _ h h' eg eg' o hc hr; cases hr; exact ⟨hc, Reach.rfl'⟩
  | cons k ks ih =>
    intro hk h h' eg eg' o hc hr
    unfold runHooks at hr
    rw [bind_eq_ok] at hr
    obtain ⟨⟨h1, eg1, o1⟩, h2, hr⟩ := hr
    obtain ⟨hc1, V, s1, q1⟩ := hk k (by simp) _ _ _ _ _ _ hc h2
    dsimp only at hr
    split at hr
    · cases hr; exact ⟨hc1, V, s1, q1⟩
    · obtain ⟨hc2, rc⟩ := ih (fun k hk' => hk k (by simp [hk'])) hc1 hr
      exact ⟨hc2, Reach.trans ⟨V, s1, q1⟩ rc⟩

theorem Runner.hookPhase_reach {N : Analysis Op D} (hh : HooksOK N allow Q hooks) {o : Option StopReason} (hc : r.egraph.clean = true)
    (h : hookPhase env hooks r = .ok (r1, o)) : r1.egraph.clean = true ∧ Reach N allow Q r.egraph r1.egraph := by
  unfold hookPhase at h
  split at h
  · cases h; exact ⟨hc, Reach.rfl'⟩
  · rw [bind_eq_ok] at h
    obtain ⟨⟨h1, eg, o⟩, h2, h⟩ := h
    cases h
    exact runHooks_reach hooks hh hc h2

theorem IsRule.reach {rw' : Rewrite Op D} {tl t : Term (PatOp Op)} {V : List (UnionRec Op)} {egS eg1 eg2 : EGraph Op D}
    {ms ms' : List (SearchMatches Op)} {i : Nat} {ids : List Id}
    (hN : env.analysis = A.at depth) (hord : ∀ i eg, (env.ord i eg).OK eg) (hd : DiscContiguous Op)
    (hr : PatternRule rw' tl t ∨ ConditionalRule (A.at depth) rw' tl t) (h : Hist (A.at depth) allow U egS)
    (hc : egS.clean = true) (hf : Found env i egS rw' ms)
    (hp : Part ms' ms) (hst : Steps (A.at depth) allow egS V eg1)
    (ha : rw'.applier.applyMatches (A.at depth) eg1 ms' rw'.name = .ok (eg2, ids)) :
    Reach (A.at depth) allow (Equation tl t) eg1 eg2 := by
  rcases hr with hr | hr
  · exact hr.reach hN hord hd h hc hf hp hst ha
  · exact hr.reach hN hord hd h hc hf hp hst ha

theorem Equation.run {tl t : Term (PatOp Op)} (hm : (tl, t) ∈ eqs) {s w : Term Op} (h : Equation tl t s w) : RunEquation eqs Q s w := by
  rcases h with h | h
  · exact Or.inr (Or.inl ⟨tl, t, hm, h⟩)
  · exact Or.inr (Or.inr ⟨tl, t, hm, h⟩)

/-- Applying the rules, from a state reached from the one that was searched. -/
theorem Runner.applyEachRule_reach {i : Nat} (hN : env.analysis = A.at depth) (hord : ∀ i eg, (env.ord i eg).OK eg)
    (hd : DiscContiguous Op) (hs : sch.Honest env) {egS : EGraph Op D} (h : Hist (A.at depth) allow U egS) (hc : egS.clean = true) :
    ∀ (l : List (Rewrite Op D × List (SearchMatches Op))) (r r1 : Runner Op D S H) (ap ap' : AMap Symbol Nat) (o : Option StopReason)
      (V : List (UnionRec Op)),
    (∀ rw' ms, (rw', ms) ∈ l → Found env i egS rw' ms ∧
      ∃ tl t, (tl, t) ∈ eqs ∧ (PatternRule rw' tl t ∨ ConditionalRule (A.at depth) rw' tl t)) →
    Steps (A.at depth) allow egS V r.egraph →
    applyEachRule env sch l r ap = .ok (r1, ap', o) → Reach (A.at depth) allow (RunEquation eqs Q) r.egraph r1.egraph := by
  intro l
  induction l with
  | nil => intro r r1 ap ap' o V _ _ h; cases h; exact Reach.rfl'
  | cons x l ih =>
    intro r r1 ap ap' o V hl hst ha
    obtain ⟨rw', ms⟩ := x
    unfold applyEachRule at ha
    rw [bind_eq_ok] at ha
    obtain ⟨⟨s, eg, n⟩, h1, ha⟩ := ha
    obtain ⟨ms', ids, h2, h3⟩ := hs.apply _ _ _ _ _ _ _ _ h1
    obtain ⟨hf, tl, t, hm, hr⟩ := hl rw' ms (by simp)
    rw [hN] at h2
    have rc : Reach (A.at depth) allow (RunEquation eqs Q) r.egraph eg :=
      (IsRule.reach hN hord hd hr h hc hf h3 hst h2).mono (fun _ _ h => h.run hm)
    dsimp only at ha
    split at ha
    · cases ha; exact rc
    · obtain ⟨W, s1, q1⟩ := rc
      refine Reach.trans ⟨W, s1, q1⟩ ?_
      exact ih _ r1 _ ap' o _ (fun a b hab => hl a b (by simp [hab])) (Steps.trans hst s1) ha

theorem EGraph.rebuild_clean {N : Analysis Op D} {fuel n : Nat} {eg eg' : EGraph Op D} (h : EGraph.rebuild N fuel eg = .ok (eg', n)) :
    eg'.clean = true := by
  unfold EGraph.rebuild at h
  simp only [bind_eq_ok] at h
  obtain ⟨⟨eg1, k⟩, _, ⟨eg2, k2⟩, _, h⟩ := h
  cases h; rfl

/-- Every rewrite is one of the equations `eqs`, with or without a condition. -/
def AreRules (N : Analysis Op D) (rules : List (Rewrite Op D)) (eqs : List (Term (PatOp Op) × Term (PatOp Op))) : Prop :=
  ∀ rw' ∈ rules, ∃ tl t, (tl, t) ∈ eqs ∧ (PatternRule rw' tl t ∨ ConditionalRule N rw' tl t)

theorem Runner.runOne_reach (hN : env.analysis = A.at depth) (hord : ∀ i eg, (env.ord i eg).OK eg)
    (hd : DiscContiguous Op) (hs : sch.Honest env) (hh : HooksOK (A.at depth) allow Q hooks)
    (hr : AreRules (A.at depth) rules eqs) {it : Iteration}
    (h : Hist (A.at depth) allow U r.egraph) (hc : r.egraph.clean = true)
    (ho : runOne env sch hooks rules r = .ok (r4, it)) :
    r4.egraph.clean = true ∧ Reach (A.at depth) allow (RunEquation eqs Q) r.egraph r4.egraph ∧ Frame r r4 := by
  obtain ⟨_, r1, res1, r2, ms, r3, applied, res3, eg, nReb, quiet, p1, p2, p3, p4, p5, -⟩ := runOne_inv ho
  obtain ⟨f1, -⟩ := hookPhase_frame p1
  obtain ⟨f2, e2⟩ := searchPhase_frame p2
  have f3 := applyPhase_frame p3
  obtain ⟨f4, e4⟩ := quietPhase_frame p5
  obtain ⟨c1, V1, s1, q1⟩ := hookPhase_reach hh hc p1
  have rc1 : Reach (A.at depth) allow (RunEquation eqs Q) r.egraph r1.egraph := ⟨V1, s1, fun u hu => Or.inl (q1 u hu)⟩
  have h1 : Hist (A.at depth) allow _ r1.egraph := Steps.trans h s1
  have rc2 : Reach (A.at depth) allow (RunEquation eqs Q) r2.egraph r3.egraph := by
    unfold applyPhase at p3
    split at p3
    · cases p3; exact Reach.rfl'
    next mss =>
    refine applyEachRule_reach (i := r1.iterations.length) hN hord hd hs h1 c1 _ r2 r3 _ _ _ [] (fun rw' ms hm => ⟨?_, hr rw' (List.of_mem_zip hm).1⟩) (by rw [e2]; exact .refl) p3
    unfold searchPhase at p2
    split at p2
    · cases p2
    rw [bind_eq_ok] at p2
    obtain ⟨⟨s, tick, ms0⟩, k1, k2⟩ := p2
    cases k2
    exact hs.search _ _ _ _ _ _ _ _ _ k1 rw' ms hm
  rw [hN] at p4
  have rc3 : Reach (A.at depth) allow (RunEquation eqs Q) r3.egraph r4.egraph := by
    rw [e4]; exact Reach.rebuild p4
  refine ⟨by rw [e4]; exact EGraph.rebuild_clean p4, ?_, f1.trans (f2.trans (f3.trans ⟨f4.its, f4.lim, f4.stop, f4.roots⟩))⟩
  rw [e2] at rc2
  exact rc1.trans (rc2.trans rc3)

theorem Runner.runLoop_reach (hN : env.analysis = A.at depth) (hord : ∀ i eg, (env.ord i eg).OK eg)
    (hd : DiscContiguous Op) (hs : sch.Honest env) (hh : HooksOK (A.at depth) allow Q hooks)
    (hr : AreRules (A.at depth) rules eqs) : ∀ (f : Nat) (r r' : Runner Op D S H) (U : List (UnionRec Op)),
    Hist (A.at depth) allow U r.egraph → r.egraph.clean = true →
    runLoop env sch hooks rules f r = .ok r' →
    r'.egraph.clean = true ∧ Reach (A.at depth) allow (RunEquation eqs Q) r.egraph r'.egraph := by
  intro f
  induction f with
  | zero => intro r r' U _ _ h; cases h
  | succ f ih =>
    intro r r' U h hc hl
    unfold runLoop at hl
    rw [bind_eq_ok] at hl
    obtain ⟨⟨r1, it⟩, h1, hl⟩ := hl
    obtain ⟨c1, rc, _⟩ := runOne_reach hN hord hd hs hh hr h hc h1
    dsimp only at hl
    split at hl
    · cases hl; exact ⟨c1, rc⟩
    · split at hl
      · cases hl; exact ⟨c1, rc⟩
      · obtain ⟨V, s1, q1⟩ := rc
        obtain ⟨c2, rc2⟩ := ih _ _ _ (by exact Steps.trans h s1) (by exact c1) hl
        exact ⟨c2, Reach.trans ⟨V, s1, q1⟩ rc2⟩

/-! ### The schedulers of the library -/

/-- The default `search_rewrites`: `I` holds of the scheduler state all along, and `T s rw ms`
says what is known, in the state `s` later on, of the matches `ms` of `rw`. -/
theorem searchEach_spec {search : S → EGraph Op D → Rewrite Op D → Res (S × List (SearchMatches Op))} {lim : RunnerLimits} {i : Nat}
    {eg : EGraph Op D} {I : S → Prop} {T : S → Rewrite Op D → List (SearchMatches Op) → Prop}
    (hI : ∀ s rw' s' ms, I s → search s eg rw' = .ok (s', ms) → I s' ∧ T s' rw' ms)
    (hT : ∀ s rw' s' ms rw1 ms1, I s → search s eg rw' = .ok (s', ms) → T s rw1 ms1 → T s' rw1 ms1) :
    ∀ (rules : List (Rewrite Op D)) (s : S) (tick : Nat) (doneR : List (Rewrite Op D)) (done : List (List (SearchMatches Op)))
      (s' : S) (tick' : Nat) (res : Except StopReason (List (List (SearchMatches Op)))),
    I s → List.Forall₂ (T s) doneR done →
    searchEach search env lim i eg s tick rules done = .ok (s', tick', res) →
    I s' ∧ (∀ mss, res = .ok mss → List.Forall₂ (T s') (doneR ++ rules) mss) ∧
    ∀ reason, res = .error reason → ∃ k, lim.check env k i eg = some reason := by
  intro rules
  induction rules with
  | nil =>
    intro s tick doneR done s' tick' res h1 h2 h3
    cases h3
    exact ⟨h1, fun mss h => by cases h; simpa using h2, fun _ h => by cases h⟩
  | cons rw' rules ih =>
    intro s tick doneR done s' tick' res h1 h2 h3
    unfold searchEach at h3
    rw [bind_eq_ok] at h3
    obtain ⟨⟨s1, ms⟩, h4, h3⟩ := h3
    obtain ⟨k1, k2⟩ := hI _ _ _ _ h1 h4
    dsimp only at h3
    split at h3
    · next reason hk => cases h3; exact ⟨k1, fun _ h => (by cases h), fun reason' h => by cases h; exact ⟨tick, hk⟩⟩
    · have h5 : List.Forall₂ (T s1) (doneR ++ [rw']) (done ++ [ms]) :=
        List.rel_append (h2.imp (fun a b h => hT _ _ _ _ _ _ h1 h4 h)) (.cons k2 .nil)
      have := ih s1 _ (doneR ++ [rw']) _ s' tick' res k1 h5 h3
      simpa using this

theorem mem_zip_forall₂ {α β : Type} {P : α → β → Prop} {l : List α} {l' : List β} (h : List.Forall₂ P l l') {a : α} {b : β}
    (hm : (a, b) ∈ l.zip l') : P a b := by
  induction h with
  | nil => simp at hm
  | cons h1 _ ih =>
    rw [List.zip_cons_cons, List.mem_cons] at hm
    rcases hm with hm | hm
    · cases hm; exact h1
    · exact ih hm

theorem found_of_search {i : Nat} {eg : EGraph Op D} {rw' : Rewrite Op D} {ms} {limit : Nat}
    (h : rw'.searcher.search env.analysis eg (env.ord i eg) limit = .ok ms) : Found env i eg rw' ms :=
  Or.inr ⟨limit, ms, h, Part.refl' _⟩

theorem applyDefault_inv {s s' : S} {eg eg' : EGraph Op D} {rw' : Rewrite Op D} {ms} {n : Nat}
    (h : applyDefault env s eg rw' ms = .ok (s', eg', n)) :
    s' = s ∧ ∃ ids, rw'.applier.applyMatches env.analysis eg ms rw'.name = .ok (eg', ids) ∧ n = ids.length := by
  unfold applyDefault at h
  rw [bind_eq_ok] at h
  obtain ⟨⟨eg1, ids⟩, h1, h⟩ := h
  cases h
  exact ⟨rfl, ids, h1, rfl⟩

/-- `SimpleScheduler` only selects among found matches. -/
theorem simple_honest : (simpleScheduler : Scheduler Op D Unit).Honest env where
  search := fun lim s tick i eg rules s' tick' mss h rw' ms hm => by
    have := searchEach_spec (I := fun _ => True) (T := fun _ rw' ms => Found env i eg rw' ms) (by
      intro s rw' s' ms _ h
      unfold searchDefault at h
      rw [bind_eq_ok] at h
      obtain ⟨ms1, h1, h⟩ := h
      cases h
      exact ⟨trivial, found_of_search h1⟩) (fun _ _ _ _ _ _ _ _ h => h) rules s tick [] [] s' tick' _ trivial .nil h
    exact mem_zip_forall₂ (this.2.1 mss rfl) hm
  apply := fun s i eg rw' ms s' eg' n h => by
    obtain ⟨_, ids, h1, _⟩ := applyDefault_inv h
    exact ⟨ms, ids, h1, Part.refl' _⟩

/-- Any matches found, or none for a rule that is (or becomes) banned. -/
theorem Backoff.searchRewrite_inv {i : Nat} {b b' : Backoff} {eg : EGraph Op D} {rw' : Rewrite Op D} {ms}
    (h : b.searchRewrite env i eg rw' = .ok (b', ms)) :
    (i < (b.ruleStats rw'.name).bannedUntil ∧ ms = [] ∧ b' = b.setStats rw'.name (b.ruleStats rw'.name)) ∨
    ∃ threshold ms0, ¬ i < (b.ruleStats rw'.name).bannedUntil ∧
      shl env.bits (b.ruleStats rw'.name).matchLimit (b.ruleStats rw'.name).timesBanned = .ok threshold ∧
      rw'.searcher.search env.analysis eg (env.ord i eg) (min (threshold + 1) env.usizeMax) = .ok ms0 ∧
      ((threshold < totalLen ms0 ∧ ms = [] ∧ ∃ len, shl env.bits (b.ruleStats rw'.name).banLength (b.ruleStats rw'.name).timesBanned = .ok len ∧
          i + len < 2 ^ env.bits ∧
          b' = b.setStats rw'.name { b.ruleStats rw'.name with
            timesBanned := (b.ruleStats rw'.name).timesBanned + 1
            bannedUntil := i + len }) ∨
        (totalLen ms0 ≤ threshold ∧ ms = ms0 ∧
          b' = b.setStats rw'.name { b.ruleStats rw'.name with timesApplied := (b.ruleStats rw'.name).timesApplied + 1 })) := by
  unfold searchRewrite at h
  dsimp only at h
  split at h
  · next hb => cases h; exact Or.inl ⟨hb, rfl, rfl⟩
  · next hb =>
    right
    simp only [bind_eq_ok] at h
    obtain ⟨threshold, h1, ms0, h2, h⟩ := h
    refine ⟨threshold, ms0, hb, h1, h2, ?_⟩
    split at h
    · next ht =>
      left
      simp only [bind_eq_ok] at h
      obtain ⟨len, h3, u, h4, h⟩ := h
      unfold addUsize at h4
      split at h4
      · next hl => cases h4; cases h; exact ⟨ht, rfl, len, h3, hl, rfl⟩
      · cases h4
    · next ht => right; cases h; exact ⟨by omega, rfl, rfl⟩


/-- `BackoffScheduler` only selects among found matches. -/
theorem backoff_honest : (Backoff.scheduler : Scheduler Op D Backoff).Honest env where
  search := fun lim s tick i eg rules s' tick' mss h rw' ms hm => by
    have := searchEach_spec (I := fun _ => True) (T := fun _ rw' ms => Found env i eg rw' ms) (by
      intro s rw' s' ms _ h
      refine ⟨trivial, ?_⟩
      rcases Backoff.searchRewrite_inv h with ⟨_, h1, _⟩ | ⟨th, ms0, _, _, h2, ⟨_, h1, _⟩ | ⟨_, h1, _⟩⟩
      · exact Or.inl h1
      · exact Or.inl h1
      · rw [h1]; exact found_of_search h2) (fun _ _ _ _ _ _ _ _ h => h) rules s tick [] [] s' tick' _ trivial .nil h
    exact mem_zip_forall₂ (this.2.1 mss rfl) hm
  apply := fun s i eg rw' ms s' eg' n h => by
    obtain ⟨_, ids, h1, _⟩ := applyDefault_inv h
    exact ⟨ms, ids, h1, Part.refl' _⟩


/-! ### Stop reasons -/

theorem simple_limited : (simpleScheduler : Scheduler Op D Unit).Limited env := by
  intro lim s tick i eg rules s' tick' reason h
  exact (searchEach_spec (I := fun _ => True) (T := fun _ _ _ => True) (fun _ _ _ _ _ _ => ⟨trivial, trivial⟩)
    (fun _ _ _ _ _ _ _ _ h => h) rules s tick [] [] s' tick' _ trivial .nil h).2.2 reason rfl

theorem backoff_limited : (Backoff.scheduler : Scheduler Op D Backoff).Limited env := by
  intro lim s tick i eg rules s' tick' reason h
  exact (searchEach_spec (I := fun _ => True) (T := fun _ _ _ => True) (fun _ _ _ _ _ _ => ⟨trivial, trivial⟩)
    (fun _ _ _ _ _ _ _ _ h => h) rules s tick [] [] s' tick' _ trivial .nil h).2.2 reason rfl

theorem Runner.runHooks_msg {its : List Iteration} : ∀ (ks : List (Hook Op D H)) {h h' : H} {eg eg' : EGraph Op D} {msg : String},
    runHooks its ks h eg = .ok (h', eg', some msg) → ∃ k ∈ ks, ∃ h eg h', k h eg its = .ok (h', eg', some msg) := by
  intro ks
  induction ks with
  | nil => intro h h' eg eg' msg hr; cases hr
  | cons k ks ih =>
    intro h h' eg eg' msg hr
    unfold runHooks at hr
    rw [bind_eq_ok] at hr
    obtain ⟨⟨h1, eg1, o1⟩, h2, hr⟩ := hr
    dsimp only at hr
    split at hr
    · cases hr; exact ⟨k, by simp, _, _, _, h2⟩
    · obtain ⟨k', hk, q⟩ := ih hr
      exact ⟨k', by simp [hk], q⟩

theorem Runner.applyEachRule_reason : ∀ (l : List (Rewrite Op D × List (SearchMatches Op))) {r r1 : Runner Op D S H} {ap ap' reason},
    applyEachRule env sch l r ap = .ok (r1, ap', some reason) → ∃ k, r1.limits.check env k r1.iterations.length r1.egraph = some reason := by
  intro l
  induction l with
  | nil => intro r r1 ap ap' reason h; cases h
  | cons x l ih =>
    intro r r1 ap ap' reason h
    obtain ⟨rw', ms⟩ := x
    unfold applyEachRule at h
    rw [bind_eq_ok] at h
    obtain ⟨⟨s, eg, n⟩, _, h⟩ := h
    dsimp only at h
    split at h
    · next hk => cases h; exact ⟨r.tick, hk⟩
    · exact ih h

/-- Where the stop reason recorded in an iteration comes from. -/
theorem Runner.runOne_reason (hs : sch.Limited env) {it : Iteration} {reason : StopReason}
    (h : runOne env sch hooks rules r = .ok (r4, it)) (hr : it.stopReason = some reason) :
    (reason = .saturated ∧ it.applied = [] ∧ it.egraphNodes = r4.egraph.totalSize ∧ it.egraphClasses = r4.egraph.numberOfClasses) ∨
    (∃ msg, reason = .other msg ∧ ∃ k ∈ hooks, ∃ h eg h' eg', k h eg r.iterations = .ok (h', eg', some msg)) ∨
    ∃ k eg n, r.limits.check env k r.iterations.length eg = some reason ∧ eg.rebuild env.analysis env.fuel = .ok (r4.egraph, n) := by
  obtain ⟨_, r1, res1, r2, ms, r3, applied, res3, eg, nReb, quiet, p1, p2, p3, p4, p5, e1, e1', e1'', e2⟩ := runOne_inv h
  obtain ⟨f1, -⟩ := hookPhase_frame p1
  obtain ⟨f2, g2⟩ := searchPhase_frame p2
  have f3 := applyPhase_frame p3
  obtain ⟨f4, g4⟩ := quietPhase_frame p5
  have g4 : r4.egraph = eg := g4
  rw [e2] at hr
  cases res3 with
  | none =>
    left
    simp only [] at hr
    split at hr
    · next hq =>
      cases hr
      simp only [Bool.and_eq_true, decide_eq_true_eq] at hq
      refine ⟨rfl, ?_, by rw [e1', hq.1.2], by rw [e1'', hq.2]⟩
      rw [e1]
      unfold quietPhase at p5
      split at p5
      · next ha => simpa using ha
      · cases p5; simp at hq
    · cases hr
  | some s =>
    right
    cases hr
    unfold applyPhase at p3
    split at p3
    · next s0 =>
      cases p3
      unfold searchPhase at p2
      split at p2
      · next s1 =>
        cases p2
        unfold hookPhase at p1
        split at p1
        · next s2 hk =>
          cases p1
          exact Or.inr ⟨r.tick, r.egraph, nReb, hk, by rw [g4]; exact p4⟩
        · rw [bind_eq_ok] at p1
          obtain ⟨⟨h1, eg1, o⟩, k1, k2⟩ := p1
          cases o with
          | none => cases k2
          | some msg =>
            cases k2
            left
            obtain ⟨k, hk, h2, eg2, h3, q⟩ := runHooks_msg hooks k1
            exact ⟨msg, rfl, k, hk, h2, eg2, h3, _, q⟩
      · rw [bind_eq_ok] at p2
        obtain ⟨⟨s1, tick, ms0⟩, k1, k2⟩ := p2
        cases k2
        obtain ⟨k, hk⟩ := hs _ _ _ _ _ _ _ _ _ k1
        rw [f1.lim, f1.its] at hk
        exact Or.inr ⟨k, r1.egraph, nReb, hk, by rw [g4]; exact p4⟩
    · obtain ⟨k, hk⟩ := applyEachRule_reason _ p3
      rw [f3.lim, f2.lim, f1.lim, f3.its, f2.its, f1.its] at hk
      exact Or.inr ⟨k, r3.egraph, nReb, hk, by rw [g4]; exact p4⟩

theorem Runner.runOne_frame {it : Iteration} (h : runOne env sch hooks rules r = .ok (r4, it)) : Frame r r4 := by
  obtain ⟨_, r1, res1, r2, ms, r3, applied, res3, eg, nReb, quiet, p1, p2, p3, p4, p5, -⟩ := runOne_inv h
  obtain ⟨f4, -⟩ := quietPhase_frame p5
  exact (hookPhase_frame p1).1.trans ((searchPhase_frame p2).1.trans ((applyPhase_frame p3).trans ⟨f4.its, f4.lim, f4.stop, f4.roots⟩))

end
end Egg
