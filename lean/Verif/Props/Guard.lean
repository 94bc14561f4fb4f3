import Verif.Model.Guard
import Verif.Lemmas.Guard
import Verif.Props.Macros
import Verif.Props.PruneRun
/-
C89: rules that are correct because of their conditions, and rules with an applier written by the user.
-/
namespace Egg
variable {Op D : Type} [DecidableEq Op] [Lang Op]
variable {A : UserAnalysis Op D} {depth : Nat} {allow : Caller Op D} {R : Term Op → Term Op → Prop}
  {P P' : (Var → Term Op) → Prop} {lp rp : Pattern Op} {tl t : Term (PatOp Op)} {env : RunEnv Op D} {rw' : Rewrite Op D}

/-- **C89, appliers written by the user.**  A rule with a pattern on the left and any applier that keeps the default
`apply_matches`: if `apply_one` makes correct unions only, whenever it is called on a match of the pattern in an e-graph whose unions are correct, then the rule
is sound (so runs with it are, C62). -/
theorem c89_user_applier (hN : env.analysis = A.at depth) (hord : ∀ i eg, (env.ord i eg).OK eg) (hd : DiscContiguous Op)
    (hl : IsPattern lp tl) (hlive : ∀ v ∈ lp.vars, Occurs v tl) (hs : rw'.searcher = lp.searcher)
    (hdef : rw'.applier.UsesDefault) (hap : rw'.applier.SoundOn (A.at depth) allow R lp tl (fun _ => True)) :
    SoundRule env (A.at depth) allow R rw' := by
  intro U egS i ms V eg ms' eg' ids h hU hc hf hst hV hp ha
  rw [hdef] at ha
  have hS : SoundState (A.at depth) allow R egS := ⟨U, h, hU⟩
  -- one substitution
  have one : ∀ (g : EGraph Op D) (m : SearchMatches Op) (s : Subst) (ast : Option (PatternAst Op)) (g' : EGraph Op D) (ids' : List Id),
      SoundSteps (A.at depth) allow R egS g → m ∈ ms' → s ∈ m.substs → (ast = some lp.ast ∧ g.explain.isSome = true ∨ ast = none) →
      rw'.applier.applyOne (A.at depth) g m.eclass s ast rw'.name = .ok (g', ids') →
      SoundSteps (A.at depth) allow R g g' ∧ (g.explain.isSome = true → g'.explain.isSome = true) := by
    intro g m s ast g' ids' hg hm hs' hast h1
    obtain ⟨W, w1, w2⟩ := hg
    have happ := found_applicable hN hord hd hl hlive (fun v hv => hv) hs h hc hf hp w1
    have hflat : (m.eclass, s) ∈ flat ms' := mem_flat.2 ⟨m, hm, rfl, hs'⟩
    exact hap g _ s ast _ g' ids' (hS.steps ⟨W, w1, w2⟩) (happ.pmatch _ _ hflat) (happ.valid _ _ hflat) (happ.bound _ _ hflat) hast
      (fun _ _ => trivial) h1
  have each : ∀ (m : SearchMatches Op) (ast : Option (PatternAst Op)), m ∈ ms' → ∀ (ss : List Subst), (∀ s ∈ ss, s ∈ m.substs) →
      ∀ (g : EGraph Op D) (added : List Id) (g' : EGraph Op D) (added' : List Id),
      SoundSteps (A.at depth) allow R egS g → (ast = some lp.ast ∧ g.explain.isSome = true ∨ ast = none) →
      applyEach (fun g s => rw'.applier.applyOne (A.at depth) g m.eclass s ast rw'.name) g ss added = .ok (g', added') →
      SoundSteps (A.at depth) allow R g g' := by
    intro m ast hm ss
    induction ss with
    | nil => intro _ g added g' added' _ _ h1; cases h1; exact .refl
    | cons s ss ih =>
      intro hss g added g' added' hg hast h1
      unfold applyEach at h1
      rw [bind_eq_ok] at h1
      obtain ⟨⟨g1, ids1⟩, h2, h1⟩ := h1
      obtain ⟨k1, k2⟩ := one g m s ast g1 ids1 hg hm (hss s (by simp)) hast h2
      exact k1.trans (ih (fun s hs => hss s (by simp [hs])) g1 _ g' added' (hg.trans k1)
        (hast.imp (fun ⟨e, hx⟩ => ⟨e, k2 hx⟩) id) h1)
  have all : ∀ (ms1 : List (SearchMatches Op)), (∀ m ∈ ms1, m ∈ ms') → ∀ (g : EGraph Op D) (added : List Id)
      (g' : EGraph Op D) (added' : List Id), SoundSteps (A.at depth) allow R egS g →
      defaultApplyMatches (fun eg c s ast rule => rw'.applier.applyOne (A.at depth) eg c s ast rule) rw'.name g ms1 added
        = .ok (g', added') → SoundSteps (A.at depth) allow R g g' := by
    intro ms1
    induction ms1 with
    | nil => intro _ g added g' added' _ h1; cases h1; exact .refl
    | cons m ms1 ih =>
      intro hms g added g' added' hg h1
      unfold defaultApplyMatches at h1
      rw [bind_eq_ok] at h1
      obtain ⟨⟨g1, added1⟩, h2, h1⟩ := h1
      have hm := hms m (by simp)
      have k1 := each m _ hm m.substs (fun _ h => h) g added g1 added1 hg (by
        by_cases hx : g.explain.isSome = true
        · left
          rw [if_pos hx]
          rcases hf with rfl | ⟨limit, ms0, f1, f2⟩
          · rw [hp.nil] at hm; cases hm
          rw [hs, hN] at f1
          obtain ⟨m1, g1, _, g3, _⟩ := (hp.trans f2) m hm
          exact ⟨by rw [g3]; exact search_ast f1 m1 g1, hx⟩
        · right; rw [if_neg hx]) h2
      exact k1.trans (ih (fun m hm => hms m (by simp [hm])) g1 _ g' added' (hg.trans k1) h1)
  exact all ms' (fun _ h => h) eg [] eg' ids ⟨V, hst, hV⟩ ha

/-- **C89, patterns on the right.**  A pattern is a correct applier on the matches with `P`, if those instances of the rule that have `P`
are correct. -/
theorem c89_pattern (hR : IsCongruence R) (hl : IsPattern lp tl) (hr : IsPattern rp t) (hv : ∀ v ∈ rp.vars, v ∈ lp.vars)
    (hI : ∀ (τ : Var → Term Op) s w, P τ → Inst τ tl s → Inst τ t w → R s w) :
    (rp.applier (D := D)).SoundOn (A.at depth) allow R lp tl P := by
  intro eg c s ast rule eg' ids hS hm hb hbl hast hP h1
  have hg := hS.good
  obtain ⟨U, hU, -⟩ := hS
  have happ := c23_apply_one (tl := tl) hU hr hm hb (fun v hv' => hbl v (hv v hv')) (fun l hl' => by
    rcases hast with ⟨e, hx⟩ | e
    · rw [e] at hl'; cases hl'; exact ⟨hx, lp, rfl, hl, hbl⟩
    · rw [e] at hl'; cases hl') h1
  obtain ⟨U', s1, _, x2, k1, _⟩ := EGraph.Applies.result (allow := allow) ((soundFor_true A).hookOK trivial depth)
    (fun _ _ => trivial) (fun _ _ _ => trivial) hg happ hg (EGraph.Grow.refl _) (fun c s' hcs => by
      simp only [List.mem_singleton, Prod.mk.injEq] at hcs
      obtain ⟨rfl, rfl⟩ := hcs
      exact ⟨hm, fun v x hx => hg.valid_iff.1 (hb v x hx)⟩)
  refine ⟨⟨U', s1, fun u hu => ?_⟩, fun hx => by rw [x2.expl]; exact hx⟩
  obtain ⟨c', s', hcs, q⟩ := k1 u hu
  simp only [List.mem_singleton, Prod.mk.injEq] at hcs
  obtain ⟨rfl, rfl⟩ := hcs
  rcases q with ⟨τ, h2, h3, h4⟩ | ⟨τ, h2, h3, h4⟩
  · exact hI τ _ _ (hP τ h2) h3 h4
  · exact hR.symm (hI τ _ _ (hP τ h2) h3 h4)

/-- **C89, conditions.**  Guarding an applier by a condition: the applier only has to be correct on the matches that have what the
condition implies. -/
theorem c89_conditional {cond : Condition Op D} {ap : Applier Op D} (hR : IsCongruence R) (hS : SoundlyMerging (A.at depth) allow R)
    (hP : Respects R P) (hc : cond.Implies (A.at depth) allow R P') (hv : ∀ v ∈ cond.vars, v ∈ lp.vars)
    (hap : ap.SoundOn (A.at depth) allow R lp tl (fun τ => P τ ∧ P' τ)) :
    (Applier.conditional cond ap).SoundOn (A.at depth) allow R lp tl P := by
  intro eg c s ast rule eg' ids hs hm hb hbl hast hP1 h1
  have h1 : conditionalOne cond ap (A.at depth) eg c s ast rule = .ok (eg', ids) := h1
  unfold conditionalOne at h1
  rw [bind_eq_ok] at h1
  obtain ⟨⟨g1, bb⟩, h2, h1⟩ := h1
  obtain ⟨ad, k⟩ := hc eg c s g1 bb hs hb (fun v hv' => hbl v (hv v hv')) h2
  obtain ⟨gd1, x1⟩ := AddSteps.ext ((soundFor_true A).hookOK trivial depth) ad hs.good
  cases bb with
  | false =>
    cases h1
    exact ⟨.adds ad, fun hx => by rw [x1.expl]; exact hx⟩
  | true =>
    have h3 := hap g1 c s ast rule eg' ids (hs.steps (.adds ad)) (x1.pmatch hs.good.inv gd1.inv hm)
      (fun v x hx => gd1.valid_iff.2 (lt_of_lt_of_le (hs.good.valid_iff.1 (hb v x hx)) x1.len)) hbl
      (hast.imp (fun ⟨e, hx⟩ => ⟨e, by rw [x1.expl]; exact hx⟩) id)
      (fun τ hτ => ⟨known_stays hR hS hP hs hb ad hP1 τ hτ, k rfl τ hτ⟩) h1
    exact ⟨SoundSteps.trans (.adds ad) h3.1, fun hx => h3.2 (by rw [x1.expl]; exact hx)⟩

/-- **C89, rules with conditions** (as made by `rewrite!(..; lhs => rhs if c₁ if c₂ ..)`): if condition `cᵢ` implies `Pᵢ`, for properties
`Pᵢ` of the meaning of terms, then it is enough that those instances of the rule are correct that have all of the `Pᵢ`. -/
theorem c89_conditions {k : Condition Op D} {ks : List (Condition Op D)} {Ps : List ((Var → Term Op) → Prop)} {name : Symbol}
    (hR : IsCongruence R) (hS : SoundlyMerging (A.at depth) allow R)
    (hN : env.analysis = A.at depth) (hord : ∀ i eg, (env.ord i eg).OK eg) (hd : DiscContiguous Op)
    (hl : IsPattern lp tl) (hlive : ∀ v ∈ lp.vars, Occurs v tl) (hr : IsPattern rp t)
    (hnew : Rewrite.new name lp.searcher (condApplier rp.applier (k :: ks)) = .ok rw')
    (hc : List.Forall₂ (fun c P => Respects R P ∧ c.Implies (A.at depth) allow R P) (k :: ks) Ps)
    (hI : ∀ (τ : Var → Term Op) s w, (∀ P ∈ Ps, P τ) → Inst τ tl s → Inst τ t w → R s w) :
    SoundRule env (A.at depth) allow R rw' := by
  obtain ⟨hv, hrw⟩ := rewrite_new_inv hnew
  have main : ∀ (cs : List (Condition Op D)) (Qs : List ((Var → Term Op) → Prop)) (P : (Var → Term Op) → Prop), Respects R P →
      List.Forall₂ (fun c P => Respects R P ∧ c.Implies (A.at depth) allow R P) cs Qs →
      (∀ v ∈ (condApplier (rp.applier (D := D)) cs).vars, v ∈ lp.vars) →
      (∀ (τ : Var → Term Op) s w, P τ → (∀ P ∈ Qs, P τ) → Inst τ tl s → Inst τ t w → R s w) →
      (condApplier (rp.applier (D := D)) cs).SoundOn (A.at depth) allow R lp tl P := by
    intro cs
    induction cs with
    | nil =>
      intro Qs P hP hf hv hI
      cases hf
      exact c89_pattern hR hl hr hv (fun τ s w hp => hI τ s w hp (by simp))
    | cons c cs ih =>
      intro Qs P hP hf hv hI
      cases hf with
      | @cons _ P' _ Qs h1 h2 =>
        refine c89_conditional hR hS hP h1.2 (fun v hv' => hv v (List.mem_append.2 (Or.inr hv')))
          (ih Qs (fun τ => P τ ∧ P' τ) (fun τ τ' h hp => ⟨hP τ τ' h hp.1, h1.1 τ τ' h hp.2⟩) h2
            (fun v hv' => hv v (List.mem_append.2 (Or.inl hv'))) (fun τ s w hp hq => hI τ s w hp.1 ?_))
        intro P hP'
        rcases List.mem_cons.1 hP' with rfl | hP'
        · exact hp.2
        · exact hq P hP'
  have := main (k :: ks) Ps (fun _ => True) (fun _ _ _ _ => trivial) hc hv (fun τ s w _ => hI τ s w)
  refine c89_user_applier hN hord hd hl hlive (by rw [hrw]) ?_ ?_
  · rw [hrw]; intro N eg ms rule; rfl
  · rw [hrw]; exact this

/-- **C89, `ConditionEqual`** implies that the instances of its two patterns are related. -/
theorem c89_equal {p1 p2 : Pattern Op} {t1 t2 : Term (PatOp Op)} (h1 : IsPattern p1 t1) (h2 : IsPattern p2 t2)
    (hS : SoundlyMerging (A.at depth) allow R) :
    (Condition.equal (D := D) p1 p2).Implies (A.at depth) allow R (fun τ => ∀ u w, Inst τ t1 u → Inst τ t2 w → R u w) := by
  intro eg c s eg' b hs hb hbound he
  have hadd : AddSteps (A.at depth) eg eg' := by
    have he' : (do
      let (eg, _, a1) ← applyPat (A.at depth) (List.replicate p1.ast.length 0) p1.ast eg s
      let (eg, _, a2) ← applyPat (A.at depth) (List.replicate p2.ast.length 0) p2.ast eg s
      return (eg, decide (a1 = a2)) : Res (EGraph Op D × Bool)) = .ok (eg', b) := he
    rw [bind_eq_ok] at he'
    obtain ⟨⟨eg1, b1, a1⟩, e1, he'⟩ := he'
    rw [bind_eq_ok] at he'
    obtain ⟨⟨eg2, b2, a2⟩, e2, he'⟩ := he'
    cases he'
    exact (EGraph.applyPat_steps e1).trans (EGraph.applyPat_steps e2)
  refine ⟨hadd, ?_⟩
  rintro rfl τ hτ u w hu hw
  obtain ⟨U, hU, -⟩ := id hs
  obtain ⟨-, x, m1, m2⟩ := c48_equal_sound hU h1 h2 hb hbound he
  have hs' : SoundState (A.at depth) allow R eg' := hs.steps (.adds hadd)
  have r1 := hs'.good.inv.pmatch_rep t1 m1 (fun v x _ hx => hτ v x hx) hu
  have r2 := hs'.good.inv.pmatch_rep t2 m2 (fun v x _ hx => hτ v x hx) hw
  obtain ⟨r, hr⟩ := hs'.good.valid_iff.2 (hs'.good.inv.rep_lt r1)
  exact hS eg' hs' x x u w ⟨r, hr, hr⟩ r1 r2

/-- **C89, conditions on data.**  For an analysis whose data describe terms (C59), a condition on the datum of `v` implies that the term is described
by a datum that passes the test. -/
theorem c89_data {V : D → Term Op → Prop} {hR : IsCongruence R} {hV : ∀ {s t d}, R s t → V d s → V d t}
    (hA : Describing A R hR V hV) (v : Var) (f : D → Bool) :
    Respects R (fun τ => ∃ d, f d = true ∧ V d (τ v)) ∧
    (Condition.onData (Op := Op) v f).Implies (A.at depth) (SetsDescribing V) R (fun τ => ∃ d, f d = true ∧ V d (τ v)) := by
  refine ⟨fun τ τ' h ⟨d, h1, h2⟩ => ⟨d, h1, hV (h v) h2⟩, ?_⟩
  intro eg c s eg' b hs hb _ he
  simp only [Condition.onData, bind_eq_ok] at he
  obtain ⟨x, h1, k, h2, he⟩ := he
  cases he
  refine ⟨.refl, fun hf τ hτ => ⟨k.data, hf, ?_⟩⟩
  obtain ⟨U, hU, hU'⟩ := hs
  exact (c59_data_describes hA hU (fun s t ⟨u, hu, e1, e2⟩ => e1 ▸ e2 ▸ hU' u hu)).1 x k _ h2 (hτ v x (unwrap_eq_ok.1 h1))

/-- **C89, conditions on e-nodes** imply that the term is equal to one whose operator passes the test. -/
theorem c89_nodes (hR : IsCongruence R) (hS : SoundlyMerging (A.at depth) allow R) (v : Var) (f : Op → Bool) :
    Respects R (fun τ => ∃ op ts, f op = true ∧ R (τ v) (.node op ts)) ∧
    (Condition.onNodes (D := D) v f).Implies (A.at depth) allow R (fun τ => ∃ op ts, f op = true ∧ R (τ v) (.node op ts)) := by
  refine ⟨fun τ τ' h ⟨op, ts, h1, h2⟩ => ⟨op, ts, h1, hR.trans (hR.symm (h v)) h2⟩, ?_⟩
  intro eg c s eg' b hs hb _ he
  simp only [Condition.onNodes, bind_eq_ok] at he
  obtain ⟨x, h1, k, h2, he⟩ := he
  cases he
  refine ⟨.refl, fun hf τ hτ => ?_⟩
  obtain ⟨n, hn, hf⟩ := List.any_eq_true.1 hf
  have hx := hτ v x (unwrap_eq_ok.1 h1)
  unfold EGraph.index at h2
  obtain ⟨r, hr, h2⟩ := bind_eq_ok.1 h2
  have h2 := unwrap_eq_ok.1 h2
  have hg := hs.good
  obtain ⟨hx', rfl⟩ := hg.inv.find_iff.1 hr
  obtain ⟨i, m, g1, g2, g3⟩ := hg.inv.core.clsNodes _ _ (EGraph.sk_eq h2) n hn
  obtain ⟨u, hu⟩ := hg.inv.core.dag.exists_term i (getElem?_lt g1)
  have hi := hg.inv.rep_of_termOf u hu
  cases u with
  | node op us =>
    rw [termOf_iff] at hu
    obtain ⟨m', k1, k2, _⟩ := hu
    rw [g1] at k1; cases k1
    refine ⟨op, us, by rw [← k2]; first | (rw [g3.1]; exact hf) | (rw [← g3.1]; exact hf), hS eg hs x i _ _ (hg.inv.sameClass_iff.2 ⟨hx', getElem?_lt g1, g2.symm⟩) hx hi⟩

/-- Terms of one class are related: for an analysis whose data describe terms, ... -/
theorem c89_merging_data {V : D → Term Op → Prop} {hR : IsCongruence R} {hV : ∀ {s t d}, R s t → V d s → V d t}
    (hA : Describing A R hR V hV) : SoundlyMerging (A.at depth) (SetsDescribing V) R := by
  rintro eg ⟨U, hU, hU'⟩
  exact (c59_data_describes hA hU (fun s t ⟨u, hu, e1, e2⟩ => e1 ▸ e2 ▸ hU' u hu)).2

/-- ... and for an analysis whose `modify` makes correct unions only. -/
theorem c89_merging (hR : IsCongruence R) (hA : SoundFor A R hR) : SoundlyMerging (A.at depth) allow R := by
  rintro eg ⟨U, hU, hU'⟩ a b s t hab ha hb
  exact c02_no_spurious_equality hR hA hU (fun s t ⟨u, hu, e1, e2⟩ => e1 ▸ e2 ▸ hU' u hu) hab ha hb

/-- **C89, runs.**  Equality saturation with sound rules of any kind, on an analysis whose data describe terms: in the result the datum of a class describes
all terms of the class, and terms of one class are related. -/
theorem c89_run {S H : Type} {sch : Scheduler Op D S} {hooks : List (Hook Op D H)} {rules : List (Rewrite Op D)} {r r' : Runner Op D S H}
    {V : D → Term Op → Prop} {hR : IsCongruence R} {hV : ∀ {s t d}, R s t → V d s → V d t} {U : List (UnionRec Op)}
    (hA : Describing A R hR V hV) (hN : env.analysis = A.at depth) (hs : sch.Honest env)
    (hh : HooksOK (A.at depth) (SetsDescribing V) R hooks) (hr : ∀ rw' ∈ rules, SoundRule env (A.at depth) (SetsDescribing V) R rw')
    (h : Hist (A.at depth) (SetsDescribing V) U r.egraph) (hU : ∀ s t, eqsOf U s t → R s t)
    {f : Nat} (hrun : r.run env sch hooks rules f = .ok r') :
    (∀ i k t, r'.egraph.index i = .ok k → Rep r'.egraph i t → V k.data t) ∧
    ∀ a b s t, SameClass r'.egraph a b → Rep r'.egraph a s → Rep r'.egraph b t → R s t := by
  unfold Runner.run at hrun
  rw [bind_eq_ok] at hrun
  obtain ⟨⟨eg, n⟩, h1, h2⟩ := hrun
  rw [hN] at h1
  have hU' : ∀ u ∈ U, R u.s u.t := fun u hu => hU _ _ ⟨u, hu, rfl, rfl⟩
  have h0 : Hist (A.at depth) (SetsDescribing V) ([] ++ U) eg := Steps.trans h (.single (.rebuild h1))
  obtain ⟨W, s1, q1⟩ := Runner.runLoop_sound hN hs hh hr f _ _ ([] ++ U) h0 (by simpa using hU') (EGraph.rebuild_clean h1) h2
  refine c59_data_describes hA (Steps.trans h0 s1) (fun s t hst => ?_)
  obtain ⟨u, hu, rfl, rfl⟩ := hst
  rcases List.mem_append.1 hu with hu | hu
  · exact q1 u hu
  · exact hU' u (by simpa using hu)

/-! ### Examples: `(+ ?x ?y) => ?y if ?x is zero`, and an applier that folds constants -/

namespace Fold

abbrev GO := EGraph O (Option Nat)

/-- `?y`. -/
def patY : Pattern O := ⟨[⟨.var Ex.vy, []⟩], ⟨[], [(Ex.vy, 0)]⟩⟩
def termY : Term (PatOp O) := .node (.var Ex.vy) []
theorem isPatY : IsPattern patY termY :=
  ⟨Ex.ordc, 10, patY.ast, Ex.ordcOK, patWF_of rfl rfl rfl, rfl, exprTerm_of (f := 5) rfl rfl⟩

/-- The datum of `?x` is the constant 0. -/
def isZero : Condition O (Option Nat) := Condition.onData Ex.vx (fun d => decide (d = some 0))

/-- `(+ ?x ?y) => ?y if ?x is zero`: not true without the condition. -/
def dropZero : Rewrite O (Option Nat) := ⟨4, patXY.searcher, condApplier patY.applier [isZero]⟩

theorem liveXY : ∀ v ∈ patXY.vars, Occurs v termXY := by
  intro v hv
  have hvy : (Ex.vy : Var) ≠ Ex.vx := by decide
  have : v = Ex.vx ∨ v = Ex.vy := by simpa [Pattern.vars, patVars, patXY, hvy] using hv
  rcases this with rfl | rfl
  · exact .arg (t := .node (.var Ex.vx) []) (by simp) .refl
  · exact .arg (t := .node (.var Ex.vy) []) (by simp) .refl

def zenv : RunEnv O (Option Nat) := ⟨N, fun _ eg => ⟨eg.classes.map (fun kc => kc.2.id), id⟩, fun _ => 0, 20, 8⟩

variable {P : (Nat → Nat) → Prop}

/-- The rule is sound, because of its condition. -/
theorem dropZero_sound : SoundRule zenv N (SetsDescribing (Val P)) (SameVal P) dropZero :=
  c89_conditions (name := 4) (k := isZero) (ks := []) (Ps := [fun τ => ∃ d : Option Nat, decide (d = some 0) = true ∧ Val P d (τ Ex.vx)])
    sameVal (c89_merging_data (hR := sameVal) (V := Val P) describing) rfl (fun _ _ => ⟨.refl _, fun _ => .refl _⟩) discContiguous isPatXY liveXY isPatY rfl
    (.cons (c89_data (hR := sameVal) (V := Val P) describing Ex.vx _) .nil) (by
      intro τ s w hP h1 h2 ρ hρ
      obtain ⟨d, e, hd⟩ := hP _ (List.mem_singleton.2 rfl)
      rw [inst_two h1]
      obtain ⟨-, rfl⟩ := inst_var_iff.1 h2
      have := hd 0 (by simpa using e) ρ hρ
      simp [ev, evs, this])

/-- An applier written by the user: if the data of `?x` and `?y` are known, add their sum and unite it with the class of the match. -/
def foldOne (N : Analysis O (Option Nat)) (eg : GO) (c : Id) (s : Subst) : Res (GO × List Id) := do
  let x ← s.index Ex.vx
  let y ← s.index Ex.vy
  let k ← eg.index x
  let l ← eg.index y
  match k.data, l.data with
  | some p, some q => do
    let (eg, i) ← eg.add N ⟨.num (p + q), []⟩
    let (eg, did) ← eg.union N c i
    return (eg, if did then [c] else [])
  | _, _ => return (eg, [])

def folder : Applier O (Option Nat) where
  applyOne := fun N eg c s _ _ => foldOne N eg c s
  applyMatches := fun N eg ms rule => defaultApplyMatches (fun eg c s _ _ => foldOne N eg c s) rule eg ms []
  vars := []

def foldRule : Rewrite O (Option Nat) := ⟨5, patXY.searcher, folder⟩

theorem folder_sound : folder.SoundOn N (SetsDescribing (Val P)) (SameVal P) patXY termXY (fun _ => True) := by
  intro eg c s ast rule eg' ids hS hm hb hbl _ _ h1
  have h1 : foldOne N eg c s = .ok (eg', ids) := h1
  unfold foldOne at h1
  obtain ⟨x, hx, h1⟩ := bind_eq_ok.1 h1
  obtain ⟨y, hy, h1⟩ := bind_eq_ok.1 h1
  obtain ⟨k, hk, h1⟩ := bind_eq_ok.1 h1
  obtain ⟨l, hl, h1⟩ := bind_eq_ok.1 h1
  have hx := unwrap_eq_ok.1 hx
  have hy := unwrap_eq_ok.1 hy
  have hg := hS.good
  obtain ⟨U, hU, hU'⟩ := id hS
  split at h1
  · next p q ep eq =>
    obtain ⟨⟨eg1, i⟩, ha, h1⟩ := bind_eq_ok.1 h1
    obtain ⟨⟨eg2, did⟩, hu, h1⟩ := bind_eq_ok.1 h1
    cases h1
    have hdesc := (c59_data_describes (hR := sameVal) (V := Val P) (describing (P := P)) hU (fun s t ⟨u, hu, e1, e2⟩ => e1 ▸ e2 ▸ hU' u hu)).1
    obtain ⟨tx, htx⟩ := hg.inv.exists_rep (hg.valid_iff.1 (hb _ x hx))
    obtain ⟨ty, hty⟩ := hg.inv.exists_rep (hg.valid_iff.1 (hb _ y hy))
    -- `x + y` is in the class of the match
    have hrep : Rep eg c (.node .plus [tx, ty]) := by
      refine hg.inv.pmatch_rep (τ := fun v => if v = Ex.vx then tx else ty) termXY hm ?_ ?_
      · intro v z hv hz
        have : v = Ex.vx ∨ v = Ex.vy := by
          cases hv with
          | arg hm h =>
            simp only [List.mem_cons, List.not_mem_nil, or_false] at hm
            rcases hm with rfl | rfl
            · cases h with
              | refl => exact .inl rfl
              | arg hm _ => simp at hm
            · cases h with
              | refl => exact .inr rfl
              | arg hm _ => simp at hm
        have hvy : (Ex.vy : Var) ≠ Ex.vx := by decide
        rcases this with rfl | rfl
        · rw [hx] at hz; cases hz; simpa using htx
        · rw [hy] at hz; cases hz; simpa [hvy] using hty
      · have hvy : (Ex.vy : Var) ≠ Ex.vx := by decide
        exact inst_node_iff.2 ⟨_, rfl, .cons (inst_var_iff.2 ⟨rfl, by simp⟩) (.cons (inst_var_iff.2 ⟨rfl, by simp [hvy]⟩) .nil)⟩
    have hadd : AddSteps N eg eg1 := by
      unfold EGraph.add at ha
      obtain ⟨⟨e1, j⟩, a1, a2⟩ := bind_eq_ok.1 ha
      obtain ⟨j', a3, a4⟩ := bind_eq_ok.1 a2
      cases a4
      exact .tail .refl a1
    have hS1 : SoundState N (SetsDescribing (Val P)) (SameVal P) eg1 := hS.steps (.adds hadd)
    obtain ⟨g1, x1⟩ := AddSteps.ext ((soundFor_true Fold.U).hookOK trivial 3) hadd hg
    have hlit : Rep eg1 i (lit (p + q)) := by
      obtain ⟨⟨k', m, i1, i2, i3, i4⟩, -⟩ := c05_add_contains hU ha
      unfold EGraph.index at i1
      obtain ⟨r, hr, i1⟩ := bind_eq_ok.1 i1
      refine EGraph.rep_iff.2 ⟨r, k', m, hr, unwrap_eq_ok.1 i1, i2, i3, ?_⟩
      have i4 : List.Forall₂ (SameClass eg1) m.children [] := i4
      cases hm : m.children with
      | nil => exact .nil
      | cons a as => rw [hm] at i4; cases i4
    refine ⟨SoundSteps.trans (.adds hadd) ⟨[⟨_, c, i, _, _⟩], .single (.union (x1.rep hg.inv g1.inv _ hrep) hlit hu), ?_⟩, ?_⟩
    · intro u hu
      simp only [List.mem_singleton] at hu
      subst hu
      intro ρ hρ
      have e1 := hdesc x k tx hk htx p ep ρ hρ
      have e2 := hdesc y l ty hl hty q eq ρ hρ
      simp [lit, ev, evs, e1, e2]
    · intro hx'
      have := ((EGraph.Good.union_post ((soundFor_true Fold.U).hookOK trivial 3) g1 (x1.rep hg.inv g1.inv _ hrep) hlit trivial trivial).1.elim hu).2.1
      rw [this.expl, x1.expl]; exact hx'
  · cases h1
    exact ⟨.refl, id⟩

theorem foldRule_sound : SoundRule zenv N (SetsDescribing (Val P)) (SameVal P) foldRule :=
  c89_user_applier rfl (fun _ _ => ⟨.refl _, fun _ => .refl _⟩) discContiguous isPatXY liveXY rfl (fun _ _ _ _ => rfl) folder_sound

/-- x, 0, 0 + x, x + x, (0 + x) + x. -/
def z1 : GO := st (EGraph.addUncanonical N EGraph.new ⟨.var 0, []⟩)
def z2 : GO := st (EGraph.addUncanonical N z1 ⟨.num 0, []⟩)
def z3 : GO := st (EGraph.addUncanonical N z2 ⟨.plus, [1, 0]⟩)
def z4 : GO := st (EGraph.addUncanonical N z3 ⟨.plus, [0, 0]⟩)
def z5 : GO := st (EGraph.addUncanonical N z4 ⟨.plus, [2, 0]⟩)

theorem histZ (allow) : Hist N allow [] z5 :=
  .tail (V := []) (.tail (V := []) (.tail (V := []) (.tail (V := []) (.tail (V := []) .refl
    (.add (n := ⟨.var 0, []⟩) (i := 0) (ok_st (by decide +kernel))))
    (.add (n := ⟨.num 0, []⟩) (i := 1) (ok_st (by decide +kernel))))
    (.add (n := ⟨.plus, [1, 0]⟩) (i := 2) (ok_st (by decide +kernel))))
    (.add (n := ⟨.plus, [0, 0]⟩) (i := 3) (ok_st (by decide +kernel))))
    (.add (n := ⟨.plus, [2, 0]⟩) (i := 4) (ok_st (by decide +kernel)))

def runnerZ : Runner O (Option Nat) Unit Unit := { (Runner.new () () : Runner O (Option Nat) Unit Unit) with egraph := z5 }
def doneZ : Runner O (Option Nat) Unit Unit :=
  match runnerZ.run zenv simpleScheduler [] [dropZero, foldRule] 10 with | .ok r => r | .error _ => runnerZ

theorem ranZ : runnerZ.run zenv simpleScheduler [] [dropZero, foldRule] 10 = .ok doneZ := by
  unfold doneZ
  have : (runnerZ.run zenv simpleScheduler [] [dropZero, foldRule] 10).toBool = true := by decide +kernel
  generalize runnerZ.run zenv simpleScheduler [] [dropZero, foldRule] 10 = x at this ⊢
  cases x with
  | ok r => rfl
  | error e => cases this

/-- The run finds 0 + x = x, hence (0 + x) + x = x + x, and does not claim x + x = x, which the rule without its condition would. -/
example : doneZ.egraph.find 2 = .ok 0 ∧ doneZ.egraph.find 0 = .ok 0 ∧ doneZ.egraph.find 4 = doneZ.egraph.find 3 ∧
    doneZ.egraph.find 3 ≠ doneZ.egraph.find 0 := by decide +kernel

/-- C89 for this run, for all values of x. -/
example {a b : Id} {s t : Term O} (hab : SameClass doneZ.egraph a b) (hs : Rep doneZ.egraph a s) (ht : Rep doneZ.egraph b t) (ρ : Nat → Nat) :
    ev ρ s = ev ρ t :=
  (c89_run (hR := sameVal) (V := Val fun _ => True) (describing (P := fun _ => True)) (depth := 3) (env := zenv) rfl simple_honest
    (fun k hk => by cases hk)
    (by
      intro rw' h
      simp only [List.mem_cons, List.not_mem_nil, or_false] at h
      rcases h with rfl | rfl
      · exact dropZero_sound
      · exact foldRule_sound)
    (histZ _) (by rintro s t ⟨u, hu, -, -⟩; cases hu) ranZ).2 a b s t hab hs ht ρ trivial

/-- The condition really is needed: the instances of the rule are not all true. -/
example : ¬ ∀ (τ : Var → Term O) s w, Inst τ termXY s → Inst τ termY w → SameVal (fun _ => True) s w := by
  intro h
  have hvy : (Ex.vy : Var) ≠ Ex.vx := by decide
  have := h (fun _ => lit 1) (.node .plus [lit 1, lit 1]) (lit 1)
    (inst_node_iff.2 ⟨_, rfl, .cons (inst_var_iff.2 ⟨rfl, rfl⟩) (.cons (inst_var_iff.2 ⟨rfl, rfl⟩) .nil)⟩) (inst_var_iff.2 ⟨rfl, rfl⟩) (fun _ => 0) trivial
  simp [ev, evs, lit] at this

/-- `ConditionEqual` and conditions on e-nodes: their hypotheses are met, e.g. for `?x = ?y` and "`?x` is a variable". -/
example : SoundlyMerging N (SetsDescribing (Val P)) (SameVal P) ∧ IsPattern patXY termXY ∧ IsPattern patY termY ∧
    Respects (SameVal P) (fun τ => ∃ op ts, (match op with | .var _ => true | _ => false) = true ∧ SameVal P (τ Ex.vx) (.node op ts)) :=
  ⟨c89_merging_data (hR := sameVal) (V := Val P) describing, isPatXY, isPatY,
    (c89_nodes (A := Fold.U) (depth := 3) sameVal (c89_merging_data (hR := sameVal) (V := Val P) describing) Ex.vx (fun op => match op with | .var _ => true | _ => false)).1⟩

end Fold
end Egg
