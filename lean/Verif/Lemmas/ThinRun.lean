import Verif.Lemmas.ThinSearch
import Verif.Spec.PruneRun
/-
Runs on e-graphs with missing e-nodes follow calls on the complete e-graph.
-/
namespace Egg
variable {Op D S H : Type} [DecidableEq Op] [Lang Op] {K K0 : Op → Nat → Prop} {G : D → Prop}
variable {A : PruneAnalysis Op D} {depth : Nat} {allow : Caller Op D}

/-- What is dropped besides by the hooks: nothing, or nothing that satisfies `K` if `G` is never satisfied. -/
def Drops (K K0 : Op → Nat → Prop) (G : D → Prop) : Prop := (K0 = K ∧ ∀ d, ¬ G d) ∨ K0 = fun _ _ => True

theorem PruneStep.follow (hN : HookSim K G (A.at depth) (A.full.at depth)) (ha : allow.Blind) (hP : ∀ eg i d, allow eg i d → ¬ G d)
    (hK0 : Drops K K0 G) {U V : List (UnionRec Op)} {eg eg' g : EGraph Op D}
    (hg : Hist (A.full.at depth) allow U g) (hC : ThinC K G 0 eg g) (hs : PruneStep K0 (A.at depth) allow eg V eg') :
    ∃ g', Steps (A.full.at depth) allow g V g' ∧ ThinC K G 0 eg' g' := by
  cases hs with
  | call hs =>
    obtain ⟨g', h1, h2⟩ := Thin.step hN ha hP hC hs
    exact ⟨g', .single h1, h2⟩
  | @retain _ i keep hk hr =>
    have : ∃ eg2, eg.retain i keep = .ok eg2 ∧ ThinC K G 0 eg2 g := by
      rcases hK0 with ⟨rfl, hG⟩ | rfl
      · exact Thin.retain hC (retain_lt hr) hk (fun k _ => hG k.data)
      · exact Thin.retainAll hC (retain_lt hr) (fun n => hk n trivial)
    obtain ⟨eg2, h1, h2⟩ := this
    rw [hr] at h1
    cases h1
    exact ⟨g, .refl, h2⟩
  | union hs ht hx =>
    have hgood := (hist_good hg).inv
    rw [hC.thin.thinner.termFor_full hgood] at hs ht
    obtain ⟨⟨g', i⟩, h1, h2, _⟩ := (Thin.union hN hC _ _ _).of_ok hx
    exact ⟨g', .single (.union hs ht h1), h2⟩
  | unionTrusted hs ht hx =>
    have hgood := (hist_good hg).inv
    rw [hC.thin.thinner.termFor_full hgood] at hs ht
    obtain ⟨⟨g', i⟩, h1, h2, _⟩ := (Thin.unionTrusted hN hC _ _ _).of_ok hx
    exact ⟨g', .single (.unionTrusted hs ht h1), h2⟩

theorem PruneSteps.follow (hN : HookSim K G (A.at depth) (A.full.at depth)) (ha : allow.Blind) (hP : ∀ eg i d, allow eg i d → ¬ G d)
    (hK0 : Drops K K0 G) {U V : List (UnionRec Op)} {eg eg' g : EGraph Op D}
    (hg : Hist (A.full.at depth) allow U g) (hC : ThinC K G 0 eg g) (hs : PruneSteps K0 (A.at depth) allow eg V eg') :
    ∃ g', Steps (A.full.at depth) allow g V g' ∧ ThinC K G 0 eg' g' := by
  induction hs with
  | refl => exact ⟨g, .refl, hC⟩
  | tail _ h2 ih =>
    obtain ⟨g1, q1, q2⟩ := ih
    obtain ⟨g2, k1, k2⟩ := PruneStep.follow hN ha hP hK0 (Steps.trans hg q1) q2 h2
    exact ⟨g2, Steps.trans q1 k1, k2⟩

/-- `eg'` is reached by pruned calls: on the complete side by calls whose unions are in `P`. -/
def PReach (K : Op → Nat → Prop) (G : D → Prop) (M : Analysis Op D) (allow : Caller Op D) (P : Term Op → Term Op → Prop) (g eg' : EGraph Op D) : Prop :=
  ∃ g', Reach M allow P g g' ∧ ThinC K G 0 eg' g'

/-! ### Conditions -/

theorem applyPat_adds {N : Analysis Op D} {s : Subst} : ∀ (pat : List (ENode (PatOp Op))) (k : Nat) (ids : List Id) {g g' : EGraph Op D} {ids' : List Id},
    applyPatGo N s g pat k ids = .ok (g', ids') → AddSteps N g g'
  | [], k, ids, g, g', ids', h => by cases h; exact .refl
  | n :: rest, k, ids, g, g', ids', h => by
    unfold applyPatGo at h
    split at h
    · obtain ⟨x, _, h⟩ := bind_eq_ok.1 h
      exact applyPat_adds rest _ _ h
    · obtain ⟨m, _, h⟩ := bind_eq_ok.1 h
      obtain ⟨⟨g1, i⟩, h1, h⟩ := bind_eq_ok.1 h
      unfold EGraph.add at h1
      obtain ⟨⟨g2, j⟩, h2, h1⟩ := bind_eq_ok.1 h1
      obtain ⟨j', _, h1⟩ := bind_eq_ok.1 h1
      cases h1
      exact AddSteps.trans (.tail .refl h2) (applyPat_adds rest _ _ h)

theorem Condition.Blind.onlyAdds {cond : Condition Op D} (h : cond.Blind) (N : Analysis Op D) : OnlyAdds N cond := by
  intro eg c s eg' b hc
  rcases h with ⟨p1, p2, rfl⟩ | ⟨f, _, h2⟩
  · unfold Condition.equal applyPat at hc
    dsimp only at hc
    obtain ⟨⟨g1, b1, x1⟩, h1, hc⟩ := bind_eq_ok.1 hc
    obtain ⟨⟨g2, b2, x2⟩, h2, hc⟩ := bind_eq_ok.1 hc
    cases hc
    obtain ⟨⟨g3, y1⟩, h3, h1⟩ := bind_eq_ok.1 h1
    obtain ⟨z, _, h1⟩ := bind_eq_ok.1 h1
    cases h1
    obtain ⟨⟨g4, y2⟩, h4, h2⟩ := bind_eq_ok.1 h2
    obtain ⟨z, _, h2⟩ := bind_eq_ok.1 h2
    cases h2
    exact AddSteps.trans (applyPat_adds _ _ _ h3) (applyPat_adds _ _ _ h4)
  · rw [h2] at hc
    obtain ⟨x, _, hc⟩ := bind_eq_ok.1 hc
    cases hc
    exact .refl

theorem Condition.Blind.sim {N M : Analysis Op D} (hN : HookSim K G N M) {b : Mark} {cond : Condition Op D} (h : cond.Blind) {eg g : EGraph Op D}
    (hC : ThinC K G b eg g) (c : Id) (s : Subst) : Sim (ThinR K G b) (cond.check N eg c s) (cond.check M g c s) := by
  rcases h with ⟨p1, p2, rfl⟩ | ⟨f, h1, h2⟩
  · unfold Condition.equal
    dsimp only
    refine Sim.bind (Thin.applyPat hN _ _ s hC) ?_
    rintro ⟨a, i⟩ ⟨b', j⟩ ⟨h1, h2⟩
    cases h2
    refine Sim.bind (Thin.applyPat hN _ _ s h1) ?_
    rintro ⟨a, i⟩ ⟨b', j⟩ ⟨h1, h2⟩
    cases h2
    exact Sim.ok ⟨h1, rfl⟩
  · rw [h2, h2, h1 eg g c s hC.thin.thinner]
    exact Sim.same fun x => Sim.ok ⟨hC, rfl⟩

/-! ### Rules -/

theorem BlindRule.rule {rw' : Rewrite Op D} {tl t : Term (PatOp Op)} (h : BlindRule rw' tl t) (N : Analysis Op D) :
    PatternRule rw' tl t ∨ ConditionalRule N rw' tl t := by
  rcases h with h | ⟨lp, rp, cond, h1, h2, h3, h4, h5⟩
  · exact .inl h
  · exact .inr ⟨lp, rp, cond, h1, h2, h3, h4.onlyAdds N, h5⟩

theorem BlindRule.searcher {rw' : Rewrite Op D} {tl t : Term (PatOp Op)} (h : BlindRule rw' tl t) :
    ∃ lp : Pattern Op, IsPattern lp tl ∧ rw'.searcher = lp.searcher := by
  rcases h with ⟨lp, rp, h1, _, _, h4⟩ | ⟨lp, rp, cond, h1, _, _, _, h4⟩
  · exact ⟨lp, h1, by rw [(rewrite_new_inv h4).2]⟩
  · exact ⟨lp, h1, by rw [(rewrite_new_inv h4).2]⟩

theorem BlindRule.apply {rw' : Rewrite Op D} {tl t : Term (PatOp Op)} (h : BlindRule rw' tl t) {N M : Analysis Op D} (hN : HookSim K G N M)
    {b : Mark} {eg g : EGraph Op D} (hC : ThinC K G b eg g) (ms : List (SearchMatches Op)) (rule : Symbol) :
    Sim (ThinR K G b) (rw'.applier.applyMatches N eg ms rule) (rw'.applier.applyMatches M g ms rule) := by
  rcases h with ⟨lp, rp, _, _, _, h4⟩ | ⟨lp, rp, cond, _, _, _, h3, h4⟩
  · rw [(rewrite_new_inv h4).2]
    exact Thin.applyMatchesGo hN rp rule ms _ _ hC
  · rw [(rewrite_new_inv h4).2]
    refine Thin.defaultApplyMatches rule ?_ ms _ hC
    intro eg g c s ast hC
    unfold conditionalOne
    refine Sim.bind (h3.sim hN hC c s) ?_
    rintro ⟨a, i⟩ ⟨b', j⟩ ⟨h1, h2⟩
    cases h2
    dsimp only
    split
    · exact Thin.applyOne hN rp c s ast rule h1
    · exact Sim.ok ⟨h1, rfl⟩

section
variable {env : RunEnv Op D} {sch : Scheduler Op D S} {hooks : List (Hook Op D H)} {rules : List (Rewrite Op D)}
  {eqs : List (Term (PatOp Op) × Term (PatOp Op))} {Q : Term Op → Term Op → Prop}
  {r r1 r2 r3 r4 : Runner Op D S H} {U : List (UnionRec Op)}

/-- The environment with the analysis that does not prune. -/
def RunEnv.unpruned (env : RunEnv Op D) (M : Analysis Op D) : RunEnv Op D := { env with analysis := M }

theorem PruneAnalysis.allowCycles_at (A : PruneAnalysis Op D) (depth : Nat) : (A.at depth).allowCycles = (A.full.at depth).allowCycles := by
  cases depth <;> rfl

theorem BlindRule.found {rw' : Rewrite Op D} {tl t : Term (PatOp Op)} (h : BlindRule rw' tl t) (hN : env.analysis = A.at depth)
    (hord : ∀ i eg, (env.ord i eg).OK eg) (hd : DiscContiguous Op) {eg g : EGraph Op D} (hg : Hist (A.full.at depth) allow U g)
    (hc : g.clean = true) (hT : Thinner eg g) {i : Nat} {ms : List (SearchMatches Op)} (hf : Found env i eg rw' ms) :
    Found (env.unpruned (A.full.at depth)) i g rw' ms := by
  rcases hf with rfl | ⟨limit, ms0, h1, h2⟩
  · exact .inl rfl
  · obtain ⟨lp, hp, hs⟩ := h.searcher
    rw [hs, hN] at h1
    obtain ⟨limit', ms1, h3, h4⟩ := found_thin (M := A.full.at depth) hg hc hd hT (hord i eg) (hord i g) hp (A.allowCycles_at depth) h1
    exact .inr ⟨limit', ms1, by rw [hs]; exact h3, h2.trans h4⟩

theorem Runner.applyEachRule_preach {i : Nat} (hK : HookSim K G (A.at depth) (A.full.at depth)) (hN : env.analysis = A.at depth) (hord : ∀ i eg, (env.ord i eg).OK eg)
    (hd : DiscContiguous Op) (hs : sch.Honest env) {egS : EGraph Op D} (h : Hist (A.full.at depth) allow U egS) (hc : egS.clean = true) :
    ∀ (l : List (Rewrite Op D × List (SearchMatches Op))) (r r1 : Runner Op D S H) (ap ap' : AMap Symbol Nat) (o : Option StopReason)
      (V : List (UnionRec Op)) (g : EGraph Op D),
    (∀ rw' ms, (rw', ms) ∈ l → Found (env.unpruned (A.full.at depth)) i egS rw' ms ∧
      ∃ tl t, (tl, t) ∈ eqs ∧ BlindRule rw' tl t) →
    Steps (A.full.at depth) allow egS V g → ThinC K G 0 r.egraph g →
    applyEachRule env sch l r ap = .ok (r1, ap', o) → PReach K G (A.full.at depth) allow (RunEquation eqs Q) g r1.egraph := by
  intro l
  induction l with
  | nil => intro r r1 ap ap' o V g _ _ hC h; cases h; exact ⟨g, Reach.rfl', hC⟩
  | cons x l ih =>
    intro r r1 ap ap' o V g hl hst hC ha
    obtain ⟨rw', ms⟩ := x
    unfold applyEachRule at ha
    rw [bind_eq_ok] at ha
    obtain ⟨⟨s, eg, n⟩, h1, ha⟩ := ha
    obtain ⟨ms', ids, h2, h3⟩ := hs.apply _ _ _ _ _ _ _ _ h1
    obtain ⟨hf, tl, t, hm, hr⟩ := hl rw' ms (by simp)
    rw [hN] at h2
    obtain ⟨⟨g1, ids'⟩, k1, k2, _⟩ := (hr.apply hK hC ms' rw'.name).of_ok h2
    have rc : Reach (A.full.at depth) allow (RunEquation eqs Q) g g1 :=
      (IsRule.reach (env := env.unpruned (A.full.at depth)) rfl hord hd (hr.rule _) h hc hf h3 hst k1).mono (fun _ _ h => h.run hm)
    dsimp only at ha
    split at ha
    · cases ha; exact ⟨g1, rc, k2⟩
    · obtain ⟨W, s1, q1⟩ := rc
      obtain ⟨g2, rc2, k3⟩ := ih _ r1 _ ap' o _ g1 (fun a b hab => hl a b (by simp [hab])) (Steps.trans hst s1) k2 ha
      exact ⟨g2, Reach.trans ⟨W, s1, q1⟩ rc2, k3⟩

theorem Runner.runHooks_preach (hK : HookSim K G (A.at depth) (A.full.at depth)) (ha : allow.Blind) (hP : ∀ eg i d, allow eg i d → ¬ G d) (hK0 : Drops K K0 G) {its : List Iteration} : ∀ (ks : List (Hook Op D H)),
    PruneHooksOK K0 (A.at depth) allow Q ks →
    ∀ {h h' : H} {eg eg' g : EGraph Op D} {o} {U : List (UnionRec Op)}, eg.clean = true → Hist (A.full.at depth) allow U g → ThinC K G 0 eg g →
    runHooks its ks h eg = .ok (h', eg', o) →
    eg'.clean = true ∧ PReach K G (A.full.at depth) allow Q g eg' := by
  intro ks
  induction ks with
  | nil => intro _ h h' eg eg' g o U hc hg hC hr; cases hr; exact ⟨hc, g, Reach.rfl', hC⟩
  | cons k ks ih =>
    intro hk h h' eg eg' g o U hc hg hC hr
    unfold runHooks at hr
    rw [bind_eq_ok] at hr
    obtain ⟨⟨h1, eg1, o1⟩, h2, hr⟩ := hr
    obtain ⟨hc1, V, s1, q1⟩ := hk k (by simp) _ _ _ _ _ _ hc h2
    obtain ⟨g1, k1, k2⟩ := s1.follow hK ha hP hK0 hg hC
    dsimp only at hr
    split at hr
    · cases hr; exact ⟨hc1, g1, ⟨V, k1, q1⟩, k2⟩
    · obtain ⟨hc2, g2, rc, k3⟩ := ih (fun k hk' => hk k (by simp [hk'])) hc1 (Steps.trans hg k1) k2 hr
      exact ⟨hc2, g2, Reach.trans ⟨V, k1, q1⟩ rc, k3⟩

theorem Runner.runOne_preach (hK : HookSim K G (A.at depth) (A.full.at depth)) (ha : allow.Blind) (hP : ∀ eg i d, allow eg i d → ¬ G d) (hK0 : Drops K K0 G) (hN : env.analysis = A.at depth) (hord : ∀ i eg, (env.ord i eg).OK eg)
    (hd : DiscContiguous Op) (hs : sch.Honest env) (hh : PruneHooksOK K0 (A.at depth) allow Q hooks)
    (hr : AreBlindRules rules eqs) {it : Iteration} {g : EGraph Op D}
    (h : Hist (A.full.at depth) allow U g) (hC : ThinC K G 0 r.egraph g) (hc : r.egraph.clean = true)
    (ho : runOne env sch hooks rules r = .ok (r4, it)) :
    r4.egraph.clean = true ∧ PReach K G (A.full.at depth) allow (RunEquation eqs Q) g r4.egraph := by
  obtain ⟨_, r1, res1, r2, ms, r3, applied, res3, eg, nReb, quiet, p1, p2, p3, p4, p5, -⟩ := runOne_inv ho
  obtain ⟨f2, e2⟩ := searchPhase_frame p2
  obtain ⟨f4, e4⟩ := quietPhase_frame p5
  have hk : r1.egraph.clean = true ∧ PReach K G (A.full.at depth) allow Q g r1.egraph := by
    unfold hookPhase at p1
    split at p1
    · cases p1; exact ⟨hc, g, Reach.rfl', hC⟩
    · obtain ⟨⟨h1, eg, o⟩, h2, p1⟩ := bind_eq_ok.1 p1
      cases p1
      exact runHooks_preach hK ha hP hK0 hooks hh hc h hC h2
  obtain ⟨c1, g1, ⟨V1, s1, q1⟩, C1⟩ := hk
  have rc1 : Reach (A.full.at depth) allow (RunEquation eqs Q) g g1 := ⟨V1, s1, fun u hu => Or.inl (q1 u hu)⟩
  have h1 : Hist (A.full.at depth) allow _ g1 := Steps.trans h s1
  have cg1 : g1.clean = true := by rw [← C1.thin.clean]; exact c1
  have rc2 : PReach K G (A.full.at depth) allow (RunEquation eqs Q) g1 r3.egraph := by
    unfold applyPhase at p3
    split at p3
    · cases p3; exact ⟨g1, Reach.rfl', by rw [e2]; exact C1⟩
    next mss =>
    refine applyEachRule_preach (i := r1.iterations.length) hK hN hord hd hs h1 cg1 _ r2 r3 _ _ _ [] g1 (fun rw' ms hm => ?_) .refl
      (by rw [e2]; exact C1) p3
    obtain ⟨tl, t, hm1, hm2⟩ := hr rw' (List.of_mem_zip hm).1
    refine ⟨?_, tl, t, hm1, hm2⟩
    unfold searchPhase at p2
    split at p2
    · cases p2
    rw [bind_eq_ok] at p2
    obtain ⟨⟨s, tick, ms0⟩, k1, k2⟩ := p2
    cases k2
    exact hm2.found hN hord hd h1 cg1 C1.thin.thinner (hs.search _ _ _ _ _ _ _ _ _ k1 rw' ms hm)
  obtain ⟨g3, rc2, C3⟩ := rc2
  rw [hN] at p4
  obtain ⟨⟨g4, n4⟩, k4, C4, _⟩ := (Thin.rebuild hK C3 _).of_ok p4
  refine ⟨by rw [e4]; exact EGraph.rebuild_clean p4, g4, rc1.trans (rc2.trans (Reach.rebuild k4)), by rw [e4]; exact C4⟩

theorem Runner.runLoop_preach (hK : HookSim K G (A.at depth) (A.full.at depth)) (ha : allow.Blind) (hP : ∀ eg i d, allow eg i d → ¬ G d) (hK0 : Drops K K0 G) (hN : env.analysis = A.at depth) (hord : ∀ i eg, (env.ord i eg).OK eg)
    (hd : DiscContiguous Op) (hs : sch.Honest env) (hh : PruneHooksOK K0 (A.at depth) allow Q hooks)
    (hr : AreBlindRules rules eqs) : ∀ (f : Nat) (r r' : Runner Op D S H) (U : List (UnionRec Op)) (g : EGraph Op D),
    Hist (A.full.at depth) allow U g → ThinC K G 0 r.egraph g → r.egraph.clean = true →
    runLoop env sch hooks rules f r = .ok r' →
    r'.egraph.clean = true ∧ PReach K G (A.full.at depth) allow (RunEquation eqs Q) g r'.egraph := by
  intro f
  induction f with
  | zero => intro r r' U g _ _ _ h; cases h
  | succ f ih =>
    intro r r' U g h hC hc hl
    unfold runLoop at hl
    rw [bind_eq_ok] at hl
    obtain ⟨⟨r1, it⟩, h1, hl⟩ := hl
    obtain ⟨c1, g1, rc, C1⟩ := runOne_preach hK ha hP hK0 hN hord hd hs hh hr h hC hc h1
    dsimp only at hl
    split at hl
    · cases hl; exact ⟨c1, g1, rc, C1⟩
    · split at hl
      · cases hl; exact ⟨c1, g1, rc, C1⟩
      · obtain ⟨V, s1, q1⟩ := rc
        obtain ⟨c2, g2, rc2, C2⟩ := ih _ _ _ g1 (Steps.trans h s1) (by exact C1) (by exact c1) hl
        exact ⟨c2, g2, Reach.trans ⟨V, s1, q1⟩ rc2, C2⟩

end

end Egg
