import Verif.Lemmas.ThinRun
import Verif.Props.MultiRule
/-
Multi-patterns on e-graphs with missing e-nodes.
-/
namespace Egg
variable {Op D S H : Type} [DecidableEq Op] [Lang Op] {K K0 : Op → Nat → Prop} {G : D → Prop}

section
variable {A : UserAnalysis Op D} {depth : Nat} {allow : Caller Op D} {U : List (UnionRec Op)} {eg g : EGraph Op D} {N M : Analysis Op D}

/-- What searching one class of the smaller e-graph for a multi-pattern returns. -/
theorem multi_searchEclass_thin (ht : Thinner eg g) {C : Cfg Op D} (hi : EGraph.Inv C g) (hr : Rebuilt g) (hd : DiscContiguous Op)
    {ord ord' : IterOrd} (ho : ∀ c ∈ ord.classes, c ∈ ord'.classes) {p : MultiPattern Op} {cc : Compiler Op} (hpc : p.program = cc.extract)
    {Q : (Var → Option Id) → Id → Prop} {V : Var → Prop} (hf : Compiler.Fin g ord'.classes cc Q V)
    {c : Id} {limit : Nat} {m : SearchMatches Op} (hs : p.searchEclassWithLimit N eg ord c limit = .ok (some m)) :
    m.eclass = c ∧ m.ast = none ∧ m.substs ≠ [] ∧ ∀ s ∈ m.substs, s ∈ matchesOf N.allowCycles g ord'.classes p.program c := by
  unfold MultiPattern.searchEclassWithLimit at hs
  split at hs
  · cases hs
  split at hs
  · cases hs
  obtain ⟨ss, h1, hs⟩ := bind_eq_ok.1 hs
  split at hs
  · cases hs
  next hne =>
  cases hs
  refine ⟨rfl, rfl, fun h => hne (by simp only at h; rw [h]; rfl), fun s hs => ?_⟩
  unfold Program.runWithLimit at h1
  split at h1
  · cases h1
  split at h1
  · cases h1; cases hs
  obtain ⟨⟨s', b⟩, h2, h1⟩ := bind_eq_ok.1 h1
  cases h1
  rw [hpc] at h2
  obtain ⟨⟨x, q1, q2⟩, -⟩ := run_collects (subst := cc.extract.subst) hf.laid { reg := [c], found := [], limit := limit } s' b rfl h2
  rw [List.nil_append] at q1
  have hs : s ∈ x := by rw [← q1]; exact hs
  rw [hpc]
  exact matchesOf_thin ht hi hr hd ho (q2 s hs)

/-- The matches of a multi-pattern found in the smaller e-graph are found in the complete one. -/
theorem multi_found_thin (h : Hist (A.at depth) allow U g) (hc : g.clean = true) (hd : DiscContiguous Op) (ht : Thinner eg g)
    {ord ord' : IterOrd} (ho : ord.OK eg) (ho' : ord'.OK g) {p : MultiPattern Op} {ps : List (Var × Term (PatOp Op))} (hp : IsMultiPattern p ps)
    (hfn : FirstIsNode ps) (hac : N.allowCycles = M.allowCycles) {limit : Nat} {ms : List (SearchMatches Op)}
    (hs : (p.searcher (D := D)).search N eg ord limit = .ok ms) :
    ∃ limit' ms0, (p.searcher (D := D)).search M g ord' limit' = .ok ms0 ∧ Part ms ms0 := by
  have hi := (hist_good h).inv
  have hr := c47_clean_means_rebuilt h hc
  obtain ⟨o1, o2⟩ := order_ok hi ho'
  obtain ⟨cc, e1, hf⟩ := multi_fin hi hr hd o1 hp hfn
  have hs : searchEclassesWithLimit (p.searchEclassWithLimit N eg ord) ord.classes limit = .ok ms := hs
  have hall := searchEclasses_all (P := fun m => m.eclass ∈ ord'.classes ∧ m.ast = none ∧ m.substs ≠ [] ∧
      ∀ s ∈ m.substs, s ∈ matchesOf N.allowCycles g ord'.classes p.program m.eclass) _ _ _ (by
    intro c hcv limit m hm
    obtain ⟨q1, q2, q3, q4⟩ := multi_searchEclass_thin ht hi hr hd (ht.order ho ho') e1 hf hm
    subst q1
    exact ⟨ht.order ho ho' _ hcv, q2, q3, q4⟩) hs
  obtain ⟨ms0, g1, g2, g3, g4⟩ := searchEclasses_spec ord'.classes (fun c hcv limit =>
    multi_searchEclass_eq hi hr hd hc M ho' hp hfn e1 hf (o1 c |>.1 hcv).1 limit)
    (ord'.classes.flatMap (fun c => (matchesOf M.allowCycles g ord'.classes p.program c).map (fun s => (c, s)))).length
  rw [List.take_length] at g2
  refine ⟨_, ms0, g1, fun m hm => ?_⟩
  obtain ⟨q1, q2, q3, q4⟩ := hall m hm
  have hmem : ∀ s ∈ m.substs, (m.eclass, s) ∈ flat ms0 := by
    intro s hs
    rw [g2]
    exact List.mem_flatMap.2 ⟨_, q1, List.mem_map.2 ⟨s, by rw [← hac]; exact q4 s hs, rfl⟩⟩
  obtain ⟨s0, hs0⟩ := List.exists_mem_of_ne_nil _ q3
  obtain ⟨m0, k1, k2, k3⟩ := mem_flat.1 (hmem s0 hs0)
  refine ⟨m0, k1, k2.symm, by rw [q2, (g4 m0 k1).2], fun s hs => ?_⟩
  obtain ⟨m1, l1, l2, l3⟩ := mem_flat.1 (hmem s hs)
  have : m1 = m0 := List.inj_on_of_nodup_map (g3.nodup o2) l1 k1 (by rw [l2, k2])
  rw [← this]
  exact l3

end

/-! ### Applying -/

section
variable {P : D → Prop} {N M : Analysis Op D} {b : Mark}

theorem Thin.multiAsts (hN : HookSim K P N M) : ∀ (asts : List (Var × PatternAst Op)) (i : Nat) (s : Subst) (buf added : List Id) {eg g : EGraph Op D},
    ThinC K P b eg g → Sim (ThinR K P b) (MultiPattern.applyAsts N eg asts i s buf added) (MultiPattern.applyAsts M g asts i s buf added)
  | [], i, s, buf, added, eg, g, h => Sim.ok ⟨h, rfl⟩
  | (v, p) :: rest, i, s, buf, added, eg, g, h => by
    unfold MultiPattern.applyAsts
    refine Sim.bind (Thin.applyPat hN _ p s h) ?_
    rintro ⟨a, x⟩ ⟨b', y⟩ ⟨h1, h2⟩
    cases h2
    obtain ⟨buf', id1⟩ := x
    dsimp only
    split
    · refine Sim.bind (Thin.union hN h1 _ _ _) ?_
      rintro ⟨a, x⟩ ⟨b', y⟩ ⟨h1, h2⟩
      cases h2
      exact Thin.multiAsts hN rest _ _ _ _ h1
    · exact Thin.multiAsts hN rest _ _ _ _ h1

theorem Thin.multiSubsts (hN : HookSim K P N M) (asts : List (Var × PatternAst Op)) : ∀ (ss : List Subst) (added : List Id) {eg g : EGraph Op D},
    ThinC K P b eg g → Sim (ThinR K P b) (MultiPattern.applySubsts N asts eg ss added) (MultiPattern.applySubsts M asts g ss added)
  | [], added, eg, g, h => Sim.ok ⟨h, rfl⟩
  | s :: ss, added, eg, g, h => by
    unfold MultiPattern.applySubsts
    refine Sim.bind (Thin.multiAsts hN asts 0 s [] added h) ?_
    rintro ⟨a, x⟩ ⟨b', y⟩ ⟨h1, h2⟩
    cases h2
    exact Thin.multiSubsts hN asts ss _ h1

theorem Thin.multiMatches (hN : HookSim K P N M) (asts : List (Var × PatternAst Op)) : ∀ (ms : List (SearchMatches Op)) (added : List Id) {eg g : EGraph Op D},
    ThinC K P b eg g → Sim (ThinR K P b) (MultiPattern.applyMatchesGo N asts eg ms added) (MultiPattern.applyMatchesGo M asts g ms added)
  | [], added, eg, g, h => Sim.ok ⟨h, rfl⟩
  | m :: ms, added, eg, g, h => by
    unfold MultiPattern.applyMatchesGo
    refine Sim.bind (Thin.multiSubsts hN asts m.substs added h) ?_
    rintro ⟨a, x⟩ ⟨b', y⟩ ⟨h1, h2⟩
    cases h2
    exact Thin.multiMatches hN asts ms _ h1

end

/-! ### Runs -/

section
variable {A : PruneAnalysis Op D} {depth : Nat} {allow : Caller Op D}
variable {env : RunEnv Op D} {sch : Scheduler Op D S} {hooks : List (Hook Op D H)} {rules : List (Rewrite Op D)}
  {Q R : Term Op → Term Op → Prop}
  {r r1 r2 r3 r4 : Runner Op D S H} {U : List (UnionRec Op)}

/-- What a rule does on a pruned e-graph it does on the complete one. -/
structure Follows (K : Op → Nat → Prop) (G : D → Prop) (env : RunEnv Op D) (A : PruneAnalysis Op D) (depth : Nat) (allow : Caller Op D) (rw' : Rewrite Op D) : Prop where
  found : ∀ (U : List (UnionRec Op)) (eg g : EGraph Op D) (i : Nat) ms, Hist (A.full.at depth) allow U g → g.clean = true → Thinner eg g →
    Found env i eg rw' ms → Found (env.unpruned (A.full.at depth)) i g rw' ms
  apply : ∀ (eg g : EGraph Op D) ms, ThinC K G 0 eg g →
    Sim (ThinR K G 0) (rw'.applier.applyMatches (A.at depth) eg ms rw'.name) (rw'.applier.applyMatches (A.full.at depth) g ms rw'.name)

theorem BlindRule.follows {rw' : Rewrite Op D} {tl t : Term (PatOp Op)} (h : BlindRule rw' tl t) (hK : HookSim K G (A.at depth) (A.full.at depth))
    (hN : env.analysis = A.at depth) (hord : ∀ i eg, (env.ord i eg).OK eg) (hd : DiscContiguous Op) : Follows K G env A depth allow rw' :=
  ⟨fun _ _ _ _ _ hg hc hT hf => h.found hN hord hd hg hc hT hf, fun _ _ ms hC => h.apply hK hC ms _⟩

theorem MultiRule.follows {rw' : Rewrite Op D} {ls rs : List (Var × Term (PatOp Op))} (h : MultiRule rw' ls rs) (hK : HookSim K G (A.at depth) (A.full.at depth))
    (hN : env.analysis = A.at depth) (hord : ∀ i eg, (env.ord i eg).OK eg) (hd : DiscContiguous Op) : Follows K G env A depth allow rw' := by
  obtain ⟨lp, rp, hl, hfn, -, -, hnew⟩ := h
  obtain ⟨-, hrw⟩ := rewrite_new_inv hnew
  have hs : rw'.searcher = lp.searcher := by rw [hrw]
  constructor
  · intro U eg g i ms hg hc hT hf
    rcases hf with rfl | ⟨limit, ms0, h1, h2⟩
    · exact .inl rfl
    · rw [hs, hN] at h1
      obtain ⟨limit', ms1, h3, h4⟩ := multi_found_thin (M := A.full.at depth) hg hc hd hT (hord i eg) (hord i g) hl hfn (A.allowCycles_at depth) h1
      exact .inr ⟨limit', ms1, by rw [hs]; exact h3, h2.trans h4⟩
  · intro eg g ms hC
    rw [hrw]
    exact Thin.multiMatches hK rp.asts ms [] hC

theorem Runner.applyEachRule_psound {i : Nat} (hN : env.analysis = A.at depth) (hs : sch.Honest env) {egS : EGraph Op D}
    (h : Hist (A.full.at depth) allow U egS) (hU : ∀ u ∈ U, R u.s u.t) (hc : egS.clean = true) :
    ∀ (l : List (Rewrite Op D × List (SearchMatches Op))) (r r1 : Runner Op D S H) (ap ap' : AMap Symbol Nat) (o : Option StopReason)
      (V : List (UnionRec Op)) (g : EGraph Op D),
    (∀ rw' ms, (rw', ms) ∈ l → Found (env.unpruned (A.full.at depth)) i egS rw' ms ∧ Follows K G env A depth allow rw' ∧
      SoundRule (env.unpruned (A.full.at depth)) (A.full.at depth) allow R rw') →
    Steps (A.full.at depth) allow egS V g → (∀ u ∈ V, R u.s u.t) → ThinC K G 0 r.egraph g →
    applyEachRule env sch l r ap = .ok (r1, ap', o) → PReach K G (A.full.at depth) allow R g r1.egraph := by
  intro l
  induction l with
  | nil => intro r r1 ap ap' o V g _ _ _ hC h; cases h; exact ⟨g, Reach.rfl', hC⟩
  | cons x l ih =>
    intro r r1 ap ap' o V g hl hst hV hC ha
    obtain ⟨rw', ms⟩ := x
    unfold applyEachRule at ha
    rw [bind_eq_ok] at ha
    obtain ⟨⟨s, eg, n⟩, h1, ha⟩ := ha
    obtain ⟨ms', ids, h2, h3⟩ := hs.apply _ _ _ _ _ _ _ _ h1
    obtain ⟨hf, hw, hr⟩ := hl rw' ms (by simp)
    rw [hN] at h2
    obtain ⟨⟨g1, ids'⟩, k1, k2, _⟩ := (hw.apply _ _ ms' hC).of_ok h2
    obtain ⟨W, s1, q1⟩ := hr _ _ _ _ _ _ _ _ _ h hU hc hf hst hV h3 k1
    dsimp only at ha
    split at ha
    · cases ha; exact ⟨g1, ⟨W, s1, q1⟩, k2⟩
    · obtain ⟨g2, rc2, k3⟩ := ih _ r1 _ ap' o _ g1 (fun a b hab => hl a b (by simp [hab])) (Steps.trans hst s1) (fun u hu => by
        rcases List.mem_append.1 hu with hu | hu
        · exact q1 u hu
        · exact hV u hu) k2 ha
      exact ⟨g2, Reach.trans ⟨W, s1, q1⟩ rc2, k3⟩

theorem Runner.runOne_psound (hK : HookSim K G (A.at depth) (A.full.at depth)) (ha : allow.Blind) (hP : ∀ eg i d, allow eg i d → ¬ G d) (hK0 : Drops K K0 G)
    (hN : env.analysis = A.at depth) (hs : sch.Honest env) (hh : PruneHooksOK K0 (A.at depth) allow R hooks)
    (hr : ∀ rw' ∈ rules, Follows K G env A depth allow rw' ∧ SoundRule (env.unpruned (A.full.at depth)) (A.full.at depth) allow R rw')
    {it : Iteration} {g : EGraph Op D} (h : Hist (A.full.at depth) allow U g) (hU : ∀ u ∈ U, R u.s u.t) (hC : ThinC K G 0 r.egraph g) (hc : r.egraph.clean = true)
    (ho : runOne env sch hooks rules r = .ok (r4, it)) :
    r4.egraph.clean = true ∧ PReach K G (A.full.at depth) allow R g r4.egraph := by
  obtain ⟨_, r1, res1, r2, ms, r3, applied, res3, eg, nReb, quiet, p1, p2, p3, p4, p5, -⟩ := runOne_inv ho
  obtain ⟨f2, e2⟩ := searchPhase_frame p2
  obtain ⟨f4, e4⟩ := quietPhase_frame p5
  have hk : r1.egraph.clean = true ∧ PReach K G (A.full.at depth) allow R g r1.egraph := by
    unfold hookPhase at p1
    split at p1
    · cases p1; exact ⟨hc, g, Reach.rfl', hC⟩
    · obtain ⟨⟨h1, eg, o⟩, h2, p1⟩ := bind_eq_ok.1 p1
      cases p1
      exact runHooks_preach hK ha hP hK0 hooks hh hc h hC h2
  obtain ⟨c1, g1, ⟨V1, s1, q1⟩, C1⟩ := hk
  have rc1 : Reach (A.full.at depth) allow R g g1 := ⟨V1, s1, q1⟩
  have h1 : Hist (A.full.at depth) allow _ g1 := Steps.trans h s1
  have cg1 : g1.clean = true := by rw [← C1.thin.clean]; exact c1
  have hU1 : ∀ u ∈ V1 ++ U, R u.s u.t := by
    intro u hu
    rcases List.mem_append.1 hu with hu | hu
    · exact q1 u hu
    · exact hU u hu
  have rc2 : PReach K G (A.full.at depth) allow R g1 r3.egraph := by
    unfold applyPhase at p3
    split at p3
    · cases p3; exact ⟨g1, Reach.rfl', by rw [e2]; exact C1⟩
    next mss =>
    refine applyEachRule_psound (i := r1.iterations.length) hN hs h1 hU1 cg1 _ r2 r3 _ _ _ [] g1 (fun rw' ms hm => ?_) .refl (by simp)
      (by rw [e2]; exact C1) p3
    obtain ⟨w1, w2⟩ := hr rw' (List.of_mem_zip hm).1
    refine ⟨?_, w1, w2⟩
    unfold searchPhase at p2
    split at p2
    · cases p2
    rw [bind_eq_ok] at p2
    obtain ⟨⟨s, tick, ms0⟩, k1, k2⟩ := p2
    cases k2
    exact w1.found _ _ _ _ _ h1 cg1 C1.thin.thinner (hs.search _ _ _ _ _ _ _ _ _ k1 rw' ms hm)
  obtain ⟨g3, rc2, C3⟩ := rc2
  rw [hN] at p4
  obtain ⟨⟨g4, n4⟩, k4, C4, _⟩ := (Thin.rebuild hK C3 _).of_ok p4
  refine ⟨by rw [e4]; exact EGraph.rebuild_clean p4, g4, rc1.trans (rc2.trans (Reach.rebuild k4)), by rw [e4]; exact C4⟩

theorem Runner.runLoop_psound (hK : HookSim K G (A.at depth) (A.full.at depth)) (ha : allow.Blind) (hP : ∀ eg i d, allow eg i d → ¬ G d) (hK0 : Drops K K0 G)
    (hN : env.analysis = A.at depth) (hs : sch.Honest env) (hh : PruneHooksOK K0 (A.at depth) allow R hooks)
    (hr : ∀ rw' ∈ rules, Follows K G env A depth allow rw' ∧ SoundRule (env.unpruned (A.full.at depth)) (A.full.at depth) allow R rw') :
    ∀ (f : Nat) (r r' : Runner Op D S H) (U : List (UnionRec Op)) (g : EGraph Op D),
    Hist (A.full.at depth) allow U g → (∀ u ∈ U, R u.s u.t) → ThinC K G 0 r.egraph g → r.egraph.clean = true →
    runLoop env sch hooks rules f r = .ok r' →
    r'.egraph.clean = true ∧ PReach K G (A.full.at depth) allow R g r'.egraph := by
  intro f
  induction f with
  | zero => intro r r' U g _ _ _ _ h; cases h
  | succ f ih =>
    intro r r' U g h hU hC hc hl
    unfold runLoop at hl
    rw [bind_eq_ok] at hl
    obtain ⟨⟨r1, it⟩, h1, hl⟩ := hl
    obtain ⟨c1, g1, rc, C1⟩ := runOne_psound hK ha hP hK0 hN hs hh hr h hU hC hc h1
    dsimp only at hl
    split at hl
    · cases hl; exact ⟨c1, g1, rc, C1⟩
    · split at hl
      · cases hl; exact ⟨c1, g1, rc, C1⟩
      · obtain ⟨V, s1, q1⟩ := rc
        obtain ⟨c2, g2, rc2, C2⟩ := ih _ _ _ g1 (Steps.trans h s1) (fun u hu => by
          rcases List.mem_append.1 hu with hu | hu
          · exact q1 u hu
          · exact hU u hu) (by exact C1) (by exact c1) hl
        exact ⟨c2, g2, Reach.trans ⟨V, s1, q1⟩ rc2, C2⟩

end
end Egg
