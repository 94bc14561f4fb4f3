import Verif.Props.PruneExtract
import Verif.Props.PruneRun
import Verif.Spec.PruneGuard
/-
C98: constant folding that prunes never loses the best term.
-/
namespace Egg
variable {Op D S H Cost : Type} [DecidableEq Op] [Lang Op] {K : Op → Nat → Prop} {P : D → Prop}
variable {A : PruneAnalysis Op D} {depth : Nat} {allow : Caller Op D} {U : List (UnionRec Op)} {eg : EGraph Op D}

/-- **C98.**  If e-nodes are dropped only from classes whose datum does not satisfy `P`, then nothing is missing from
the other classes. -/
theorem c98_history (hA : A.OK K) (hG : A.Guards P) (ha : allow.Blind) (hP : ∀ eg i d, allow eg i d → ¬ P d)
    (h : GuardHist K P (A.at depth) allow U eg) : GuardPruned K P (A.full.at depth) allow U eg := by
  obtain ⟨g, hg, hC⟩ := GuardHist.follow hA hG ha hP h
  exact ⟨g, hg, hC.thin.thinner, hC.kept, hC.whole⟩

variable {env : RunEnv Op D} {sch : Scheduler Op D S} {hooks : List (Hook Op D H)} {rules : List (Rewrite Op D)}
  {eqs : List (Term (PatOp Op) × Term (PatOp Op))} {Q : Term Op → Term Op → Prop} {r r' : Runner Op D S H}

/-- **C98.**  That remains so in runs of rewrite rules (with hooks that drop nothing). -/
theorem c98_run (hA : A.OK K) (hG : A.Guards P) (ha : allow.Blind) (hP : ∀ eg i d, allow eg i d → ¬ P d)
    (hN : env.analysis = A.at depth) (hord : ∀ i eg, (env.ord i eg).OK eg)
    (hd : DiscContiguous Op) (hs : sch.Honest env) (hh : PruneHooksOK (fun _ _ => True) (A.at depth) allow Q hooks)
    (hr : AreBlindRules rules eqs) (h : GuardPruned K P (A.full.at depth) allow U r.egraph) {f : Nat}
    (hrun : r.run env sch hooks rules f = .ok r') :
    ∃ V, GuardPruned K P (A.full.at depth) allow (V ++ U) r'.egraph ∧
      ∀ u ∈ V, Q u.s u.t ∨ RuleInstance eqs u.s u.t ∨ RuleInstance eqs u.t u.s := by
  obtain ⟨g, g1, g2, g3, g4⟩ := h
  have hC := g2.thinW g3 g4 (hist_good g1).inv
  unfold Runner.run at hrun
  obtain ⟨⟨eg, n⟩, h1, h2⟩ := bind_eq_ok.1 hrun
  rw [hN] at h1
  obtain ⟨⟨g', n'⟩, k1, k2, -⟩ := (Thin.rebuild (hA.hookSim' hG depth) hC _).of_ok h1
  obtain ⟨-, gf, ⟨V, s1, q1⟩, C2⟩ := Runner.runLoop_preach (hA.hookSim' hG depth) ha hP (.inr rfl) hN hord hd hs hh hr f _ _ ([] ++ U) g'
    (Steps.trans g1 (.single (.rebuild k1))) k2 (EGraph.rebuild_clean h1) h2
  exact ⟨V, ⟨gf, Steps.trans (Steps.trans g1 (.single (.rebuild k1))) s1, C2.thin.thinner, C2.kept, C2.whole⟩, q1⟩

/-! ### Constant folding -/

variable {V : Type} [DecidableEq V] {F : Folding Op V} {caller : Symbol} {M : Op → List V → V}

theorem Folding.pruning_guards (F : Folding Op V) (caller : Symbol) : (F.pruning caller).Guards Unknown where
  merge := fun a b h => by
    have h : (mergeOption Known.both a b).1 = none := h
    cases a <;> cases b <;> simp_all [mergeOption, Unknown]
  modify := fun i eg => by
    dsimp only
    cases hk : eg.index i with
    | error e => trivial
    | ok k =>
      dsimp only
      split
      · trivial
      · trivial
      · rename_i v hv
        exact fun _ _ => ⟨.inr (.inr ⟨k, hk, by rw [hv]; exact fun h => nomatch h⟩), trivial⟩

variable {egF : EGraph Op (Option (Known V))}

theorem GuardPruned.cheapLeaf (hM : F.Agrees M) {full : EGraph Op (Option (Known V))} (hf : Hist ((F.pruning caller).full.at depth) .noSet U full)
    (hT : Thinner egF full) (hK : Kept leaves egF full) (hW : Whole Unknown egF full)
    (hU : ∀ s t, eqsOf U s t → absValue M s = absValue M t)
    {cf : CostFn Op Cost} (hcheap : ∀ v op vs, cf.Le (cf.cost (F.con v) []) (cf.cost op vs)) : CheapLeaf cf.byNode egF full := by
  obtain ⟨-, h2⟩ := fold_of_thin hM hf hT hK hU
  intro i k kf hk hkf
  cases hd : k.data with
  | none => exact .inl (hW i k kf hk hkf hd)
  | some d =>
    obtain ⟨q1, q2⟩ := h2 i k hk
    cases d with
    | clash => exact absurd hd q1
    | val v =>
      obtain ⟨q3, -⟩ := q2 v hd
      right
      rw [EGraph.rep_iff] at q3
      obtain ⟨r, k', n, e1, e2, e3, e4, e5⟩ := q3
      unfold EGraph.index at hk
      obtain ⟨r', p1, p2⟩ := bind_eq_ok.1 hk
      rw [e1] at p1
      cases p1
      rw [e2] at p2
      cases p2
      refine ⟨n, e3, ?_, fun m vs => ?_⟩
      · generalize n.children = l at e5
        cases e5
        rfl
      · show cf.Le (cf.cost n.op []) (cf.cost m.op vs)
        rw [e4]
        exact hcheap v m.op vs

/-- **C98**, constant folding that prunes (`tests/math.rs`), with a cost function (such as `AstSize` or `AstDepth`) for which
nothing is cheaper than a constant, and requested unions that are correct: at every moment no class is empty and
`Extractor::new` terminates without panic; for every id `find_best` terminates without panic, and returns a term that
is the cheapest of *all* terms of the class, those included whose e-nodes have been dropped, and has their value. -/
theorem c98_fold_best (hM : F.Agrees M) (h : GuardPruned leaves Unknown ((F.pruning caller).full.at depth) .noSet U egF)
    (hU : ∀ s t, eqsOf U s t → absValue M s = absValue M t)
    {cf : CostFn Op Cost} (hcf : cf.OK) (hcheap : ∀ v op vs, cf.Le (cf.cost (F.con v) []) (cf.cost op vs))
    {ks : List (EClass Op (Option (Known V)))} (hks : ks.Perm (egF.classes.map Prod.snd)) {passes : Nat} (hp : egF.classes.length < passes) :
    (∀ k ∈ ks, k.nodes ≠ []) ∧ ∃ x, Extractor.new cf egF ks passes = .ok x ∧ ∀ c, Valid egF c →
      ∃ fuel cost e t, (∀ f, fuel ≤ f → x.findBest egF f c = .ok (cost, e)) ∧ x.findBestCost egF c = .ok cost ∧
        WFExpr e ∧ ExprTerm e t ∧ Rep egF c t ∧ cf.Same cost (termCost cf t) ∧
        ∀ t', TermFor egF c t' → cf.Le cost (termCost cf t') ∧ absValue M t = absValue M t' := by
  obtain ⟨full, hf, hT, hK, hW⟩ := h
  have hl := GuardPruned.cheapLeaf hM hf hT hK hW hU hcheap
  have hg := hist_good hf
  have hi := hg.inv.classInv
  have hi' := hT.classInv hi
  have hcf' := hcf.byNode
  have hterm : ∀ c t, TermFor egF c t → ∃ t' v', CostIn cf.byNode egF c t' v' ∧ cf.Le v' (termCost cf t) := by
    intro c t ht
    have hr := (c86_terms hf hT _ _).1 ht
    exact hl.costIn hcf' hT hi t c _ ((byNode_costIn hi c t _).2 ⟨hr, rfl⟩)
  have hsome : ∀ c, c < full.nodes.length → ∃ t v, CostIn cf.byNode egF c t v := by
    intro c hc
    obtain ⟨t, ht⟩ := hg.inv.exists_rep hc
    obtain ⟨t', v', h1, _⟩ := hterm c t ((c86_terms hf hT _ _).2 ht)
    exact ⟨t', v', h1⟩
  have hne : ∀ k ∈ ks, k.nodes ≠ [] := by
    intro k hk he
    obtain ⟨⟨c, k'⟩, h1, rfl⟩ := List.mem_map.1 (hks.mem_iff.1 hk)
    have hget := AMap.get?_of_mem hi'.nodup h1
    obtain ⟨_, a2, a3, _⟩ := hi'.cls c k' hget
    rw [hT.nodes] at a2
    obtain ⟨⟨op, ts⟩, v, hv⟩ := hsome c a2
    obtain ⟨_, k2, n, _, b1, b2, _⟩ := (ByNode.costIn_iff hi').1 hv
    rw [a3, hget] at b1
    cases b1
    rw [he] at b2
    cases b2
  obtain ⟨x, hx⟩ := ByNode.new_total hcf' hi' hks hne hp
  refine ⟨hne, x, by rw [← byNode_new]; exact hx, fun c hc => ?_⟩
  obtain ⟨rc, hrc⟩ := hc
  have hc : c < full.nodes.length := (hi.find_iff.1 (by rw [← hT.find]; exact hrc)).1
  obtain ⟨t0, v0, h0⟩ := hsome c hc
  obtain ⟨fuel, cost, e, t1, v1, a1, a2, a3, a4, a5, a6, a7, a8⟩ := (ByNode.new_done hcf' hi' hks hne hx).best hcf' hi' h0
  obtain ⟨-, hv1⟩ := (byNode_costIn hi' _ _ _).1 a6
  refine ⟨fuel, cost, e, t1, a1, a2, a3, a4, a5, by rw [← hv1]; exact a7, fun t' ht' => ⟨?_, ?_⟩⟩
  · obtain ⟨t2, v2, b1, b2⟩ := hterm c t' ht'
    exact hcf.trans _ _ _ (a8 t2 v2 b1) b2
  · obtain ⟨q1, -⟩ := fold_of_thin hM hf hT hK hU
    exact q1 c c t1 t' ⟨rc, hrc, hrc⟩ ((c86_terms hf hT _ _).2 (hT.rep a5)) ht'

/-- **C98**, the same after a run of rewrite rules that are true of the values, with hooks that drop nothing. -/
theorem c98_fold_run (hM : F.Agrees M) {env : RunEnv Op (Option (Known V))} {sch : Scheduler Op (Option (Known V)) S}
    {hooks : List (Hook Op (Option (Known V)) H)} {rules : List (Rewrite Op (Option (Known V)))} {r r' : Runner Op (Option (Known V)) S H}
    (hN : env.analysis = (F.pruning caller).at depth) (hord : ∀ i eg, (env.ord i eg).OK eg)
    (hd : DiscContiguous Op) (hs : sch.Honest env) (hh : PruneHooksOK (fun _ _ => True) ((F.pruning caller).at depth) .noSet Q hooks)
    (hr : AreBlindRules rules eqs) (h : GuardPruned leaves Unknown ((F.pruning caller).full.at depth) .noSet U r.egraph)
    (hU : ∀ s t, eqsOf U s t → absValue M s = absValue M t) (hI : ∀ s t, RuleInstance eqs s t → absValue M s = absValue M t)
    (hQ : ∀ s t, Q s t → absValue M s = absValue M t) {f : Nat} (hrun : r.run env sch hooks rules f = .ok r')
    {cf : CostFn Op Cost} (hcf : cf.OK) (hcheap : ∀ v op vs, cf.Le (cf.cost (F.con v) []) (cf.cost op vs))
    {ks : List (EClass Op (Option (Known V)))} (hks : ks.Perm (r'.egraph.classes.map Prod.snd)) {passes : Nat}
    (hp : r'.egraph.classes.length < passes) :
    ∃ x, Extractor.new cf r'.egraph ks passes = .ok x ∧ ∀ c, Valid r'.egraph c →
      ∃ fuel cost e t, (∀ f, fuel ≤ f → x.findBest r'.egraph f c = .ok (cost, e)) ∧ x.findBestCost r'.egraph c = .ok cost ∧
        WFExpr e ∧ ExprTerm e t ∧ Rep r'.egraph c t ∧ cf.Same cost (termCost cf t) ∧
        ∀ t', TermFor r'.egraph c t' → cf.Le cost (termCost cf t') ∧ absValue M t = absValue M t' := by
  obtain ⟨W, g, q1⟩ := c98_run (F.pruning_ok caller) (F.pruning_guards caller) blind_noSet (fun _ _ _ h => h.elim) hN hord hd hs hh hr h hrun
  refine (c98_fold_best hM g ?_ hcf hcheap hks hp).2
  rintro s t ⟨u, hu, rfl, rfl⟩
  rcases List.mem_append.1 hu with hu | hu
  · rcases q1 u hu with hq | hq | hq
    · exact hQ _ _ hq
    · exact hI _ _ hq
    · exact (hI _ _ hq).symm
  · exact hU _ _ ⟨u, hu, rfl, rfl⟩

/-! ### Examples -/

namespace Fold

/-- x, 2, x + 2, (x + 2) + 2, 1; then x = 1 and `rebuild`. -/
def u7 : GS := stS (EGraph.union NP p5 0 4 7)
def u8 : GS := stS (EGraph.rebuild NP 20 u7)

theorem histP5 : GuardHist leaves Unknown NP .noSet [] p5 :=
  .call (V := []) (.call (V := []) (.call (V := []) (.call (V := []) (.call (V := []) .new
    (.call (.add (n := ⟨.var 0, []⟩) (i := 0) (ok_stS (by decide +kernel)))))
    (.call (.add (n := ⟨.num 2, []⟩) (i := 1) (ok_stS (by decide +kernel)))))
    (.call (.add (n := ⟨.plus, [0, 1]⟩) (i := 2) (ok_stS (by decide +kernel)))))
    (.call (.add (n := ⟨.plus, [2, 1]⟩) (i := 3) (ok_stS (by decide +kernel)))))
    (.call (.add (n := ⟨.num 1, []⟩) (i := 4) (ok_stS (by decide +kernel))))

theorem histU7 : GuardHist leaves Unknown NP .noSet [⟨7, 0, 4, .node (.var 0) [], lit 1⟩] u7 :=
  .call (V := [_]) histP5
    (.call (.union (r := true) (repS (n := ⟨.var 0, []⟩) (by decide +kernel) .nil)
      (repS (n := ⟨.num 1, []⟩) (by decide +kernel) .nil) (ok_stS (by decide +kernel))))

theorem histU8 : GuardHist leaves Unknown NP .noSet [⟨7, 0, 4, .node (.var 0) [], lit 1⟩] u8 :=
  .call (V := []) histU7 (.call (.rebuild (fuel := 20) (n := 0) (ok_stS (by decide +kernel))))

/-- `modify` has dropped the sums of the folded classes. -/
example : (clsS p5 2).1 = [⟨.plus, [0, 1]⟩] ∧ (clsS u8 2).1 = [⟨.num 3, []⟩] ∧ (clsS u8 3).1 = [⟨.num 5, []⟩] := by decide +kernel

theorem pruned_u8 : GuardPruned leaves Unknown ((sums.pruning 0).full.at 3) .noSet [⟨7, 0, 4, .node (.var 0) [], lit 1⟩] u8 :=
  c98_history (sums.pruning_ok 0) (sums.pruning_guards 0) blind_noSet (fun _ _ _ h => h.elim) histU8

theorem cheap_num (v : Nat) (op : O) (vs : List (CostFn.Usize 100)) :
    (CostFn.astSize (Op := O) 100).Le ((CostFn.astSize 100).cost (sums.con v) []) ((CostFn.astSize 100).cost op vs) :=
  natCmp_le.2 (by
    rw [astSize_cost, astSize_cost]
    simp only [List.map_nil, List.sum_nil]
    omega)

/-- The hypotheses of C98 are met: extraction gives the cheapest of all terms, dropped or not. -/
example : ∃ x, Extractor.new (CostFn.astSize 100) u8 (u8.classes.map Prod.snd) 20 = .ok x ∧
    ∃ cost, x.findBestCost u8 3 = .ok cost ∧
      ∀ t', TermFor u8 3 t' → (CostFn.astSize (Op := O) 100).Le cost (termCost (CostFn.astSize 100) t') := by
  obtain ⟨-, x, hx, hb⟩ := c98_fold_best (sums_agrees fun _ => 1) pruned_u8 eqsS (c30_astSize_ok 100) cheap_num (.refl _) (passes := 20) (by decide +kernel)
  have hv : Valid u8 3 := by
    have : (u8.find 3).toBool = true := by decide +kernel
    generalize hf : u8.find 3 = x at this
    cases x with
    | error e => cases this
    | ok r => exact ⟨r, hf⟩
  obtain ⟨_, cost, _, _, _, h2, _, _, _, _, h3⟩ := hb 3 hv
  exact ⟨x, hx, cost, h2, fun t' ht => (h3 t' ht).1⟩

/-- A run of commutativity with x unknown, after 2 + 2 has been added and folded: the sum 2 + 2 is no longer there to be
searched, x + 2 is. -/
def u6 : GS := stS (EGraph.addUncanonical NP p3 ⟨.plus, [1, 1]⟩)

theorem histU6 : GuardHist leaves Unknown NP .noSet [] u6 :=
  .call (V := []) (.call (V := []) (.call (V := []) (.call (V := []) .new
    (.call (.add (n := ⟨.var 0, []⟩) (i := 0) (ok_stS (by decide +kernel)))))
    (.call (.add (n := ⟨.num 2, []⟩) (i := 1) (ok_stS (by decide +kernel)))))
    (.call (.add (n := ⟨.plus, [0, 1]⟩) (i := 2) (ok_stS (by decide +kernel)))))
    (.call (.add (n := ⟨.plus, [1, 1]⟩) (i := 3) (ok_stS (by decide +kernel))))

def runnerOn (eg : GS) : Runner O (Option (Known Nat)) Unit Unit :=
  { (Runner.new () () : Runner O (Option (Known Nat)) Unit Unit) with egraph := eg }
theorem runnerOn_egraph (eg : GS) : (runnerOn eg).egraph = eg := rfl
def runnerU : Runner O (Option (Known Nat)) Unit Unit := runnerOn u6
def doneU : Runner O (Option (Known Nat)) Unit Unit :=
  match runnerU.run commEnv simpleScheduler [] [comm] 10 with | .ok r => r | .error _ => runnerU

theorem ranU : runnerU.run commEnv simpleScheduler [] [comm] 10 = .ok doneU := by
  unfold doneU
  have : (runnerU.run commEnv simpleScheduler [] [comm] 10).toBool = true := by decide +kernel
  generalize runnerU.run commEnv simpleScheduler [] [comm] 10 = x at this ⊢
  cases x with
  | ok r => rfl
  | error e => cases this

example : (clsS doneU.egraph 2).1 = [⟨.plus, [0, 1]⟩, ⟨.plus, [1, 0]⟩] ∧ (clsS doneU.egraph 3).1 = [⟨.num 4, []⟩] := by decide +kernel

theorem lenU : doneU.egraph.classes.length < 20 := by decide +kernel

theorem pruned_u6 : GuardPruned leaves Unknown ((sums.pruning 0).full.at 3) .noSet [] u6 :=
  c98_history (sums.pruning_ok 0) (sums.pruning_guards 0) blind_noSet (fun _ _ _ h => h.elim) histU6

theorem pruned_runnerU : GuardPruned leaves Unknown ((sums.pruning 0).full.at 3) .noSet [] runnerU.egraph := by
  unfold runnerU
  rw [runnerOn_egraph]
  exact pruned_u6

/-- The hypotheses are met by that run. -/
example : ∃ x, Extractor.new (CostFn.astSize 100) doneU.egraph (doneU.egraph.classes.map Prod.snd) 20 = .ok x :=
  (c98_fold_run (r := runnerU) (r' := doneU) (sums_agrees fun _ => 1) (Q := fun _ _ => False) (caller := 0) (depth := 3) (env := commEnv) rfl
    (fun _ _ => ⟨.refl _, fun _ => .refl _⟩) discContiguous simple_honest (fun k hk => by cases hk) commRule
    pruned_runnerU (by rintro s t ⟨u, hu, -, -⟩; cases hu) (comm_true fun _ => 1)
    (fun _ _ h => h.elim) ranU (c30_astSize_ok 100) cheap_num (.refl _) lenU).imp fun _ h => h.1

end Fold

end Egg
