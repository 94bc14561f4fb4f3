import Verif.Lemmas.RunBelow
import Verif.Lemmas.Same
import Verif.Lemmas.Calls
import Verif.Props.Saturate
import Verif.Props.Simplify
/-
C74: the e-graph is the least one, whatever the order of the calls.  C75: saturation is confluent.
C23: what applying a rule may add.
-/
namespace Egg
variable {Op D D' : Type} [DecidableEq Op] [Lang Op]
variable {A : UserAnalysis Op D} {A' : UserAnalysis Op D'} {depth depth' : Nat} {allow : Caller Op D} {allow' : Caller Op D'}
variable {U U' : List (UnionRec Op)} {eg eg0 : EGraph Op D} {M : EGraph Op D'}

/-! ### C74 -/

/-- **C74.**  The e-graph contains nothing it does not have to contain.  Let `M` be any rebuilt e-graph that represents some
term of each class of `eg`, and in which the two terms of each union made in the history of `eg` are equal.
Then all terms of a class of `eg` are in one class of `M`. -/
theorem c74_least (hA : ∀ i, A.modify i = .done) (h : Hist (A.at depth) allow U eg)
    (hM : Hist (A'.at depth') allow' U' M) (hc : M.clean = true)
    (hU : ∀ u ∈ U, ∃ d, Rep M d u.s ∧ Rep M d u.t) (hin : ∀ c, Valid eg c → ∃ t d, Rep eg c t ∧ Rep M d t) : Within eg M := by
  have hF := Full.of_hist hM hc
  refine (Under.of_hist (hM := hF) hA h (fun u hu => ?_) hin).below
  obtain ⟨d, h1, h2⟩ := hU u hu
  exact hF.rel h1 h2

/-- **C74.**  Two rebuilt e-graphs that contain each other are the same up to the names of the classes. -/
theorem c74_same_up_to_names (h : Hist (A.at depth) allow U eg) (hc : eg.clean = true) (h' : Hist (A'.at depth') allow' U' M)
    (hc' : M.clean = true) (h1 : Within eg M) (h2 : Within M eg) :
    (∃ φ, SameUpTo φ eg M) ∧ eg.numberOfClasses = M.numberOfClasses ∧ eg.totalNumberOfNodes = M.totalNumberOfNodes := by
  have hF := Full.of_hist h hc
  have hF' := Full.of_hist h' hc'
  have hs := sameUpTo hF hF' (c47_clean_means_rebuilt h hc) (c47_clean_means_rebuilt h' hc') h1 h2
  exact ⟨⟨_, hs⟩, hs.numberOfClasses hF hF', hs.total hF hF'⟩

theorem Call.run_steps {c : Call Op} (hw : c.WF) {fuel : Nat} (h : Hist (A.at depth) allow U eg0)
    (he : c.run (A.at depth) fuel eg0 = .ok eg) : ∃ V, Steps (A.at depth) allow eg0 V eg := by
  have hN := (soundFor_true A).hookOK trivial depth
  have hg := hist_good h
  have un : ∀ {e1 e2 : List (ENode Op)} {g1 g2 g3 : EGraph Op D} {a b : Id} {did : Bool} {r : Symbol}, WFExpr e1 → WFExpr e2 →
      EGraph.addExpr (A.at depth) eg0 e1 = .ok (g1, a) → EGraph.addExpr (A.at depth) g1 e2 = .ok (g2, b) →
      (g2.union (A.at depth) a b r = .ok (g3, did) ∨ g2.unionTrusted (A.at depth) a b r = .ok (g3, did)) →
      ∃ V, Steps (A.at depth) allow eg0 V g3 := by
    intro e1 e2 g1 g2 g3 a b did r w1 w2 h1 h2 h3
    obtain ⟨k1, k2, k3, k4⟩ := addExpr_holds hN w1 hg h1
    obtain ⟨l1, l2, l3, l4⟩ := addExpr_holds hN w2 k1 h2
    have gr1 := l2.grow k1 l1
    obtain ⟨s, hs⟩ : ∃ s, ExprTerm e1 s := (Dag.exists_term w1.2 _ (by have := List.length_pos_iff.2 w1.1; omega)).imp (fun s hs => ⟨w1.1, hs⟩)
    obtain ⟨t, ht⟩ : ∃ t, ExprTerm e2 t := (Dag.exists_term w2.2 _ (by have := List.length_pos_iff.2 w2.1; omega)).imp (fun s hs => ⟨w2.1, hs⟩)
    have st := (EGraph.addExpr_steps (allow := allow) h1).trans (EGraph.addExpr_steps h2)
    rcases h3 with h3 | h3
    · exact ⟨_, st.tail (.union (gr1.rep _ _ (k4 s hs)) (l4 t ht) h3)⟩
    · exact ⟨_, st.tail (.unionTrusted (gr1.rep _ _ (k4 s hs)) (l4 t ht) h3)⟩
  cases c with
  | addExpr e =>
    obtain ⟨⟨g, i⟩, h1, h⟩ := bind_eq_ok.1 he
    cases h
    exact ⟨_, EGraph.addExpr_steps h1⟩
  | union e1 e2 r =>
    obtain ⟨⟨g1, a⟩, h1, h⟩ := bind_eq_ok.1 he
    obtain ⟨⟨g2, b⟩, h2, h⟩ := bind_eq_ok.1 h
    obtain ⟨⟨g3, d⟩, h3, h⟩ := bind_eq_ok.1 h
    cases h
    exact un hw.1 hw.2 h1 h2 (Or.inl h3)
  | unionTrusted e1 e2 r =>
    obtain ⟨⟨g1, a⟩, h1, h⟩ := bind_eq_ok.1 he
    obtain ⟨⟨g2, b⟩, h2, h⟩ := bind_eq_ok.1 h
    obtain ⟨⟨g3, d⟩, h3, h⟩ := bind_eq_ok.1 h
    cases h
    exact un hw.1 hw.2 h1 h2 (Or.inr h3)
  | rebuild =>
    obtain ⟨⟨g, i⟩, h1, h⟩ := bind_eq_ok.1 he
    cases h
    exact ⟨_, .single (.rebuild h1)⟩

theorem runCalls_hist {fuel : Nat} : ∀ {cs : List (Call Op)} {eg0 : EGraph Op D} {U : List (UnionRec Op)}, (∀ c ∈ cs, c.WF) →
    Hist (A.at depth) allow U eg0 → runCalls (A.at depth) fuel eg0 cs = .ok eg → (∃ V, Steps (A.at depth) allow eg0 V eg) ∧ eg.clean = true := by
  intro cs
  induction cs with
  | nil =>
    intro eg0 U _ h he
    obtain ⟨V, hV⟩ := Call.run_steps (c := .rebuild) trivial h he
    obtain ⟨⟨g, i⟩, h1, h2⟩ := bind_eq_ok.1 he
    cases h2
    exact ⟨⟨_, hV⟩, EGraph.rebuild_clean h1⟩
  | cons c cs ih =>
    intro eg0 U hw h he
    obtain ⟨g, h1, he⟩ := bind_eq_ok.1 he
    obtain ⟨V, hV⟩ := Call.run_steps (hw c (by simp)) h h1
    obtain ⟨⟨W, hW⟩, hc⟩ := ih (fun c hc => hw c (by simp [hc])) (Steps.trans h hV) he
    exact ⟨⟨_, hV.trans hW⟩, hc⟩

/-- Classes of the start keep their place. -/
theorem SameUpTo.find {eg eg' : EGraph Op D} {φ : Id → Id} (hs : SameUpTo φ eg eg') (h : Full eg) (h' : Full eg') (h0 : EGraph.Good (Cfg.ofR _ isCongruence_true anyReason) eg0)
    (g : EGraph.Grow eg0 eg) (g' : EGraph.Grow eg0 eg') {i r : Id} (hi : Valid eg0 i) (hf : eg.find i = .ok r) : eg'.find i = .ok (φ r) := by
  obtain ⟨t, ht⟩ := h0.inv.exists_rep (h0.valid_iff.1 hi)
  have r1 := g.rep _ _ ht
  have r2 := g'.rep _ _ ht
  have hl := h.good.inv.rep_lt r1
  rw [h.good.inv.find hl] at hf
  cases hf
  have hid := h.good.inv.core.rtIdem i
  have hrl := h.good.inv.core.rtLt i hl
  have hr : eg.find (eg.rt i) = .ok (eg.rt i) := h.good.inv.find_iff.2 ⟨hrl, hid⟩
  have r3 := (hs.terms _ hr t).1 (h.good.inv.rep_congr hrl hid.symm r1)
  rw [h'.good.inv.find (h'.good.inv.rep_lt r2), EGraph.InvW.rep_unique h'.good.inv h'.pending t r2 r3,
    (h'.good.inv.find_iff.1 (hs.into _ hr)).2]

/-- **C74.**  The order of the calls does not matter.  Take two programs that make, in any order and any number of times, the
same calls of `add_expr` and `union`, with calls of `rebuild` anywhere in between, and `rebuild` at the end.  Started with
the same e-graph they end with e-graphs that are the same up to the names of the classes, and what becomes of an
id of the first e-graph is the same class in both. -/
theorem c74_order (hA : ∀ i, A.modify i = .done) (h : Hist (A.at depth) allow U eg0) {l l' : List (Call Op)} {fuel fuel' : Nat}
    (hw : ∀ c ∈ l, c.WF) (hsame : ∀ c, c ≠ .rebuild → (c ∈ l ↔ c ∈ l')) {eg eg' : EGraph Op D}
    (he : runCalls (A.at depth) fuel eg0 l = .ok eg) (he' : runCalls (A.at depth) fuel' eg0 l' = .ok eg') :
    ∃ φ, SameUpTo φ eg eg' ∧ (∀ i r, Valid eg0 i → eg.find i = .ok r → eg'.find i = .ok (φ r)) ∧
      eg.numberOfClasses = eg'.numberOfClasses ∧ eg.totalNumberOfNodes = eg'.totalNumberOfNodes := by
  have hw' : ∀ c ∈ l', c.WF := by
    intro c hc
    by_cases e : c = .rebuild
    · subst e; trivial
    · exact hw c ((hsame c e).2 hc)
  have hN := (soundFor_true A).hookOK trivial depth
  have hg := hist_good h
  obtain ⟨⟨V, s1⟩, hc1⟩ := runCalls_hist hw h he
  obtain ⟨⟨V', s2⟩, hc2⟩ := runCalls_hist hw' h he'
  have h1 := Steps.trans h s1
  have h2 := Steps.trans h s2
  have F1 := Full.of_hist h1 hc1
  have F2 := Full.of_hist h2 hc2
  obtain ⟨-, x1, -, q1⟩ := runCalls_holds trivial hN (fun _ _ => trivial) (fun _ _ _ => trivial) hw hg he
  obtain ⟨-, x2, -, q2⟩ := runCalls_holds trivial hN (fun _ _ => trivial) (fun _ _ _ => trivial) hw' hg he'
  have g1 := x1.grow hg F1.good
  have g2 := x2.grow hg F2.good
  have b1 : Within eg eg' := by
    refine (Under.calls (M := eg') (hM := F2) hA hw (fun c hc => ?_) (Under.of_below hA h (fun c s t hs ht => ⟨c, g2.rep _ _ hs, g2.rep _ _ ht⟩)) he).below
    by_cases e : c = .rebuild
    · subst e; trivial
    · exact q2 c ((hsame c e).1 hc)
  have b2 : Within eg' eg := by
    refine (Under.calls (M := eg) (hM := F1) hA hw' (fun c hc => ?_) (Under.of_below hA h (fun c s t hs ht => ⟨c, g1.rep _ _ hs, g1.rep _ _ ht⟩)) he').below
    by_cases e : c = .rebuild
    · subst e; trivial
    · exact q1 c ((hsame c e).2 hc)
  have hs := sameUpTo F1 F2 (c47_clean_means_rebuilt h1 hc1) (c47_clean_means_rebuilt h2 hc2) b1 b2
  exact ⟨_, hs, fun i r hi hf => hs.find F1 F2 hg g1 g2 hi hf, hs.numberOfClasses F1 F2, hs.total F1 F2⟩

/-! ### C23 -/

/-- **C23.**  What applying a rule may do.  `Pattern::apply_matches` does nothing but add instances of
nodes of the right side for the given matches, and unite the instance of the left side for a match with that of the right
side.  Only if explanations are enabled may it also add instances of nodes of the left side.  It returns as many ids
as it merged pairs of different classes. -/
theorem c23_adds_only_instances {rp : Pattern Op} {tl t : Term (PatOp Op)} {ms : List (SearchMatches Op)} {eg' : EGraph Op D}
    (h : Hist (A.at depth) allow U eg) (hp : IsPattern rp t) (ha : Applicable eg tl rp ms)
    {rule : Symbol} {ids : List Id} (he : rp.applyMatches (A.at depth) eg ms rule = .ok (eg', ids)) :
    ApplySteps (A.at depth) (fun q => EntryOf rp.ast q ∨ eg.explain.isSome = true ∧ ∃ m ∈ ms, ∃ l, m.ast = some l ∧ EntryOf l q)
      tl t (flat ms) eg ids.length eg' := applyMatches_inst h hp ha he

/-! ### C75 -/

theorem closedTerms_of (h : Full M) {tl t : Term (PatOp Op)} (hcl : ClosedUnder M tl t) : ClosedTerms M tl t := by
  classical
  intro τ s w c hs hw hcs
  have hi := h.good.inv
  let σ : Var → Option Id := fun v => if hx : ∃ x, Rep M x (τ v) then some hx.choose else none
  have hσ1 : ∀ v x, σ v = some x → Rep M x (τ v) := by
    intro v x hx
    simp only [σ] at hx
    split at hx
    · next he => cases hx; exact he.choose_spec
    · cases hx
  have hσ2 : ∀ v, Occurs v tl → (σ v).isSome := by
    intro v hv
    have := rep_subterm hi (inst_subterm hs v hv) hcs
    simp [σ, this]
  exact hi.pmatch_rep _ (hcl σ c (EGraph.InvW.rep_pmatch hi h.pending hσ1 tl hcs hs hσ2)) (fun v x _ hx => hσ1 v x hx) hw

section
variable {S H : Type} {env : RunEnv Op D} {sch : Scheduler Op D S} {hooks : List (Hook Op D H)} {rules : List (Rewrite Op D)}
  {eqs : List (Term (PatOp Op) × Term (PatOp Op))} {r r' : Runner Op D S H}

/-- **C75.**  A run adds nothing that does not follow from the rules, whatever the scheduler, the limits and the reason for
which it stops.  Let `M` be any rebuilt e-graph that is closed under the rules and contains the e-graph
with which the run starts.  Then it contains the one with which the run ends. -/
theorem c75_least (hA : ∀ i, A.modify i = .done) (hN : env.analysis = A.at depth) (hord : ∀ i eg, (env.ord i eg).OK eg)
    (hd : DiscContiguous Op) (hs : sch.Honest env) (hh : HooksRead hooks)
    (hr : ∀ rw' ∈ rules, ∃ tl t, (tl, t) ∈ eqs ∧ TightRule rw' tl t)
    (h : Hist (A.at depth) allow U r.egraph) {f : Nat} (hrun : r.run env sch hooks rules f = .ok r')
    (hM : Hist (A'.at depth') allow' U' M) (hc : M.clean = true) (hcl : ∀ tl t, (tl, t) ∈ eqs → ClosedUnder M tl t)
    (hb : Within r.egraph M) : Within r'.egraph M := by
  have hF := Full.of_hist hM hc
  unfold Runner.run at hrun
  obtain ⟨⟨eg, n⟩, h1, h2⟩ := bind_eq_ok.1 hrun
  rw [hN] at h1
  exact (Runner.runLoop_under hA hN hord hd hs hh hr (fun tl t ht => closedTerms_of hF (hcl tl t ht)) f { r with egraph := eg } r' ([] ++ U)
    (Steps.trans h (.single (.rebuild h1))) (EGraph.rebuild_clean h1) ((Under.of_below (hM := hF) hA h hb).rebuild hA h1) h2).below

end

section
variable {eqs : List (Term (PatOp Op) × Term (PatOp Op))} {eg eg' : EGraph Op D}

theorem SaturatedRun.facts (hcyc : (A.at depth).allowCycles = true) (hd : DiscContiguous Op)
    (h : Hist (A.at depth) allow U eg0) (hs : SaturatedRun A depth eqs eg0 eg) :
    (∃ V, Hist (A.at depth) allow V eg) ∧ EGraph.Grow eg0 eg ∧ eg.clean = true ∧ ∀ tl t, (tl, t) ∈ eqs → ClosedUnder eg tl t := by
  obtain ⟨k1, k2, k3, k4, k5, k6, k7, k8, rfl, k10, k11, k12⟩ := hs
  have hok := k7.ok (N := A.at depth) (allow := allow)
  have ht : AreTightRules _ eqs := k8.1
  obtain ⟨c1, V, s1, -⟩ := c25_run_reach k1 k2 hd k3 hok ht.areRules h k10
  refine ⟨⟨_, Steps.trans h s1⟩, (steps_grow s1 (hist_good h)).2, c1, fun tl t hm => ?_⟩
  obtain ⟨rw', h1, h2⟩ := k8.2 tl t hm
  exact c26_saturated_closed k1 k2 hd hcyc k3 k4 k5 hok (fun rw' hm => by
    obtain ⟨tl, t, h1, h2⟩ := k8.1 rw' hm
    exact ⟨tl, t, h1, h2.pattern⟩) h k6 k10 k11 k12 rw' h1 tl t h2.pattern

/-- **C75.**  Saturation is confluent.  Two runs with the same rules, started with the same e-graph, that both end
with `Saturated` yield e-graphs that are the same up to the names of the classes: whatever their schedulers, limits, hooks (that
only look), the order of the rules and the order in which the hash maps are visited.  What becomes of an id of
the first e-graph is the same class in both. -/
theorem c75_confluent (hA : ∀ i, A.modify i = .done) (hcyc : (A.at depth).allowCycles = true) (hd : DiscContiguous Op)
    (h : Hist (A.at depth) allow U eg0) (h1 : SaturatedRun A depth eqs eg0 eg) (h2 : SaturatedRun A depth eqs eg0 eg') :
    ∃ φ, SameUpTo φ eg eg' ∧ (∀ i r, Valid eg0 i → eg.find i = .ok r → eg'.find i = .ok (φ r)) ∧
      eg.numberOfClasses = eg'.numberOfClasses ∧ eg.totalNumberOfNodes = eg'.totalNumberOfNodes := by
  obtain ⟨⟨V, hV⟩, g1, hc1, hcl1⟩ := h1.facts hcyc hd h
  obtain ⟨⟨V', hV'⟩, g2, hc2, hcl2⟩ := h2.facts hcyc hd h
  have F1 := Full.of_hist hV hc1
  have F2 := Full.of_hist hV' hc2
  have key : ∀ {a b : EGraph Op D} {W : List (UnionRec Op)}, SaturatedRun A depth eqs eg0 a → Hist (A.at depth) allow W b → b.clean = true →
      (∀ tl t, (tl, t) ∈ eqs → ClosedUnder b tl t) → EGraph.Grow eg0 b → Within a b := by
    intro a b W ha hb hc hcl hg
    obtain ⟨k1, k2, k3, k4, k5, k6, k7, k8, rfl, k10, k11, k12⟩ := ha
    exact c75_least hA k1 k2 hd k3 k7 k8.1 h k10 hb hc hcl (fun c s t hs ht => ⟨c, hg.rep _ _ hs, hg.rep _ _ ht⟩)
  have hs := sameUpTo F1 F2 (c47_clean_means_rebuilt hV hc1) (c47_clean_means_rebuilt hV' hc2) (key h1 hV' hc2 hcl2 g2) (key h2 hV hc1 hcl1 g1)
  exact ⟨_, hs, fun i r hi hf => hs.find F1 F2 (hist_good h) g1 g2 hi hf, hs.numberOfClasses F1 F2, hs.total F1 F2⟩

/-- **C75, C30.**  The cost of the best term of a class is the same after both runs. -/
theorem c75_same_best_cost (hA : ∀ i, A.modify i = .done) (hcyc : (A.at depth).allowCycles = true) (hd : DiscContiguous Op)
    (h : Hist (A.at depth) allow U eg0) (h1 : SaturatedRun A depth eqs eg0 eg) (h2 : SaturatedRun A depth eqs eg0 eg')
    {Cost : Type} {cf : CostFn Op Cost} (hcf : cf.OK) {ks ks' : List (EClass Op D)} (hks : ks.Perm (eg.classes.map Prod.snd))
    (hks' : ks'.Perm (eg'.classes.map Prod.snd)) {p p' : Nat} {x x' : Extractor Op Cost} (hx : Extractor.new cf eg ks p = .ok x)
    (hx' : Extractor.new cf eg' ks' p' = .ok x') {c : Id} (hc : Valid eg0 c) :
    ∃ a b, x.findBestCost eg c = .ok a ∧ x'.findBestCost eg' c = .ok b ∧ cf.Same a b := by
  obtain ⟨⟨V, hV⟩, g1, hc1, -⟩ := h1.facts hcyc hd h
  obtain ⟨⟨V', hV'⟩, g2, hc2, -⟩ := h2.facts hcyc hd h
  have G1 := hist_good hV
  have G2 := hist_good hV'
  obtain ⟨φ, hs, hf, -⟩ := c75_confluent hA hcyc hd h h1 h2
  have hv := (hist_good h).valid_iff.1 hc
  have v1 : c < eg.nodes.length := lt_of_lt_of_le hv g1.len
  have v2 : c < eg'.nodes.length := lt_of_lt_of_le hv g2.len
  have e1 := G1.inv.find v1
  have e2 := hf c _ hc e1
  have e2' : eg'.rt c = φ (eg.rt c) := by rw [G2.inv.find v2] at e2; exact Except.ok.inj e2
  have hrl := G1.inv.core.rtLt c v1
  have hid := G1.inv.core.rtIdem c
  have hcan : eg.find (eg.rt c) = .ok (eg.rt c) := G1.inv.find_iff.2 ⟨hrl, hid⟩
  have hcan2 := G2.inv.find_iff.1 (hs.into _ hcan)
  have key : ∀ t, Rep eg c t ↔ Rep eg' c t := by
    intro t
    have i1 : Rep eg c t ↔ Rep eg (eg.rt c) t := ⟨fun h => G1.inv.rep_congr hrl hid.symm h, fun h => G1.inv.rep_congr v1 hid h⟩
    have i2 : Rep eg' c t ↔ Rep eg' (φ (eg.rt c)) t :=
      ⟨fun h => G2.inv.rep_congr hcan2.1 (by rw [hcan2.2, e2']) h, fun h => G2.inv.rep_congr v2 (by rw [hcan2.2, e2']) h⟩
    rw [i1, i2, hs.terms _ hcan t]
  obtain ⟨_, a, _, t, -, a1, -, -, a2, a3, -, a4⟩ := c29_c30_find_best hV hcf hks hx (G1.valid_iff.2 v1)
  obtain ⟨_, b, _, t', -, b1, -, -, b2, b3, -, b4⟩ := c29_c30_find_best hV' hcf hks' hx' (G2.valid_iff.2 v2)
  refine ⟨a, b, a1, b1, hcf.same_iff.2 ⟨?_, ?_⟩⟩
  · exact hcf.trans _ _ _ (a4 t' ((key t').2 b2)) (hcf.same_iff.1 b3).2
  · exact hcf.trans _ _ _ (b4 t ((key t).1 a2)) (hcf.same_iff.1 a3).2

end

/-! ### Examples -/

def Ex.graphOf (x : Res (EGraph Ex.S Unit)) : EGraph Ex.S Unit := match x with | .ok g => g | _ => .new

/-- C74: `f a = b` and `a = c`, in the two orders, in an e-graph in which `f c` exists. -/
def Ex.fc0 : EGraph Ex.S Unit := Ex.graphOf (Call.run Ex.N0 9 .new (.addExpr [Ex.leaf .c, Ex.app .f [0]]))
def Ex.callFab : Call Ex.S := .union [Ex.leaf .a, Ex.app .f [0]] [Ex.leaf .b] 1
def Ex.callAc : Call Ex.S := .unionTrusted [Ex.leaf .a] [Ex.leaf .c] 2
def Ex.prog1 : List (Call Ex.S) := [Ex.callFab, Ex.callAc]
def Ex.prog2 : List (Call Ex.S) := [Ex.callAc, .rebuild, Ex.callFab, Ex.callAc]
def Ex.end1 : EGraph Ex.S Unit := Ex.graphOf (runCalls Ex.N0 20 Ex.fc0 Ex.prog1)
def Ex.end2 : EGraph Ex.S Unit := Ex.graphOf (runCalls Ex.N0 20 Ex.fc0 Ex.prog2)

theorem Ex.fc0_hist : Hist (Ex.U0.at 1) .all [] Ex.fc0 :=
  EGraph.addExpr_steps (eg := .new) (e := [Ex.leaf .c, Ex.app .f [0]]) (i := 1) rfl

theorem Ex.prog1_wf : ∀ c ∈ Ex.prog1, c.WF := by
  intro c hc
  simp only [Ex.prog1, List.mem_cons, List.not_mem_nil, or_false] at hc
  rcases hc with rfl | rfl
  · exact ⟨wfExpr_of rfl rfl, wfExpr_of rfl rfl⟩
  · exact ⟨wfExpr_of rfl rfl, wfExpr_of rfl rfl⟩

/-- The two programs meet the hypotheses of the theorem. -/
example : ∃ φ, SameUpTo φ Ex.end1 Ex.end2 ∧ (∀ i r, Valid Ex.fc0 i → Ex.end1.find i = .ok r → Ex.end2.find i = .ok (φ r)) ∧
    Ex.end1.numberOfClasses = Ex.end2.numberOfClasses ∧ Ex.end1.totalNumberOfNodes = Ex.end2.totalNumberOfNodes := by
  refine c74_order (A := Ex.U0) (depth := 1) (fun _ => rfl) Ex.fc0_hist (l := Ex.prog1) (l' := Ex.prog2) (fuel := 20) (fuel' := 20) Ex.prog1_wf ?_ rfl rfl
  intro c hc
  simp only [Ex.prog1, Ex.prog2, List.mem_cons, List.not_mem_nil, or_false, hc, false_or]
  tauto

/-- `c74_least`: `eg` has only the union of `f a` with `c`, `M` has in addition `f a = b` and `a = c`. -/
def Ex.prog3 : List (Call Ex.S) := [.union [Ex.leaf .a, Ex.app .f [0]] [Ex.leaf .c] 7]
def Ex.end3 : EGraph Ex.S Unit := Ex.graphOf (runCalls Ex.N0 20 .new Ex.prog3)
def Ex.end4 : EGraph Ex.S Unit := Ex.graphOf (runCalls Ex.N0 20 .new (Ex.prog1 ++ Ex.prog3))

theorem Ex.repLeaf {eg : EGraph Ex.S Unit} {c r : Id} {k : EClass Ex.S Unit} {x : Ex.S} (h1 : eg.find c = .ok r) (h2 : eg.classes.get? r = some k)
    (h3 : Ex.leaf x ∈ k.nodes) : Rep eg c (.node x []) := EGraph.rep_iff.2 ⟨r, k, Ex.leaf x, h1, h2, h3, rfl, .nil⟩

theorem Ex.repApp {eg : EGraph Ex.S Unit} {c r d : Id} {k : EClass Ex.S Unit} {x : Ex.S} {t : Term Ex.S} (h1 : eg.find c = .ok r)
    (h2 : eg.classes.get? r = some k) (h3 : Ex.app x [d] ∈ k.nodes) (h : Rep eg d t) : Rep eg c (.node x [t]) :=
  EGraph.rep_iff.2 ⟨r, k, Ex.app x [d], h1, h2, h3, rfl, .cons h .nil⟩

theorem Ex.end3_hist : Hist (Ex.U0.at 1) .all [⟨7, 1, 2, .node .f [.node .a []], .node .c []⟩] Ex.end3 := by
  have h1 : Steps (Ex.U0.at 1) (.all : Caller Ex.S Unit) .new [] _ := EGraph.addExpr_steps (eg := .new) (e := [Ex.leaf .a, Ex.app .f [0]]) (i := 1) rfl
  have h2 := h1.trans (EGraph.addExpr_steps (e := [Ex.leaf .c]) (i := 2) rfl)
  exact ((h2.tail (.union (a := 1) (b := 2) (caller := 7) (r := true) (Ex.repApp rfl rfl (List.mem_singleton.2 rfl) (Ex.repLeaf rfl rfl (List.mem_singleton.2 rfl)))
    (Ex.repLeaf rfl rfl (List.mem_singleton.2 rfl)) rfl)).tail (.rebuild (fuel := 20) (n := 0) rfl))

example : Within Ex.end3 Ex.end4 := by
  have hw : ∀ c ∈ Ex.prog1 ++ Ex.prog3, c.WF := by
    intro c hc
    rcases List.mem_append.1 hc with hc | hc
    · exact Ex.prog1_wf c hc
    · cases List.mem_singleton.1 hc; exact ⟨wfExpr_of rfl rfl, wfExpr_of rfl rfl⟩
  obtain ⟨⟨V, hV⟩, hc⟩ := runCalls_hist (A := Ex.U0) (depth := 1) (allow := .all) (fuel := 20) (eg0 := .new) (eg := Ex.end4) hw .refl rfl
  have ra : Rep Ex.end4 0 (.node .a []) := Ex.repLeaf rfl rfl (by decide +kernel)
  have rfa : Rep Ex.end4 1 (.node .f [.node .a []]) := Ex.repApp (d := 0) rfl rfl (by decide +kernel) (Ex.repLeaf rfl rfl (by decide +kernel))
  have rc : Rep Ex.end4 1 (.node .c []) := Ex.repLeaf rfl rfl (by decide +kernel)
  refine c74_least (fun _ => rfl) Ex.end3_hist hV hc (fun u hu => ?_) (fun c hv => ?_)
  · cases List.mem_singleton.1 hu
    exact ⟨1, rfa, rc⟩
  · have : c < 3 := (hist_good Ex.end3_hist).valid_iff.1 hv
    have : c = 0 ∨ c = 1 ∨ c = 2 := by omega
    rcases this with rfl | rfl | rfl
    · exact ⟨.node .a [], 0, Ex.repLeaf rfl rfl (by decide +kernel), ra⟩
    · exact ⟨.node .c [], 1, Ex.repLeaf rfl rfl (by decide +kernel), rc⟩
    · exact ⟨.node .c [], 1, Ex.repLeaf rfl rfl (by decide +kernel), rc⟩

/-- They are different: `a = c` in the second only. -/
example : Ex.end3.numberOfClasses = 2 ∧ Ex.end4.numberOfClasses = 1 := ⟨rfl, rfl⟩

/-- They end with two classes and four e-nodes; `f c` (id 1) is equal to `b`; but the ids differ. -/
example : (Ex.end1.numberOfClasses = 2 ∧ Ex.end1.totalNumberOfNodes = 4 ∧ Ex.end1.find 1 = .ok 3 ∧ Ex.end1.lookup (Ex.leaf .b) = .ok (some 3)) ∧
    (Ex.end2.numberOfClasses = 2 ∧ Ex.end2.totalNumberOfNodes = 4 ∧ Ex.end2.find 1 = .ok 1 ∧ Ex.end2.lookup (Ex.leaf .b) = .ok (some 1)) :=
  ⟨⟨rfl, rfl, rfl, rfl⟩, ⟨rfl, rfl, rfl, rfl⟩⟩

/-- C75: two runs on `f (f a)`, with the rules `(f ?x) => (g ?x)` and `(f ?x) => ?x` in different order and different
schedulers. -/
def Ex.eqs2 : List (Term (PatOp Ex.S) × Term (PatOp Ex.S)) := [(Ex.termFx, Ex.termGx), (Ex.termFx, .node (.var Ex.vx) [])]
def Ex.runA : Runner Ex.S Unit Unit Unit := Ex.stR () (Ex.runnerS1.run Ex.renv simpleScheduler [] [Ex.ruleFG, Ex.ruleFX] 10)
def Ex.runnerB : Runner Ex.S Unit Backoff Unit := { (Runner.new Ex.bo () : Runner Ex.S Unit Backoff Unit) with egraph := Ex.runnerS1.egraph }
def Ex.runB : Runner Ex.S Unit Backoff Unit := Ex.stR .default (Ex.runnerB.run Ex.renv Backoff.scheduler [] [Ex.ruleFX, Ex.ruleFG] 10)

theorem Ex.liveFx : ∀ k, k < Ex.patFx.ast.length → Live Ex.patFx.ast k := by
  intro k hk
  have hr : Live Ex.patFx.ast 1 := .root
  have hk : k < 2 := hk
  have : k = 0 ∨ k = 1 := by omega
  rcases this with rfl | rfl
  · exact .child (n := ⟨.op .f, [0]⟩) hr rfl (by simp)
  · exact hr

theorem Ex.liveGx : ∀ k, k < Ex.patGx.ast.length → Live Ex.patGx.ast k := by
  intro k hk
  have hr : Live Ex.patGx.ast 1 := .root
  have hk : k < 2 := hk
  have : k = 0 ∨ k = 1 := by omega
  rcases this with rfl | rfl
  · exact .child (n := ⟨.op .g, [0]⟩) hr rfl (by simp)
  · exact hr

theorem Ex.liveX : ∀ k, k < Ex.patX.ast.length → Live Ex.patX.ast k := by
  intro k hk
  have hk : k < 1 := hk
  have : k = 0 := by omega
  subst this
  exact .root

theorem Ex.tightFG : TightRule Ex.ruleFG Ex.termFx Ex.termGx :=
  ⟨Ex.patFx, Ex.patGx, Ex.isPatFx, Ex.liveFx, Ex.live, Ex.isPatGx, Ex.liveGx, rfl⟩
theorem Ex.tightFX : TightRule Ex.ruleFX Ex.termFx (.node (.var Ex.vx) []) :=
  ⟨Ex.patFx, Ex.patX, Ex.isPatFx, Ex.liveFx, Ex.live, Ex.isPatX, Ex.liveX, rfl⟩

theorem Ex.rulesAre : RulesAre [Ex.ruleFG, Ex.ruleFX] Ex.eqs2 ∧ RulesAre [Ex.ruleFX, Ex.ruleFG] Ex.eqs2 := by
  refine ⟨⟨fun rw' h => ?_, fun tl t h => ?_⟩, ⟨fun rw' h => ?_, fun tl t h => ?_⟩⟩
  all_goals simp only [List.mem_cons, List.not_mem_nil, or_false, Ex.eqs2, Prod.mk.injEq] at h
  · rcases h with rfl | rfl
    · exact ⟨_, _, by simp [Ex.eqs2], Ex.tightFG⟩
    · exact ⟨_, _, by simp [Ex.eqs2], Ex.tightFX⟩
  · rcases h with ⟨rfl, rfl⟩ | ⟨rfl, rfl⟩
    · exact ⟨_, by simp, Ex.tightFG⟩
    · exact ⟨_, by simp, Ex.tightFX⟩
  · rcases h with rfl | rfl
    · exact ⟨_, _, by simp [Ex.eqs2], Ex.tightFX⟩
    · exact ⟨_, _, by simp [Ex.eqs2], Ex.tightFG⟩
  · rcases h with ⟨rfl, rfl⟩ | ⟨rfl, rfl⟩
    · exact ⟨_, by simp, Ex.tightFG⟩
    · exact ⟨_, by simp, Ex.tightFX⟩

theorem Ex.satA : SaturatedRun Ex.U0 1 Ex.eqs2 Ex.runnerS1.egraph Ex.runA.egraph := by
  refine .mk (env := Ex.renv) (sch := simpleScheduler) (hooks := []) (rules := [Ex.ruleFG, Ex.ruleFX]) (I := fun _ _ => True) (r := Ex.runnerS1) (r' := Ex.runA) (f := 10)
    rfl (fun _ eg => Ex.ordOK eg) simple_honest simple_limited (simple_thorough _) trivial (fun k hk => by cases hk) Ex.rulesAre.1 rfl rfl rfl ?_
  intro rw' h
  simp only [List.mem_cons, List.not_mem_nil, or_false] at h
  rcases h with rfl | rfl
  · exact ⟨Ex.ord _, _, Ex.ordOK _, rfl, by decide⟩
  · exact ⟨Ex.ord _, _, Ex.ordOK _, rfl, by decide⟩

theorem Ex.satB : SaturatedRun Ex.U0 1 Ex.eqs2 Ex.runnerS1.egraph Ex.runB.egraph := by
  refine .mk (env := Ex.renv) (sch := Backoff.scheduler) (hooks := []) (rules := [Ex.ruleFX, Ex.ruleFG]) (I := BackoffOK 8 30) (r := Ex.runnerB) (r' := Ex.runB) (f := 10)
    rfl (fun _ eg => Ex.ordOK eg) backoff_honest backoff_limited (backoff_thorough _) Ex.bo_ok (fun k hk => by cases hk) Ex.rulesAre.2 rfl rfl rfl ?_
  intro rw' h
  simp only [List.mem_cons, List.not_mem_nil, or_false] at h
  rcases h with rfl | rfl
  · exact ⟨Ex.ord _, _, Ex.ordOK _, rfl, by decide⟩
  · exact ⟨Ex.ord _, _, Ex.ordOK _, rfl, by decide⟩

theorem Ex.histS1 : Hist (Ex.U0.at 1) .all [] Ex.runnerS1.egraph := EGraph.addExpr_steps (eg := .new) (e := Ex.exprFfa) (i := 2) rfl

/-- The runs meet the hypotheses. -/
example : ∃ φ, SameUpTo φ Ex.runA.egraph Ex.runB.egraph ∧
    (∀ i r, Valid Ex.runnerS1.egraph i → Ex.runA.egraph.find i = .ok r → Ex.runB.egraph.find i = .ok (φ r)) ∧
    Ex.runA.egraph.numberOfClasses = Ex.runB.egraph.numberOfClasses ∧ Ex.runA.egraph.totalNumberOfNodes = Ex.runB.egraph.totalNumberOfNodes := by
  exact c75_confluent (A := Ex.U0) (depth := 1) (fun _ => rfl) rfl Ex.discContiguous Ex.histS1 Ex.satA Ex.satB

/-- Both end with a single class of three e-nodes, after different numbers of iterations. -/
example : (Ex.runA.egraph.numberOfClasses, Ex.runA.egraph.totalNumberOfNodes, Ex.runA.iterations.length) = (1, 3, 2) ∧
    (Ex.runB.egraph.numberOfClasses, Ex.runB.egraph.totalNumberOfNodes, Ex.runB.iterations.length) = (1, 3, 4) := by decide +kernel

end Egg
