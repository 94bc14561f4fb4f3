import Verif.Props.ExtractBy
import Verif.Props.Prune
import Verif.Spec.PruneExtract
/-
C97: extraction when e-nodes have been dropped from classes.
-/
namespace Egg
variable {Op D Cost : Type} [DecidableEq Op] [Lang Op] {K : Op → Nat → Prop}

theorem Thinner.rt {eg full : EGraph Op D} (h : Thinner eg full) (i : Id) : eg.rt i = full.rt i := by
  have := h.find i
  unfold EGraph.find at this
  unfold EGraph.rt UF.root
  rw [this]

theorem Thinner.classInv {eg full : EGraph Op D} (h : Thinner eg full) (hi : ClassInv full) : ClassInv eg where
  find_iff := fun {i r} => by rw [h.find, h.nodes, h.rt]; exact hi.find_iff
  rtIdem := fun i => by rw [h.rt, h.rt]; exact hi.rtIdem i
  rtLt := fun i hl => by rw [h.rt]; rw [h.nodes] at hl ⊢; exact hi.rtLt i hl
  cls := fun c k hk => by
    rcases h.get? c with ⟨h1, _⟩ | ⟨k', kf, h1, h2, h3⟩
    · rw [h1] at hk; cases hk
    · rw [h1] at hk
      cases hk
      obtain ⟨a1, a2, a3, a4⟩ := hi.cls c kf h2
      rw [h.rt, h.nodes]
      exact ⟨h3.id.trans a1, a2, a3, fun n hn => a4 n (h3.nodes n hn)⟩
  nodup := by
    have : eg.classes.map Prod.fst = full.classes.map Prod.fst := by
      have := h.classes
      generalize eg.classes = l at this
      generalize full.classes = l' at this
      induction this with
      | nil => rfl
      | cons a b ih => rw [List.map_cons, List.map_cons, ih, a.1]
    rw [this]
    exact hi.nodup

theorem Thinner.costIn {eg full : EGraph Op D} {cf : NodeCostFn Op Cost} (h : Thinner eg full) {c : Id} {t : Term Op} {v : Cost}
    (hv : CostIn cf eg c t v) : CostIn cf full c t v := by
  induction hv with
  | @mk c r cls n ts vs h1 h2 h3 h4 h5 _ ih =>
    rcases h.get? r with ⟨g1, _⟩ | ⟨k', kf, g1, g2, g3⟩
    · rw [g1] at h2; cases h2
    · rw [g1] at h2
      cases h2
      exact .mk (by rw [← h.find]; exact h1) g2 (g3.nodes n h3) h4 h5 ih

variable {A : PruneAnalysis Op D} {allow : Caller Op D} {depth : Nat} {U : List (UnionRec Op)} {eg : EGraph Op D}
  {cf : NodeCostFn Op Cost} {ks : List (EClass Op D)}

theorem PruneHist.classInv (hA : A.OK K) (ha : allow.Blind) (h : PruneHist K (A.at depth) allow U eg) : ClassInv eg := by
  obtain ⟨full, hf, hT, -⟩ := c86_same_as_unpruned hA ha h
  exact hT.classInv (hist_good hf).inv.classInv

/-- **C97.**  After any history in which e-nodes are dropped from classes: if no class is empty, `Extractor::new`
terminates, without panic, after at most one pass more than there are classes. -/
theorem c97_new_terminates (hA : A.OK K) (ha : allow.Blind) (h : PruneHist K (A.at depth) allow U eg) (hcf : cf.OK)
    (hks : ks.Perm (eg.classes.map Prod.snd)) (hne : ∀ k ∈ ks, k.nodes ≠ []) {passes : Nat} (hp : eg.classes.length < passes) :
    ∃ x, ByNode.new cf eg ks passes = .ok x :=
  ByNode.new_total hcf (h.classInv hA ha) hks hne hp

/-- **C97.**  If some class is empty, `Extractor::new` panics. -/
theorem c97_empty_panics (hA : A.OK K) (ha : allow.Blind) (h : PruneHist K (A.at depth) allow U eg) (hcf : cf.OK)
    (hks : ks.Perm (eg.classes.map Prod.snd)) (he : ∃ k ∈ ks, k.nodes = []) (passes : Nat) :
    ByNode.new cf eg ks (passes + 1) = .error .panic :=
  ByNode.new_empty hcf (h.classInv hA ha) hks he passes

/-- **C97.**  If some term can still be read off the class of `c`, `find_best(c)` terminates without panic and returns
a cost and a well-formed expression; its term can be read off the class at that cost, and no term of the class can be read
off at a smaller one.  (It is then also a term of the class of the complete e-graph, `c86_reads`.) -/
theorem c97_find_best (hA : A.OK K) (ha : allow.Blind) (h : PruneHist K (A.at depth) allow U eg) (hcf : cf.OK)
    (hks : ks.Perm (eg.classes.map Prod.snd)) (hne : ∀ k ∈ ks, k.nodes ≠ []) {passes : Nat} {x : Extractor Op Cost}
    (hx : ByNode.new cf eg ks passes = .ok x) {c : Id} {t0 : Term Op} (h0 : Rep eg c t0) :
    ∃ fuel cost e t v, (∀ f, fuel ≤ f → x.findBest eg f c = .ok (cost, e)) ∧ x.findBestCost eg c = .ok cost ∧
      WFExpr e ∧ ExprTerm e t ∧ Rep eg c t ∧ CostIn cf eg c t v ∧ cf.Same cost v ∧
      ∀ t' v', CostIn cf eg c t' v' → cf.Le cost v' := by
  have hi := h.classInv hA ha
  obtain ⟨v0, h0⟩ := ByNode.rep_costIn hi cf t0 c h0
  exact (ByNode.new_done hcf hi hks hne hx).best hcf hi h0

/-- **C97.**  If no term can be read off the class of `c` any more, `find_best(c)`, `find_best_cost(c)` and
`find_best_node(c)` panic. -/
theorem c97_no_term_panics (hA : A.OK K) (ha : allow.Blind) (h : PruneHist K (A.at depth) allow U eg) (hcf : cf.OK)
    (hks : ks.Perm (eg.classes.map Prod.snd)) (hne : ∀ k ∈ ks, k.nodes ≠ []) {passes : Nat} {x : Extractor Op Cost}
    (hx : ByNode.new cf eg ks passes = .ok x) {c : Id} (hc : Valid eg c) (h0 : ∀ t, ¬ Rep eg c t) :
    (∀ fuel, x.findBest eg fuel c = .error .panic) ∧ x.findBestCost eg c = .error .panic ∧ x.findBestNode eg c = .error .panic := by
  have hi := h.classInv hA ha
  have hd := ByNode.new_done hcf hi hks hne hx
  obtain ⟨r, hr⟩ := hc
  have := hd.none hi (hi.find_iff.1 hr).1 (fun t v hv => h0 t (ByNode.costIn_rep hi t c v hv))
  simp [Extractor.findBest, Extractor.findBestCost, Extractor.findBestNode, this]

theorem CheapLeaf.costIn {eg full : EGraph Op D} (hcf : cf.OK) (hT : Thinner eg full) (hi : ClassInv full) (hl : CheapLeaf cf eg full) :
    ∀ (t : Term Op) (c : Id) (v : Cost), CostIn cf full c t v → ∃ t' v', CostIn cf eg c t' v' ∧ cf.Le v' v := by
  have hi' := hT.classInv hi
  intro t
  induction t using Term.ind with
  | h op ts ih =>
    intro c v hv
    obtain ⟨hc, kf, n, ps, h1, h2, rfl, h4, rfl, rfl⟩ := (ByNode.costIn_iff hi).1 hv
    rcases hT.get? (full.rt c) with ⟨_, g2⟩ | ⟨k, kf', g1, g2, g3⟩
    · rw [h1] at g2; cases g2
    · rw [h1] at g2
      cases g2
      have hc' : c < eg.nodes.length := by rw [hT.nodes]; exact hc
      have g1' : eg.classes.get? (eg.rt c) = some k := by rw [hT.rt]; exact g1
      have e1 : eg.index c = .ok k := by simp [EGraph.index, hi'.find hc', g1', unwrap]
      have e2 : full.index c = .ok kf := by simp [EGraph.index, hi.find hc, h1, unwrap]
      rcases hl c k kf e1 e2 with hw | ⟨m, hm, hm0, hle⟩
      · have : ∃ qs : List (Term Op × Cost), List.Forall₂ (fun d (p : Term Op × Cost) => CostIn cf eg d p.1 p.2) n.children qs ∧
            List.Forall₂ cf.Le (qs.map Prod.snd) (ps.map Prod.snd) := by
          clear hv
          generalize n.children = l at h4
          induction h4 with
          | nil => exact ⟨[], .nil, .nil⟩
          | @cons d p l ps a b ih' =>
            obtain ⟨qs, q1, q2⟩ := ih' (fun t ht => ih t (by
              obtain ⟨q, hq, rfl⟩ := List.mem_map.1 ht
              exact List.mem_map_of_mem (List.mem_cons_of_mem _ hq)))
            obtain ⟨t', v', p1, p2⟩ := ih p.1 (by simp) d p.2 a
            exact ⟨(t', v') :: qs, .cons p1 q1, .cons p2 q2⟩
        obtain ⟨qs, q1, q2⟩ := this
        exact ⟨_, _, (ByNode.costIn_iff hi').2 ⟨hc', k, n, qs, g1', hw n h2, rfl, q1, rfl, rfl⟩, hcf.mono _ _ _ q2⟩
      · exact ⟨_, _, (ByNode.costIn_iff hi').2 ⟨hc', k, m, [], g1', hm, rfl, by rw [hm0]; exact .nil, rfl, rfl⟩, hle _ _⟩

/-- **C97.**  If only classes with a cheapest e-node lost e-nodes, as in constant folding with pruning, then nothing is
lost: for every id there is a term, and the best cost is that in the complete e-graph. -/
theorem c97_same_cost {full : EGraph Op D} (hf : Hist (A.full.at depth) allow U full) (hT : Thinner eg full) (hcf : cf.OK)
    (hl : CheapLeaf cf eg full) (hks : ks.Perm (eg.classes.map Prod.snd)) {ks' : List (EClass Op D)}
    (hks' : ks'.Perm (full.classes.map Prod.snd)) {passes passes' : Nat} (hp : eg.classes.length < passes) (hp' : full.classes.length < passes')
    {c : Id} (hc : Valid full c) : ∃ x y v w, ByNode.new cf eg ks passes = .ok x ∧ ByNode.new cf full ks' passes' = .ok y ∧
      x.findBestCost eg c = .ok v ∧ y.findBestCost full c = .ok w ∧ cf.Same v w := by
  have hg := hist_good hf
  have hi := hg.inv.classInv
  have hi' := hT.classInv hi
  have hterm : ∀ c, c < full.nodes.length → ∃ t v, CostIn cf eg c t v := by
    intro c hc
    obtain ⟨t, ht⟩ := hg.inv.exists_rep hc
    obtain ⟨v, hv⟩ := ByNode.rep_costIn hi cf t c ht
    obtain ⟨t', v', h1, _⟩ := hl.costIn hcf hT hi t c v hv
    exact ⟨t', v', h1⟩
  have hne : ∀ k ∈ ks, k.nodes ≠ [] := by
    intro k hk he
    obtain ⟨⟨c, k'⟩, h1, rfl⟩ := List.mem_map.1 (hks.mem_iff.1 hk)
    have hget := AMap.get?_of_mem hi'.nodup h1
    obtain ⟨_, a2, a3, _⟩ := hi'.cls c k' hget
    rw [hT.nodes] at a2
    obtain ⟨⟨op, ts⟩, v, hv⟩ := hterm c a2
    obtain ⟨_, k2, n, _, b1, b2, _⟩ := (ByNode.costIn_iff hi').1 hv
    rw [a3, hget] at b1
    cases b1
    rw [he] at b2
    cases b2
  obtain ⟨x, hx⟩ := ByNode.new_total hcf hi' hks hne hp
  obtain ⟨y, hy⟩ := c96_new_terminates hf hcf hks' hp'
  rw [hg.valid_iff] at hc
  obtain ⟨t, v, hv⟩ := hterm c hc
  obtain ⟨_, cost, _, t1, v1, _, a2, _, _, _, a6, a7, a8⟩ := (ByNode.new_done hcf hi' hks hne hx).best hcf hi' hv
  obtain ⟨_, cost', _, t2, v2, _, b2, _, _, _, b6, b7, b8⟩ := c96_find_best hf hcf hks' hy (hg.valid_iff.2 hc)
  refine ⟨x, y, cost, cost', hx, hy, a2, b2, ?_⟩
  rw [hcf.same_iff] at a7 b7 ⊢
  obtain ⟨t3, v3, c1, c2⟩ := hl.costIn hcf hT hi t2 c v2 b6
  exact ⟨hcf.trans _ _ _ (a8 t3 v3 c1) (hcf.trans _ _ _ c2 b7.2), hcf.trans _ _ _ (b8 t1 v1 (hT.costIn a6)) a7.2⟩

/-! ### Examples -/

namespace Ex

/-- `a` and `f a` are united; then `a` is dropped. -/
def pr1 : G := st (EGraph.addUncanonical PN EGraph.new (leaf .a))
def pr2 : G := st (EGraph.addUncanonical PN pr1 (app .f [0]))
def pr3 : G := st (EGraph.addUncanonical PN pr2 (leaf .b))
def pr4 : G := st (EGraph.union PN pr3 0 1 7)
def pr5 : G := st (EGraph.rebuild PN 20 pr4)
def pr6 : G := st (do return (← pr5.retain 0 (fun n => !n.children.isEmpty), ()))

theorem histPr (allow) : PruneHist (fun _ _ => False) PN allow [⟨7, 0, 1, ta, tfa⟩] pr6 :=
  .tail (V := []) (.tail (V := []) (.tail (V := [⟨7, 0, 1, ta, tfa⟩]) (.tail (V := []) (.tail (V := []) (.tail (V := []) .new
    (.call (.add (n := leaf .a) (i := 0) rfl))) (.call (.add (n := app .f [0]) (i := 1) rfl)))
    (.call (.add (n := leaf .b) (i := 2) rfl)))
    (.call (.union (r := true) (rep_leaf rfl rfl (by decide)) (rep_app1 (i := 0) rfl rfl (by decide) (rep_leaf rfl rfl (by decide))) rfl)))
    (.call (.rebuild (fuel := 20) (n := 0) rfl)))
    (.retain (eg' := pr6) (i := 0) (keep := fun n => !n.children.isEmpty) (fun _ h => h.elim) rfl)

end Ex

/-- The class of `a` is not empty, but no term can be read off it: the extractor is made, finds `b`, and panics on
`a`. -/
example : (Ex.pr6.classes.get? 0).map (·.nodes) = some [Ex.app .f [0]] ∧
    ∃ x, ByNode.new (CostFn.astSize 100).byNode Ex.pr6 (Ex.pr6.classes.map Prod.snd) 3 = .ok x ∧
      x.findBest Ex.pr6 5 2 = .ok (1, [Ex.leaf .b]) ∧ x.findBest Ex.pr6 5 0 = .error .panic := ⟨rfl, _, rfl, rfl, rfl⟩

/-- The hypotheses of C97 are met by this e-graph. -/
example : ∃ x, ByNode.new (CostFn.astSize 100).byNode Ex.pr6 (Ex.pr6.classes.map Prod.snd) 3 = .ok x ∧
    ∃ fuel cost e t v, (∀ f, fuel ≤ f → x.findBest Ex.pr6 f 2 = .ok (cost, e)) ∧ CostIn (CostFn.astSize 100).byNode Ex.pr6 2 t v := by
  have hne : ∀ k ∈ Ex.pr6.classes.map Prod.snd, k.nodes ≠ [] := by decide
  obtain ⟨x, hx⟩ := c97_new_terminates Ex.PU_ok blind_noSet (Ex.histPr .noSet) (c30_astSize_ok 100).byNode (.refl _) hne (passes := 3) (by decide)
  obtain ⟨fuel, cost, e, t, v, h1, _, _, _, _, h2, _⟩ := c97_find_best Ex.PU_ok blind_noSet (Ex.histPr .noSet) (c30_astSize_ok 100).byNode
    (.refl _) hne hx (c := 2) (t0 := Ex.tb) (Ex.rep_leaf rfl rfl (by decide))
  exact ⟨x, hx, fuel, cost, e, t, v, h1, h2⟩

/-- With an empty class `Extractor::new` panics. -/
example : ByNode.new (CostFn.astSize 100).byNode Ex.q7 (Ex.q7.classes.map Prod.snd) 3 = .error .panic :=
  c97_empty_panics (K := fun _ _ => False) Ex.PU_ok blind_noSet (Ex.histQ .noSet) (c30_astSize_ok 100).byNode (.refl _) (by
    have : ∃ k ∈ Ex.q7.classes.map Prod.snd, k.nodes.isEmpty = true := by decide
    obtain ⟨k, h1, h2⟩ := this
    exact ⟨k, h1, List.isEmpty_iff.1 h2⟩) 2

/-- Constant folding with pruning: every class of the e-graph of C86 has a constant or a variable, so the best size is
that of the complete e-graph. -/
example : ∃ full, Thinner Fold.p8 full ∧ CheapLeaf (CostFn.astSize 100).byNode Fold.p8 full ∧
    ∃ x y v w, ByNode.new (CostFn.astSize 100).byNode Fold.p8 (Fold.p8.classes.map Prod.snd) 20 = .ok x ∧
      ByNode.new (CostFn.astSize 100).byNode full (full.classes.map Prod.snd) 20 = .ok y ∧
      x.findBestCost Fold.p8 3 = .ok v ∧ y.findBestCost full 3 = .ok w ∧ v = w := by
  obtain ⟨full, hf, hT, -⟩ := c86_same_as_unpruned (Fold.sums.pruning_ok 0) blind_noSet Fold.histP8
  have hleaf : ∀ p ∈ Fold.p8.classes, p.2.nodes.any (fun n => n.children.isEmpty) = true := by decide +kernel
  have hl : CheapLeaf (CostFn.astSize 100).byNode Fold.p8 full := by
    intro i k kf hk _
    right
    unfold EGraph.index at hk
    obtain ⟨r, _, hk⟩ := bind_eq_ok.1 hk
    cases hr : Fold.p8.classes.get? r with
    | none => rw [hr] at hk; cases hk
    | some k' =>
      rw [hr] at hk
      cases hk
      obtain ⟨n, hn, hn0⟩ := List.any_eq_true.1 (hleaf _ (AMap.mem_of_get? hr))
      refine ⟨n, hn, List.isEmpty_iff.1 hn0, fun m vs => natCmp_le.2 ?_⟩
      show ((CostFn.astSize 100).cost n.op []).1 ≤ ((CostFn.astSize 100).cost m.op vs).1
      rw [astSize_cost, astSize_cost]
      simp only [List.map_nil, List.sum_nil]
      omega
  have h8 : Fold.p8.classes.length < 20 := by decide +kernel
  obtain ⟨x, y, v, w, h1, h2, h3, h4, h5⟩ := c97_same_cost hf hT (c30_astSize_ok 100).byNode hl (.refl _) (.refl _)
    (passes := 20) (passes' := 20) h8 (by rw [← hT.classes.length_eq]; exact h8) (c := 3) (by
      have : (Fold.p8.find 3).toBool = true := by decide +kernel
      generalize hf : Fold.p8.find 3 = x at this
      cases x with
      | error e => cases this
      | ok r => exact ⟨r, by rw [← hT.find]; exact hf⟩)
  refine ⟨full, hT, hl, x, y, v, w, h1, h2, h3, h4, ?_⟩
  have := (Option.some_inj.1 h5 : compare v.1 w.1 = .eq)
  exact Fin.ext (Nat.compare_eq_eq.1 this)

end Egg
