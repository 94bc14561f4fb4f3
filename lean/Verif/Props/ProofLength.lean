import Verif.Lemmas.ProofLength
import Verif.ExamplePlay
import Verif.Props.ExplainAll
/-
C70: the optimization of the lengths of explanations.
-/
namespace Egg
variable {Op D : Type} [DecidableEq Op] [Lang Op]

theorem hookless {A : UserAnalysis Op D} (hA : ∀ i, A.modify i = .done) (depth : Nat) : EGraph.NoModify (A.at depth) := by
  intro eg i eg' h
  cases depth with
  | zero => cases h
  | succ d =>
    simp only [UserAnalysis.at, hA, Prog.run] at h
    cases h
    rfl

/-- The reasons of unions are between different terms of `eg`; no optimized request was made. -/
def apartCfg (eg : EGraph Op D) : Cfg Op D :=
  { (Cfg.ofR (fun _ _ => True) isCongruence_true (fun _ a b => ∀ t, TermOf eg.nodes a t → ¬ TermOf eg.nodes b t)) with optimized := False }

theorem ok_of_quiet_plain {A : UserAnalysis Op D} (hA : ∀ i, A.modify i = .done) (J : Symbol → Id → Id → Prop) :
    A.OK ({ (Cfg.ofR (fun _ _ => True) isCongruence_true J) with optimized := False } : Cfg Op D) anyErr where
  make := (soundFor_true A).make
  remake := (soundFor_true A).remake
  mergeV := fun _ _ => trivial
  mergeL := fun _ _ => trivial
  mergeR := fun _ _ => trivial
  mergeLub := fun _ _ => trivial
  flagL := fun _ _ _ => trivial
  flagR := fun _ _ _ => trivial
  modify := fun depth eg i _ _ => by rw [hA]; trivial

/-- What is known about the forest after a history without redundant unions. -/
theorem novel_forest {A : UserAnalysis Op D} (hA : ∀ i, A.modify i = .done) {depth : Nat} {sets : EGraph Op D → Id → D → Prop}
    {U : List (UnionRec Op)} {eg : EGraph Op D} (h : NovelHist (A.at depth) (Caller.unoptimized sets) U eg) {x : Explain Op} (hx : eg.explain = some x) :
    ∃ L, EGraph.Good (apartCfg eg) eg ∧ XOk (apartCfg eg).optimized (apartCfg eg).J eg.nodes (fun i j => eg.rt i = eg.rt j) x L ∧
      NbLog x L ∧ Explain.Apart eg.nodes L := by
  have hq := hookless hA depth
  have h1 := h.apart ((ok_of_quiet_plain hA (fun _ _ _ => True)).hookOK trivial depth)
    (fun _ _ _ _ _ => ⟨fun _ _ => ⟨trivial, trivial⟩, fun _ _ => trivial⟩) (fun h => h) (fun _ _ => ⟨trivial, trivial⟩)
  have hOK := (ok_of_quiet_plain hA (fun _ a b => ∀ t, TermOf eg.nodes a t → ¬ TermOf eg.nodes b t)).hookOK trivial depth
  have hU : ∀ u ∈ U, (apartCfg eg).R u.s u.t ∧ (apartCfg eg).J u.reason u.a u.b := fun u hu => ⟨trivial, h1 u hu⟩
  have hg : EGraph.Good (apartCfg eg) eg := (EGraph.Hist.good hOK
    (fun _ _ _ _ _ => ⟨fun _ _ => ⟨trivial, trivial⟩, fun _ _ => trivial⟩) h.hist hU (fun h => h)).1
  have hn : EGraph.Nov (apartCfg eg) eg := h.nov hOK hq (fun _ _ _ _ _ => ⟨fun _ _ => ⟨trivial, trivial⟩, fun _ _ => trivial⟩) (fun h => h) hU
  obtain ⟨L, k1, k2⟩ := hn x hx
  refine ⟨L, hg, k1, k2, ?_⟩
  rintro u v ⟨s, hs | hs⟩ t h1 h2
  · exact k1.logJ _ _ _ hs t h1 h2
  · exact k1.logJ _ _ _ hs t h2 h1

/-- Length of the flat form of a request's answer. -/
theorem flat_length {C : Cfg Op D} {eg : EGraph Op D} (hg : EGraph.Good C eg) {ch : Explain.Choices} {fuel : Nat} {a b : Id} {p : List (TreeTerm Op)}
    {eg' : EGraph Op D} (he : eg.explainIdEquivalence ch fuel a b = .ok (p, eg')) {fl : List (FlatTerm Op)} (hf : TreeTerm.flattenProof p [] = .ok fl) :
    fl.length = 1 + TreeTerm.rulesProof p := by
  obtain ⟨s, t, _, _, hv⟩ := EGraph.explainId_valid hg he (Q := fun _ _ _ => True) (fun _ _ _ _ _ _ _ _ => trivial)
  exact TreeTerm.proof_length p hv hf

/-- The length of an explanation made without optimization. -/
theorem unopt_length {A : UserAnalysis Op D} (hA : ∀ i, A.modify i = .done) {depth : Nat} {sets : EGraph Op D → Id → D → Prop}
    {U : List (UnionRec Op)} {eg e0 e0' : EGraph Op D} (h : NovelHist (A.at depth) (Caller.unoptimized sets) U eg)
    (h0 : eg.withoutExplanationLengthOptimization = .ok e0) {x : Explain Op} (hx : eg.explain = some x) {L : Log}
    (hL : XOk (apartCfg eg).optimized (apartCfg eg).J eg.nodes (fun i j => eg.rt i = eg.rt j) x L) (hn : NbLog x L)
    {ch : Explain.Choices} {f : Nat} {a b : Id} {p : List (TreeTerm Op)}
    (he : e0.explainIdEquivalence ch f a b = .ok (p, e0')) {fl : List (FlatTerm Op)} (hf : TreeTerm.flattenProof p [] = .ok fl) :
    fl.length = 1 + Egg.D eg.nodes L a b ∧ SameClass eg a b ∧ Conn L a b := by
  have hg := hist_good_plain h.hist
  have hg0 := (EGraph.noOptimize_good hg h0).1
  unfold EGraph.withoutExplanationLengthOptimization at h0
  rw [hx] at h0
  cases h0
  obtain ⟨ha, hb, hrt, _⟩ := EGraph.explainId_ok hg0 he
  have hdm : Explain.DirectMemo x := EGraph.directMemo_of (C := apartCfg eg) (eg := eg) (fun h => h) hL
  have hfo : Explain.Fo eg.nodes (fun i j => eg.rt i = eg.rt j) L x := by
    refine ⟨hg.inv.core.dag, hL.inv, fun i e he c hc => ?_, hL.logNb⟩
    obtain ⟨h1, h2, h3, _⟩ := hL.nb i e he c hc
    exact ⟨h1, h2, (hL.inv.logConn i c.next (by rw [← hL.inv.len]; exact getElem?_lt he) h2).2 h3⟩
  have hfo' : Explain.Fo eg.nodes (fun i j => eg.rt i = eg.rt j) L { x with optimize := false } := by
    obtain ⟨h1, h2, h3, h4⟩ := hfo
    exact ⟨h1, ⟨h2.len, h2.wf, h2.tree, h2.edge, h2.logConn, h2.logLt, h2.logFresh, h2.logCongr, h2.unSound, h2.unComplete, h2.cur⟩, h3, h4⟩
  have hr := EGraph.unopt_rules hg0 (x := { x with optimize := false }) rfl rfl (L := L) hfo' hdm (hn.same rfl) he
  rw [flat_length hg0 he hf, hr]
  exact ⟨rfl, hg.inv.sameClass_iff.2 ⟨ha, hb, hrt⟩, (hL.inv.logConn a b ha hb).2 hrt⟩

/-- **C70.**  Take a history in which no union was redundant and no request optimized lengths, without a `modify`
hook.  Ask for any number of explanations, with the optimization of lengths on or off.  Then an explanation of `a = b`
is not longer than the one that would have been given without any optimization. -/
theorem c70_not_longer {A : UserAnalysis Op D} (hA : ∀ i, A.modify i = .done) {depth : Nat} {sets : EGraph Op D → Id → D → Prop}
    {U : List (UnionRec Op)} {eg e0 e0' e1 e1' : EGraph Op D} (h : NovelHist (A.at depth) (Caller.unoptimized sets) U eg)
    {ch ch' : Explain.Choices} {f f0 f1 : Nat} {as : List Ask} {ps : List (List (TreeTerm Op))} (has : eg.asks ch f as = .ok (ps, e1))
    (h0 : eg.withoutExplanationLengthOptimization = .ok e0) {a b : Id} {p q : List (TreeTerm Op)}
    (hp : e0.explainIdEquivalence ch' f0 a b = .ok (p, e0')) (hq : e1.explainIdEquivalence ch f1 a b = .ok (q, e1'))
    {fl fl' : List (FlatTerm Op)} (hfl : TreeTerm.flattenProof p [] = .ok fl) (hfl' : TreeTerm.flattenProof q [] = .ok fl') :
    fl'.length ≤ fl.length := by
  obtain ⟨x, hx⟩ : ∃ x, eg.explain = some x := by
    unfold EGraph.withoutExplanationLengthOptimization at h0
    split at h0
    · rename_i x hx; exact ⟨x, hx⟩
    · cases h0
  obtain ⟨L, hg, hL, hn, hap⟩ := novel_forest hA h hx
  obtain ⟨k1, _, _⟩ := unopt_length hA h h0 hx hL hn hp hfl
  rw [k1]
  obtain ⟨cn, hr⟩ := EGraph.reqReady_of hg (fun h => h) hL ch
  have he : ({ eg with explain := some x } : EGraph Op D) = eg := by rw [← hx]
  have hgo := hist_good h.hist
  obtain ⟨x', rfl, g1, g2, g3⟩ := EGraph.asks_inv (eg := eg) (L := L) (cn := cn) trivial f hap as x ps e1 (by rw [he]; exact hgo)
    (by rw [he]; exact hr) hn (by rw [he]; exact has)
  obtain ⟨_, g4⟩ := EGraph.request_rules g1 rfl g2 g3 hap hq
  rw [flat_length g1 hq hfl']
  exact Nat.add_le_add_left g4 1

/-- **C70**, without optimization the length does not depend on the direction. -/
theorem c70_symmetric {A : UserAnalysis Op D} (hA : ∀ i, A.modify i = .done) {depth : Nat} {sets : EGraph Op D → Id → D → Prop}
    {U : List (UnionRec Op)} {eg e0 e1 e2 : EGraph Op D} (h : NovelHist (A.at depth) (Caller.unoptimized sets) U eg)
    (h0 : eg.withoutExplanationLengthOptimization = .ok e0) {ch ch' : Explain.Choices} {f f' : Nat} {a b : Id} {p q : List (TreeTerm Op)}
    (hp : e0.explainIdEquivalence ch f a b = .ok (p, e1)) (hq : e0.explainIdEquivalence ch' f' b a = .ok (q, e2))
    {fl fl' : List (FlatTerm Op)} (hfl : TreeTerm.flattenProof p [] = .ok fl) (hfl' : TreeTerm.flattenProof q [] = .ok fl') :
    fl.length = fl'.length := by
  obtain ⟨x, hx⟩ : ∃ x, eg.explain = some x := by
    unfold EGraph.withoutExplanationLengthOptimization at h0
    split at h0
    · rename_i x hx; exact ⟨x, hx⟩
    · cases h0
  obtain ⟨L, hg, hL, hn, hap⟩ := novel_forest hA h hx
  obtain ⟨k1, _, k2⟩ := unopt_length hA h h0 hx hL hn hp hfl
  obtain ⟨k3, _, _⟩ := unopt_length hA h h0 hx hL hn hq hfl'
  rw [k1, k3, D_symm hL.inv.logFresh k2]

/-! ### Finding -/

/-- `a = b = c = g`, then `f(a) = f()`, with two unions between ids that were equal already: `0` with `3`, and `f()`
with `f(g)`. -/
def Ex.longerScript : List Ex.Call :=
  [.add ⟨.a, []⟩, .add ⟨.b, []⟩, .add ⟨.c, []⟩, .add ⟨.g, []⟩, .add ⟨.f, [0]⟩, .add ⟨.f, [3]⟩, .add ⟨.f, []⟩,
    .union 0 1 1, .union 1 2 2, .union 2 3 3, .rebuild, .union 0 3 4, .union 4 6 5, .union 6 5 6, .rebuild]

/-- Length of the flat explanation of two ids. -/
def Ex.flatLength (eg : Ex.G) (a b : Id) : Res Nat := do
  let (p, _) ← eg.explainIdEquivalence Ex.ch0 60 a b
  let fl ← TreeTerm.flattenProof p []
  .ok fl.length

/-- **Finding (C70).**  With redundant unions the optimization of lengths can make an explanation longer. -/
theorem c70_can_be_longer : ∃ (U : List (UnionRec Ex.S)) (eg e0 : Ex.G) (n m : Nat), Hist Ex.N0 (Caller.unoptimized fun _ _ _ => False) U eg ∧
    eg.withoutExplanationLengthOptimization = .ok e0 ∧ Ex.flatLength e0 4 5 = .ok n ∧ Ex.flatLength eg 4 5 = .ok m ∧ n < m := by
  have h1 : (do
      let eg ← Ex.play Ex.longerScript Ex.x0
      let e0 ← eg.withoutExplanationLengthOptimization
      let n ← Ex.flatLength e0 4 5
      let m ← Ex.flatLength eg 4 5
      Except.ok (n, m) : Res (Nat × Nat)) = .ok (2, 3) := by decide +kernel
  obtain ⟨eg, he, h1⟩ := bind_eq_ok.1 h1
  obtain ⟨U, hU⟩ := Ex.play_hist (Caller.unoptimized fun _ _ _ => False) _ _ _ _ (Ex.histx0 _) he
  obtain ⟨e0, h3, h1⟩ := bind_eq_ok.1 h1
  obtain ⟨n, h4, h1⟩ := bind_eq_ok.1 h1
  obtain ⟨m, h5, h1⟩ := bind_eq_ok.1 h1
  cases h1
  exact ⟨U, eg, e0, 2, 3, hU, h3, h4, h5, by decide⟩

/-! ### Examples -/

/-- The history of `Ex.x6` has no redundant union. -/
theorem Ex.novel_x6 (allow) : NovelHist Ex.N0 allow [Ex.un] Ex.x6 := by
  have h0 : NovelHist Ex.N0 allow [] Ex.x4 :=
    .step (V := []) (.step (V := []) (.step (V := []) (.step (V := []) (.step (V := []) .new (.explain rfl) (by simp))
      (.add (n := Ex.leaf .a) (i := 0) rfl) (by simp)) (.add (n := Ex.leaf .b) (i := 1) rfl) (by simp))
      (.add (n := Ex.app .f [0]) (i := 2) rfl) (by simp)) (.add (n := Ex.app .f [1]) (i := 3) rfl) (by simp)
  refine .step (V := []) (.step (V := [Ex.un]) h0 (.union (r := true) Ex.rep_x4_a Ex.rep_x4_b rfl) ?_) (.rebuild (fuel := 20) (n := 1) rfl) (by simp)
  intro u hu
  simp only [List.mem_singleton] at hu
  subst hu
  refine ⟨?_, ?_⟩
  · rintro ⟨r, h1, h2⟩
    have h1' : (Except.ok 0 : Res Nat) = .ok r := h1
    have h2' : (Except.ok 1 : Res Nat) = .ok r := h2
    cases h1'; cases h2'
  · intro t ha hb
    obtain ⟨n, ts, h1, _, rfl⟩ : ∃ n ts, Ex.x4.nodes[0]? = some n ∧ (0 < 1) ∧ t = .node n.op ts := by
      cases ha with | mk h _ _ => exact ⟨_, _, h, by decide, rfl⟩
    cases (show some (Ex.leaf .a) = some n from h1)
    generalize ht : Term.node (Ex.leaf Ex.S.a).op ts = t at hb
    cases hb with
    | mk h _ _ =>
      cases (show some (Ex.leaf .b) = some _ from h)
      cases ht

/-- Explaining `f(a) = f(b)` after optimized requests. -/
example : ∃ p e0 e0' ps e1 q e1' fl fl', Ex.x6.asks Ex.ch0 60 [.lengths true, .explain 0 1, .explain 3 2] = .ok (ps, e1) ∧
    Ex.x6.withoutExplanationLengthOptimization = .ok e0 ∧ e0.explainIdEquivalence Ex.ch0 60 2 3 = .ok (p, e0') ∧
    e1.explainIdEquivalence Ex.ch0 60 2 3 = .ok (q, e1') ∧ TreeTerm.flattenProof p [] = .ok fl ∧ TreeTerm.flattenProof q [] = .ok fl' := by
  have h1 : (do
      let (ps, e1) ← Ex.x6.asks Ex.ch0 60 [.lengths true, .explain 0 1, .explain 3 2]
      let e0 ← Ex.x6.withoutExplanationLengthOptimization
      let (p, _) ← e0.explainIdEquivalence Ex.ch0 60 2 3
      let (q, _) ← e1.explainIdEquivalence Ex.ch0 60 2 3
      let fl ← TreeTerm.flattenProof p []
      let fl' ← TreeTerm.flattenProof q []
      Except.ok (ps.length, fl.length, fl'.length) : Res (Nat × Nat × Nat)) = .ok (2, 2, 2) := by decide +kernel
  obtain ⟨⟨ps, e1⟩, k1, h1⟩ := bind_eq_ok.1 h1
  obtain ⟨e0, k2, h1⟩ := bind_eq_ok.1 h1
  obtain ⟨⟨p, e0'⟩, k3, h1⟩ := bind_eq_ok.1 h1
  obtain ⟨⟨q, e1'⟩, k4, h1⟩ := bind_eq_ok.1 h1
  obtain ⟨fl, k5, h1⟩ := bind_eq_ok.1 h1
  obtain ⟨fl', k6, h1⟩ := bind_eq_ok.1 h1
  exact ⟨p, e0, e0', ps, e1, q, e1', fl, fl', k1, k2, k3, k4, k5, k6⟩

end Egg
