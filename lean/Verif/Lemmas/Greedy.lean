import Verif.Lemmas.MemoPath
import Verif.Lemmas.ExplainHist
/-
The optimization of explanation lengths terminates and leaves a usable memo.
-/
namespace Egg
variable {Op : Type} [DecidableEq Op]

namespace Explain
variable {x x' : Explain Op} {nodes : List (ENode Op)} {conn : Id → Id → Prop} {L : Log} {cn : List (List Id)}

/-- The congruence steps of a path are congruences. -/
def PathCongr (nodes : List (ENode Op)) (L : Log) (p : List Connection) : Prop :=
  ∀ c ∈ p, c.justification = .congruence → CongrIds nodes L c.current c.next

theorem GP.congr (hc : CnOK x nodes L cn) {u v : Id} {p : List Connection} {k : Nat} (h : GP x nodes L cn u p v k) : PathCongr nodes L p := by
  induction h with
  | nil => intro c hc; simp at hc
  | cons _ h2 _ ih =>
    intro c hm hj
    rcases List.mem_cons.1 hm with rfl | hm
    · rcases h2 with ⟨g, _⟩ | ⟨_, _, g⟩
      · rw [hj] at g; cases g
      · exact hc.has g
    · exact ih c hm hj

theorem getPathUnoptimized_returns (hf : Fo nodes conn L x) {l r : Id} (hl : l < nodes.length) (hr : r < nodes.length) (hlr : Conn L l r) :
    Returns (fun f => x.getPathUnoptimized f l r) (fun q => PathCongr nodes L (q.1 ++ q.2.reverse.map flip)) := by
  obtain ⟨f0, h⟩ := unoptimized_good hf.dag hf.inv hl hr ((hf.inv.logConn l r hl hr).1 hlr)
  obtain ⟨lc, rc, h1, h2⟩ := h f0 (le_refl _)
  refine FuelMono.returns (fun f => getPathUnoptimized_mono x f l r) h1 ?_
  intro c hc hj
  obtain ⟨na, nb, g1, g2, g3, g4, _⟩ := (h2 c hc).2 hj
  exact ⟨na, nb, g1, g2, g3, g4⟩

theorem shortestPath_ok (hf : Fo nodes conn L x) (hc : CnOK x nodes L cn) (ch : Choices) (hm : MemoInv x nodes L cn) {a b : Id}
    (ha : a < nodes.length) (hb : b < nodes.length) (hab : Conn L a b) {dm : DistanceMemo} {n : Id → Nat} (hd : DmAt x nodes L dm n) :
    Returns (fun f => x.shortestPath ch nodes cn f a b dm) (fun q => PathCongr nodes L (q.1.1 ++ q.1.2.reverse.map flip) ∧
      SameTree x q.2.1 ∧ MemoInv q.2.1 nodes L cn ∧ ∃ n', DmAt q.2.1 nodes L q.2.2 n') := by
  unfold shortestPath
  have hj : DJ x nodes L cn a b [(0, (⟨a, a, .congruence, true⟩ : Connection))] [] [] := by
    refine ⟨by simp [AMap.get?], ?_, by simp [AMap.get?], .inr ⟨⟨_, List.mem_singleton.2 rfl, rfl⟩, by simp [AMap.get?]⟩, by simp [AMap.get?], by simp [AMap.get?], rfl⟩
    intro t ht
    simp at ht
    subst ht
    exact .inl ⟨rfl, rfl⟩
  refine Returns.bind (dijkstra_ok hf hc ch ha (tree_gpath hf hc ha hb hab) _ _ _ _ dm n rfl hj hd).diag ?_
  rintro ⟨last, pc, dm1⟩ ⟨k, p, h1, h2, h3, n1, h4⟩
  simp only at h1 h2 h3 h4
  simp only [unwrap_eq_ok.2 h1, ok_bind]
  refine Returns.bind (distanceBetween_ok hf.dag hf.inv ha hb hab h4) ?_
  rintro ⟨dist, dm2⟩ ⟨h5, n2, h6⟩
  simp only at h5 h6 ⊢
  split
  · refine Returns.bind (getPathUnoptimized_returns hf ha hb hab) ?_
    intro q hq
    exact Returns.ret ⟨hq, SameTree.refl x, hm, n2, h6⟩
  · refine Returns.bind (walkBack_ok h2 []) ?_
    rintro _ rfl
    rw [List.append_nil]
    refine Returns.bind (populate_ok hf hc h2 h6) ?_
    rintro ⟨x1, dm3⟩ ⟨h7, n3, h8⟩
    refine Returns.ret ⟨?_, h7.same, stored_inv hf hc hm h2 h3 h7, n3, h8⟩
    simpa using h2.gp.congr hc

/-- Connected ids in range. -/
def PairOK (nodes : List (ENode Op)) (L : Log) (p : Id × Id) : Prop := p.1 < nodes.length ∧ p.2 < nodes.length ∧ Conn L p.1 p.2

theorem childPairs_ok (hd : Dag nodes) {p : List Connection} (h : PathCongr nodes L p) :
    ∃ ps, childPairs nodes p = .ok ps ∧ ∀ q ∈ ps, PairOK nodes L q := by
  have key : Returns (fun _ : Nat => childPairs nodes p) (fun ps => ∀ q ∈ ps, PairOK nodes L q) := by
    unfold childPairs
    refine Returns.foldlM' (by simp) ?_
    intro c hc acc hacc
    cases hj : c.justification with
    | rule s => exact Returns.ret hacc
    | congruence =>
      obtain ⟨na, nb, g1, g2, g3, g4⟩ := h c hc hj
      simp only [getIdx_eq_ok.2 g1, getIdx_eq_ok.2 g2, ok_bind]
      refine Returns.ret ?_
      intro q hq
      rcases List.mem_append.1 hq with hq | hq
      · exact hacc q hq
      · obtain ⟨a, b⟩ := q
        have hm := List.of_mem_zip hq
        have hp := hd _ _ g1 a hm.1
        have hq' := hd _ _ g2 b hm.2
        have := getElem?_lt g1
        have := getElem?_lt g2
        exact ⟨by simp only; omega, by simp only; omega, (List.forall₂_iff_zip.1 g4).2 hq⟩
  obtain ⟨f0, v, h1, h2⟩ := key
  exact ⟨v, h2 f0 (le_refl _), h1⟩

theorem greedyLoop_ok (ch : Choices) : ∀ (budget m : Nat) (todo : List (Id × Id)) (x : Explain Op) (dm : DistanceMemo) (n : Id → Nat),
    todo.length = m → (∀ q ∈ todo, PairOK nodes L q) → Fo nodes conn L x → CnOK x nodes L cn → MemoInv x nodes L cn → DmAt x nodes L dm n →
    Returns (fun p : Nat × Nat => greedyLoop ch nodes cn p.1 p.2 todo budget x dm) (fun x' => SameTree x x' ∧ MemoInv x' nodes L cn) := by
  intro budget
  induction budget using Nat.strongRecOn with
  | ind budget ihb =>
    intro m
    induction m with
    | zero =>
      intro todo x dm n hm _ _ _ hmi _
      have : todo = [] := List.eq_nil_of_length_eq_zero hm
      subst this
      refine Returns.succ2' ?_
      simp only [greedyLoop]
      exact Returns.ret ⟨SameTree.refl x, hmi⟩
    | succ m ihm =>
      intro todo x dm n hm hto hf hc hmi hd
      cases todo with
      | nil => simp at hm
      | cons ab todo =>
        obtain ⟨a, b⟩ := ab
        obtain ⟨ha, hb, hab⟩ := hto (a, b) (by simp)
        simp only at ha hb hab
        refine Returns.succ2' ?_
        simp only [greedyLoop]
        refine Returns.bind (findAllEnodes_ok hf ha).lift ?_
        rintro s ⟨_, hs, _⟩
        have hpos : 0 < s.length := List.length_pos_of_mem hs
        split
        · exact ihm todo x dm n (by simpa using hm) (fun q hq => hto q (by simp [hq])) hf hc hmi hd
        · rename_i hlt
          refine Returns.bind (shortestPath_ok hf hc ch hmi ha hb hab hd).lift ?_
          rintro ⟨⟨l, r⟩, x1, dm1⟩ ⟨h1, h2, h3, n1, h4⟩
          obtain ⟨ps, h5, h6⟩ := childPairs_ok hf.dag h1
          simp only at h2 h3 h4
          simp only [h5, ok_bind]
          refine (ihb (budget - s.length) (by omega) _ (todo ++ ps) x1 dm1 n1 rfl ?_ (hf.same h2) (hc.same h2) h3 h4).mono ?_
          · intro q hq
            rcases List.mem_append.1 hq with hq | hq
            · exact hto q (by simp [hq])
            · exact h6 q hq
          · rintro x2 ⟨h7, h8⟩
            exact ⟨h2.trans h7, h8⟩

/-- The tables that the optimization computes from the forest are fine: one representative per class. -/
structure ClsOK (nodes : List (ENode Op)) (L : Log) (classes : List Id) : Prop where
  nodup : classes.Nodup
  lt : ∀ c ∈ classes, c < nodes.length
  apart : ∀ c ∈ classes, ∀ c' ∈ classes, Conn L c c' → c = c'

theorem dm_init (hw : UF.WF (ptab x.find)) {ca : AMap (Id × Id) Id} {td : AMap Id Nat} (h1 : ∀ l r c, ca.get? (l, r) = some c → ∃ a b, Lca x l r c a b)
    (h2 : ∀ i, i < x.find.length → td.get? i = some (dep x i)) :
    DmAt x nodes L ⟨(List.range x.find.length).map (fun i => (i, 0)), ca, td⟩ (fun _ => 0) := by
  refine ⟨by simp, fun _ _ => Nat.zero_le _, ?_, ?_, fun l r c _ _ h => h1 l r c h, h2⟩
  · intro i hi
    simp [hi, S]
  · intro i _ j hj
    omega

/-- The congruence table that a request computes. -/
def CnOf (x : Explain Op) (ch : Choices) (nodes : List (ENode Op)) (uf : UF) (classes : List Id) (cn : List (List Id)) : Prop :=
  ∃ f0, ∀ f, f0 ≤ f → x.findCongruenceNeighbors ch nodes uf classes f = .ok cn

theorem CnOf.unique {ch : Choices} {uf : UF} {classes : List Id} {cn cn' : List (List Id)} (h : CnOf x ch nodes uf classes cn)
    (h' : CnOf x ch nodes uf classes cn') : cn = cn' := by
  obtain ⟨f, hf⟩ := h
  obtain ⟨f', hf'⟩ := h'
  have h1 := hf (f + f') (by omega)
  rw [hf' (f + f') (by omega)] at h1
  injection h1 with h1
  exact h1.symm

theorem exists_cn (hf : Fo nodes conn L x) (ch : Choices) {uf : UF} (hu : UfOK nodes L uf) {classes : List Id} (hcl : ClsOK nodes L classes) :
    ∃ cn, CnOf x ch nodes uf classes cn ∧ CnOK x nodes L cn := by
  obtain ⟨f0, cn, h1, h2⟩ := findCongruenceNeighbors_ok hf ch hu hcl.lt
  exact ⟨cn, ⟨f0, h2⟩, h1⟩

theorem shortest_ok (hf : Fo nodes conn L x) (ch : Choices) {uf : UF} {classes : List Id} (hcl : ClsOK nodes L classes)
    (hcn : CnOf x ch nodes uf classes cn) (hc : CnOK x nodes L cn) (hm : MemoInv x nodes L cn) {a b : Id} (hab : PairOK nodes L (a, b)) :
    Returns (fun f => x.calculateShortestExplanations ch nodes uf classes f a b) (fun x' => SameTree x x' ∧ MemoInv x' nodes L cn) := by
  unfold calculateShortestExplanations
  obtain ⟨f0, hcn⟩ := hcn
  refine Returns.bind (P := fun c => c = cn) ⟨f0, cn, rfl, hcn⟩ ?_
  rintro _ rfl
  refine Returns.bind (calculateCommonAncestor_ok hf ch hcl.nodup hcl.lt hcl.apart hc) ?_
  intro ca hca
  refine Returns.bind (calculateTreeDepths_ok hf.wf) ?_
  intro td htd
  exact (greedyLoop_ok ch _ _ _ x _ _ rfl (by simpa using hab) hf hc hm (dm_init hf.wf hca htd)).diag

/-! ### The congruence table only depends on the forest -/

theorem findAllEnodesLoop_same (h : SameTree x x') (f : Nat) : ∀ todo s, findAllEnodesLoop x' f todo s = findAllEnodesLoop x f todo s := by
  induction f with
  | zero => intros; rfl
  | succ f ih =>
    intro todo s
    cases todo with
    | nil => rfl
    | cons c todo =>
      rw [findAllEnodesLoop, findAllEnodesLoop, h.find]
      simp only [ih]

theorem congrClassesLoop_same (h : SameTree x x') (ch : Choices) (uf : UF) (f : Nat) : ∀ cls k cn,
    congrClassesLoop x' ch nodes uf f cls k cn = congrClassesLoop x ch nodes uf f cls k cn := by
  intro cls
  induction cls with
  | nil => intros; rfl
  | cons c cls ih =>
    intro k cn
    rw [congrClassesLoop, congrClassesLoop, h.find]
    simp only [ih, findAllEnodes, findAllEnodesLoop_same h]

theorem CnOf.same (h : SameTree x x') {ch : Choices} {uf : UF} {classes : List Id} (hc : CnOf x ch nodes uf classes cn) : CnOf x' ch nodes uf classes cn := by
  obtain ⟨f0, hc⟩ := hc
  refine ⟨f0, fun f hf => ?_⟩
  rw [← hc f hf, findCongruenceNeighbors, findCongruenceNeighbors, h.find]
  simp only [congrClassesLoop_same h]

/-- A request for connected ids is answered, and so is the next one. -/
theorem request_ok (hf : Fo nodes conn L x) (ch : Choices) {uf : UF} {classes : List Id} (hcl : ClsOK nodes L classes)
    (hcn : CnOf x ch nodes uf classes cn) (hc : CnOK x nodes L cn) (hm : MemoInv x nodes L cn) {a b : Id} (hab : PairOK nodes L (a, b)) :
    Returns (fun f => x.explainEquivalence ch nodes uf classes f a b) (fun q => SameTree x q.2 ∧ MemoInv q.2 nodes L cn) := by
  unfold Explain.explainEquivalence
  refine Returns.bind (P := fun x' => SameTree x x' ∧ MemoInv x' nodes L cn) ?_ ?_
  · split
    · exact shortest_ok hf ch hcl hcn hc hm hab
    · exact Returns.ret ⟨SameTree.refl x, hm⟩
  · rintro x1 ⟨h1, h2⟩
    have hf1 := hf.same h1
    have hpg := memo_good hf1 (hc.same h1) h2
    obtain ⟨f0, h3⟩ := explain_terminates hf1.dag hf1.inv.logLt hpg _ _ a b hab.1 hab.2.1 hab.2.2 rfl rfl
    obtain ⟨p, cs, h4⟩ := h3 f0 (le_refl _) ([], [])
    refine Returns.bind (P := fun _ => True) (FuelMono.returns (fun f => (explain_mono x1 nodes f).1 a b ([], [])) h4 trivial) ?_
    rintro ⟨p, cs⟩ _
    exact Returns.ret ⟨h1, h2⟩

end Explain
end Egg
