import Verif.Lemmas.Apply
import Mathlib.Data.Finset.Card
/-
If calls leave the number of memo entries and of classes unchanged then, after a
rebuild, they left the e-graph unchanged up to copies of e-nodes.
-/
namespace Egg
namespace EGraph
variable {Op D : Type} [DecidableEq Op] [Lang Op] {C : Cfg Op D} {eg eg' : EGraph Op D}

theorem mem_back (h : Inv C eg) (hx : Grow eg eg') (hs : eg'.totalSize = eg.totalSize) (n : ENode Op)
    (hn : eg'.mem n ≠ none) : eg.mem n ≠ none := by
  have hsub : AMap.keys eg.memo ⊆ AMap.keys eg'.memo := by
    intro k hk
    rw [← AMap.get?_isSome_iff] at hk ⊢
    have := hx.mem k (by unfold EGraph.mem; intro h; rw [h] at hk; cases hk)
    exact Option.isSome_iff_ne_none.2 this
  have hp := (List.subperm_of_subset h.memoNodup.1 hsub).perm_of_length_le (by
    unfold AMap.keys
    rw [List.length_map, List.length_map]
    have : eg'.memo.length = eg.memo.length := hs
    omega)
  have h1 : n ∈ AMap.keys eg'.memo := by
    rw [← AMap.get?_isSome_iff]; exact Option.isSome_iff_ne_none.2 hn
  have h2 := hp.mem_iff.2 h1
  rw [← AMap.get?_isSome_iff] at h2
  exact Option.isSome_iff_ne_none.1 h2

/-- Every e-node of the new table is congruent to one of the old table. -/
theorem old_node (h : Inv C eg) (h' : Inv C eg') (hp' : eg'.pending = []) (hx : Grow eg eg')
    (hs : eg'.totalSize = eg.totalSize) {i : Id} {n : ENode Op} (hn : eg'.nodes[i]? = some n) :
    ∃ (j : Id) (m : ENode Op), eg.nodes[j]? = some m ∧ eg'.rt i = eg'.rt j ∧ Cong eg'.rt n m := by
  obtain ⟨r, nr, h1, h2, h3, h4⟩ := h'.core.cov i n hn
  rcases h'.core.congr r nr h1 h2 with h5 | ⟨j, h5, h6⟩
  · rw [hp'] at h5; cases h5
  have e1 : nr.mapChildren eg'.rt = n.mapChildren eg'.rt := by
    unfold ENode.mapChildren; rw [h3.1, h3.2]
  have hb := mem_back h hx hs (nr.mapChildren eg'.rt) (by rw [h5]; simp)
  cases hm : eg.mem (nr.mapChildren eg'.rt) with
  | none => exact absurd hm hb
  | some j0 =>
    obtain ⟨nj, g1, g2, _⟩ := h.core.memo _ _ hm
    obtain ⟨l, hl⟩ := hx.nodes
    have g1' : eg'.nodes[j0]? = some nj := by
      rw [hl, List.getElem?_append_left (getElem?_lt g1), g1]
    have g3 : Cong eg'.rt nj (nr.mapChildren eg'.rt) := by
      refine ⟨g2.1, ?_⟩
      rw [← forall₂_map_eq]
      exact forall₂_mono_mem (forall₂_map_eq.2 g2.2) (fun a ha b hb e => hx.rt a b (h.core.childLt g1 ha)
        (h.core.congLt g1 g2.symm b hb) e)
    have g4 : Cong eg'.rt n nj := by
      have : Cong eg'.rt (n.mapChildren eg'.rt) n := (Cong.canon_left (fun c _ => h'.core.rtIdem c)).2 (Cong.refl _)
      rw [e1] at g3
      exact (g3.trans this).symm
    exact ⟨j0, nj, g1, InvW.congruent_eq h' hp' hn g1' g4, g4⟩

theorem old_id (h : Inv C eg) (h' : Inv C eg') (hp' : eg'.pending = []) (hx : Grow eg eg')
    (hs : eg'.totalSize = eg.totalSize) {i : Id} (hi : i < eg'.nodes.length) :
    ∃ j, j < eg.nodes.length ∧ eg'.rt i = eg'.rt j := by
  obtain ⟨j, m, h1, h2, _⟩ := old_node h h' hp' hx hs (List.getElem?_eq_getElem hi)
  exact ⟨j, getElem?_lt h1, h2⟩

theorem cls_keys_iff (h : Inv C eg) {c : Id} : c ∈ AMap.keys eg.classes ↔ c < eg.nodes.length ∧ eg.rt c = c := by
  rw [← AMap.get?_isSome_iff, ← h.core.clsKey]
  unfold EGraph.sk
  cases eg.classes.get? c <;> simp

/-- If in addition the number of classes is the same, no two classes were merged. -/
theorem rt_back (h : Inv C eg) (h' : Inv C eg') (hp' : eg'.pending = []) (hx : Grow eg eg')
    (hs : eg'.totalSize = eg.totalSize) (hc : eg'.numberOfClasses = eg.numberOfClasses)
    {i j : Id} (hi : i < eg.nodes.length) (hj : j < eg.nodes.length) (e : eg'.rt i = eg'.rt j) : eg.rt i = eg.rt j := by
  have hcard : (AMap.keys eg.classes).toFinset.card ≤ (AMap.keys eg'.classes).toFinset.card := by
    rw [List.toFinset_card_of_nodup h.clsNodup, List.toFinset_card_of_nodup h'.clsNodup]
    unfold AMap.keys
    rw [List.length_map, List.length_map]
    unfold EGraph.numberOfClasses at hc
    omega
  have hrt : ∀ k, k < eg.nodes.length → eg'.rt (eg.rt k) = eg'.rt k := fun k hk =>
    hx.rt _ _ (h.core.rtLt _ hk) hk (h.core.rtIdem k)
  have hmem : ∀ k, k < eg.nodes.length → eg.rt k ∈ (AMap.keys eg.classes).toFinset := fun k hk => by
    rw [List.mem_toFinset, cls_keys_iff h]
    exact ⟨h.core.rtLt _ hk, h.core.rtIdem k⟩
  have := Finset.inj_on_of_surj_on_of_card_le (s := (AMap.keys eg.classes).toFinset) (t := (AMap.keys eg'.classes).toFinset)
    (fun c _ => eg'.rt c) (fun c hcm => by
      rw [List.mem_toFinset, cls_keys_iff h] at hcm
      rw [List.mem_toFinset, cls_keys_iff h']
      exact ⟨h'.core.rtLt _ (lt_of_lt_of_le hcm.1 hx.len), h'.core.rtIdem _⟩)
    (fun c hcm => by
      rw [List.mem_toFinset, cls_keys_iff h'] at hcm
      obtain ⟨j, hj, e⟩ := old_id h h' hp' hx hs hcm.1
      refine ⟨eg.rt j, hmem j hj, ?_⟩
      rw [hrt j hj, ← e, hcm.2]) hcard
  exact this (hmem i hi) (hmem j hj) (by rw [hrt i hi, hrt j hj, e])

/-- Matches of the new e-graph are matches of the old one, when every id is replaced by
an equivalent old one. -/
theorem pmatch_back (h : Inv C eg) (h' : Inv C eg') (hp' : eg'.pending = []) (hx : Grow eg eg')
    (hs : eg'.totalSize = eg.totalSize) (hc : eg'.numberOfClasses = eg.numberOfClasses) {σ σ0 : Var → Option Id}
    (hσ : ∀ v x, σ v = some x → x < eg'.nodes.length → ∃ x0, σ0 v = some x0 ∧ x0 < eg.nodes.length ∧ eg'.rt x = eg'.rt x0) :
    ∀ (p : Term (PatOp Op)) {c c0 : Id}, PMatch eg' σ c p → c0 < eg.nodes.length → eg'.rt c = eg'.rt c0 → PMatch eg σ0 c0 p := by
  intro p
  induction p using Term.ind with
  | h op ps ih =>
    intro c c0 hm hc0 e
    cases op with
    | var v =>
      rw [pmatch_var_iff] at hm ⊢
      obtain ⟨rfl, x, h1, h2⟩ := hm
      rw [h'.sameClass_iff] at h2
      obtain ⟨x0, g1, g2, g3⟩ := hσ v x h1 h2.1
      refine ⟨rfl, x0, g1, h.sameClass_iff.2 ⟨g2, hc0, ?_⟩⟩
      exact rt_back h h' hp' hx hs hc g2 hc0 (by rw [← g3, h2.2.2, e])
    | op o =>
      rw [pmatch_node_iff] at hm ⊢
      obtain ⟨k, n, h1, h2, rfl, h4⟩ := hm
      obtain ⟨hcl, hk⟩ := h'.index_iff.1 h1
      obtain ⟨i, m, g1, g2, g3⟩ := h'.core.clsNodes _ _ (EGraph.sk_eq hk) n h2
      obtain ⟨j, mj, f1, f2, f3⟩ := old_node h h' hp' hx hs g1
      have hj := getElem?_lt f1
      have ej : eg.rt j = eg.rt c0 := rt_back h h' hp' hx hs hc hj hc0 (by rw [← f2, g2, e])
      obtain ⟨s, n0, d1, d2, d3⟩ := h.core.nodesCls j mj f1
      obtain ⟨k0, hk0, d4⟩ : ∃ k0, eg.classes.get? (eg.rt j) = some k0 ∧ k0.nodes = s.nodes := by
        unfold EGraph.sk at d1
        cases hq : eg.classes.get? (eg.rt j) with
        | none => rw [hq] at d1; cases d1
        | some k0 => rw [hq] at d1; cases d1; exact ⟨k0, rfl, rfl⟩
      refine ⟨k0, n0, h.index_iff.2 ⟨hc0, by rw [← ej]; exact hk0⟩, by rw [d4]; exact d2, by rw [d3.1, ← f3.1, ← g3.1], ?_⟩
      have hn0lt : ∀ d ∈ n0.children, d < eg.nodes.length := h.core.congLt f1 d3
      have hcong : List.Forall₂ (fun a b => eg'.rt a = eg'.rt b) n.children n0.children := by
        have q1 : Cong eg'.rt n0 mj := by
          refine ⟨d3.1, ?_⟩
          rw [← forall₂_map_eq]
          exact forall₂_mono_mem (forall₂_map_eq.2 d3.2) (fun a ha b hb e => hx.rt a b (hn0lt a ha) (h.core.childLt f1 hb) e)
        exact forall₂_map_eq.2 ((g3.trans f3).trans q1.symm).2
      exact forall₂_comp (forall₂_flip hcong) h4 (fun a b q ha _ hq hab hbq => ih q hq hbq (hn0lt a ha) hab)

end EGraph
end Egg
