import Verif.Lemmas.AddExpr
import Verif.Spec.Structure
import Mathlib.Data.List.Perm.Basic
/-
Bridging lemmas between the specification's relations and the invariant.
-/
namespace Egg
variable {Op D : Type} [DecidableEq Op] [Lang Op]

theorem UserAnalysis.quiet_modify {A : UserAnalysis Op D} (hA : ∀ i, A.modify i = .done) {depth : Nat}
    {eg eg' : EGraph Op D} {i : Id} (h : (A.at depth).modify eg i = .ok eg') : eg' = eg := by
  cases depth with
  | zero => cases h
  | succ d =>
    have h' : (A.modify i).run (A.at d) eg = .ok eg' := h
    rw [hA] at h'
    cases h'
    rfl

namespace EGraph
variable {W : Id → Id → Prop} {C : Cfg Op D} {eg : EGraph Op D} {E : Err → Prop} {N : Analysis Op D}

theorem InvW.sameNode_iff (h : InvW W C eg) {m n : ENode Op} :
    SameNode eg m n ↔ Cong eg.rt m n ∧ (∀ c ∈ m.children, c < eg.nodes.length) ∧
      (∀ c ∈ n.children, c < eg.nodes.length) := by
  unfold SameNode Cong
  constructor
  · rintro ⟨h1, h2⟩
    refine ⟨⟨h1, ?_⟩, ?_, ?_⟩
    · rw [← forall₂_map_eq]
      exact forall₂_mono_mem h2 (fun a _ b _ hab => (h.sameClass_iff.1 hab).2.2)
    · intro c hc
      obtain ⟨b, _, hb⟩ := forall₂_mem_left h2 hc
      exact (h.sameClass_iff.1 hb).1
    · intro c hc
      obtain ⟨b, _, hb⟩ := forall₂_mem_left (forall₂_flip h2) hc
      exact (h.sameClass_iff.1 hb).2.1
  · rintro ⟨⟨h1, h2⟩, h3, h4⟩
    refine ⟨h1, ?_⟩
    rw [← forall₂_map_eq] at h2
    exact forall₂_mono_mem h2 (fun a ha b hb hab => h.sameClass_iff.2 ⟨h3 a ha, h4 b hb, hab⟩)

theorem InvW.index_iff (h : InvW W C eg) {i : Id} {k : EClass Op D} :
    eg.index i = .ok k ↔ i < eg.nodes.length ∧ eg.classes.get? (eg.rt i) = some k := by
  constructor
  · intro hk
    unfold EGraph.index at hk
    rw [bind_eq_ok] at hk
    obtain ⟨r, h1, h2⟩ := hk
    rw [h.find_iff] at h1
    rw [unwrap_eq_ok] at h2
    rw [h1.2]
    exact ⟨h1.1, h2⟩
  · rintro ⟨h1, h2⟩
    obtain ⟨k', h3, h4⟩ := h.index h1
    rw [h2] at h4; cases h4
    exact h3

theorem InvW.holds_iff (h : InvW W C eg) {i : Id} {n : ENode Op} :
    Holds eg i n ↔ i < eg.nodes.length ∧ (∀ c ∈ n.children, c < eg.nodes.length) ∧
      ∃ (j : Id) (m : ENode Op), eg.nodes[j]? = some m ∧ eg.rt j = eg.rt i ∧ Cong eg.rt m n := by
  constructor
  · rintro ⟨k, m, h1, h2, h3⟩
    rw [h.index_iff] at h1
    rw [h.sameNode_iff] at h3
    obtain ⟨j, m', g1, g2, g3⟩ := h.core.clsNodes _ _ (sk_eq h1.2) m h2
    exact ⟨h1.1, h3.2.2, j, m', g1, g2, g3.symm.trans h3.1⟩
  · rintro ⟨h1, h2, j, m, h3, h4, h5⟩
    obtain ⟨s, n2, q1, q2, q3⟩ := h.core.nodesCls j m h3
    obtain ⟨k2, hk2, rfl⟩ := cls_of_sk q1
    refine ⟨k2, n2, h.index_iff.2 ⟨h1, by rw [← h4]; exact hk2⟩, q2, h.sameNode_iff.2 ⟨q3.trans h5, ?_, h2⟩⟩
    exact h.core.clsNodeLt q1 q2

theorem mem_keys_iff {m : AMap Id (EClass Op D)} {c : Id} : c ∈ AMap.keys m ↔ (m.get? c).isSome :=
  (AMap.get?_isSome_iff m c).symm

theorem length_of_keys {m m' : AMap Id (EClass Op D)} (h : (AMap.keys m).Nodup) (h' : (AMap.keys m').Nodup)
    (he : ∀ c, (m'.get? c).isSome ↔ (m.get? c).isSome) : m'.length = m.length := by
  have : (AMap.keys m').Perm (AMap.keys m) := by
    rw [List.perm_ext_iff_of_nodup h' h]
    intro c
    rw [mem_keys_iff, mem_keys_iff, he]
  simpa [AMap.keys] using this.length_eq

theorem length_of_keys_succ {m m' : AMap Id (EClass Op D)} {x : Id} (h : (AMap.keys m).Nodup)
    (h' : (AMap.keys m').Nodup) (hx : (m.get? x) = none)
    (he : ∀ c, (m'.get? c).isSome ↔ c = x ∨ (m.get? c).isSome) : m'.length = m.length + 1 := by
  have hx' : x ∉ AMap.keys m := by rw [mem_keys_iff, hx]; simp
  have : (AMap.keys m').Perm (x :: AMap.keys m) := by
    rw [List.perm_ext_iff_of_nodup h' (List.nodup_cons.2 ⟨hx', h⟩)]
    intro c
    rw [mem_keys_iff, he, List.mem_cons, mem_keys_iff]
  simpa [AMap.keys] using this.length_eq

end EGraph
end Egg
