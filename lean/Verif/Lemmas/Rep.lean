import Verif.Lemmas.Post
/-
Terms represented by a class, from the invariant.
-/
namespace Egg
namespace EGraph
variable {Op D : Type} [DecidableEq Op] [Lang Op]
variable {W : Id → Id → Prop} {C : Cfg Op D} {eg : EGraph Op D}

theorem rep_iff {c : Id} {op : Op} {ts : List (Term Op)} :
    Rep eg c (.node op ts) ↔ ∃ r k n, eg.find c = .ok r ∧ eg.classes.get? r = some k ∧ n ∈ k.nodes ∧
      n.op = op ∧ List.Forall₂ (Rep eg) n.children ts := by
  constructor
  · intro h
    cases h with
    | @mk _ r cls n _ h1 h2 h3 h4 h5 =>
      exact ⟨r, cls, n, h1, h2, h3, rfl, forall₂_iff_get?.2 ⟨h4, h5⟩⟩
  · rintro ⟨r, k, n, h1, h2, h3, rfl, h5⟩
    rw [forall₂_iff_get?] at h5
    exact .mk h1 h2 h3 h5.1 h5.2

theorem InvW.valid_iff (h : InvW W C eg) {i : Id} : Valid eg i ↔ i < eg.nodes.length := by
  constructor
  · rintro ⟨r, hr⟩; exact (h.find_iff.1 hr).1
  · intro hi; exact ⟨_, h.find hi⟩

theorem InvW.sameClass_iff (h : InvW W C eg) {a b : Id} :
    SameClass eg a b ↔ a < eg.nodes.length ∧ b < eg.nodes.length ∧ eg.rt a = eg.rt b := by
  constructor
  · rintro ⟨r, h1, h2⟩
    rw [h.find_iff] at h1 h2
    exact ⟨h1.1, h2.1, h1.2.trans h2.2.symm⟩
  · rintro ⟨h1, h2, e⟩
    exact ⟨eg.rt a, h.find h1, by rw [e]; exact h.find h2⟩

theorem InvW.rep_iff (h : InvW W C eg) {c : Id} {op : Op} {ts : List (Term Op)} :
    Rep eg c (.node op ts) ↔ c < eg.nodes.length ∧ ∃ k n, eg.classes.get? (eg.rt c) = some k ∧ n ∈ k.nodes ∧
      n.op = op ∧ List.Forall₂ (Rep eg) n.children ts := by
  rw [EGraph.rep_iff]
  constructor
  · rintro ⟨r, k, n, h1, h2⟩
    rw [h.find_iff] at h1
    obtain ⟨h1, rfl⟩ := h1
    exact ⟨h1, k, n, h2⟩
  · rintro ⟨h1, k, n, h2⟩
    exact ⟨_, k, n, h.find h1, h2⟩

theorem InvW.rep_lt (h : InvW W C eg) {c : Id} {t : Term Op} (hr : Rep eg c t) : c < eg.nodes.length := by
  cases t with
  | node op ts => exact (h.rep_iff.1 hr).1

/-- Representation depends on the class only. -/
theorem InvW.rep_congr (h : InvW W C eg) {a b : Id} {t : Term Op} (hb : b < eg.nodes.length)
    (e : eg.rt a = eg.rt b) (hr : Rep eg a t) : Rep eg b t := by
  cases t with
  | node op ts =>
    rw [h.rep_iff] at hr ⊢
    rw [← e]
    exact ⟨hb, hr.2⟩

theorem InvW.rep_children (h : InvW W C eg) {n m : ENode Op} {ts : List (Term Op)}
    (hm : ∀ c ∈ m.children, c < eg.nodes.length) (hc : Cong eg.rt n m)
    (hr : List.Forall₂ (Rep eg) n.children ts) : List.Forall₂ (Rep eg) m.children ts := by
  have h1 := forall₂_map_eq.2 hc.2
  exact forall₂_comp (forall₂_flip h1) hr (fun a b c ha hb _ e hrc => h.rep_congr (hm a ha) e hrc)

theorem InvW.rep_of_termOf (h : InvW W C eg) : ∀ (t : Term Op) {i : Id}, TermOf eg.nodes i t → Rep eg i t := by
  intro t
  induction t using Term.ind with
  | h op ts ih =>
    intro i hi
    have hlt := hi.lt
    rw [termOf_iff] at hi
    obtain ⟨m, h1, h2, h3⟩ := hi
    obtain ⟨s, n, g1, g2, g3⟩ := h.core.nodesCls i m h1
    obtain ⟨k, hk, rfl⟩ := cls_of_sk g1
    rw [h.rep_iff]
    refine ⟨hlt, k, n, hk, g2, by rw [g3.1, h2], ?_⟩
    refine h.rep_children (h.core.clsNodeLt g1 g2) g3.symm ?_
    exact forall₂_mono_mem h3 (fun c _ t ht hc => ih t ht hc)

theorem InvW.exists_rep (h : InvW W C eg) {i : Id} (hi : i < eg.nodes.length) : ∃ t, Rep eg i t := by
  obtain ⟨t, ht⟩ := h.core.dag.exists_term i hi
  exact ⟨t, h.rep_of_termOf t ht⟩

/-- All terms of a class are related. -/
theorem InvW.rep_sound (h : InvW W C eg) : ∀ (t : Term Op) {c : Id} {s : Term Op}, Rep eg c t →
    TermOf eg.nodes c s → C.R s t := by
  intro t
  induction t using Term.ind with
  | h op ts ih =>
    intro c s hr hs
    rw [h.rep_iff] at hr
    obtain ⟨hc, k, n, hk, hn, rfl, hch⟩ := hr
    obtain ⟨i, m, h1, h2, h3⟩ := h.core.clsNodes _ _ (sk_eq hk) n hn
    obtain ⟨u, hu⟩ := h.core.dag.exists_term i (getElem?_lt h1)
    refine C.isCong.trans (h.sound c i s u h2.symm hs hu) ?_
    cases u with
    | node o us =>
      rw [termOf_iff] at hu
      obtain ⟨m', g1, g2, g3⟩ := hu
      rw [h1] at g1; cases g1
      rw [← g2, ← h3.1]
      apply C.isCong.congr
      have hml : ∀ c ∈ m.children, c < eg.nodes.length := fun c hc => h.core.childLt h1 hc
      have hr' := h.rep_children hml h3 hch
      exact forall₂_comp (forall₂_flip g3) hr' (fun a b c _ _ hc hab hbc => ih c hc hbc hab)

theorem InvW.rep_related (h : InvW W C eg) {a b : Id} {s t : Term Op} (ha : Rep eg a s) (hb : Rep eg b t)
    (e : eg.rt a = eg.rt b) : C.R s t := by
  have hal := h.rep_lt ha
  obtain ⟨u, hu⟩ := h.core.dag.exists_term a hal
  refine C.isCong.trans (C.isCong.symm (h.rep_sound s ha hu)) (h.rep_sound t (h.rep_congr hal e.symm hb) hu)

/-- With no pending work congruent e-nodes of the table are in one class. -/
theorem InvW.congruent_eq (h : Inv C eg) (hp : eg.pending = []) {i j : Id} {n m : ENode Op}
    (hi : eg.nodes[i]? = some n) (hj : eg.nodes[j]? = some m) (hc : Cong eg.rt n m) : eg.rt i = eg.rt j := by
  have key : ∀ {i : Id} {n : ENode Op}, eg.nodes[i]? = some n →
      ∃ q, eg.mem (n.mapChildren eg.rt) = some q ∧ eg.rt q = eg.rt i := by
    intro i n hi
    obtain ⟨r, nr, h4, h5, h6, h7⟩ := h.core.cov i n hi
    rcases h.core.congr r nr h4 h5 with hin | ⟨q, h8, h9⟩
    · rw [hp] at hin; simp at hin
    · refine ⟨q, ?_, h9.trans h7⟩
      rw [← h8, cong_iff_canon.1 h6]
  obtain ⟨q1, g1, g2⟩ := key hi
  obtain ⟨q2, g3, g4⟩ := key hj
  rw [cong_iff_canon.1 hc, g3] at g1
  cases g1
  rw [← g2, ← g4]

/-- With no pending work a term is represented by one class at most. -/
theorem InvW.rep_unique (h : Inv C eg) (hp : eg.pending = []) : ∀ (t : Term Op) {a b : Id},
    Rep eg a t → Rep eg b t → eg.rt a = eg.rt b := by
  intro t
  induction t using Term.ind with
  | h op ts ih =>
    intro a b ha hb
    rw [h.rep_iff] at ha hb
    obtain ⟨hal, k1, n1, hk1, hn1, ho1, hc1⟩ := ha
    obtain ⟨hbl, k2, n2, hk2, hn2, ho2, hc2⟩ := hb
    have hcong : Cong eg.rt n1 n2 := by
      refine ⟨ho1.trans ho2.symm, ?_⟩
      rw [← forall₂_map_eq]
      exact forall₂_comp hc1 (forall₂_flip hc2) (fun x t y _ ht _ h1 h2 => ih t ht h1 h2)
    have key : ∀ {c : Id} {k : EClass Op D} {n : ENode Op}, eg.classes.get? (eg.rt c) = some k → n ∈ k.nodes →
        ∃ j, eg.mem (n.mapChildren eg.rt) = some j ∧ eg.rt j = eg.rt c := by
      intro c k n hk hn
      obtain ⟨i, m, h1, h2, h3⟩ := h.core.clsNodes _ _ (sk_eq hk) n hn
      obtain ⟨r, nr, h4, h5, h6, h7⟩ := h.core.cov i m h1
      rcases h.core.congr r nr h4 h5 with hin | ⟨j, h8, h9⟩
      · rw [hp] at hin; simp at hin
      · refine ⟨j, ?_, h9.trans (h7.trans h2)⟩
        rw [← h8, cong_iff_canon.1 (h3.trans h6)]
    obtain ⟨j1, g1, g2⟩ := key hk1 hn1
    obtain ⟨j2, g3, g4⟩ := key hk2 hn2
    rw [cong_iff_canon.1 hcong, g3] at g1
    cases g1
    rw [← g2, ← g4]

/-- E-graphs only grow. -/
theorem Ext.rep {eg' : EGraph Op D} (hx : Ext eg eg') (h : InvW W C eg) {W' : Id → Id → Prop} {C' : Cfg Op D}
    (h' : InvW W' C' eg') : ∀ (t : Term Op) {c : Id}, Rep eg c t → Rep eg' c t := by
  intro t
  induction t using Term.ind with
  | h op ts ih =>
    intro c hr
    rw [h.rep_iff] at hr
    obtain ⟨hc, k, n, hk, hn, ho, hch⟩ := hr
    obtain ⟨i, m, h1, h2, h3⟩ := h.core.clsNodes _ _ (sk_eq hk) n hn
    have hlen := hx.len
    have hnl := h.core.clsNodeLt (sk_eq hk) hn
    have hml : ∀ c ∈ m.children, c < eg.nodes.length := fun c hc => h.core.childLt h1 hc
    obtain ⟨s', n', g1, g2, g3⟩ := h'.core.nodesCls i m (hx.get h1)
    obtain ⟨k', hk', rfl⟩ := cls_of_sk g1
    have e : eg'.rt i = eg'.rt c := hx.rt i c (getElem?_lt h1) hc h2
    rw [h'.rep_iff]
    refine ⟨by omega, k', n', by rw [← e]; exact hk', g2, by rw [g3.1, ← h3.1, ho], ?_⟩
    refine h'.rep_children (h'.core.clsNodeLt g1 g2) ((hx.cong hnl hml h3).trans g3.symm) ?_
    exact forall₂_mono_mem hch (fun c _ t ht hc => ih t ht hc)

theorem Ext.lt {eg' : EGraph Op D} (hx : Ext eg eg') {i : Id} (hi : i < eg.nodes.length) :
    i < eg'.nodes.length := lt_of_lt_of_le hi hx.len

end EGraph
end Egg
