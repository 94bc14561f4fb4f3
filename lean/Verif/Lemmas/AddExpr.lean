import Verif.Lemmas.Hist
/-
Adding and looking up whole expressions.
-/
namespace Egg
variable {Op D : Type} [DecidableEq Op] [Lang Op]

theorem Steps.trans {N : Analysis Op D} {allow : Caller Op D} {a b c : EGraph Op D}
    {U V : List (UnionRec Op)} (h : Steps N allow a U b) (h' : Steps N allow b V c) :
    Steps N allow a (V ++ U) c := by
  induction h' with
  | refl => simpa using h
  | tail _ hs ih => rw [List.append_assoc]; exact .tail ih hs

theorem Steps.single {N : Analysis Op D} {allow : Caller Op D} {a b : EGraph Op D}
    {U : List (UnionRec Op)} (h : Step N allow a U b) : Steps N allow a U b := by
  have := Steps.tail (Steps.refl (N := N) (allow := allow) (eg := a)) h
  simpa using this

namespace EGraph
variable {W : Id → Id → Prop} {C : Cfg Op D} {eg : EGraph Op D} {E : Err → Prop} {N : Analysis Op D}

theorem addExprGo_steps {allow : Caller Op D} : ∀ (e : List (ENode Op)) (eg : EGraph Op D)
    (ids : List Id) {eg' : EGraph Op D} {ids' : List Id}, addExprGo N eg e ids = .ok (eg', ids') →
    Steps N allow eg [] eg' := by
  intro e
  induction e with
  | nil => intro eg ids eg' ids' h; cases h; exact .refl
  | cons n rest ih =>
    intro eg ids eg' ids' h
    unfold addExprGo at h
    rw [bind_eq_ok] at h
    obtain ⟨m, _, h⟩ := h
    rw [bind_eq_ok] at h
    obtain ⟨⟨eg1, i⟩, h1, h⟩ := h
    exact (Steps.single (Step.add h1)).trans (ih eg1 _ h)

theorem addExprUncanonical_steps {allow : Caller Op D} {e : List (ENode Op)}
    {eg' : EGraph Op D} {i : Id} (h : addExprUncanonical N eg e = .ok (eg', i)) :
    Steps N allow eg [] eg' := by
  unfold addExprUncanonical at h
  rw [bind_eq_ok] at h
  obtain ⟨⟨eg1, ids⟩, h1, h⟩ := h
  rw [bind_eq_ok] at h
  obtain ⟨j, _, h⟩ := h
  cases h
  exact addExprGo_steps e eg [] h1

theorem addExpr_steps {allow : Caller Op D} {e : List (ENode Op)}
    {eg' : EGraph Op D} {i : Id} (h : addExpr N eg e = .ok (eg', i)) :
    Steps N allow eg [] eg' := by
  unfold addExpr at h
  rw [bind_eq_ok] at h
  obtain ⟨⟨eg1, ids⟩, h1, h⟩ := h
  rw [bind_eq_ok] at h
  obtain ⟨j, _, h⟩ := h
  cases h
  exact addExprUncanonical_steps h1

/-- `ids` are classes representing the first nodes of the expression `e`. -/
def IdsOK (eg : EGraph Op D) (e : List (ENode Op)) (ids : List Id) : Prop :=
  ∀ (k : Nat) (i : Id), ids[k]? = some i → i < eg.nodes.length ∧ ∀ t, TermOf e k t → Rep eg i t

theorem IdsOK.grow {e : List (ENode Op)} {ids : List Id} (h : IdsOK eg e ids) {eg' : EGraph Op D}
    (hg : Grow eg eg') : IdsOK eg' e ids := by
  intro k i hi
  have := hg.len
  exact ⟨by have := (h k i hi).1; omega, fun t ht => hg.rep _ _ ((h k i hi).2 t ht)⟩

theorem addExprGo_post (hN : HookOK C E N) {e : List (ENode Op)} (hd : Dag e ∨ E .panic) : ∀ (rest : List (ENode Op))
    (eg : EGraph Op D) (pre : List (ENode Op)) (ids : List Id), e = pre ++ rest → ids.length = pre.length →
    Good C eg → IdsOK eg e ids →
    Post E (addExprGo N eg rest ids) (fun r => Good C r.1 ∧ Ext eg r.1 ∧ IdsOK r.1 e r.2 ∧ r.2.length = e.length) := by
  intro rest
  induction rest with
  | nil =>
    intro eg pre ids he hl hg hi
    exact ⟨hg, Ext.refl _, hi, by simp [he, hl]⟩
  | cons n rest ih =>
    intro eg pre ids he hl hg hi
    have hnk : e[ids.length]? = some n := by rw [he, hl]; simp
    unfold addExprGo
    cases hm : n.mapChildrenM (getIdx ids) with
    | error err =>
      rcases hd with hd | hp
      · obtain ⟨m, hm'⟩ := mapChildrenM_getIdx_total (n := n) (ids := ids) (fun c hc => hd _ _ hnk c hc)
        rw [hm] at hm'; cases hm'
      · have : err = .panic := by
          unfold ENode.mapChildrenM at hm
          have h1 : n.children.mapM (getIdx ids) = .error err := by
            cases hx : n.children.mapM (getIdx ids) with
            | ok v => rw [hx] at hm; cases hm
            | error e' => rw [hx] at hm; cases hm; rfl
          by_cases hall : ∀ c ∈ n.children, c < ids.length
          · obtain ⟨m, hm'⟩ := mapChildrenM_getIdx_total hall
            unfold ENode.mapChildrenM at hm'; rw [hm] at hm'; cases hm'
          · push Not at hall
            obtain ⟨c, hc, hc'⟩ := hall
            have := mapM_error (f := getIdx ids) (e := .panic) (l := n.children) (by
              intro a _
              by_cases ha : a < ids.length
              · exact Or.inr ⟨_, getIdx_lt ha⟩
              · left; unfold getIdx; rw [List.getElem?_eq_none (by omega)]) ⟨c, hc, by
                unfold getIdx; rw [List.getElem?_eq_none (by omega)]⟩
            rw [this] at h1; cases h1; rfl
        rw [this]; exact hp
    | ok m =>
      rw [mapChildrenM_getIdx] at hm
      have hml : ∀ c ∈ m.children, c < eg.nodes.length := by
        intro c hc
        obtain ⟨b, _, hb⟩ := forall₂_mem_left (forall₂_flip hm.2) hc
        exact (hi _ _ hb).1
      refine Post.bind (x := addUncanonical N eg m) (addUncanonical_post hN hg hml) ?_
      rintro ⟨eg1, i⟩ ⟨h1, h2, ni, h3, h4, h5⟩
      have hgrow := h2.grow hg h1
      refine (ih eg1 (pre ++ [n]) (ids ++ [i]) (by simp [he]) (by simp [hl]) h1 ?_).mono ?_
      · intro k j hj
        rw [List.getElem?_append] at hj
        split at hj
        · exact (hi.grow hgrow) k j hj
        · rename_i hk
          have hkk : k = ids.length := by
            rcases Nat.eq_or_lt_of_le (not_lt.1 hk) with h | h
            · exact h.symm
            · rw [List.getElem?_eq_none (by simp; omega)] at hj; cases hj
          subst hkk
          simp at hj
          subst hj
          refine ⟨getElem?_lt h3, ?_⟩
          intro t ht
          cases t with
          | node op ts =>
            rw [termOf_iff] at ht
            obtain ⟨n', g1, g2, g3⟩ := ht
            rw [hnk] at g1; cases g1
            have hrep : List.Forall₂ (Rep eg1) m.children ts :=
              forall₂_comp (forall₂_flip hm.2) g3 (fun a b c _ _ _ hab hbc =>
                hgrow.rep _ _ ((hi _ _ hab).2 c hbc))
            have hnl : ∀ c ∈ ni.children, c < eg1.nodes.length := fun c hc => h1.inv.core.childLt h3 hc
            have hrep' := h1.inv.rep_children hnl h4.symm hrep
            have hml1 : ∀ c ∈ m.children, c < eg1.nodes.length := fun c hc => lt_of_lt_of_le (hml c hc) h2.len
            obtain ⟨s, n2, q1, q2, q3⟩ := h1.inv.core.nodesCls i ni h3
            obtain ⟨k2, hk2, rfl⟩ := cls_of_sk q1
            rw [h1.inv.rep_iff]
            refine ⟨getElem?_lt h3, k2, n2, hk2, q2, ?_, ?_⟩
            · rw [q3.1, h4.1, hm.1, g2]
            · exact h1.inv.rep_children (h1.inv.core.clsNodeLt q1 q2) q3.symm hrep'
      · rintro r ⟨r1, r2, r3, r4⟩
        exact ⟨r1, h2.trans r2, r3, r4⟩

theorem addExprUncanonical_post (hN : HookOK C E N) {e : List (ENode Op)} (hd : (e ≠ [] ∧ Dag e) ∨ E .panic)
    (hg : Good C eg) :
    Post E (addExprUncanonical N eg e) (fun r => Good C r.1 ∧ Ext eg r.1 ∧ r.2 < r.1.nodes.length ∧
      ∀ t, ExprTerm e t → Rep r.1 r.2 t) := by
  unfold addExprUncanonical
  apply Post.bind (addExprGo_post hN (hd.imp (fun h => h.2) id) e eg [] [] (by simp) rfl hg (by
    intro k i hi; simp at hi))
  rintro ⟨eg1, ids⟩ ⟨h1, h2, h3, h4⟩
  show Post E (unwrap ids.getLast? >>= fun i => .ok (eg1, i)) _
  cases hl : ids.getLast? with
  | none =>
    have hnil : ids = [] := by simpa using hl
    rcases hd with hd | hp
    · have h4' : ids.length = e.length := h4
      rw [hnil] at h4'
      simp at h4'
      exact absurd (List.length_eq_zero_iff.1 h4'.symm) hd.1
    · exact hp
  | some i =>
    show Post E (.ok (eg1, i)) _
    rw [List.getLast?_eq_getElem?] at hl
    have h4' : ids.length = e.length := h4
    rw [h4'] at hl
    obtain ⟨q1, q2⟩ := h3 _ _ hl
    exact ⟨h1, h2, q1, fun t ht => q2 t ht.2⟩

theorem addExpr_post (hN : HookOK C E N) {e : List (ENode Op)} (hd : (e ≠ [] ∧ Dag e) ∨ E .panic)
    (hg : Good C eg) :
    Post E (addExpr N eg e) (fun r => Good C r.1 ∧ Ext eg r.1 ∧ r.2 < r.1.nodes.length ∧ r.1.rt r.2 = r.2 ∧
      ∀ t, ExprTerm e t → Rep r.1 r.2 t) := by
  unfold addExpr
  apply Post.bind (addExprUncanonical_post hN hd hg)
  rintro ⟨eg1, i⟩ ⟨h1, h2, h3, h4⟩
  simp only [h1.inv.find h3, ok_bind]
  have hlt := h1.inv.core.rtLt i h3
  have hid := h1.inv.core.rtIdem i
  exact ⟨h1, h2, hlt, hid, fun t ht => h1.inv.rep_congr hlt hid.symm (h4 t ht)⟩

/-! ### lookup -/

/-- On an e-graph without pending work `lookup` finds exactly the congruent e-nodes. -/
theorem lookup_ok (h : Inv C eg) {n : ENode Op} (hn : ∀ c ∈ n.children, c < eg.nodes.length) :
    ∃ o, eg.lookup n = .ok o ∧
      (∀ i, o = some i → i < eg.nodes.length ∧ eg.rt i = i ∧ ∃ k m, eg.classes.get? i = some k ∧ m ∈ k.nodes ∧
        Cong eg.rt m n) ∧
      (eg.pending = [] → ∀ c k m, eg.classes.get? c = some k → m ∈ k.nodes → Cong eg.rt m n → o = some c) := by
  have hcan := h.canon hn
  have hc1 : Cong eg.rt (n.mapChildren eg.rt) n :=
    (Cong.canon_left (fun c _ => h.core.rtIdem c)).2 (Cong.refl _)
  cases hm : eg.memo.get? (n.mapChildren eg.rt) with
  | none =>
    refine ⟨none, by simp [lookup, lookupInternal, hcan, hm], by simp, ?_⟩
    intro hp c k m hk hmm hc
    exfalso
    obtain ⟨i, m', h1, h2, h3⟩ := h.core.clsNodes _ _ (sk_eq hk) m hmm
    obtain ⟨r, nr, h4, h5, h6, h7⟩ := h.core.cov i m' h1
    rcases h.core.congr r nr h4 h5 with hin | ⟨j, h8, h9⟩
    · rw [hp] at hin; simp at hin
    · have : eg.mem (n.mapChildren eg.rt) = none := hm
      rw [← cong_iff_canon.1 (hc.symm.trans (h3.trans h6)).symm] at this
      rw [this] at h8; cases h8
  | some e =>
    have heL := h.core.memLt (show eg.mem (n.mapChildren eg.rt) = some e from hm)
    obtain ⟨ne, hne, hnec, _⟩ := h.core.memo _ _ (show eg.mem (n.mapChildren eg.rt) = some e from hm)
    refine ⟨some (eg.rt e), by simp [lookup, lookupInternal, hcan, hm, h.find heL], ?_, ?_⟩
    · intro i hi
      cases hi
      obtain ⟨s, n2, q1, q2, q3⟩ := h.core.nodesCls e ne hne
      obtain ⟨k2, hk2, rfl⟩ := cls_of_sk q1
      exact ⟨h.core.rtLt e heL, h.core.rtIdem e, k2, n2, hk2, q2, q3.trans (hnec.trans hc1)⟩
    · intro hp c k m hk hmm hc
      obtain ⟨i, m', h1, h2, h3⟩ := h.core.clsNodes _ _ (sk_eq hk) m hmm
      obtain ⟨r, nr, h4, h5, h6, h7⟩ := h.core.cov i m' h1
      rcases h.core.congr r nr h4 h5 with hin | ⟨j, h8, h9⟩
      · rw [hp] at hin; simp at hin
      · rw [cong_iff_canon.1 ((hc.symm.trans (h3.trans h6)).symm)] at h8
        rw [show eg.mem (n.mapChildren eg.rt) = some e from hm] at h8
        cases h8
        rw [h9, h7, h2]

/-- The classes found for the first nodes of an expression: canonical, and
representing the node's term. -/
def FoundOK (eg : EGraph Op D) (e : List (ENode Op)) (ids : List Id) : Prop :=
  ∀ (k : Nat) (i : Id), ids[k]? = some i → i < eg.nodes.length ∧ eg.rt i = i ∧ ∀ t, TermOf e k t → Rep eg i t

theorem lookupExprIdsGo_ok (h : Inv C eg) {e : List (ENode Op)} (hd : Dag e) :
    ∀ (rest pre : List (ENode Op)) (ids : List Id), e = pre ++ rest → ids.length = pre.length → FoundOK eg e ids →
    ∃ o, eg.lookupExprIdsGo rest ids = .ok o ∧
      (∀ ids', o = some ids' → FoundOK eg e ids' ∧ ids'.length = e.length) ∧
      (eg.pending = [] → (∀ (k : Nat) t, TermOf e k t → ∃ i, Rep eg i t) → o ≠ none) := by
  intro rest
  induction rest with
  | nil =>
    intro pre ids he hl hi
    exact ⟨some ids, rfl, by intro ids' e'; cases e'; exact ⟨hi, by simp [he, hl]⟩, fun _ _ => by simp⟩
  | cons n rest ih =>
    intro pre ids he hl hi
    have hnk : e[ids.length]? = some n := by rw [he, hl]; simp
    obtain ⟨m, hm⟩ := mapChildrenM_getIdx_total (n := n) (ids := ids) (fun c hc => hd _ _ hnk c hc)
    unfold lookupExprIdsGo
    simp only [hm, ok_bind]
    rw [mapChildrenM_getIdx] at hm
    have hml : ∀ c ∈ m.children, c < eg.nodes.length := by
      intro c hc
      obtain ⟨b, _, hb⟩ := forall₂_mem_left (forall₂_flip hm.2) hc
      exact (hi _ _ hb).1
    have hterm : ∀ ts, List.Forall₂ (TermOf e) n.children ts → List.Forall₂ (Rep eg) m.children ts := by
      intro ts g3
      exact forall₂_comp (forall₂_flip hm.2) g3 (fun a b c _ _ _ hab hbc => (hi _ _ hab).2.2 c hbc)
    obtain ⟨o, ho, hsome, hnone⟩ := lookup_ok h hml
    simp only [ho, ok_bind]
    cases o with
    | none =>
      refine ⟨none, rfl, by simp, ?_⟩
      intro hp hall
      exfalso
      obtain ⟨t, ht⟩ := hd.exists_term ids.length (getElem?_lt hnk)
      obtain ⟨i, hr⟩ := hall _ t ht
      cases t with
      | node op ts =>
        rw [termOf_iff] at ht
        obtain ⟨n', g1, g2, g3⟩ := ht
        rw [hnk] at g1; cases g1
        rw [h.rep_iff] at hr
        obtain ⟨hil, k, m2, hk, hm2, ho2, hch⟩ := hr
        have hcong : Cong eg.rt m2 m := by
          refine ⟨by rw [ho2, hm.1, g2], ?_⟩
          rw [← forall₂_map_eq]
          exact forall₂_comp hch (forall₂_flip (hterm ts g3)) (fun x t y _ _ _ h1 h2 => InvW.rep_unique h hp t h1 h2)
        have := hnone hp _ k m2 hk hm2 hcong
        cases this
    | some i =>
      obtain ⟨q1, q2, k, m2, q3, q4, q5⟩ := hsome i rfl
      refine ih (pre ++ [n]) (ids ++ [i]) (by simp [he]) (by simp [hl]) ?_
      · intro k' j hj
        rw [List.getElem?_append] at hj
        split at hj
        · exact hi k' j hj
        · rename_i hk'
          have hkk : k' = ids.length := by
            rcases Nat.eq_or_lt_of_le (not_lt.1 hk') with h | h
            · exact h.symm
            · rw [List.getElem?_eq_none (by simp; omega)] at hj; cases hj
          subst hkk
          simp at hj
          subst hj
          refine ⟨q1, q2, ?_⟩
          intro t ht
          cases t with
          | node op ts =>
            rw [termOf_iff] at ht
            obtain ⟨n', g1, g2, g3⟩ := ht
            rw [hnk] at g1; cases g1
            rw [h.rep_iff]
            refine ⟨q1, k, m2, by rw [q2]; exact q3, q4, by rw [q5.1, hm.1, g2], ?_⟩
            exact h.rep_children (h.core.clsNodeLt (sk_eq q3) q4) q5.symm (hterm ts g3)

end EGraph
end Egg
