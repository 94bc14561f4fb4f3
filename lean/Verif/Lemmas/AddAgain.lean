import Verif.Lemmas.Closed
/-
Adding an e-node again, without a hook that changes the e-graph.
-/
namespace Egg
namespace EGraph
variable {Op D : Type} [DecidableEq Op] [Lang Op]
variable {C : Cfg Op D} {eg : EGraph Op D} {E : Err → Prop} {N : Analysis Op D}

/-- Adding `n` finds it, with id `i`. -/
def Present (eg : EGraph Op D) (n : ENode Op) (i : Id) : Prop :=
  (∀ c ∈ n.children, c < eg.nodes.length) ∧
  ∃ e, eg.mem (n.mapChildren eg.rt) = some e ∧ (eg.explain = none → i = e) ∧
    ∀ x, eg.explain = some x → x.uncanonMemo.get? n = some i

theorem Present.add (h : Inv C eg) {n : ENode Op} {i : Id} (hp : Present eg n i) :
    addUncanonical N eg n = .ok (eg, i) := by
  obtain ⟨hch, e, g1, g2, g3⟩ := hp
  have hcan := h.canon hch
  have g1' : eg.memo.get? (n.mapChildren eg.rt) = some e := g1
  unfold addUncanonical
  rw [hcan, ok_bind, g1']
  dsimp only
  rw [h.find (h.core.memLt g1), ok_bind]
  cases hx : eg.explain with
  | none => rw [g2 hx]; rfl
  | some x => simp [g3 x hx]

theorem present_after (hq : QuietMod N) (h : Inv C eg) {n : ENode Op} {eg' : EGraph Op D} {i : Id}
    (hch : ∀ c ∈ n.children, c < eg.nodes.length) (ha : addUncanonical N eg n = .ok (eg', i)) :
    Present eg' n i ∧ ∀ m j, Present eg m j → Present eg' m j := by
  rcases addUncanonical_cases N h hch with ⟨e, j, nj, g1, g2, _, _, g5, g6⟩ | ⟨e, x, eg1, g1, gx, gu, g4, g5, g6⟩ | ⟨g1, eg1, g2, g3⟩
  · rw [ha] at g2; cases g2
    exact ⟨⟨hch, e, g1, g5, fun x hx => (g6 x hx).2⟩, fun _ _ h => h⟩
  · rw [ha] at g4; cases g4
    have hrt : ∀ i, i < eg.nodes.length → eg'.rt i = eg.rt i := fun i hi => by rw [g6.rt, if_neg (by omega)]
    have hl : eg'.nodes.length = eg.nodes.length + 1 := by rw [g6.nodes]; simp
    have hsome : eg'.explain ≠ none := by
      have := g6.expl; rw [gx] at this; intro e; rw [e] at this; simp at this
    have hmem : ∀ m : ENode Op, (∀ c ∈ m.children, c < eg.nodes.length) → eg'.mem (m.mapChildren eg'.rt) = eg.mem (m.mapChildren eg.rt) := by
      intro m hm
      rw [mapChildren_congr (fun c hc => hrt c (hm c hc))]
      unfold mem; rw [g6.memo]
    refine ⟨⟨fun c hc => by have := hch c hc; omega, e, by rw [hmem n hch]; exact g1, fun e => absurd e hsome, ?_⟩, ?_⟩
    · intro x' hx'
      obtain ⟨_, _, h2⟩ := g6.un x' hx'
      rw [h2, if_pos rfl]
    · rintro m j ⟨p1, e', p2, p3, p4⟩
      refine ⟨fun c hc => by have := p1 c hc; omega, e', by rw [hmem m p1]; exact p2, fun e => absurd e hsome, ?_⟩
      intro x' hx'
      obtain ⟨x0, h1, h2⟩ := g6.un x' hx'
      rw [h2, if_neg]
      · exact p4 x0 h1
      · rintro rfl
        rw [gx] at h1; cases h1
        have := p4 x gx
        rw [gu] at this; cases this
  · rw [ha] at g3
    have g3 := g3.symm
    rw [bind_eq_ok] at g3
    obtain ⟨d, _, g3⟩ := g3
    rw [bind_eq_ok] at g3
    obtain ⟨eg2, hm, g3⟩ := g3
    have := hq _ _ _ hm
    subst this
    cases g3
    have g6 := (g2 d).2
    have hl : (eg1 d).nodes.length = eg.nodes.length + 1 := by rw [g6.nodes]; simp
    have hfun : (eg1 d).rt = eg.rt := funext g6.rt
    have hmem : ∀ m, (eg1 d).mem m = if n.mapChildren eg.rt = m then some eg.nodes.length else eg.mem m := by
      intro m; unfold mem; rw [g6.memo, AMap.get?_insert]
    show Present (eg1 d) n _ ∧ ∀ m j, Present eg m j → Present (eg1 d) m j
    refine ⟨⟨fun c hc => by have := hch c hc; omega, _, by rw [hfun, hmem, if_pos rfl], fun _ => rfl, ?_⟩, ?_⟩
    · intro x' hx'
      obtain ⟨_, _, h2⟩ := g6.un x' hx'
      rw [h2, if_pos rfl]
    · rintro m j ⟨p1, e', p2, p3, p4⟩
      refine ⟨fun c hc => by have := p1 c hc; omega, e', ?_, ?_, ?_⟩
      · rw [hfun, hmem, if_neg]
        · exact p2
        · intro e; rw [← e, g1] at p2; cases p2
      · intro hn
        apply p3
        have := g6.expl
        rw [hn] at this
        exact Option.isNone_iff_eq_none.1 (by simpa using this.symm)
      · intro x' hx'
        obtain ⟨x0, h1, h2⟩ := g6.un x' hx'
        rw [h2, if_neg]
        · exact p4 x0 h1
        · rintro rfl
          rw [g1] at p2; cases p2

theorem addExprGo_again (hN : HookOK C E N) (hq : QuietMod N) : ∀ (rest : List (ENode Op)) (eg : EGraph Op D) (ids : List Id)
    {eg' : EGraph Op D} {ids' : List Id}, Good C eg → (∀ i ∈ ids, i < eg.nodes.length) →
    addExprGo N eg rest ids = .ok (eg', ids') →
    Good C eg' ∧ (∀ m j, Present eg m j → Present eg' m j) ∧
      ∀ eg2, Good C eg2 → (∀ m j, Present eg' m j → Present eg2 m j) → addExprGo N eg2 rest ids = .ok (eg2, ids') := by
  intro rest
  induction rest with
  | nil => intro eg ids eg' ids' hg _ h; cases h; exact ⟨hg, fun _ _ h => h, fun _ _ _ => rfl⟩
  | cons n rest ih =>
    intro eg ids eg' ids' hg hids h
    unfold addExprGo at h
    rw [bind_eq_ok] at h
    obtain ⟨m, hm, h⟩ := h
    rw [bind_eq_ok] at h
    obtain ⟨⟨eg1, i⟩, h1, h⟩ := h
    have hmc : ∀ c ∈ m.children, c < eg.nodes.length := by
      rw [ENode.mapChildrenM, bind_eq_ok] at hm
      obtain ⟨cs, h2, h3⟩ := hm
      cases h3
      rw [mapM_eq_ok] at h2
      intro c hc
      obtain ⟨b, _, hb⟩ := forall₂_mem_left (forall₂_flip h2) hc
      rw [getIdx_eq_ok] at hb
      exact hids c (List.mem_of_getElem? hb)
    obtain ⟨p1, p2⟩ := present_after hq hg.inv hmc h1
    obtain ⟨q1, q2, ni, q3, _⟩ := (addUncanonical_post hN hg hmc).elim h1
    have hids1 : ∀ j ∈ ids ++ [i], j < eg1.nodes.length := by
      intro j hj
      rcases List.mem_append.1 hj with hj | hj
      · have : eg.nodes.length ≤ eg1.nodes.length := q2.len
        have := hids j hj; omega
      · simp at hj; subst hj; exact getElem?_lt q3
    obtain ⟨r1, r2, r3⟩ := ih eg1 (ids ++ [i]) q1 hids1 h
    refine ⟨r1, fun m j hp => r2 m j (p2 m j hp), ?_⟩
    intro eg2 hg2 h2
    unfold addExprGo
    rw [hm, ok_bind, (h2 m i (r2 m i p1)).add hg2.inv, ok_bind]
    exact r3 eg2 hg2 h2

theorem addExprUncanonical_again (hN : HookOK C E N) (hq : QuietMod N) {e : List (ENode Op)} {eg' : EGraph Op D} {i : Id}
    (hg : Good C eg) (h : addExprUncanonical N eg e = .ok (eg', i)) : addExprUncanonical N eg' e = .ok (eg', i) := by
  unfold addExprUncanonical at h ⊢
  rw [bind_eq_ok] at h
  obtain ⟨⟨eg1, ids⟩, h1, h⟩ := h
  rw [bind_eq_ok] at h
  obtain ⟨j, h2, h⟩ := h
  cases h
  obtain ⟨r1, _, r3⟩ := addExprGo_again hN hq e eg [] hg (by simp) h1
  rw [r3 _ r1 (fun _ _ h => h), ok_bind]
  dsimp only at h2 ⊢
  rw [h2]; rfl

/-! With explanations, `add_expr_uncanonical` returns the node it added. -/

theorem addExprGo_exact (hN : HookOK C E N) {e : List (ENode Op)} (hd : Dag e) : ∀ (rest : List (ENode Op))
    (eg : EGraph Op D) (pre : List (ENode Op)) (ids : List Id) {eg' : EGraph Op D} {ids' : List Id},
    e = pre ++ rest → ids.length = pre.length →
    Good C eg → eg.explain.isSome → (∀ (k : Nat) (i : Id), ids[k]? = some i → ∀ t, TermOf e k t → TermOf eg.nodes i t) →
    addExprGo N eg rest ids = .ok (eg', ids') → ids'.length = e.length ∧
    ∀ (k : Nat) (i : Id), ids'[k]? = some i → ∀ t, TermOf e k t → TermOf eg'.nodes i t := by
  intro rest
  induction rest with
  | nil =>
    intro eg pre ids eg' ids' he hl hg hx hi h
    cases h
    exact ⟨by simp [he, hl], hi⟩
  | cons n rest ih =>
    intro eg pre ids eg' ids' he hl hg hx hi h
    have hnk : e[ids.length]? = some n := by rw [he, hl]; simp
    unfold addExprGo at h
    rw [bind_eq_ok] at h
    obtain ⟨m, hm, h⟩ := h
    rw [bind_eq_ok] at h
    obtain ⟨⟨eg1, i⟩, h1, h⟩ := h
    have hmm : m.op = n.op ∧ List.Forall₂ (fun c j => ids[c]? = some j) n.children m.children := by
      rw [ENode.mapChildrenM, bind_eq_ok] at hm
      obtain ⟨cs, h2, h3⟩ := hm
      cases h3
      rw [mapM_eq_ok] at h2
      exact ⟨rfl, forall₂_mono_mem h2 (fun a _ b _ hb => getIdx_eq_ok.1 hb)⟩
    have hmc : ∀ c ∈ m.children, c < eg.nodes.length := by
      intro c hc
      obtain ⟨b, hb1, hb⟩ := forall₂_mem_left (forall₂_flip hmm.2) hc
      have hbl : b < e.length := by have := hd _ _ hnk b hb1; have := getElem?_lt hnk; omega
      obtain ⟨t, ht⟩ := hd.exists_term b hbl
      exact (hi b c hb t ht).lt
    obtain ⟨q1, q2, ni, q3, _, q5⟩ := (addUncanonical_post hN hg hmc).elim h1
    have q5 := q5 hx
    subst q5
    have hmono : ∀ j t, TermOf eg.nodes j t → TermOf eg1.nodes j t := by
      intro j t ht
      obtain ⟨l, hl⟩ := q2.nodes
      rw [hl]; exact ht.append
    refine ih eg1 (pre ++ [n]) (ids ++ [i]) (by rw [he]; simp) (by simp [hl]) q1 (by rw [q2.expl]; exact hx) ?_ h
    intro k j hk t ht
    rw [List.getElem?_append] at hk
    split at hk
    · exact hmono _ _ (hi k j hk t ht)
    · have hk' : k = ids.length := by
        have := getElem?_lt hk
        simp at this; omega
      subst hk'
      simp at hk
      subst hk
      cases t with
      | node op ts =>
        rw [termOf_iff] at ht ⊢
        obtain ⟨n', h1', h2', h3'⟩ := ht
        rw [hnk] at h1'; cases h1'
        refine ⟨ni, q3, by rw [hmm.1, h2'], ?_⟩
        refine forall₂_comp (forall₂_flip hmm.2) h3' ?_
        intro a b c _ _ _ hab hbc
        exact hmono _ _ (hi _ _ hab _ hbc)

theorem addExprUncanonical_exact (hN : HookOK C E N) {e : List (ENode Op)} (hd : Dag e)
    {eg' : EGraph Op D} {i : Id} (hg : Good C eg) (hx : eg.explain.isSome)
    (h : addExprUncanonical N eg e = .ok (eg', i)) : ∀ t, ExprTerm e t → TermOf eg'.nodes i t := by
  unfold addExprUncanonical at h
  rw [bind_eq_ok] at h
  obtain ⟨⟨eg1, ids⟩, h1, h⟩ := h
  rw [bind_eq_ok] at h
  obtain ⟨j, h2, h⟩ := h
  cases h
  obtain ⟨g1, g2⟩ := addExprGo_exact hN hd e eg [] [] rfl rfl hg hx (by simp) h1
  intro t ht
  refine g2 (e.length - 1) i ?_ t ht.2
  rw [unwrap_eq_ok] at h2
  rw [List.getLast?_eq_getElem?, g1] at h2
  exact h2

end EGraph
end Egg
