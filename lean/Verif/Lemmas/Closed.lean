import Verif.Lemmas.Apply
/-
Congruence-closed states: the memo knows every e-node.  Adding e-nodes to such a
state keeps it congruence-closed when the `modify` hook does nothing.
-/
namespace Egg
variable {Op D : Type} [DecidableEq Op] [Lang Op]
namespace EGraph
variable {W : Id → Id → Prop} {C : Cfg Op D} {eg : EGraph Op D} {E : Err → Prop} {N : Analysis Op D} {σ : Var → Option Id}

/-- The memo finds the class of every e-node. -/
def Closed (eg : EGraph Op D) : Prop :=
  ∀ (i : Id) (n : ENode Op), eg.nodes[i]? = some n → ∃ q, eg.mem (n.mapChildren eg.rt) = some q ∧ eg.rt q = eg.rt i

theorem closed_of_pending (h : Inv C eg) (hp : eg.pending = []) : Closed eg := by
  intro i n hi
  obtain ⟨r, nr, h4, h5, h6, h7⟩ := h.core.cov i n hi
  rcases h.core.congr r nr h4 h5 with hin | ⟨q, h8, h9⟩
  · rw [hp] at hin; simp at hin
  · refine ⟨q, ?_, h9.trans h7⟩
    rw [← h8, cong_iff_canon.1 h6]

theorem Closed.congr (hc : Closed eg) {i j : Id} {n m : ENode Op}
    (hi : eg.nodes[i]? = some n) (hj : eg.nodes[j]? = some m) (hcg : Cong eg.rt n m) : eg.rt i = eg.rt j := by
  obtain ⟨q1, g1, g2⟩ := hc i n hi
  obtain ⟨q2, g3, g4⟩ := hc j m hj
  rw [cong_iff_canon.1 hcg, g3] at g1
  cases g1
  rw [← g2, ← g4]

theorem Closed.holds_unique (hcl : Closed eg) (h : InvW W C eg) {c d : Id} {k l : EClass Op D} {n m : ENode Op}
    (hk : eg.index c = .ok k) (hl : eg.index d = .ok l) (hn : n ∈ k.nodes) (hm : m ∈ l.nodes)
    (hop : n.op = m.op) (hch : List.Forall₂ (SameClass eg) n.children m.children) : SameClass eg c d := by
  rw [h.index_iff] at hk hl
  obtain ⟨i, n', h1, h2, h3⟩ := h.core.clsNodes _ _ (sk_eq hk.2) n hn
  obtain ⟨j, m', g1, g2, g3⟩ := h.core.clsNodes _ _ (sk_eq hl.2) m hm
  have hc : Cong eg.rt n m := (h.sameNode_iff.1 ⟨hop, hch⟩).1
  have := hcl.congr h1 g1 (h3.symm.trans (hc.trans g3))
  rw [h.sameClass_iff]
  exact ⟨hk.1, hl.1, by rw [← h2, ← g2, this]⟩

/-- Under a fixed assignment a pattern matches one class at most. -/
theorem Closed.pmatch_det (hcl : Closed eg) (h : InvW W C eg) : ∀ (p : Term (PatOp Op)) {c d : Id},
    PMatch eg σ c p → PMatch eg σ d p → SameClass eg c d := by
  intro p
  induction p using Term.ind with
  | h op ps ih =>
    intro c d hc hd
    cases op with
    | var v =>
      rw [pmatch_var_iff] at hc hd
      obtain ⟨_, x, h1, h2⟩ := hc
      obtain ⟨_, y, h3, h4⟩ := hd
      rw [h1] at h3; cases h3
      exact h.sameClass_trans (h.sameClass_symm h2) h4
    | op o =>
      rw [pmatch_node_iff] at hc hd
      obtain ⟨k, n, h1, h2, h3, h4⟩ := hc
      obtain ⟨l, m, g1, g2, g3, g4⟩ := hd
      refine hcl.holds_unique h h1 g1 h2 g2 (h3.trans g3.symm) ?_
      exact forall₂_comp h4 (forall₂_flip g4) (fun a q b _ hq _ ha hb => ih q hq ha hb)

/-- The hook does nothing. -/
def QuietMod (N : Analysis Op D) : Prop := ∀ eg i eg', N.modify eg i = .ok eg' → eg' = eg

/-- `eg'` has more e-nodes than `eg`, but the old ids are in the same classes and have
the same canonical ids. -/
structure Cons (eg eg' : EGraph Op D) : Prop where
  nodes : ∃ l, eg'.nodes = eg.nodes ++ l
  rt : ∀ i, i < eg.nodes.length → eg'.rt i = eg.rt i

theorem Cons.refl (eg : EGraph Op D) : Cons eg eg := ⟨⟨[], by simp⟩, fun _ _ => rfl⟩

theorem Cons.len {eg' : EGraph Op D} (h : Cons eg eg') : eg.nodes.length ≤ eg'.nodes.length := by
  obtain ⟨l, hl⟩ := h.nodes; rw [hl]; simp

theorem Cons.trans {a b c : EGraph Op D} (h : Cons a b) (h' : Cons b c) : Cons a c := by
  obtain ⟨l, hl⟩ := h.nodes
  obtain ⟨l', hl'⟩ := h'.nodes
  refine ⟨⟨l ++ l', by rw [hl', hl, List.append_assoc]⟩, fun i hi => ?_⟩
  rw [h'.rt i (lt_of_lt_of_le hi h.len), h.rt i hi]

theorem mapChildren_congr {n : ENode Op} {f g : Id → Id} (h : ∀ c ∈ n.children, f c = g c) : n.mapChildren f = n.mapChildren g := by
  unfold ENode.mapChildren
  rw [List.map_congr_left h]

theorem addUncanonical_quiet (hq : QuietMod N) (h : Inv C eg) {n : ENode Op} {eg' : EGraph Op D} {i : Id}
    (hch : ∀ c ∈ n.children, c < eg.nodes.length) (ha : addUncanonical N eg n = .ok (eg', i)) :
    Cons eg eg' ∧ (Closed eg → Closed eg') := by
  rcases addUncanonical_cases N h hch with ⟨e, j, nj, _, g2, _⟩ | ⟨e, x, eg1, g1, _, _, g4, g5, g6⟩ | ⟨g1, eg1, g2, g3⟩
  · rw [ha] at g2; cases g2
    exact ⟨Cons.refl _, fun h => h⟩
  · rw [ha] at g4; cases g4
    have hrt : ∀ i, i < eg.nodes.length → eg'.rt i = eg.rt i := fun i hi => by rw [g6.rt, if_neg (by omega)]
    refine ⟨⟨⟨_, g6.nodes⟩, hrt⟩, fun hcl => ?_⟩
    intro j m hj
    rw [g6.nodes, List.getElem?_append] at hj
    split at hj
    · next hlt =>
      obtain ⟨q, q1, q2⟩ := hcl j m hj
      refine ⟨q, ?_, ?_⟩
      · rw [mapChildren_congr (fun c hc => hrt c (h.core.childLt hj hc))]
        unfold mem at q1 ⊢
        rw [g6.memo]; exact q1
      · rw [hrt _ (h.core.memLt q1), hrt _ hlt, q2]
    · have hjl : j = eg.nodes.length := by
        have := getElem?_lt hj
        simp at this
        omega
      subst hjl
      simp at hj
      subst hj
      refine ⟨e, ?_, ?_⟩
      · rw [mapChildren_congr (fun c hc => hrt c (hch c hc))]
        unfold mem at g1 ⊢
        rw [g6.memo]; exact g1
      · rw [hrt _ (h.core.memLt g1), g6.rt, if_pos rfl]
  · rw [ha] at g3
    have g3 := g3.symm
    rw [bind_eq_ok] at g3
    obtain ⟨d, _, g3⟩ := g3
    rw [bind_eq_ok] at g3
    obtain ⟨eg2, hm, g3⟩ := g3
    have := hq _ _ _ hm
    subst this
    cases g3
    have g6 := (g2 d).2
    have hrt : ∀ i, (eg1 d).rt i = eg.rt i := g6.rt
    refine ⟨⟨⟨_, g6.nodes⟩, fun i _ => g6.rt i⟩, fun hcl => ?_⟩
    intro j m hj
    have hj : (eg1 d).nodes[j]? = some m := hj
    show ∃ q, (eg1 d).mem (m.mapChildren (eg1 d).rt) = some q ∧ (eg1 d).rt q = (eg1 d).rt j
    have hfun : (eg1 d).rt = eg.rt := funext hrt
    rw [hfun]
    rw [g6.nodes, List.getElem?_append] at hj
    unfold mem
    rw [g6.memo, AMap.get?_insert]
    split at hj
    · next hlt =>
      obtain ⟨q, q1, q2⟩ := hcl j m hj
      split
      · next e =>
        rw [← e, g1] at q1; cases q1
      · exact ⟨q, q1, q2⟩
    · have hjl : j = eg.nodes.length := by
        have := getElem?_lt hj
        simp at this
        omega
      subst hjl
      simp at hj
      subst hj
      rw [if_pos rfl]
      exact ⟨_, rfl, rfl⟩

theorem _root_.Egg.AddSteps.quiet (hN : HookOK C E N) (hq : QuietMod N) {eg' : EGraph Op D} (h : AddSteps N eg eg') (hg : Good C eg) :
    Cons eg eg' ∧ (Closed eg → Closed eg') := by
  induction h with
  | refl => exact ⟨Cons.refl _, fun h => h⟩
  | @tail eg1 eg2 n i h1 h2 ih =>
    obtain ⟨g1, _⟩ := AddSteps.ext hN h1 hg
    obtain ⟨k1, k2⟩ := ih
    by_cases hn : ∀ c ∈ n.children, Valid eg1 c
    · obtain ⟨q1, q2⟩ := addUncanonical_quiet hq g1.inv (fun c hc => g1.valid_iff.1 (hn c hc)) h2
      exact ⟨k1.trans q1, fun h => q2 (k2 h)⟩
    · rw [addUncanonical_error g1 hn] at h2; cases h2

/-- `apply_pat` returns a canonical id, unless the pattern is a variable bound to an
id that is not canonical. -/
theorem applyPatGo_canon (hN : HookOK C E N) (hq : QuietMod N) {s : Subst} : ∀ (rest : List (ENode (PatOp Op)))
    (eg : EGraph Op D) (i : Nat) (ids : List Id) {eg' : EGraph Op D} {ids' : List Id}, Good C eg →
    (∀ v x, s.get v = some x → x < eg.nodes.length ∧ eg.rt x = x) →
    (∀ k x, k < i → ids[k]? = some x → x < eg.nodes.length ∧ eg.rt x = x) →
    applyPatGo N s eg rest i ids = .ok (eg', ids') →
    ∀ k x, k < i + rest.length → ids'[k]? = some x → x < eg'.nodes.length ∧ eg'.rt x = x := by
  intro rest
  induction rest with
  | nil =>
    intro eg i ids eg' ids' hg hs hi h
    cases h
    simpa using hi
  | cons n rest ih =>
    intro eg i ids eg' ids' hg hs hi h
    have hset : ∀ (eg1 : EGraph Op D) (y : Id), Cons eg eg1 → y < eg1.nodes.length → eg1.rt y = y →
        ∀ k x, k < i + 1 → (ids.set i y)[k]? = some x → x < eg1.nodes.length ∧ eg1.rt x = x := by
      intro eg1 y hc hy1 hy2 k x hk hx
      rw [List.getElem?_set] at hx
      split at hx
      · split at hx
        · cases hx; exact ⟨hy1, hy2⟩
        · cases hx
      · obtain ⟨q1, q2⟩ := hi k x (by omega) hx
        exact ⟨lt_of_lt_of_le q1 hc.len, by rw [hc.rt x q1, q2]⟩
    unfold applyPatGo at h
    split at h
    · rw [bind_eq_ok] at h
      obtain ⟨x, hx, h⟩ := h
      unfold Subst.index at hx
      rw [unwrap_eq_ok] at hx
      obtain ⟨q1, q2⟩ := hs _ _ hx
      have := ih eg (i + 1) (ids.set i x) hg hs (hset eg x (Cons.refl _) q1 q2) h
      simpa [Nat.add_assoc, Nat.add_comm 1] using this
    · rw [bind_eq_ok] at h
      obtain ⟨m, _, h⟩ := h
      rw [bind_eq_ok] at h
      obtain ⟨⟨eg1, x⟩, h1, h⟩ := h
      have st := add_addSteps h1
      obtain ⟨g1, -⟩ := AddSteps.ext hN st hg
      obtain ⟨c1, -⟩ := AddSteps.quiet hN hq st hg
      have hx : x < eg1.nodes.length ∧ eg1.rt x = x := by
        by_cases hn : ∀ c ∈ m.children, Valid eg c
        · have := (Good.add_post hN hg hn).elim h1
          obtain ⟨_, _, j, nj, r1, r2, _⟩ := this
          have r2 : x = eg1.rt j := r2
          rw [r2]
          exact ⟨g1.inv.core.rtLt _ (getElem?_lt r1), g1.inv.core.rtIdem _⟩
        · rw [add_error hg hn] at h1; cases h1
      have := ih eg1 (i + 1) (ids.set i x) g1
        (fun v y hy => ⟨lt_of_lt_of_le (hs v y hy).1 c1.len, by rw [c1.rt y (hs v y hy).1]; exact (hs v y hy).2⟩)
        (hset eg1 x c1 hx.1 hx.2) h
      simpa [Nat.add_assoc, Nat.add_comm 1] using this

theorem applyPat_canon (hN : HookOK C E N) (hq : QuietMod N) {s : Subst} {e : PatternAst Op} {buf : List Id} (hl : buf.length = e.length)
    (hg : Good C eg) (hs : ∀ v x, s.get v = some x → x < eg.nodes.length ∧ eg.rt x = x)
    {r : EGraph Op D × List Id × Id} (h : applyPat N buf e eg s = .ok r) : r.1.rt r.2.2 = r.2.2 := by
  unfold applyPat at h
  rw [bind_eq_ok] at h
  obtain ⟨⟨eg1, ids⟩, h1, h⟩ := h
  rw [bind_eq_ok] at h
  obtain ⟨j, h2, h⟩ := h
  cases h
  rw [unwrap_eq_ok, List.getLast?_eq_getElem?] at h2
  have hlen : ids.length = e.length := by
    have : ∀ (rest : List (ENode (PatOp Op))) (eg : EGraph Op D) (i : Nat) (ids : List Id) {eg' : EGraph Op D} {ids' : List Id},
        applyPatGo N s eg rest i ids = .ok (eg', ids') → ids'.length = ids.length := by
      intro rest
      induction rest with
      | nil => intro eg i ids eg' ids' h; cases h; rfl
      | cons n rest ih =>
        intro eg i ids eg' ids' h
        unfold applyPatGo at h
        split at h
        · rw [bind_eq_ok] at h
          obtain ⟨x, _, h⟩ := h
          simpa using ih _ _ _ h
        · rw [bind_eq_ok] at h
          obtain ⟨m, _, h⟩ := h
          rw [bind_eq_ok] at h
          obtain ⟨⟨eg1, x⟩, _, h⟩ := h
          simpa using ih _ _ _ h
    rw [this _ _ _ _ h1, hl]
  have := getElem?_lt h2
  exact (applyPatGo_canon hN hq e eg 0 buf hg hs (fun k x hk => absurd hk (Nat.not_lt_zero _)) h1 (ids.length - 1) j
    (by omega) h2).2

end EGraph
end Egg
