import Verif.Lemmas.RecExpr
import Verif.Model.IdToExpr
/-
`id_to_expr` copies the sub-DAG below an id.
-/
namespace Egg
variable {Op D : Type}

/-- The copy so far, with the cache of copied ids. -/
structure CopyOK (nodes : List (ENode Op)) (st : List (ENode Op) × AMap Id Id) : Prop where
  dag : Dag st.1
  ok : ∀ i j, st.2.get? i = some j → ∀ t, TermOf nodes i t → TermOf st.1 j t
  src : ∀ j, j < st.1.length → ∃ i, i < nodes.length ∧ st.2.get? i = some j
  lt : ∀ i j, st.2.get? i = some j → j < st.1.length

structure CopyExt (st st' : List (ENode Op) × AMap Id Id) : Prop where
  pre : ∃ l, st'.1 = st.1 ++ l
  cache : ∀ i j, st.2.get? i = some j → st'.2.get? i = some j

theorem CopyExt.refl' (st : List (ENode Op) × AMap Id Id) : CopyExt st st := ⟨⟨[], by simp⟩, fun _ _ h => h⟩

theorem CopyExt.trans {a b c : List (ENode Op) × AMap Id Id} (h : CopyExt a b) (h' : CopyExt b c) : CopyExt a c := by
  obtain ⟨⟨l, hl⟩, h2⟩ := h
  obtain ⟨⟨l', hl'⟩, h2'⟩ := h'
  exact ⟨⟨l ++ l', by rw [hl', hl, List.append_assoc]⟩, fun i j h => h2' i j (h2 i j h)⟩

theorem idToExprGo_ok {nodes : List (ENode Op)} (hd : Dag nodes) : ∀ (k : Nat) (st : List (ENode Op) × AMap Id Id) (i : Id),
    i < k → i < nodes.length → CopyOK nodes st →
    ∃ st' j, idToExprGo nodes k st i = .ok (st', j) ∧ CopyOK nodes st' ∧ CopyExt st st' ∧ st'.2.get? i = some j ∧
      (st.2.get? i = none → j + 1 = st'.1.length) ∧ (∀ x, i < x → st'.2.get? x = st.2.get? x) := by
  intro k
  induction k with
  | zero => intro st i h; omega
  | succ k ih =>
    intro st i hk hi hst
    unfold idToExprGo
    cases hc : st.2.get? i with
    | some e => exact ⟨st, e, rfl, hst, CopyExt.refl' st, hc, by simp, fun _ _ => rfl⟩
    | none =>
      dsimp only
      obtain ⟨n, hn⟩ : ∃ n, nodes[i]? = some n := ⟨nodes[i], List.getElem?_eq_getElem hi⟩
      have key : ∀ (cs : List Id) (st : List (ENode Op) × AMap Id Id), (∀ c ∈ cs, c < i) → CopyOK nodes st →
          ∃ st' js, mapAccumM (idToExprGo nodes k) st cs = .ok (st', js) ∧ CopyOK nodes st' ∧ CopyExt st st' ∧
            List.Forall₂ (fun c j => st'.2.get? c = some j) cs js ∧ (∀ x, i ≤ x → st'.2.get? x = st.2.get? x) := by
        intro cs
        induction cs with
        | nil => intro st _ h; exact ⟨st, [], rfl, h, CopyExt.refl' st, .nil, fun _ _ => rfl⟩
        | cons c cs ihc =>
          intro st hcs h
          have hci := hcs c (by simp)
          obtain ⟨st1, j, g1, g2, g3, g4, _, g5⟩ := ih st c (by omega) (by omega) h
          obtain ⟨st2, js, f1, f2, f3, f4, f5⟩ := ihc st1 (fun x hx => hcs x (by simp [hx])) g2
          refine ⟨st2, j :: js, ?_, f2, g3.trans f3, .cons (f3.cache _ _ g4) f4,
            fun x hx => (f5 x hx).trans (g5 x (by omega))⟩
          simp [mapAccumM, g1, f1]
      obtain ⟨st1, js, g1, g2, g3, g4, g5⟩ := key n.children st (fun c hc => hd i n hn c hc) hst
      have hgi : getIdx nodes i = .ok n := by simp [getIdx, hn]
      rw [hgi, ok_bind, g1, ok_bind]
      dsimp only
      have hjs : ∀ j ∈ js, j < st1.1.length := by
        intro j hj
        obtain ⟨c, _, hc⟩ := forall₂_mem_left (forall₂_flip g4) hj
        exact g2.lt _ _ hc
      have hcache : ∀ x y, (st1.2.insert i st1.1.length).get? x = some y →
          (x = i ∧ y = st1.1.length) ∨ st1.2.get? x = some y := by
        intro x y h
        rw [AMap.get?_insert] at h
        split at h
        · next e => left; exact ⟨e.symm, by injection h with h; exact h.symm⟩
        · right; exact h
      have hnone : st1.2.get? i = none := (g5 i (le_refl _)).trans hc
      refine ⟨_, _, rfl, ?_, ?_, ?_, ?_, ?_⟩
      · refine ⟨g2.dag.append_node hjs, ?_, ?_, ?_⟩
        · intro x y h t ht
          rcases hcache x y h with ⟨rfl, rfl⟩ | h
          · cases t with
            | node op ts =>
              rw [termOf_iff] at ht ⊢
              obtain ⟨m, h1, h2, h3⟩ := ht
              rw [hn] at h1; cases h1
              refine ⟨⟨n.op, js⟩, by simp, h2, ?_⟩
              refine forall₂_comp (forall₂_flip g4) h3 ?_
              intro a b c _ _ _ hab hbc
              exact (g2.ok _ _ hab _ hbc).append
          · exact (g2.ok _ _ h _ ht).append
        · intro j hj
          simp at hj
          by_cases h : j < st1.1.length
          · obtain ⟨x, h1, h2⟩ := g2.src j h
            by_cases hx : i = x
            · subst hx
              rw [hnone] at h2; cases h2
            · exact ⟨x, h1, by rw [AMap.get?_insert, if_neg hx]; exact h2⟩
          · exact ⟨i, hi, by rw [AMap.get?_insert, if_pos rfl]; congr 1; omega⟩
        · intro x y h
          rcases hcache x y h with ⟨rfl, rfl⟩ | h
          · simp
          · have := g2.lt _ _ h; simp; omega
      · refine g3.trans ⟨⟨_, rfl⟩, ?_⟩
        intro x y h
        rw [AMap.get?_insert, if_neg (by rintro rfl; rw [hnone] at h; cases h)]; exact h
      · rw [AMap.get?_insert, if_pos rfl]
      · intro _; simp
      · intro x hx; rw [AMap.get?_insert, if_neg (by omega)]; exact g5 x (by omega)

theorem idToExprTop_ok {nodes : List (ENode Op)} (hd : Dag nodes) {i : Id} (hi : i < nodes.length) :
    ∃ st, idToExprGo nodes (nodes.length + 1) ([], []) i = .ok (st, st.1.length - 1) ∧ Dag st.1 ∧ st.1 ≠ [] ∧
      (∀ t, TermOf nodes i t → ExprTerm st.1 t) ∧
      ∀ j, j < st.1.length → ∃ k, k < nodes.length ∧ ∀ t, TermOf nodes k t → TermOf st.1 j t := by
  obtain ⟨st, j, h1, h2, _, h4, h5, _⟩ := idToExprGo_ok hd (nodes.length + 1) ([], []) i (by omega) hi
    ⟨by intro i n h; simp at h, by intro i j h; simp [AMap.get?] at h, by intro j h; simp at h,
      by intro i j h; simp [AMap.get?] at h⟩
  have h5 := h5 (by simp [AMap.get?])
  have hj : j = st.1.length - 1 := by omega
  have hne : st.1 ≠ [] := by intro e; rw [e] at h5; simp at h5
  refine ⟨st, by rw [h1, hj], h2.dag, hne, ?_, ?_⟩
  · intro t ht
    exact ⟨hne, hj ▸ h2.ok _ _ h4 t ht⟩
  · intro j hj
    obtain ⟨k, g1, g2⟩ := h2.src j hj
    exact ⟨k, g1, h2.ok _ _ g2⟩

end Egg
