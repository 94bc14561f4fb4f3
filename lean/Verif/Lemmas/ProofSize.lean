import Verif.Lemmas.ProofSharing
import Mathlib.Data.Set.Card
/-
Lemmas on `tree_size`.
-/
namespace Egg
variable {Op : Type}

namespace RcTree

/-- A tree without rules. -/
inductive Still : RcTree Op → Prop where
  | mk {p c l o cps} : (∀ q ∈ cps, ∀ t ∈ q, Still t) → Still (.mk p c l o none none cps)

/-- A term as the explanation functions make it: it has at most one rule, none in its children if it
has one, and no empty child proof. -/
structure WellMade (t : RcTree Op) : Prop where
  one : t.bwd = none ∨ t.fwd = none
  still : t.IsRule → ∀ q ∈ t.childProofs, ∀ u ∈ q, Still u
  full : ∀ q ∈ t.childProofs, q ≠ []

/-- `e` is a rule step of `t`. -/
def Edge (t : RcTree Op) (e : Sym2 Id) : Prop := ∃ u : RcTree Op, Occurs u t ∧ u.IsRule ∧ e = s(u.current, u.last)

theorem Still.noEdge {t : RcTree Op} (h : Still t) {e : Sym2 Id} : ¬ Edge t e := by
  rintro ⟨u, hu, hr, _⟩
  have : Still u := by
    clear hr
    induction hu with
    | refl => exact h
    | child h1 h2 _ ih => cases h with | mk hc => exact ih (hc _ h1 _ h2)
  cases this with
  | mk _ =>
    rcases hr with hr | hr
    · exact hr rfl
    · exact hr rfl

theorem Occurs.size {u t : RcTree Op} (h : Occurs u t) : sizeOf u ≤ sizeOf t := by
  induction h with
  | refl => exact Nat.le_refl _
  | child h1 h2 _ ih =>
    have a := List.sizeOf_lt_of_mem h1
    have b := List.sizeOf_lt_of_mem h2
    simp only [RcTree.mk.sizeOf_spec]
    omega

theorem Occurs.not_self {p : Nat} {c l : Id} {o : Op} {b f : Option Symbol} {cps : List (List (RcTree Op))} {q : List (RcTree Op)}
    {t : RcTree Op} (hq : q ∈ cps) (ht : t ∈ q) (h : Occurs (.mk p c l o b f cps) t) : False := by
  have := h.size
  have a := List.sizeOf_lt_of_mem hq
  have b := List.sizeOf_lt_of_mem ht
  simp only [RcTree.mk.sizeOf_spec] at this
  omega

/-- The unordered pairs of a list of pairs. -/
def pairs (adj : List (Id × Id)) : Finset (Sym2 Id) := (adj.map (fun p => s(p.1, p.2))).toFinset

theorem mem_pairs {adj : List (Id × Id)} {e : Sym2 Id} : e ∈ pairs adj ↔ ∃ p ∈ adj, s(p.1, p.2) = e := by
  unfold pairs
  rw [List.mem_toFinset, List.mem_map]

theorem pairs_add (c l : Id) (adj : List (Id × Id)) : pairs ((l, c) :: (c, l) :: adj) = insert s(c, l) (pairs adj) := by
  unfold pairs
  ext e
  have : s(l, c) = s(c, l) := Sym2.eq_swap
  simp [this]

/-- `adj` contains each pair in both orders. -/
def SymList (adj : List (Id × Id)) : Prop := ∀ c l, (c, l) ∈ adj → (l, c) ∈ adj

theorem SymList.mem {adj : List (Id × Id)} (h : SymList adj) {c l : Id} : s(c, l) ∈ pairs adj ↔ (c, l) ∈ adj := by
  rw [mem_pairs]
  constructor
  · rintro ⟨⟨a, b⟩, hp, e⟩
    rw [Sym2.eq_iff] at e
    rcases e with ⟨rfl, rfl⟩ | ⟨rfl, rfl⟩
    · exact hp
    · exact h _ _ hp
  · intro hm
    exact ⟨(c, l), hm, rfl⟩

/-- What a call of `tree_size` on trees with the rule steps `Ed` and the parts `Oc` does. -/
def SizeOK (Ed : Sym2 Id → Prop) (Oc : RcTree Op → Prop) (st : Seen) (r : Res (Nat × Seen)) : Prop :=
  ∃ n st', r = .ok (n, st') ∧ SymList st'.2 ∧ (∀ e, e ∈ pairs st'.2 ↔ e ∈ pairs st.2 ∨ Ed e) ∧
    n + (pairs st.2).card = (pairs st'.2).card ∧ ∀ p ∈ st'.1, p ∈ st.1 ∨ ∃ u, Oc u ∧ u.ptr = p

variable {S : RcTree Op → Prop}

mutual
theorem treeSize_ok (hinj : ∀ u v, S u → S v → u.ptr = v.ptr → u = v) (hsub : ∀ u v, S v → Occurs u v → S u) (hgood : ∀ u, S u → WellMade u) :
    ∀ (t : RcTree Op) (st : Seen), S t → SymList st.2 → (∀ u, Occurs u t → u.ptr ∈ st.1 → ∀ e, Edge u e → e ∈ pairs st.2) →
    SizeOK (Edge t) (fun u => Occurs u t) st (treeSize t st)
  | .mk p c l o b f cps, (seen, adj), hS, hsym, hseen => by
    rw [treeSize]
    split
    · rename_i hp
      refine ⟨0, (seen, adj), rfl, hsym, ?_, by simp, fun q hq => .inl hq⟩
      intro e
      exact ⟨.inl, fun h => h.elim id (hseen _ .refl hp e)⟩
    · rename_i hp
      have hg := hgood _ hS
      have hchild : ∀ q ∈ cps, ∀ t ∈ q, S t := fun q hq t ht => hsub t _ hS (.child hq ht .refl)
      have pre : ∀ adj', (∀ e, e ∈ pairs adj → e ∈ pairs adj') → ∀ q ∈ cps, ∀ t ∈ q, ∀ u, Occurs u t → u.ptr ∈ p :: seen →
          ∀ e, Edge u e → e ∈ pairs adj' := by
        intro adj' hsup q hq t ht u hu hup e he
        rcases List.mem_cons.1 hup with hup | hup
        · have hut := hinj u _ (hsub u _ hS (.child hq ht hu)) hS hup
          rw [hut] at hu
          exact (hu.not_self hq ht).elim
        · exact hsup e (hseen u (.child hq ht hu) hup e he)
      by_cases hrule : IsRule (.mk p c l o b f cps)
      · have hstill := hg.still hrule
        have own : ownSize b f = .ok 1 := by
          have h1 := hg.one
          unfold IsRule at hrule
          cases b <;> cases f <;> simp_all [ownSize, RcTree.bwd, RcTree.fwd]
        have hedge : ∀ e, Edge (.mk p c l o b f cps) e ↔ e = s(c, l) := by
          intro e
          constructor
          · rintro ⟨u, hu, hr, rfl⟩
            cases hu with
            | refl => rfl
            | child h1 h2 h3 => exact ((hstill _ h1 _ h2).noEdge ⟨u, h3, hr, rfl⟩).elim
          · rintro rfl
            exact ⟨_, .refl, hrule, rfl⟩
        rw [own, ok_bind, if_pos rfl]
        split
        · rename_i hm
          refine ⟨0, (p :: seen, adj), rfl, hsym, ?_, by simp, ?_⟩
          · intro e
            rw [hedge]
            exact ⟨.inl, fun h => h.elim id (fun h => by rw [h]; exact hsym.mem.2 hm)⟩
          · intro q hq
            rcases List.mem_cons.1 hq with rfl | hq
            · exact .inr ⟨_, .refl, rfl⟩
            · exact .inl hq
        · rename_i hm
          have hsym' : SymList ((l, c) :: (c, l) :: adj) := by
            intro a b hab
            simp only [List.mem_cons, Prod.mk.injEq] at hab ⊢
            rcases hab with ⟨rfl, rfl⟩ | ⟨rfl, rfl⟩ | hab
            · simp
            · simp
            · exact .inr (.inr (hsym _ _ hab))
          obtain ⟨n, st', hr, hs', he', hc', hp'⟩ := sizeProofs_ok hinj hsub hgood cps (p :: seen, (l, c) :: (c, l) :: adj) hchild hsym'
            (pre _ (fun e he => by rw [pairs_add]; exact Finset.mem_insert_of_mem he))
          rw [hr, ok_bind]
          refine ⟨1 + n, st', rfl, hs', ?_, ?_, ?_⟩
          · intro e
            rw [he', hedge, pairs_add, Finset.mem_insert]
            constructor
            · rintro ((h | h) | ⟨q, hq, t, ht, h⟩)
              · exact .inr h
              · exact .inl h
              · exact ((hstill _ hq _ ht).noEdge h).elim
            · rintro (h | h)
              · exact .inl (.inr h)
              · exact .inl (.inl h)
          · have hcard : (pairs ((l, c) :: (c, l) :: adj)).card = (pairs adj).card + 1 := by
              rw [pairs_add, Finset.card_insert_of_notMem (fun h => hm (hsym.mem.1 h))]
            have h2 : n + (pairs ((l, c) :: (c, l) :: adj)).card = (pairs st'.2).card := hc'
            show 1 + n + (pairs adj).card = (pairs st'.2).card
            omega
          · intro q hq
            rcases hp' q hq with h | ⟨u, ⟨q', h1, t, h2, h3⟩, rfl⟩
            · rcases List.mem_cons.1 h with rfl | h
              · exact .inr ⟨_, .refl, rfl⟩
              · exact .inl h
            · exact .inr ⟨u, .child h1 h2 h3, rfl⟩
      · have own : ownSize b f = .ok 0 := by
          unfold IsRule at hrule
          cases b <;> cases f <;> simp_all [ownSize, RcTree.bwd, RcTree.fwd]
        have hedge : ∀ e, Edge (.mk p c l o b f cps) e ↔ ∃ q ∈ cps, ∃ t ∈ q, Edge t e := by
          intro e
          constructor
          · rintro ⟨u, hu, hr, rfl⟩
            cases hu with
            | refl => exact (hrule hr).elim
            | child h1 h2 h3 => exact ⟨_, h1, _, h2, u, h3, hr, rfl⟩
          · rintro ⟨q, h1, t, h2, u, h3, hr, rfl⟩
            exact ⟨u, .child h1 h2 h3, hr, rfl⟩
        rw [own, ok_bind, if_neg (by decide)]
        obtain ⟨n, st', hr, hs', he', hc', hp'⟩ := sizeProofs_ok hinj hsub hgood cps (p :: seen, adj) hchild hsym (pre _ (fun e he => he))
        rw [hr, ok_bind]
        refine ⟨0 + n, st', rfl, hs', ?_, ?_, ?_⟩
        · intro e
          rw [he', hedge]
        · rw [Nat.zero_add]; exact hc'
        · intro q hq
          rcases hp' q hq with h | ⟨u, ⟨q', h1, t, h2, h3⟩, rfl⟩
          · rcases List.mem_cons.1 h with rfl | h
            · exact .inr ⟨_, .refl, rfl⟩
            · exact .inl h
          · exact .inr ⟨u, .child h1 h2 h3, rfl⟩
theorem sizeProofs_ok (hinj : ∀ u v, S u → S v → u.ptr = v.ptr → u = v) (hsub : ∀ u v, S v → Occurs u v → S u) (hgood : ∀ u, S u → WellMade u) :
    ∀ (ps : List (List (RcTree Op))) (st : Seen), (∀ q ∈ ps, ∀ t ∈ q, S t) → SymList st.2 →
    (∀ q ∈ ps, ∀ t ∈ q, ∀ u, Occurs u t → u.ptr ∈ st.1 → ∀ e, Edge u e → e ∈ pairs st.2) →
    SizeOK (fun e => ∃ q ∈ ps, ∃ t ∈ q, Edge t e) (fun u => ∃ q ∈ ps, ∃ t ∈ q, Occurs u t) st (sizeProofs ps st)
  | [], st, _, hsym, _ => by
    rw [sizeProofs]
    exact ⟨0, st, rfl, hsym, by simp, by simp, fun q hq => .inl hq⟩
  | q :: ps, st, hS, hsym, hseen => by
    rw [sizeProofs]
    obtain ⟨n, st1, hr1, hs1, he1, hc1, hp1⟩ := sizeAll_ok hinj hsub hgood q st (hS q (List.mem_cons_self ..)) hsym (hseen q (List.mem_cons_self ..))
    rw [hr1, ok_bind]
    obtain ⟨m, st2, hr2, hs2, he2, hc2, hp2⟩ := sizeProofs_ok hinj hsub hgood ps st1 (fun r hr => hS r (List.mem_cons_of_mem _ hr)) hs1 (by
      intro r hr t ht u hu hup e he
      rcases hp1 _ hup with h | ⟨v, ⟨t', ht', hv⟩, hvp⟩
      · exact (he1 e).2 (.inl (hseen r (List.mem_cons_of_mem _ hr) t ht u hu h e he))
      · have : v = u := hinj v u (hsub v t' (hS q (List.mem_cons_self ..) t' ht') hv) (hsub u t (hS r (List.mem_cons_of_mem _ hr) t ht) hu) hvp
        subst this
        obtain ⟨w, hw, hwr, rfl⟩ := he
        exact (he1 _).2 (.inr ⟨t', ht', w, hw.trans hv, hwr, rfl⟩))
    simp only
    rw [hr2, ok_bind]
    refine ⟨n + m, st2, rfl, hs2, ?_, by omega, ?_⟩
    · intro e
      rw [he2, he1]
      simp only [List.mem_cons, exists_eq_or_imp, or_assoc]
    · intro p hp
      rcases hp2 p hp with h | ⟨u, ⟨r, hr, h⟩, e⟩
      · rcases hp1 p h with h | ⟨u, h, e⟩
        · exact .inl h
        · exact .inr ⟨u, ⟨q, List.mem_cons_self .., h⟩, e⟩
      · exact .inr ⟨u, ⟨r, List.mem_cons_of_mem _ hr, h⟩, e⟩
theorem sizeAll_ok (hinj : ∀ u v, S u → S v → u.ptr = v.ptr → u = v) (hsub : ∀ u v, S v → Occurs u v → S u) (hgood : ∀ u, S u → WellMade u) :
    ∀ (ts : List (RcTree Op)) (st : Seen), (∀ t ∈ ts, S t) → SymList st.2 →
    (∀ t ∈ ts, ∀ u, Occurs u t → u.ptr ∈ st.1 → ∀ e, Edge u e → e ∈ pairs st.2) →
    SizeOK (fun e => ∃ t ∈ ts, Edge t e) (fun u => ∃ t ∈ ts, Occurs u t) st (sizeAll ts st)
  | [], st, _, hsym, _ => by
    rw [sizeAll]
    exact ⟨0, st, rfl, hsym, by simp, by simp, fun q hq => .inl hq⟩
  | q :: ps, st, hS, hsym, hseen => by
    rw [sizeAll]
    obtain ⟨n, st1, hr1, hs1, he1, hc1, hp1⟩ := treeSize_ok hinj hsub hgood q st (hS q (List.mem_cons_self ..)) hsym (hseen q (List.mem_cons_self ..))
    rw [hr1, ok_bind]
    obtain ⟨m, st2, hr2, hs2, he2, hc2, hp2⟩ := sizeAll_ok hinj hsub hgood ps st1 (fun r hr => hS r (List.mem_cons_of_mem _ hr)) hs1 (by
      intro r hr u hu hup e he
      rcases hp1 _ hup with h | ⟨v, hv, hvp⟩
      · exact (he1 e).2 (.inl (hseen r (List.mem_cons_of_mem _ hr) u hu h e he))
      · have : v = u := hinj v u (hsub v q (hS q (List.mem_cons_self ..)) hv) (hsub u r (hS r (List.mem_cons_of_mem _ hr)) hu) hvp
        subst this
        obtain ⟨w, hw, hwr, rfl⟩ := he
        exact (he1 _).2 (.inr ⟨w, hw.trans hv, hwr, rfl⟩))
    simp only
    rw [hr2, ok_bind]
    refine ⟨n + m, st2, rfl, hs2, ?_, by omega, ?_⟩
    · intro e
      rw [he2, he1]
      simp only [List.mem_cons, exists_eq_or_imp, or_assoc]
    · intro p hp
      rcases hp2 p hp with h | ⟨u, ⟨r, hr, h⟩, e⟩
      · rcases hp1 p h with h | ⟨u, h, e⟩
        · exact .inl h
        · exact .inr ⟨u, ⟨q, List.mem_cons_self .., h⟩, e⟩
      · exact .inr ⟨u, ⟨r, List.mem_cons_of_mem _ hr, h⟩, e⟩
end

/-- The size is the number of rule steps. -/
theorem getTreeSize_ok {ts : List (RcTree Op)} (hs : Shared ts) (hg : ∀ u : RcTree Op, u.OccursIn ts → WellMade u) :
    getTreeSize ts = .ok (ruleEdges ts).ncard := by
  have hsub : ∀ u v : RcTree Op, v.OccursIn ts → Occurs u v → u.OccursIn ts := by
    rintro u v ⟨t, ht, h⟩ h'
    exact ⟨t, ht, h'.trans h⟩
  obtain ⟨n, st, hr, _, he, hc, _⟩ := sizeAll_ok (S := fun u => u.OccursIn ts) hs hsub hg ts ([], []) (fun t ht => ⟨t, ht, .refl⟩)
    (by intro c l h; cases h) (by intro t _ u _ h; cases h)
  unfold getTreeSize
  rw [hr, ok_bind]
  have e : (ruleEdges ts) = (pairs st.2 : Set (Sym2 Id)) := by
    ext x
    rw [Finset.mem_coe, he]
    constructor
    · rintro ⟨u, ⟨t, ht, hu⟩, h1, h2⟩
      exact .inr ⟨t, ht, u, hu, h1, h2⟩
    · rintro (h | ⟨t, ht, u, hu, h1, h2⟩)
      · simp [pairs] at h
      · exact ⟨u, ⟨t, ht, hu⟩, h1, h2⟩
  rw [e, Set.ncard_coe_finset, ← hc]
  simp [pairs]

end RcTree
end Egg
