import Verif.Lemmas.Returns
import Verif.Lemmas.TreeDist
import Verif.Lemmas.ExplainFuel
import Verif.Model.ShortPath
/-
The distances computed by the optimizer of explanation lengths are the distances in the proof
forest.
-/
namespace Egg
variable {Op : Type} [DecidableEq Op]

theorem FuelMono.returns {α : Type} {F : Nat → Res α} (h : FuelMono F) {k : Nat} {v : α} (hk : F k = .ok v) {P : α → Prop} (hv : P v) :
    Returns F P := by
  refine ⟨k, v, hv, fun f hf => ?_⟩
  rcases h.le hf with h1 | h1
  · rw [hk] at h1; cases h1
  · rw [← h1]; exact hk

namespace Explain
variable {x : Explain Op} {nodes : List (ENode Op)} {conn : Id → Id → Prop} {L : Log}

/-- The distance memo is right; `n i` is how far the distance of `i` has been computed. -/
structure DmAt (x : Explain Op) (nodes : List (ENode Op)) (L : Log) (dm : DistanceMemo) (n : Id → Nat) : Prop where
  len : dm.parentDistance.length = x.find.length
  le : ∀ i, i < x.find.length → n i ≤ dep x i
  val : ∀ i, i < x.find.length → dm.parentDistance[i]? = some ((up x)^[n i] i, S x nodes L i (n i))
  pos : ∀ i, i < x.find.length → ∀ j, j < n i → 0 < n ((up x)^[j] i)
  lca : ∀ l r c, l < x.find.length → r < x.find.length → dm.commonAncestor.get? (l, r) = some c → ∃ a b, Lca x l r c a b
  depth : ∀ i, i < x.find.length → dm.treeDepth.get? i = some (dep x i)

theorem parentOf_ok {i : Id} (hi : i < x.find.length) : x.parentOf i = .ok (up x i) := by
  rw [parentOf, getIdx_eq_ok.2 (List.getElem?_eq_getElem hi), ok_bind, up_of_get (List.getElem?_eq_getElem hi)]
  rfl

/-- Jumping over the distance of the node reached so far. -/
theorem DmAt.jump {dm : DistanceMemo} {n : Id → Nat} (hw : UF.WF (ptab x.find)) (h : DmAt x nodes L dm n) {i : Id} (hi : i < x.find.length)
    (hp : 0 < n ((up x)^[n i] i)) :
    DmAt x nodes L { dm with parentDistance := dm.parentDistance.set i ((up x)^[n ((up x)^[n i] i)] ((up x)^[n i] i), S x nodes L i (n i) + S x nodes L ((up x)^[n i] i) (n ((up x)^[n i] i))) }
      (Function.update n i (n i + n ((up x)^[n i] i))) := by
  have hpl := iter_lt hw hi (n i)
  have hdp := dep_iter hw (n i) hi (h.le i hi)
  have hle := h.le _ hpl
  have hni := h.le i hi
  have hpos : 0 < n i := by
    rcases Nat.eq_zero_or_pos (n i) with h0 | h0
    · rw [h0] at hp; simp at hp; omega
    · exact h0
  have hup : ∀ k, 0 < n k → 0 < Function.update n i (n i + n ((up x)^[n i] i)) k := by
    intro k hk
    by_cases e : k = i
    · subst e; simp; omega
    · simp [e, hk]
  refine ⟨by simp [h.len], ?_, ?_, ?_, h.lca, h.depth⟩
  · intro k hk
    by_cases e : k = i
    · subst e; simp; omega
    · simp [e]; exact h.le k hk
  · intro k hk
    show (dm.parentDistance.set i _)[k]? = _
    rw [set_getElem? (by rw [h.len]; exact hi)]
    by_cases e : i = k
    · subst e
      rw [if_pos rfl, Function.update_self, S_add, Nat.add_comm (n i), Function.iterate_add_apply]
    · rw [if_neg e, Function.update_of_ne (Ne.symm e)]
      exact h.val k hk
  · intro k hk j hj
    by_cases e : k = i
    · subst e
      rw [Function.update_self] at hj
      by_cases hjn : j < n k
      · exact hup _ (h.pos k hk j hjn)
      · have := h.pos _ hpl (j - n k) (by omega)
        rw [← Function.iterate_add_apply, Nat.sub_add_cancel (by omega)] at this
        exact hup _ this
    · rw [Function.update_of_ne e] at hj
      exact hup _ (h.pos k hk j hj)

/-- Recording the cost of the edge of a node. -/
theorem DmAt.edge {dm : DistanceMemo} {n : Id → Nat} (h : DmAt x nodes L dm n) {p : Id} (hp : p < x.find.length) (hd : 0 < dep x p) :
    DmAt x nodes L { dm with parentDistance := dm.parentDistance.set p (up x p, W x nodes L p) } (Function.update n p 1) := by
  have hup : ∀ k, 0 < n k → 0 < Function.update n p 1 k := by
    intro k hk
    by_cases e : k = p
    · subst e; simp
    · simp [e, hk]
  refine ⟨by simp [h.len], ?_, ?_, ?_, h.lca, h.depth⟩
  · intro k hk
    by_cases e : k = p
    · subst e; simp; omega
    · simp [e]; exact h.le k hk
  · intro k hk
    show (dm.parentDistance.set p _)[k]? = _
    rw [set_getElem? (by rw [h.len]; exact hp)]
    by_cases e : p = k
    · subst e
      rw [if_pos rfl, Function.update_self, S_one]; rfl
    · rw [if_neg e, Function.update_of_ne (Ne.symm e)]
      exact h.val k hk
  · intro k hk j hj
    by_cases e : k = p
    · subst e
      rw [Function.update_self] at hj
      have : j = 0 := by omega
      subst this
      simp
    · rw [Function.update_of_ne e] at hj
      exact hup _ (h.pos k hk j hj)

/-- What is known about the node reached so far. -/
theorem DmAt.reached {dm : DistanceMemo} {n : Id → Nat} (hw : UF.WF (ptab x.find)) (h : DmAt x nodes L dm n) {i : Id} (hi : i < x.find.length) :
    (up x)^[n ((up x)^[n i] i)] ((up x)^[n i] i) ≠ (up x)^[n i] i ↔ 0 < n ((up x)^[n i] i) := by
  have hpl := iter_lt hw hi (n i)
  constructor
  · intro hne
    rcases Nat.eq_zero_or_pos (n ((up x)^[n i] i)) with h0 | h0
    · rw [h0] at hne; exact absurd rfl hne
    · exact h0
  · intro hpos he
    have := iter_eq_inj hw hpl (n := n ((up x)^[n i] i)) (m := 0) (h.le _ hpl) (by omega) he
    omega

theorem calc_none (hw : UF.WF (ptab x.find)) {i : Id} (hi : i < x.find.length) : ∀ (m : Nat) (dm : DistanceMemo) (n : Id → Nat),
    dep x i - n i = m → DmAt x nodes L dm n →
    Returns (fun f => calculateParentDistance x nodes f i none dm) (fun q => ∃ n', DmAt x nodes L q.2 n' ∧ (∀ j, n j ≤ n' j) ∧
      (∀ j, n' j = 0 ↔ n j = 0) ∧ n' ((up x)^[n' i] i) = 0 ∧ q.1 = S x nodes L i (n' i)) := by
  intro m
  induction m using Nat.strongRecOn with
  | ind m ih =>
    intro dm n hm h
    have hpl := iter_lt hw hi (n i)
    have hni := h.le i hi
    refine Returns.succ' ?_
    simp only [calculateParentDistance]
    simp only [getIdx_eq_ok.2 (h.val i hi), ok_bind, parentOf_ok hpl]
    split
    · rename_i hroot
      refine Returns.ret ⟨n, h, fun _ => le_refl _, fun _ => Iff.rfl, ?_, rfl⟩
      have := (dep_zero hw hpl).2 hroot
      have := h.le _ hpl
      omega
    · rename_i hroot
      simp only [getIdx_eq_ok.2 (h.val _ hpl), ok_bind]
      split
      · rename_i hne
        have hpos := (h.reached hw hi).1 hne
        have hle := h.le _ hpl
        have hdp := dep_iter hw (n i) hi hni
        have hnpos : 0 < n i := by
          rcases Nat.eq_zero_or_pos (n i) with h0 | h0
          · rw [h0] at hpos; simp at hpos; omega
          · exact h0
        refine (ih (dep x i - (n i + n ((up x)^[n i] i))) (by omega) _ _ (by rw [Function.update_self]) (h.jump hw hi hpos)).mono ?_
        rintro ⟨d, dm'⟩ ⟨n', h1, h2, h3, h4, h5⟩
        refine ⟨n', h1, fun j => ?_, fun j => ?_, h4, h5⟩
        · have := h2 j
          by_cases e : j = i
          · subst e; rw [Function.update_self] at this; omega
          · rwa [Function.update_of_ne e] at this
        · rw [h3 j]
          by_cases e : j = i
          · subst e; rw [Function.update_self]; omega
          · rw [Function.update_of_ne e]
      · rename_i hne
        have hz : n ((up x)^[n i] i) = 0 := by
          by_contra h0
          exact hne ((h.reached hw hi).2 (by omega))
        exact Returns.ret ⟨n, h, fun _ => le_refl _, fun _ => Iff.rfl, hz, rfl⟩

/-- The cost of the edge of `p` can be computed. -/
def CostOK (x : Explain Op) (nodes : List (ENode Op)) (L : Log) (p : Id) : Prop := ∀ e, x.find[p]? = some e → ∀ dm n, DmAt x nodes L dm n →
  Returns (fun f => (match e.parent.justification with
              | .congruence => congruenceDistance x nodes f e.parent.current e.parent.next dm
              | .rule _ => .ok (1, dm) : Res (Nat × DistanceMemo)))
    (fun q => q.1 = W x nodes L p ∧ ∃ n', DmAt x nodes L q.2 n' ∧ ∀ j, n j ≤ n' j)

theorem calc_some (hw : UF.WF (ptab x.find)) {i anc : Id} (hi : i < x.find.length) {a : Nat} (ha : a ≤ dep x i) (hanc : (up x)^[a] i = anc)
    (hcost : ∀ p ∈ ups x i a, CostOK x nodes L p) : ∀ (m : Nat) (dm : DistanceMemo) (n : Id → Nat),
    2 * (dep x i - n i) + (if n ((up x)^[n i] i) = 0 then 1 else 0) = m → DmAt x nodes L dm n →
    Returns (fun f => calculateParentDistance x nodes f i (some anc) dm) (fun q => ∃ n', DmAt x nodes L q.2 n' ∧ (∀ j, n j ≤ n' j) ∧ a ≤ n' i) := by
  intro m
  induction m using Nat.strongRecOn with
  | ind m ih =>
    intro dm n hm h
    have hpl := iter_lt hw hi (n i)
    have hni := h.le i hi
    have hle := h.le _ hpl
    have hdp := dep_iter hw (n i) hi hni
    refine Returns.succ' ?_
    simp only [calculateParentDistance]
    simp only [getIdx_eq_ok.2 (h.val i hi), ok_bind, parentOf_ok hpl]
    split
    · rename_i hroot
      refine Returns.ret ⟨n, h, fun _ => le_refl _, ?_⟩
      have := (iter_root_iff hw hi hni).1 hroot
      omega
    · rename_i hroot
      have hdpos : 0 < dep x ((up x)^[n i] i) := by
        rcases Nat.eq_zero_or_pos (dep x ((up x)^[n i] i)) with h0 | h0
        · exact absurd ((dep_zero hw hpl).1 h0) hroot
        · exact h0
      simp only [getIdx_eq_ok.2 (h.val _ hpl), ok_bind]
      split
      · rename_i hne
        have hpos := (h.reached hw hi).1 hne
        rw [if_neg (by omega)] at hm
        refine (ih _ ?_ _ _ rfl (h.jump hw hi hpos)).mono ?_
        · rw [Function.update_self]
          split <;> omega
        · rintro ⟨d, dm'⟩ ⟨n', h1, h2, h3⟩
          refine ⟨n', h1, fun j => ?_, h3⟩
          have := h2 j
          by_cases e : j = i
          · subst e; rw [Function.update_self] at this; omega
          · rwa [Function.update_of_ne e] at this
      · rename_i hne
        have hz : n ((up x)^[n i] i) = 0 := by
          by_contra h0
          exact hne ((h.reached hw hi).2 (by omega))
        rw [if_pos hz] at hm
        have hal : anc < x.find.length := by rw [← hanc]; exact iter_lt hw hi a
        have hda : dep x anc = dep x i - a := by rw [← hanc]; exact dep_iter hw a hi ha
        simp only [unwrap_eq_ok.2 (h.depth _ hpl), unwrap_eq_ok.2 (h.depth _ hal), ok_bind]
        split
        · rename_i hd
          exact Returns.ret ⟨n, h, fun _ => le_refl _, by omega⟩
        · rename_i hd
          have hpe := List.getElem?_eq_getElem hpl
          simp only [getIdx_eq_ok.2 hpe, ok_bind]
          refine Returns.bind (hcost ((up x)^[n i] i) (mem_ups.2 ⟨n i, by omega, rfl⟩) _ hpe dm n h) ?_
          rintro ⟨cost, dm1⟩ ⟨hc, n1, h1, h2⟩
          have hc' : cost = W x nodes L ((up x)^[n i] i) := hc
          subst hc'
          simp only [parentOf_ok hpl, ok_bind]
          have hlen1 : (up x)^[n i] i < dm1.parentDistance.length := by rw [h1.len]; exact hpl
          simp only [if_pos hlen1]
          refine (ih _ ?_ _ _ rfl (h1.edge hpl hdpos)).mono ?_
          · have h2i := h2 i
            have hl1 := h1.le i hi
            by_cases e : (up x)^[n i] i = i
            · have h0 : n i = 0 := iter_eq_inj hw hi (n := n i) (m := 0) hni (by omega) e
              rw [h0] at hm ⊢
              simp only [Function.iterate_zero, id_eq, Function.update_self]
              rw [h0] at hdpos
              simp only [Function.iterate_zero, id_eq] at hdpos
              split <;> omega
            · rw [Function.update_of_ne (Ne.symm e)]
              by_cases e2 : n1 i = n i
              · rw [e2, Function.update_self, if_neg (by omega)]
                omega
              · split <;> omega
          · rintro ⟨d, dm'⟩ ⟨n', h3, h4, h5⟩
            refine ⟨n', h3, fun j => ?_, h5⟩
            have := h4 j
            by_cases e : j = (up x)^[n i] i
            · subst e; rw [hz]; omega
            · rw [Function.update_of_ne e] at this
              exact le_trans (h2 j) this

/-- The first node not passed is the same seen from below. -/
theorem DmAt.shift {dm : DistanceMemo} {n : Id → Nat} (hw : UF.WF (ptab x.find)) (h : DmAt x nodes L dm n) {i anc : Id} (hi : i < x.find.length) {a : Nat}
    (hanc : (up x)^[a] i = anc) (han : a ≤ n i) (h1 : n ((up x)^[n i] i) = 0) (h2 : n ((up x)^[n anc] anc) = 0) : n i = a + n anc := by
  have hal : anc < x.find.length := by rw [← hanc]; exact iter_lt hw hi a
  rcases Nat.lt_trichotomy (n i) (a + n anc) with hlt | he | hlt
  · have := h.pos anc hal (n i - a) (by omega)
    rw [← hanc, ← Function.iterate_add_apply, Nat.sub_add_cancel han] at this
    omega
  · exact he
  · have := h.pos i hi (a + n anc) hlt
    rw [Nat.add_comm, Function.iterate_add_apply, hanc] at this
    omega

theorem distance_ok (hx : XInv nodes conn x L) {l r : Id} (hl : l < x.find.length) (hr : r < x.find.length) {m : Nat}
    (hc : Conn (L.take m) l r) (hcost : ∀ p k, k < m → EdgeAt x L p k → CostOK x nodes L p) {dm : DistanceMemo} {n : Id → Nat} (h : DmAt x nodes L dm n) :
    Returns (fun f => distanceBetween x nodes f l r dm) (fun q => q.1 = D nodes L l r ∧ ∃ n', DmAt x nodes L q.2 n' ∧ ∀ j, n j ≤ n' j) := by
  have hw := hx.wf
  refine Returns.succ' ?_
  simp only [distanceBetween]
  split
  · rename_i e
    subst e
    exact Returns.ret ⟨(D_self hx.logFresh l).symm, n, h, fun _ => le_refl _⟩
  · refine Returns.bind (P := fun anc => ∃ a b, Lca x l r anc a b) ?_ ?_
    · cases hg : dm.commonAncestor.get? (l, r) with
      | some a => exact Returns.ret (h.lca l r a hl hr hg)
      | none =>
        have hroot : UF.root (ptab x.find) l = UF.root (ptab x.find) r :=
          (hx.tree l r (by rw [← hx.len]; exact hl) (by rw [← hx.len]; exact hr)).2
            ((hx.logConn l r (by rw [← hx.len]; exact hl) (by rw [← hx.len]; exact hr)).1 (conn_of_take hc))
        obtain ⟨f0, hf0⟩ := commonAncestor_ok hw hl hr hroot
        obtain ⟨anc, a, b, g1, g2, g3, g4⟩ := hf0 f0 (le_refl _)
        exact FuelMono.returns (fun f => commonAncestor_mono x f l r) g1 (lca_of hw hl hr g2 g3 g4)
    · rintro anc ⟨a, b, hlca⟩
      obtain ⟨hD, hedge⟩ := hlca.trail hx hl hr
      obtain ⟨ca, cb, h1, h2, h3⟩ := hlca
      obtain ⟨el, er⟩ := hedge m hc
      have hal : anc < x.find.length := by rw [← h1]; exact iter_lt hw hl a
      refine Returns.bind (calc_some hw hl ca h1 (fun p hp => by
        obtain ⟨k, hk, he⟩ := el p hp; exact hcost p k hk he) _ dm n rfl h) ?_
      rintro ⟨_, dm1⟩ ⟨n1, q1, q2, q3⟩
      refine Returns.bind (calc_some hw hr cb h2 (fun p hp => by
        obtain ⟨k, hk, he⟩ := er p hp; exact hcost p k hk he) _ dm1 n1 rfl q1) ?_
      rintro ⟨_, dm2⟩ ⟨n2, q4, q5, q6⟩
      refine Returns.bind (calc_none hw hal _ dm2 n2 rfl q4) ?_
      rintro ⟨va, dm3⟩ ⟨n3, q7, q8, q9, q10, q11⟩
      refine Returns.bind (calc_none hw hl _ dm3 n3 rfl q7) ?_
      rintro ⟨vl, dm4⟩ ⟨n4, r1, r2, r3, r4, r5⟩
      refine Returns.bind (calc_none hw hr _ dm4 n4 rfl r1) ?_
      rintro ⟨vr, dm5⟩ ⟨n5, s1, s2, s3, s4, s5⟩
      have ea : n5 anc = n3 anc := by
        have h5 := le_trans (r2 anc) (s2 anc)
        rcases Nat.lt_or_ge (n3 anc) (n5 anc) with hlt | hge
        · have := s1.pos anc hal (n3 anc) hlt
          have := (s3 _).2 ((r3 _).2 q10)
          omega
        · omega
      have eb : n5 l = n4 l := by
        have h5 := s2 l
        rcases Nat.lt_or_ge (n4 l) (n5 l) with hlt | hge
        · have := s1.pos l hl (n4 l) hlt
          have := (s3 _).2 r4
          omega
        · omega
      have za : n5 ((up x)^[n5 anc] anc) = 0 := by rw [ea]; exact (s3 _).2 ((r3 _).2 q10)
      have zl : n5 ((up x)^[n5 l] l) = 0 := by rw [eb]; exact (s3 _).2 r4
      have hla : a ≤ n5 l := by
        have := q5 l; have := q8 l; have := r2 l; have := s2 l
        omega
      have hrb : b ≤ n5 r := by
        have := q8 r; have := r2 r; have := s2 r
        omega
      have e1 := s1.shift hw hl h1 hla zl za
      have e2 := s1.shift hw hr h2 hrb s4 za
      simp only [getIdx_eq_ok.2 (s1.val _ hal), getIdx_eq_ok.2 (s1.val _ hl), getIdx_eq_ok.2 (s1.val _ hr), ok_bind]
      have p1 : (up x)^[n5 l] l = (up x)^[n5 anc] anc := by
        rw [e1, Nat.add_comm, Function.iterate_add_apply, h1]
      have p2 : (up x)^[n5 r] r = (up x)^[n5 anc] anc := by
        rw [e2, Nat.add_comm, Function.iterate_add_apply, h2]
      have v1 : vl = S x nodes L l a + S x nodes L anc (n5 anc) := by
        have : vl = S x nodes L l (n4 l) := r5
        rw [this, ← eb, e1, S_add, h1]
      have v2 : vr = S x nodes L r b + S x nodes L anc (n5 anc) := by
        have : vr = S x nodes L r (n5 r) := s5
        rw [this, e2, S_add, h2]
      have v3 : va = S x nodes L anc (n5 anc) := by rw [ea]; exact q11
      rw [if_pos ⟨p1.symm, by rw [p1, p2], by rw [v1, v2, v3]; omega⟩]
      refine Returns.ret ⟨?_, n5, s1, fun j => ?_⟩
      · show vl + vr - 2 * va = _
        rw [hD, v1, v2, v3]; omega
      · have := q2 j; have := q5 j; have := q8 j; have := r2 j; have := s2 j
        omega

/-- The distance of a congruence step. -/
theorem congruence_ok {u v : Id} {nu nv : ENode Op} (hu : nodes[u]? = some nu) (hv : nodes[v]? = some nv)
    (hd : ∀ p q, (p, q) ∈ nu.children.zip nv.children → ∀ dm n, DmAt x nodes L dm n →
      Returns (fun f => distanceBetween x nodes f p q dm) (fun z => z.1 = D nodes L p q ∧ ∃ n', DmAt x nodes L z.2 n' ∧ ∀ j, n j ≤ n' j))
    {dm : DistanceMemo} {n : Id → Nat} (h : DmAt x nodes L dm n) :
    Returns (fun f => congruenceDistance x nodes f u v dm) (fun z => z.1 = childD nodes L nu nv ∧ ∃ n', DmAt x nodes L z.2 n' ∧ ∀ j, n j ≤ n' j) := by
  refine Returns.succ' ?_
  simp only [congruenceDistance]
  simp only [getIdx_eq_ok.2 hu, getIdx_eq_ok.2 hv, ok_bind]
  refine (Returns.foldlM (I := fun (l : List (Id × Id)) (z : Nat × DistanceMemo) => z.1 = (l.map (fun p => D nodes L p.1 p.2)).sum ∧
    ∃ n', DmAt x nodes L z.2 n' ∧ ∀ j, n j ≤ n' j) (nu.children.zip nv.children) [] (0, dm) ⟨rfl, n, h, fun _ => le_refl _⟩ ?_).mono (fun z hz => hz)
  rintro pre ⟨p, q⟩ post ⟨acc, dm1⟩ e ⟨h1, n1, h2, h3⟩
  refine Returns.bind (hd p q (by rw [show nu.children.zip nv.children = pre ++ (p, q) :: post from e]; simp) dm1 n1 h2) ?_
  rintro ⟨d, dm2⟩ ⟨h4, n2, h5, h6⟩
  refine Returns.ret ⟨?_, n2, h5, fun j => le_trans (h3 j) (h6 j)⟩
  have h1' : acc = _ := h1
  have h4' : d = _ := h4
  show acc + d = _
  rw [h1', h4']
  simp

/-- All distances can be computed. -/
theorem distances (hd : Dag nodes) (hx : XInv nodes conn x L) : ∀ (m : Nat) (l r : Id), l < nodes.length → r < nodes.length → Conn (L.take m) l r →
    ∀ dm n, DmAt x nodes L dm n →
    Returns (fun f => distanceBetween x nodes f l r dm) (fun q => q.1 = D nodes L l r ∧ ∃ n', DmAt x nodes L q.2 n' ∧ ∀ j, n j ≤ n' j) := by
  intro m
  induction m using Nat.strongRecOn with
  | ind m ih =>
    intro l r hl hr hc dm n h
    refine distance_ok hx (by rw [hx.len]; exact hl) (by rw [hx.len]; exact hr) hc ?_ h
    rintro p k hk ⟨e, he, hne, hcur, hidx⟩ e' he' dm' n' h'
    rw [he] at he'
    cases he'
    have hW : W x nodes L p = cw nodes L e.parent := by rw [W, he]; simp only [if_neg hne]
    cases hj : e.parent.justification with
    | rule s => exact Returns.ret ⟨by rw [hW]; simp [cw, hj], n', h', fun _ => le_refl _⟩
    | congruence =>
      obtain ⟨⟨na, nb, g1, g2, g3, g4⟩, _⟩ := idx_congr hx hidx hj
      refine (congruence_ok g1 g2 ?_ h').mono ?_
      · intro p q hpq dm n h
        have hm := List.of_mem_zip hpq
        have hp := hd _ _ g1 p hm.1
        have hq := hd _ _ g2 q hm.2
        have := getElem?_lt g1
        have := getElem?_lt g2
        exact ih k hk p q (by omega) (by omega) ((List.forall₂_iff_zip.1 g4).2 hpq) dm n h
      · rintro ⟨d, dm2⟩ ⟨h4, h5⟩
        refine ⟨?_, h5⟩
        rw [hW]
        simp only [cw, hj, g1, g2]
        exact h4

theorem distanceBetween_ok (hd : Dag nodes) (hx : XInv nodes conn x L) {l r : Id} (hl : l < nodes.length) (hr : r < nodes.length) (hc : Conn L l r)
    {dm : DistanceMemo} {n : Id → Nat} (h : DmAt x nodes L dm n) :
    Returns (fun f => distanceBetween x nodes f l r dm) (fun q => q.1 = D nodes L l r ∧ ∃ n', DmAt x nodes L q.2 n') :=
  (distances hd hx L.length l r hl hr (by rw [List.take_length]; exact hc) dm n h).mono (fun _ ⟨h1, n', h2, _⟩ => ⟨h1, n', h2⟩)

/-- Weight of a congruence step. -/
noncomputable def kd (nodes : List (ENode Op)) (L : Log) (u v : Id) : Nat := cw nodes L ⟨v, u, .congruence, true⟩

theorem congruenceDistance_ok (hd : Dag nodes) (hx : XInv nodes conn x L) {u v : Id} (hc : CongrIds nodes L u v)
    {dm : DistanceMemo} {n : Id → Nat} (h : DmAt x nodes L dm n) :
    Returns (fun f => congruenceDistance x nodes f u v dm) (fun q => q.1 = kd nodes L u v ∧ ∃ n', DmAt x nodes L q.2 n') := by
  obtain ⟨na, nb, g1, g2, g3, g4⟩ := hc
  refine (congruence_ok g1 g2 ?_ h).mono ?_
  · intro p q hpq dm n h
    have hm := List.of_mem_zip hpq
    have hp := hd _ _ g1 p hm.1
    have hq := hd _ _ g2 q hm.2
    have := getElem?_lt g1
    have := getElem?_lt g2
    exact distances hd hx L.length p q (by omega) (by omega) (by rw [List.take_length]; exact (List.forall₂_iff_zip.1 g4).2 hpq) dm n h
  · rintro ⟨d, dm2⟩ ⟨h4, n', h5, _⟩
    refine ⟨?_, n', h5⟩
    simp only [kd, cw, g1, g2]
    exact h4

end Explain
end Egg
