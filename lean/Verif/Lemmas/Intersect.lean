import Verif.Lemmas.Closed
import Verif.Model.GraphOps
/-
The product construction of `egraph_intersect`.
-/
namespace Egg
variable {Op D D1 D2 : Type}

/-- Loops: an invariant, an extension order, and what every element has contributed. -/
theorem foldlM_inv {σ α : Type} {f : σ → α → Res σ} {I : σ → Prop} {Le : σ → σ → Prop} {Dn : α → σ → Prop}
    (refl : ∀ s, Le s s) (trans : ∀ {a b c}, Le a b → Le b c → Le a c) (mono : ∀ {x s s'}, Dn x s → Le s s' → Dn x s') :
    ∀ (l : List α), (∀ s x, x ∈ l → I s → ∃ s', f s x = .ok s' ∧ I s' ∧ Le s s' ∧ Dn x s') →
    ∀ s, I s → ∃ s', l.foldlM f s = .ok s' ∧ I s' ∧ Le s s' ∧ ∀ x ∈ l, Dn x s' := by
  intro l
  induction l with
  | nil => intro _ s hs; exact ⟨s, rfl, hs, refl s, by simp⟩
  | cons x l ih =>
    intro step s hs
    obtain ⟨s1, h1, h2, h3, h4⟩ := step s x (by simp) hs
    obtain ⟨s2, g1, g2, g3, g4⟩ := ih (fun s y hy => step s y (by simp [hy])) s1 h2
    refine ⟨s2, ?_, g2, trans h3 g3, ?_⟩
    · rw [List.foldlM_cons, h1]; exact g1
    · intro y hy
      rcases List.mem_cons.1 hy with rfl | hy
      · exact mono h4 g3
      · exact g4 y hy

/-- A table of pairs with distinct values. -/
structure PmOK (pm : AMap (Id × Id) Id) : Prop where
  lt : ∀ k v, pm.get? k = some v → v < pm.length
  inj : ∀ k k' v, pm.get? k = some v → pm.get? k' = some v → k = k'

def PmLe (pm pm' : AMap (Id × Id) Id) : Prop := ∀ k v, pm.get? k = some v → pm'.get? k = some v

theorem PmOK.nil : PmOK [] := ⟨fun k v h => by simp [AMap.get?] at h, fun k k' v h => by simp [AMap.get?] at h⟩

namespace EGraph

theorem getProductId_spec {pm : AMap (Id × Id) Id} (h : PmOK pm) (c1 c2 : Id) :
    PmOK (getProductId pm c1 c2).1 ∧ PmLe pm (getProductId pm c1 c2).1 ∧
      (getProductId pm c1 c2).1.get? (c1, c2) = some (getProductId pm c1 c2).2 := by
  unfold getProductId
  cases hg : pm.get? (c1, c2) with
  | some i => exact ⟨h, fun _ _ h => h, hg⟩
  | none =>
    dsimp only
    have hlen : (pm.insert (c1, c2) pm.length).length = pm.length + 1 := by
      rw [AMap.length_insert, if_neg ((AMap.get?_eq_none_iff _ _).1 hg)]
    refine ⟨⟨?_, ?_⟩, ?_, by rw [AMap.get?_insert, if_pos rfl]⟩
    · intro k v hk
      rw [AMap.get?_insert] at hk
      rw [hlen]
      split at hk
      · injection hk with hk; omega
      · have := h.lt k v hk; omega
    · intro k k' v hk hk'
      rw [AMap.get?_insert] at hk hk'
      split at hk
      · rename_i e
        injection hk with hk
        split at hk'
        · rename_i e'; rw [← e, ← e']
        · have := h.lt k' v hk'; omega
      · split at hk'
        · injection hk' with hk'
          have := h.lt k v hk; omega
        · exact h.inj k k' v hk hk'
    · intro k v hk
      rw [AMap.get?_insert, if_neg (by rintro rfl; rw [hg] at hk; cases hk)]
      exact hk

variable [DecidableEq Op] [Lang Op] {C1 : Cfg Op D1} {C2 : Cfg Op D2} {g1 : EGraph Op D1} {g2 : EGraph Op D2}

theorem productChildren_spec (h1 : Inv C1 g1) (h2 : Inv C2 g2) : ∀ (l : List (Id × Id)) (pm : AMap (Id × Id) Id),
    (∀ x ∈ l, x.1 < g1.nodes.length ∧ x.2 < g2.nodes.length) → PmOK pm →
    ∃ pm' ps, productChildren g1 g2 pm l = .ok (pm', ps) ∧ PmOK pm' ∧ PmLe pm pm' ∧
      List.Forall₂ (fun x p => pm'.get? (g1.rt x.1, g2.rt x.2) = some p) l ps := by
  intro l
  induction l with
  | nil => intro pm _ h; exact ⟨pm, [], rfl, h, fun _ _ h => h, .nil⟩
  | cons x l ih =>
    intro pm hl h
    obtain ⟨a, b⟩ := x
    obtain ⟨ha, hb⟩ := hl _ (List.mem_cons_self)
    obtain ⟨q1, q2, q3⟩ := getProductId_spec h (g1.rt a) (g2.rt b)
    obtain ⟨pm', ps, k1, k2, k3, k4⟩ := ih (getProductId pm (g1.rt a) (g2.rt b)).1 (fun y hy => hl y (by simp [hy])) q1
    refine ⟨pm', (getProductId pm (g1.rt a) (g2.rt b)).2 :: ps, ?_, k2, fun k v h => k3 k v (q2 k v h), .cons (k3 _ _ q3) k4⟩
    unfold productChildren
    rw [h1.find ha, ok_bind, h2.find hb, ok_bind]
    dsimp only
    rw [k1]; rfl

/-- The e-node `x` of the product made from `n1` in class `c1` and `n2` in class `c2`. -/
structure Entry (g1 : EGraph Op D1) (g2 : EGraph Op D2) (pm : AMap (Id × Id) Id) (c1 c2 : Id) (n1 n2 : ENode Op)
    (x : ENode Op × Id) : Prop where
  op1 : x.1.op = n1.op
  op2 : x.1.op = n2.op
  len : n1.children.length = n2.children.length
  pair : pm.get? (c1, c2) = some x.2
  ch : List.Forall₂ (fun y p => pm.get? (g1.rt y.1, g2.rt y.2) = some p) (n1.children.zip n2.children) x.1.children

theorem Entry.mono {pm pm' : AMap (Id × Id) Id} {c1 c2 : Id} {n1 n2 : ENode Op} {x : ENode Op × Id}
    (h : Entry g1 g2 pm c1 c2 n1 n2 x) (hl : PmLe pm pm') : Entry g1 g2 pm' c1 c2 n1 n2 x :=
  ⟨h.op1, h.op2, h.len, hl _ _ h.pair, forall₂_mono_mem h.ch (fun _ _ _ _ h => hl _ _ h)⟩

/-- `n1` and `n2` are e-nodes of the classes `c1` and `c2`. -/
def InClasses (g1 : EGraph Op D1) (g2 : EGraph Op D2) (c1 c2 : Id) (n1 n2 : ENode Op) : Prop :=
  ∃ k1 k2, g1.classes.get? c1 = some k1 ∧ g2.classes.get? c2 = some k2 ∧ n1 ∈ k1.nodes ∧ n2 ∈ k2.nodes

structure ProdOK (g1 : EGraph Op D1) (g2 : EGraph Op D2) (st : Product Op) : Prop where
  pm : PmOK st.1
  sound : ∀ x ∈ st.2, ∃ c1 c2 n1 n2, InClasses g1 g2 c1 c2 n1 n2 ∧ Entry g1 g2 st.1 c1 c2 n1 n2 x

def ProdLe (st st' : Product Op) : Prop := PmLe st.1 st'.1 ∧ ∀ x ∈ st.2, x ∈ st'.2

omit [DecidableEq Op] [Lang Op] in
theorem ProdLe.rfl' (st : Product Op) : ProdLe st st := ⟨fun _ _ h => h, fun _ h => h⟩
omit [DecidableEq Op] [Lang Op] in
theorem ProdLe.trans' {a b c : Product Op} (h : ProdLe a b) (h' : ProdLe b c) : ProdLe a c :=
  ⟨fun k v e => h'.1 k v (h.1 k v e), fun x e => h'.2 x (h.2 x e)⟩

/-- The pair of nodes has been dealt with. -/
def Done (g1 : EGraph Op D1) (g2 : EGraph Op D2) (c1 c2 : Id) (n1 n2 : ENode Op) (st : Product Op) : Prop :=
  n1.op = n2.op → n1.children.length = n2.children.length → ∃ x ∈ st.2, Entry g1 g2 st.1 c1 c2 n1 n2 x

theorem Done.mono {c1 c2 : Id} {n1 n2 : ENode Op} {st st' : Product Op} (h : Done g1 g2 c1 c2 n1 n2 st) (hl : ProdLe st st') :
    Done g1 g2 c1 c2 n1 n2 st' := by
  intro e1 e2
  obtain ⟨x, h1, h2⟩ := h e1 e2
  exact ⟨x, hl.2 x h1, h2.mono hl.1⟩

theorem intersectNodes_spec (h1 : Inv C1 g1) (h2 : Inv C2 g2) {c1 c2 p : Id} {n1 n2 : ENode Op}
    (hin : InClasses g1 g2 c1 c2 n1 n2) {st : Product Op} (hst : ProdOK g1 g2 st) (hp : st.1.get? (c1, c2) = some p) :
    ∃ st', intersectNodes g1 g2 p n1 st n2 = .ok st' ∧ ProdOK g1 g2 st' ∧ ProdLe st st' ∧ Done g1 g2 c1 c2 n1 n2 st' := by
  unfold intersectNodes
  by_cases hm : n1.matches n2 = true
  · rw [if_pos hm]
    simp only [ENode.matches, Bool.and_eq_true, decide_eq_true_eq, beq_iff_eq] at hm
    obtain ⟨hop, hlen⟩ := hm
    obtain ⟨k1, k2, e1, e2, e3, e4⟩ := hin
    obtain ⟨pm', ps, q1, q2, q3, q4⟩ := productChildren_spec h1 h2 (n1.children.zip n2.children) st.1 (by
      intro x hx
      obtain ⟨hx1, hx2⟩ := List.of_mem_zip (a := x.1) (b := x.2) hx
      exact ⟨h1.core.clsNodeLt (sk_eq e1) e3 _ hx1, h2.core.clsNodeLt (sk_eq e2) e4 _ hx2⟩) hst.pm
    rw [q1, ok_bind]
    have hpl : ps.length = n1.children.length := by
      rw [← q4.length_eq, List.length_zip]; omega
    have hdrop : ps ++ n1.children.drop ps.length = ps := by rw [hpl, List.drop_length, List.append_nil]
    dsimp only
    rw [hdrop]
    have hent : Entry g1 g2 pm' c1 c2 n1 n2 (({ n1 with children := ps } : ENode Op), p) :=
      ⟨rfl, hop, hlen, q3 _ _ hp, q4⟩
    refine ⟨_, rfl, ⟨q2, ?_⟩, ⟨q3, ?_⟩, ?_⟩
    · intro x hx
      rcases List.mem_append.1 hx with hx | hx
      · obtain ⟨a, b, m1, m2, f1, f2⟩ := hst.sound x hx
        exact ⟨a, b, m1, m2, f1, f2.mono q3⟩
      · simp only [List.mem_singleton] at hx
        subst hx
        exact ⟨c1, c2, n1, n2, ⟨k1, k2, e1, e2, e3, e4⟩, hent⟩
    · intro x hx; exact List.mem_append_left _ hx
    · intro _ _; exact ⟨_, List.mem_append_right _ (List.mem_singleton_self _), hent⟩
  · rw [if_neg hm]
    refine ⟨st, rfl, hst, ProdLe.rfl' st, ?_⟩
    intro e1 e2
    exact absurd (by simp [ENode.matches, e1, e2]) hm

theorem intersectClasses_spec (h1 : Inv C1 g1) (h2 : Inv C2 g2) {c1 c2 : Id} {k1 : EClass Op D1} {k2 : EClass Op D2}
    (e1 : g1.classes.get? c1 = some k1) (e2 : g2.classes.get? c2 = some k2) {st : Product Op} (hst : ProdOK g1 g2 st) :
    ∃ st', intersectClasses g1 g2 c1 st c2 = .ok st' ∧ ProdOK g1 g2 st' ∧ ProdLe st st' ∧
      ∀ n1 n2, InClasses g1 g2 c1 c2 n1 n2 → Done g1 g2 c1 c2 n1 n2 st' := by
  unfold intersectClasses
  obtain ⟨q1, q2, q3⟩ := getProductId_spec hst.pm c1 c2
  generalize hgp : getProductId st.1 c1 c2 = gp at q1 q2 q3
  obtain ⟨pm, p⟩ := gp
  dsimp only at q1 q2 q3 ⊢
  simp only [unwrap_eq_ok.2 e1, unwrap_eq_ok.2 e2, ok_bind]
  have hst0 : ProdOK g1 g2 (pm, st.2) := by
    refine ⟨q1, fun x hx => ?_⟩
    obtain ⟨a, b, m1, m2, f1, f2⟩ := hst.sound x hx
    exact ⟨a, b, m1, m2, f1, f2.mono q2⟩
  obtain ⟨st', r1, r2, r3, r4⟩ := foldlM_inv (f := fun st n1 => k2.nodes.foldlM (intersectNodes g1 g2 p n1) st)
    (I := fun st => ProdOK g1 g2 st ∧ st.1.get? (c1, c2) = some p) (Le := ProdLe)
    (Dn := fun n1 st => ∀ n2 ∈ k2.nodes, Done g1 g2 c1 c2 n1 n2 st) ProdLe.rfl' ProdLe.trans'
    (fun h hl n2 hn2 => (h n2 hn2).mono hl) k1.nodes (by
      intro st n1 hn1 hI
      refine foldlM_inv (f := intersectNodes g1 g2 p n1) (I := fun st => ProdOK g1 g2 st ∧ st.1.get? (c1, c2) = some p)
        (Le := ProdLe) (Dn := fun n2 st => Done g1 g2 c1 c2 n1 n2 st) ProdLe.rfl' ProdLe.trans'
        (fun h hl => h.mono hl) k2.nodes (by
          intro st n2 hn2 hI
          obtain ⟨st', f1, f2, f3, f4⟩ := intersectNodes_spec h1 h2 ⟨k1, k2, e1, e2, hn1, hn2⟩ hI.1 hI.2
          exact ⟨st', f1, ⟨f2, f3.1 _ _ hI.2⟩, f3, f4⟩) st hI) (pm, st.2) ⟨hst0, q3⟩
  refine ⟨st', r1, r2.1, ProdLe.trans' (b := (pm, st.2)) ⟨q2, fun _ h => h⟩ r3, ?_⟩
  rintro n1 n2 ⟨k1', k2', f1, f2, f3, f4⟩
  rw [e1] at f1; cases f1
  rw [e2] at f2; cases f2
  exact r4 n1 f3 n2 f4

/-- The product of two e-graphs. -/
theorem product_spec (h1 : Inv C1 g1) (h2 : Inv C2 g2) {cs1 cs2 : List Id}
    (hc1 : ∀ c, c ∈ cs1 ↔ (g1.classes.get? c).isSome) (hc2 : ∀ c, c ∈ cs2 ↔ (g2.classes.get? c).isSome) :
    ∃ st, cs1.foldlM (fun st c1 => cs2.foldlM (intersectClasses g1 g2 c1) st) (([], []) : Product Op) = .ok st ∧
      ProdOK g1 g2 st ∧ ∀ c1 c2 n1 n2, InClasses g1 g2 c1 c2 n1 n2 → Done g1 g2 c1 c2 n1 n2 st := by
  obtain ⟨st, r1, r2, _, r4⟩ := foldlM_inv (f := fun st c1 => cs2.foldlM (intersectClasses g1 g2 c1) st)
    (I := fun st => ProdOK g1 g2 st) (Le := ProdLe)
    (Dn := fun c1 st => ∀ c2 ∈ cs2, ∀ n1 n2, InClasses g1 g2 c1 c2 n1 n2 → Done g1 g2 c1 c2 n1 n2 st) ProdLe.rfl' ProdLe.trans'
    (fun h hl c2 hc2 n1 n2 hin => (h c2 hc2 n1 n2 hin).mono hl) cs1 (by
      intro st c1 hm1 hI
      obtain ⟨k1, e1⟩ := Option.isSome_iff_exists.1 ((hc1 c1).1 hm1)
      refine foldlM_inv (f := intersectClasses g1 g2 c1) (I := fun st => ProdOK g1 g2 st)
        (Le := ProdLe) (Dn := fun c2 st => ∀ n1 n2, InClasses g1 g2 c1 c2 n1 n2 → Done g1 g2 c1 c2 n1 n2 st) ProdLe.rfl' ProdLe.trans'
        (fun h hl n1 n2 hin => (h n1 n2 hin).mono hl) cs2 (by
          intro st c2 hm2 hI
          obtain ⟨k2, e2⟩ := Option.isSome_iff_exists.1 ((hc2 c2).1 hm2)
          exact intersectClasses_spec h1 h2 e1 e2 hI) st hI) ([], []) ⟨PmOK.nil, fun x hx => by cases hx⟩
  refine ⟨st, r1, r2, ?_⟩
  rintro c1 c2 n1 n2 ⟨k1, k2, f1, f2, f3, f4⟩
  exact r4 c1 ((hc1 c1).2 (by rw [f1]; rfl)) c2 ((hc2 c2).2 (by rw [f2]; rfl)) n1 n2 ⟨k1, k2, f1, f2, f3, f4⟩

end EGraph
end Egg
