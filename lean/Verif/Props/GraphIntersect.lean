import Verif.Lemmas.FromEnodes
import Verif.Props.GraphUnion
/-
C37: `egraph_intersect` keeps exactly the equalities that hold in both e-graphs.
-/
namespace Egg
variable {Op D D1 D2 : Type} [DecidableEq Op] [Lang Op]

namespace EGraph
variable {C1 : Cfg Op D1} {C2 : Cfg Op D2} {g1 : EGraph Op D1} {g2 : EGraph Op D2} {st : Product Op}

/-- The entry of the product made from an e-node determines its class. -/
theorem ProdOK.functional (h1 : Inv C1 g1) (h2 : Inv C2 g2) (hc1 : Closed g1) (hc2 : Closed g2) (h : ProdOK g1 g2 st) :
    ∀ n p q, (n, p) ∈ st.2 → (n, q) ∈ st.2 → p = q := by
  intro n p q hp hq
  obtain ⟨a1, a2, n1, n2, ⟨k1, k2, e1, e2, e3, e4⟩, ha⟩ := h.sound _ hp
  obtain ⟨b1, b2, m1, m2, ⟨l1, l2, f1, f2, f3, f4⟩, hb⟩ := h.sound _ hq
  have hz : List.Forall₂ (fun x y : Id × Id => g1.rt x.1 = g1.rt y.1 ∧ g2.rt x.2 = g2.rt y.2)
      (n1.children.zip n2.children) (m1.children.zip m2.children) := by
    refine forall₂_comp ha.ch (forall₂_flip hb.ch) ?_
    intro x r y _ _ _ hx hy
    have := h.pm.inj _ _ _ hx hy
    exact ⟨congrArg Prod.fst this, congrArg Prod.snd this⟩
  have hfst : n1.children.map g1.rt = m1.children.map g1.rt := by
    have := forall₂_map_eq.1 (forall₂_mono_mem hz (fun x y _ _ h => h.1) : List.Forall₂ (fun x y : Id × Id => g1.rt x.1 = g1.rt y.1) _ _)
    have e1 : (n1.children.zip n2.children).map Prod.fst = n1.children := List.map_fst_zip (by have := ha.len; omega)
    have e2 : (m1.children.zip m2.children).map Prod.fst = m1.children := List.map_fst_zip (by have := hb.len; omega)
    rw [← e1, ← e2, List.map_map, List.map_map]; exact this
  have hsnd : n2.children.map g2.rt = m2.children.map g2.rt := by
    have := forall₂_map_eq.1 (forall₂_mono_mem hz (fun x y _ _ h => h.2) : List.Forall₂ (fun x y : Id × Id => g2.rt x.2 = g2.rt y.2) _ _)
    have e1 : (n1.children.zip n2.children).map Prod.snd = n2.children := List.map_snd_zip (by have := ha.len; omega)
    have e2 : (m1.children.zip m2.children).map Prod.snd = m2.children := List.map_snd_zip (by have := hb.len; omega)
    rw [← e1, ← e2, List.map_map, List.map_map]; exact this
  have c1 : a1 = b1 := by
    obtain ⟨i, n', i1, i2, i3⟩ := h1.core.clsNodes _ _ (sk_eq e1) n1 e3
    obtain ⟨j, m', j1, j2, j3⟩ := h1.core.clsNodes _ _ (sk_eq f1) m1 f3
    rw [← i2, ← j2]
    exact hc1.congr i1 j1 (i3.symm.trans (Cong.trans ⟨ha.op1.symm.trans hb.op1, hfst⟩ j3))
  have c2 : a2 = b2 := by
    obtain ⟨i, n', i1, i2, i3⟩ := h2.core.clsNodes _ _ (sk_eq e2) n2 e4
    obtain ⟨j, m', j1, j2, j3⟩ := h2.core.clsNodes _ _ (sk_eq f2) m2 f4
    rw [← i2, ← j2]
    exact hc2.congr i1 j1 (i3.symm.trans (Cong.trans ⟨ha.op2.symm.trans hb.op2, hsnd⟩ j3))
  have hpa := ha.pair
  have hpb := hb.pair
  rw [c1, c2, hpb] at hpa
  injection hpa with hpa
  exact hpa.symm

variable {res : EGraph Op D} {ids : AMap Id Id}

/-- Terms of the result are terms of the two classes of the product. -/
theorem rep_of_product (h1 : Inv C1 g1) (h2 : Inv C2 g2) (h : ProdOK g1 g2 st) (hf : FInv st.2 res ids) :
    ∀ (s : Term Op) {c : Id}, Rep res c s → ∃ p c1 c2, ids.get? p = some (res.rt c) ∧ st.1.get? (c1, c2) = some p ∧
      (g1.rt c1 = c1 ∧ g2.rt c2 = c2) ∧ Rep g1 c1 s ∧ Rep g2 c2 s := by
  intro s
  induction s using Term.ind with
  | h op ts ih =>
    intro c hr
    rw [hf.good.inv.rep_iff] at hr
    obtain ⟨hcl, k, n, r1, r2, r3, r4⟩ := hr
    obtain ⟨i, m, i1, i2, i3⟩ := hf.good.inv.core.clsNodes _ _ (sk_eq r1) n r2
    obtain ⟨x, x1, x2, x3, x4⟩ := hf.node i m i1
    obtain ⟨c1, c2, n1, n2, ⟨k1, k2, e1, e2, e3, e4⟩, he⟩ := h.sound x x1
    have q1 := (h1.core.clsKey c1).1 (by simp [sk, e1])
    have q2 := (h2.core.clsKey c2).1 (by simp [sk, e2])
    refine ⟨x.2, c1, c2, by rw [x2, i2], he.pair, ⟨q1.2, q2.2⟩, ?_⟩
    -- children
    have hcc : List.Forall₂ (fun a b => res.rt a = res.rt b) n.children m.children := forall₂_map_eq.2 i3.2
    have hch : List.Forall₂ (fun (t : Term Op) (y : Id × Id) => Rep g1 y.1 t ∧ Rep g2 y.2 t) ts (n1.children.zip n2.children) := by
      have s1 : List.Forall₂ (fun (t : Term Op) (b : Id) => Rep res b t) ts m.children := by
        refine forall₂_comp (forall₂_flip r4) hcc ?_
        intro t a b _ _ hb ha hab
        exact hf.good.inv.rep_congr (hf.good.inv.core.childLt i1 hb) hab ha
      have s2 : List.Forall₂ (fun (t : Term Op) (q : Id) => ∃ b, Rep res b t ∧ ids.get? q = some b) ts x.1.children :=
        forall₂_comp s1 x4 (fun t b q _ _ _ h1 h2 => ⟨b, h1, h2⟩)
      refine forall₂_comp s2 (forall₂_flip he.ch) ?_
      rintro t q y ht _ hy ⟨b, b1, b2⟩ b3
      obtain ⟨p', d1, d2, p1, p2, _, p3, p4⟩ := ih t ht b1
      rw [(hf.root _ _ b2).2] at p1
      have e := hf.inj _ _ _ p1 b2
      subst e
      have e := h.pm.inj _ _ _ p2 b3
      injection e with e5 e6
      obtain ⟨y1, y2⟩ := List.of_mem_zip (a := y.1) (b := y.2) hy
      have l1 := h1.core.clsNodeLt (sk_eq e1) e3 _ y1
      have l2 := h2.core.clsNodeLt (sk_eq e2) e4 _ y2
      exact ⟨h1.rep_congr l1 (by rw [e5, h1.core.rtIdem]) p3, h2.rep_congr l2 (by rw [e6, h2.core.rtIdem]) p4⟩
    have z1 : (n1.children.zip n2.children).map Prod.fst = n1.children := List.map_fst_zip (by have := he.len; omega)
    have z2 : (n1.children.zip n2.children).map Prod.snd = n2.children := List.map_snd_zip (by have := he.len; omega)
    constructor
    · rw [h1.rep_iff]
      refine ⟨q1.1, k1, n1, by rw [q1.2]; exact e1, e3, ?_, ?_⟩
      · rw [← he.op1, ← x3, ← r3, i3.1]
      · rw [← z1, List.forall₂_map_left_iff]
        exact forall₂_flip (forall₂_mono_mem hch (fun _ _ _ _ h => h.1))
    · rw [h2.rep_iff]
      refine ⟨q2.1, k2, n2, by rw [q2.2]; exact e2, e4, ?_, ?_⟩
      · rw [← he.op2, ← x3, ← r3, i3.1]
      · rw [← z2, List.forall₂_map_left_iff]
        exact forall₂_flip (forall₂_mono_mem hch (fun _ _ _ _ h => h.2))

/-- Terms of two classes are terms of the result. -/
theorem product_of_rep (h1 : Inv C1 g1) (h2 : Inv C2 g2) (hf : FInv st.2 res ids)
    (hdone : ∀ c1 c2 n1 n2, InClasses g1 g2 c1 c2 n1 n2 → Done g1 g2 c1 c2 n1 n2 st)
    (hrep : ∀ x ∈ st.2, Repd res ids x) :
    ∀ (s : Term Op) {c1 c2 : Id}, Rep g1 c1 s → Rep g2 c2 s → ∃ p r, st.1.get? (g1.rt c1, g2.rt c2) = some p ∧
      ids.get? p = some r ∧ Rep res r s := by
  intro s
  induction s using Term.ind with
  | h op ts ih =>
    intro c1 c2 r1 r2
    rw [h1.rep_iff] at r1
    rw [h2.rep_iff] at r2
    obtain ⟨_, k1, n1, e1, e3, o1, ch1⟩ := r1
    obtain ⟨_, k2, n2, e2, e4, o2, ch2⟩ := r2
    obtain ⟨x, x1, he⟩ := hdone _ _ n1 n2 ⟨k1, k2, e1, e2, e3, e4⟩ (o1.trans o2.symm) (by rw [ch1.length_eq, ch2.length_eq])
    have hch : List.Forall₂ (fun (q : Id) (t : Term Op) => ∃ r, ids.get? q = some r ∧ Rep res r t) x.1.children ts := by
      have z : List.Forall₂ (fun (y : Id × Id) (t : Term Op) => Rep g1 y.1 t ∧ Rep g2 y.2 t) (n1.children.zip n2.children) ts := by
        clear he e3 e4 ih o1 o2
        generalize n1.children = l1 at ch1
        generalize n2.children = l2 at ch2
        induction ch1 generalizing l2 with
        | nil => cases ch2; exact .nil
        | cons a _ ih => cases ch2 with | cons b bs => exact .cons ⟨a, b⟩ (ih _ bs)
      refine forall₂_comp (forall₂_flip he.ch) z ?_
      rintro q y t _ _ ht hq ⟨y1, y2⟩
      obtain ⟨p, r, p1, p2, p3⟩ := ih t ht y1 y2
      rw [hq] at p1; cases p1
      exact ⟨r, p2, p3⟩
    obtain ⟨i, m, i1, i2, i3, i4⟩ := hrep x x1 (by
      intro q hq
      obtain ⟨t, _, r, h, _⟩ := forall₂_mem_left hch hq
      rw [h]; rfl)
    refine ⟨x.2, _, he.pair, i2, ?_⟩
    have hil := getElem?_lt i1
    have hmc : List.Forall₂ (Rep res) m.children ts := by
      refine forall₂_comp i4 hch ?_
      rintro c q t _ _ _ hq ⟨r, q1, q2⟩
      rw [hq] at q1; cases q1
      exact q2
    have := hf.good.rep_node i1 (Cong.refl _) hmc
    rw [i3, ← he.op1.symm, o1] at this
    exact hf.good.inv.rep_congr (hf.good.inv.core.rtLt _ hil) (by rw [hf.good.inv.core.rtIdem]) this

theorem fromEnodesLoop_mono {N : Analysis Op D} {E : List (ENode Op × Id)} : ∀ (n : Nat) (s : FromEnodes Op D) (r : EGraph Op D),
    fromEnodesLoop N E n s = .ok r → ∀ m, n ≤ m → fromEnodesLoop N E m s = .ok r := by
  intro n
  induction n with
  | zero => intro s r h; cases h
  | succ n ih =>
    intro s r h m hm
    obtain ⟨m, rfl⟩ : ∃ m', m = m' + 1 := ⟨m - 1, by omega⟩
    unfold fromEnodesLoop at h ⊢
    rw [bind_eq_ok] at h
    obtain ⟨⟨s', did⟩, e1, e2⟩ := h
    rw [e1, ok_bind]
    dsimp only at e2 ⊢
    cases did with
    | true => simp only [if_true] at e2 ⊢; exact ih _ _ e2 _ (by omega)
    | false => exact e2

theorem egraphIntersect_mono {N : Analysis Op D} {cs1 cs2 : List Id} {n m : Nat} {r : EGraph Op D}
    (h : egraphIntersect N n g1 g2 cs1 cs2 = .ok r) (hm : n ≤ m) : egraphIntersect N m g1 g2 cs1 cs2 = .ok r := by
  unfold egraphIntersect at h ⊢
  rw [bind_eq_ok] at h
  obtain ⟨⟨pm, E⟩, e1, e2⟩ := h
  rw [e1, ok_bind]
  exact fromEnodesLoop_mono _ _ _ e2 _ hm

end EGraph

section
variable {A : UserAnalysis Op D} {depth : Nat} {A1 : UserAnalysis Op D1} {A2 : UserAnalysis Op D2} {depth1 depth2 : Nat}
  {allow : Caller Op D}
  {allow1 : Caller Op D1} {allow2 : Caller Op D2} {U1 U2 : List (UnionRec Op)}
  {g1 g1' : EGraph Op D1} {g2 g2' : EGraph Op D2} {fuel1 fuel2 k1 k2 : Nat} {cs1 cs2 : List Id}

/-- `res` represents the terms that both e-graphs represent, and two of its ids are in the same
class iff terms that they represent are equal in both. -/
def IsIntersection (g1 : EGraph Op D1) (g2 : EGraph Op D2) (res : EGraph Op D) : Prop :=
  (∀ s, (∃ c, Rep res c s) ↔ (∃ a, Rep g1 a s) ∧ (∃ b, Rep g2 b s)) ∧
  (∀ a b s t, Rep res a s → Rep res b t → (SameClass res a b ↔ EqIn g1 s t ∧ EqIn g2 s t))

/-- **C37**: the intersection of two rebuilt e-graphs, in whatever order their classes are visited
(`cs1`, `cs2`): from some amount of fuel on `egraph_intersect` returns, and the result, reached by
ordinary API calls, is the intersection: it represents the terms represented by both, and makes
two of them equal iff both e-graphs do.  (The analysis of the result must not have a `modify` hook
that acts; its `make` must return.  The two e-graphs may have any analysis.) -/
theorem c37_intersect (hA : TotalQuiet A)
    (h1 : Hist (A1.at depth1) allow1 U1 g1') (r1 : EGraph.rebuild (A1.at depth1) fuel1 g1' = .ok (g1, k1))
    (h2 : Hist (A2.at depth2) allow2 U2 g2') (r2 : EGraph.rebuild (A2.at depth2) fuel2 g2' = .ok (g2, k2))
    (hc1 : cs1.Perm g1.classes.keys) (hc2 : cs2.Perm g2.classes.keys) :
    ∃ f0 res U, (∀ fuel, f0 ≤ fuel → EGraph.egraphIntersect (A.at (depth + 1)) fuel g1 g2 cs1 cs2 = .ok res) ∧
      Hist (A.at (depth + 1)) allow U res ∧ IsIntersection g1 g2 res := by
  have i1 := hist_good (Steps.tail (V := []) h1 (.rebuild r1) : Hist (A1.at depth1) allow1 U1 g1)
  have i2 := hist_good (Steps.tail (V := []) h2 (.rebuild r2) : Hist (A2.at depth2) allow2 U2 g2)
  have p1 : g1.pending = [] := ((EGraph.rebuild_post trivial ((soundFor_true A1).hookOK trivial depth1) fuel1 (hist_good h1)).elim r1).2.2.1.pending
  have p2 : g2.pending = [] := ((EGraph.rebuild_post trivial ((soundFor_true A2).hookOK trivial depth2) fuel2 (hist_good h2)).elim r2).2.2.1.pending
  have hm : ∀ (D : Type) (g : EGraph Op D) (cs : List Id), cs.Perm g.classes.keys → ∀ c, c ∈ cs ↔ (g.classes.get? c).isSome := by
    intro D g cs h c
    rw [h.mem_iff, AMap.get?_isSome_iff]
  obtain ⟨st, s1, s2, s3⟩ := EGraph.product_spec i1.inv i2.inv (hm _ _ _ hc1) (hm _ _ _ hc2)
  have hE := s2.functional i1.inv i2.inv (EGraph.closed_of_pending i1.inv p1) (EGraph.closed_of_pending i2.inv p2)
  have hloop := fun fuel hlt => EGraph.fromEnodesLoop_spec hA depth allow hE fuel (EGraph.new : EGraph Op D) [] EGraph.FInv.new hlt
  obtain ⟨res, ids, l1, hf, ⟨U, l3⟩, hrep⟩ := hloop (st.2.length + 1) (by omega)
  refine ⟨st.2.length + 1, res, U, ?_, l3, ?_, ?_⟩
  · intro fuel hfu
    unfold EGraph.egraphIntersect
    rw [s1, ok_bind]
    exact EGraph.fromEnodesLoop_mono _ _ _ l1 fuel hfu
  · intro s
    constructor
    · rintro ⟨c, hc⟩
      obtain ⟨p, c1, c2, _, _, _, q1, q2⟩ := EGraph.rep_of_product i1.inv i2.inv s2 hf s hc
      exact ⟨⟨_, q1⟩, ⟨_, q2⟩⟩
    · rintro ⟨⟨a, ha⟩, ⟨b, hb⟩⟩
      obtain ⟨p, r, _, _, hr⟩ := EGraph.product_of_rep i1.inv i2.inv hf s3 hrep s ha hb
      exact ⟨r, hr⟩
  · intro a b s t ha hb
    obtain ⟨p, c1, c2, a1, a2, a5, a3, a4⟩ := EGraph.rep_of_product i1.inv i2.inv s2 hf s ha
    obtain ⟨q, d1, d2, b1, b2, b5, b3, b4⟩ := EGraph.rep_of_product i1.inv i2.inv s2 hf t hb
    rw [hf.good.inv.sameClass_iff]
    constructor
    · rintro ⟨_, _, e⟩
      rw [e] at a1
      have e := hf.inj _ _ _ a1 b1
      subst e
      have e := s2.pm.inj _ _ _ a2 b2
      injection e with e1 e2
      subst e1 e2
      exact ⟨⟨_, a3, b3⟩, ⟨_, a4, b4⟩⟩
    · rintro ⟨⟨x, x1, x2⟩, ⟨y, y1, y2⟩⟩
      refine ⟨hf.good.inv.rep_lt ha, hf.good.inv.rep_lt hb, ?_⟩
      obtain ⟨p', r, z1, z2, z3⟩ := EGraph.product_of_rep i1.inv i2.inv hf s3 hrep s x1 y1
      obtain ⟨p'', r', w1, w2, w3⟩ := EGraph.product_of_rep i1.inv i2.inv hf s3 hrep t x2 y2
      rw [z1] at w1; cases w1
      rw [z2] at w2; cases w2
      have key : ∀ (u : Term Op) {a b : Id}, Rep res a u → Rep res b u → res.rt a = res.rt b := by
        intro u a b ha hb
        obtain ⟨p, c1, c2, a1, a2, a5, a3, a4⟩ := EGraph.rep_of_product i1.inv i2.inv s2 hf u ha
        obtain ⟨q, d1, d2, b1, b2, b5, b3, b4⟩ := EGraph.rep_of_product i1.inv i2.inv s2 hf u hb
        have e1 := EGraph.InvW.rep_unique i1.inv p1 u a3 b3
        have e2 := EGraph.InvW.rep_unique i2.inv p2 u a4 b4
        rw [a5.1, b5.1] at e1
        rw [a5.2, b5.2] at e2
        rw [e1, e2, b2] at a2
        cases a2
        rw [a1] at b1
        injection b1
      rw [key s ha z3, key t hb w3]

/-- **C37**, when the result is rebuilt it is still the intersection. -/
theorem c37_intersect_rebuilt (hA : TotalQuiet A)
    (h1 : Hist (A1.at depth1) allow1 U1 g1') (r1 : EGraph.rebuild (A1.at depth1) fuel1 g1' = .ok (g1, k1))
    (h2 : Hist (A2.at depth2) allow2 U2 g2') (r2 : EGraph.rebuild (A2.at depth2) fuel2 g2' = .ok (g2, k2))
    (hc1 : cs1.Perm g1.classes.keys) (hc2 : cs2.Perm g2.classes.keys) {fuel fuel' k : Nat} {res res' : EGraph Op D}
    (hi : EGraph.egraphIntersect (A.at (depth + 1)) fuel g1 g2 cs1 cs2 = .ok res)
    (hr : EGraph.rebuild (A.at (depth + 1)) fuel' res = .ok (res', k)) : IsIntersection g1 g2 res' := by
  have hi1 := hist_good (Steps.tail (V := []) h1 (.rebuild r1) : Hist (A1.at depth1) allow1 U1 g1)
  have hi2 := hist_good (Steps.tail (V := []) h2 (.rebuild r2) : Hist (A2.at depth2) allow2 U2 g2)
  have p1 : g1.pending = [] := ((EGraph.rebuild_post trivial ((soundFor_true A1).hookOK trivial depth1) fuel1 (hist_good h1)).elim r1).2.2.1.pending
  have p2 : g2.pending = [] := ((EGraph.rebuild_post trivial ((soundFor_true A2).hookOK trivial depth2) fuel2 (hist_good h2)).elim r2).2.2.1.pending
  obtain ⟨U, hU, q1, q2⟩ : ∃ U, Hist (A.at (depth + 1)) .noSet U res ∧ IsIntersection g1 g2 res := by
    obtain ⟨f0, res0, U, k1, k2, k3⟩ := c37_intersect (depth := depth) (allow := .noSet) hA h1 r1 h2 r2 hc1 hc2
    have : res = res0 := by
      have e1 := EGraph.egraphIntersect_mono hi (Nat.le_max_left fuel f0)
      rw [k1 _ (Nat.le_max_right fuel f0)] at e1
      cases e1; rfl
    subst this
    exact ⟨U, k2, k3⟩
  have hR1 : ∀ s t, EqIn g1 s t → ∀ c, Rep g1 c s ↔ Rep g1 c t := by
    rintro s t ⟨c, x1, x2⟩ d
    exact ⟨fun hd => hi1.inv.rep_congr (hi1.inv.rep_lt hd) (EGraph.InvW.rep_unique hi1.inv p1 _ hd x1).symm x2,
      fun hd => hi1.inv.rep_congr (hi1.inv.rep_lt hd) (EGraph.InvW.rep_unique hi1.inv p1 _ hd x2).symm x1⟩
  have hR2 : ∀ s t, EqIn g2 s t → ∀ c, Rep g2 c s ↔ Rep g2 c t := by
    rintro s t ⟨c, x1, x2⟩ d
    exact ⟨fun hd => hi2.inv.rep_congr (hi2.inv.rep_lt hd) (EGraph.InvW.rep_unique hi2.inv p2 _ hd x1).symm x2,
      fun hd => hi2.inv.rep_congr (hi2.inv.rep_lt hd) (EGraph.InvW.rep_unique hi2.inv p2 _ hd x2).symm x1⟩
  have hcg : IsCongruence (fun s t : Term Op => (∀ c, Rep g1 c s ↔ Rep g1 c t) ∧ (∀ c, Rep g2 c s ↔ Rep g2 c t)) := by
    have a := rebuilt_congruence hi1
    have b := rebuilt_congruence hi2
    exact ⟨fun s => ⟨a.refl s, b.refl s⟩, fun h => ⟨a.symm h.1, b.symm h.2⟩, fun h h' => ⟨a.trans h.1 h'.1, b.trans h.2 h'.2⟩,
      fun op {ss ts} h => ⟨a.congr op (forall₂_mono_mem h (fun _ _ _ _ h => h.1)), b.congr op (forall₂_mono_mem h (fun _ _ _ _ h => h.2))⟩⟩
  have hs := soundFor_of_quiet hA.quiet _ hcg
  have hUR : ∀ s t, eqsOf U s t → (∀ c, Rep g1 c s ↔ Rep g1 c t) ∧ (∀ c, Rep g2 c s ↔ Rep g2 c t) := by
    rintro s t ⟨u, hu, rfl, rfl⟩
    obtain ⟨x1, x2, x3⟩ := (hist_good_of_sound (soundFor_true A) hU (fun _ _ _ => trivial)).2 u hu
    have hg := hist_good hU
    have := (q2 _ _ _ _ x1 x2).1 (hg.inv.sameClass_iff.2 ⟨hg.inv.rep_lt x1, hg.inv.rep_lt x2, x3⟩)
    exact ⟨hR1 _ _ this.1, hR2 _ _ this.2⟩
  obtain ⟨hg, _⟩ := hist_good_of_sound hs hU hUR
  have hstep : Steps (A.at (depth + 1)) .noSet res [] res' := .tail (V := []) .refl (.rebuild hr)
  obtain ⟨hg', -⟩ := hist_good_of_sound hs (Steps.tail (V := []) hU (.rebuild hr) : Hist _ _ U res') hUR
  have hp : res'.pending = [] := ((EGraph.rebuild_post trivial (hs.hookOK trivial (depth + 1)) fuel' hg).elim hr).2.2.1.pending
  have hgrow := (steps_grow hstep (hist_good hU)).2
  have hnodes : res'.nodes = res.nodes := EGraph.rebuild_nodes hA.quietMod hr
  -- every term of the result is equal in both e-graphs to one that was there before
  have hback : ∀ a s, Rep res' a s → ∃ s0, Rep res a s0 ∧ Rep res' a s0 ∧
      (∀ c, Rep g1 c s ↔ Rep g1 c s0) ∧ (∀ c, Rep g2 c s ↔ Rep g2 c s0) := by
    intro a s ha
    have hal := hg'.inv.rep_lt ha
    obtain ⟨s0, hs0⟩ := hg.inv.core.dag.exists_term a (by rw [← hnodes]; exact hal)
    have h0 := hg.inv.rep_of_termOf s0 hs0
    refine ⟨s0, h0, hgrow.rep _ _ h0, ?_⟩
    exact hcg.symm (hg'.inv.rep_sound s ha (by rw [hnodes]; exact hs0))
  constructor
  · intro s
    constructor
    · rintro ⟨c, hc⟩
      obtain ⟨s0, x1, _, x3, x4⟩ := hback c s hc
      obtain ⟨⟨a, ha⟩, ⟨b, hb⟩⟩ := (q1 s0).1 ⟨c, x1⟩
      exact ⟨⟨a, (x3 a).2 ha⟩, ⟨b, (x4 b).2 hb⟩⟩
    · intro h
      obtain ⟨c, hc⟩ := (q1 s).2 h
      exact ⟨c, hgrow.rep _ _ hc⟩
  · intro a b s t ha hb
    constructor
    · intro hab
      have := hg'.sensible.sound a b s t hab ha hb
      obtain ⟨s0, x1, _, x3, x4⟩ := hback a s ha
      obtain ⟨⟨c, hc⟩, ⟨d, hd⟩⟩ := (q1 s0).1 ⟨a, x1⟩
      have hc := (x3 c).2 hc
      have hd := (x4 d).2 hd
      exact ⟨⟨c, hc, (this.1 c).1 hc⟩, ⟨d, hd, (this.2 d).1 hd⟩⟩
    · rintro ⟨⟨c, c1, c2⟩, ⟨d, d1, d2⟩⟩
      obtain ⟨x, hx⟩ := (q1 s).2 ⟨⟨c, c1⟩, ⟨d, d1⟩⟩
      obtain ⟨y, hy⟩ := (q1 t).2 ⟨⟨c, c2⟩, ⟨d, d2⟩⟩
      have hxy := (q2 x y s t hx hy).2 ⟨⟨c, c1, c2⟩, ⟨d, d1, d2⟩⟩
      obtain ⟨l1, l2, l3⟩ := hg.inv.sameClass_iff.1 hxy
      rw [hg'.inv.sameClass_iff]
      refine ⟨hg'.inv.rep_lt ha, hg'.inv.rep_lt hb, ?_⟩
      rw [EGraph.InvW.rep_unique hg'.inv hp s ha (hgrow.rep _ _ hx), EGraph.InvW.rep_unique hg'.inv hp t hb (hgrow.rep _ _ hy)]
      exact hgrow.rt x y l1 l2 l3

end

namespace Ex

/-- `a`, `b`, `f a`, `f b` with `f a = f b` only. -/
def i5 : G := st (EGraph.union N0 e4 2 3 8)
def i6 : G := st (EGraph.rebuild N0 20 i5)
/-- The intersection with the e-graph where also `a = b`. -/
def gi : G := match EGraph.egraphIntersect N0 20 e6 i6 e6.classes.keys i6.classes.keys with | .ok g => g | .error _ => e4

/-- Hypotheses of C37 are met; in the intersection `f a = f b` holds and `a = b` does not. -/
example : TotalQuiet U0 ∧ Hist (U0.at 1) .noSet [un] e5 ∧ EGraph.rebuild (U0.at 1) 20 e5 = .ok (e6, 1) ∧
    Hist (U0.at 1) .noSet [⟨8, 2, 3, tfa, tfb⟩] i5 ∧ EGraph.rebuild (U0.at 1) 20 i5 = .ok (i6, 0) ∧
    EGraph.egraphIntersect (U0.at 1) 20 e6 i6 e6.classes.keys i6.classes.keys = .ok gi ∧
    gi.nodes = [leaf .a, leaf .b, app .f [0], app .f [1]] ∧ SameClass gi 2 3 ∧ ¬ SameClass gi 0 1 :=
  ⟨⟨fun _ _ _ _ _ => ⟨(), rfl⟩, fun _ _ _ _ _ => ⟨(), rfl⟩, fun _ => rfl⟩, hist5 _, rfl,
    .tail (V := [⟨8, 2, 3, tfa, tfb⟩]) (hist4 _) (.union (r := true)
      (rep_app1 (i := 0) rfl rfl (by decide) (rep_leaf rfl rfl (by decide)))
      (rep_app1 (i := 1) rfl rfl (by decide) (rep_leaf rfl rfl (by decide))) rfl), rfl, rfl, rfl,
    ⟨_, rfl, rfl⟩, (by rintro ⟨r, h1, h2⟩; cases h1; cases h2)⟩

end Ex
end Egg
