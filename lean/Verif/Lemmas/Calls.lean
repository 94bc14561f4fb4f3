import Verif.Lemmas.Below
import Verif.Lemmas.AddExpr
/-
Programs made of `add_expr`, `union` and `rebuild`.
-/
namespace Egg
variable {Op D D' : Type} [DecidableEq Op] [Lang Op]

namespace EGraph
variable {C : Cfg Op D} {E : Err → Prop} {N : Analysis Op D} {eg eg' : EGraph Op D}

/-- The class returned by `add` represents the term of the e-node. -/
theorem addUncanonical_rep (hN : HookOK C E N) (hg : Good C eg) {m : ENode Op} {i : Id} {ts : List (Term Op)}
    (hts : List.Forall₂ (Rep eg) m.children ts) (h : addUncanonical N eg m = .ok (eg', i)) : Rep eg' i (.node m.op ts) := by
  have hml : ∀ c ∈ m.children, c < eg.nodes.length := by
    intro c hc
    obtain ⟨t, _, ht⟩ := forall₂_mem_left hts hc
    exact hg.inv.rep_lt ht
  obtain ⟨h1, h2, ni, h3, h4, h5⟩ := (addUncanonical_post hN hg hml).elim h
  have hgrow := h2.grow hg h1
  have hrep : List.Forall₂ (Rep eg') m.children ts := forall₂_mono_mem hts (fun a t _ _ ha => hgrow.rep _ _ ha)
  have hnl : ∀ c ∈ ni.children, c < eg'.nodes.length := fun c hc => h1.inv.core.childLt h3 hc
  have hrep' := h1.inv.rep_children hnl h4.symm hrep
  obtain ⟨s, n2, q1, q2, q3⟩ := h1.inv.core.nodesCls i ni h3
  obtain ⟨k2, hk2, rfl⟩ := cls_of_sk q1
  rw [h1.inv.rep_iff]
  refine ⟨getElem?_lt h3, k2, n2, hk2, q2, ?_, ?_⟩
  · rw [q3.1, h4.1]
  · exact h1.inv.rep_children (h1.inv.core.clsNodeLt q1 q2) q3.symm hrep'

end EGraph

variable {M : EGraph Op D'} {hM : Full M} {eg eg' : EGraph Op D} {A : UserAnalysis Op D} {depth : Nat}

open EGraph in
theorem Under.addExprGo (hA : ∀ i, A.modify i = .done) {e : List (ENode Op)} (hd : Dag e) (hin : ∀ k t, TermOf e k t → ∃ d, Rep M d t) :
    ∀ (rest : List (ENode Op)) (eg : EGraph Op D) (pre : List (ENode Op)) (ids : List Id) (eg' : EGraph Op D) (ids' : List Id),
    e = pre ++ rest → ids.length = pre.length → Under M hM eg → IdsOK eg e ids →
    EGraph.addExprGo (A.at depth) eg rest ids = .ok (eg', ids') → Under M hM eg' ∧ Ext eg eg' ∧ IdsOK eg' e ids' ∧ ids'.length = e.length := by
  have hN := (soundFor_of_quiet hA (RelIn M) hM.cong).hookOK trivial depth
  intro rest
  induction rest with
  | nil =>
    intro eg pre ids eg' ids' he hl hu hi h
    cases h
    exact ⟨hu, Ext.refl _, hi, by simp [he, hl]⟩
  | cons n rest ih =>
    intro eg pre ids eg' ids' he hl hu hi h
    have hnk : e[ids.length]? = some n := by rw [he, hl]; simp
    have hlt : ids.length < e.length := getElem?_lt hnk
    unfold EGraph.addExprGo at h
    obtain ⟨m, hm, h⟩ := bind_eq_ok.1 h
    rw [mapChildrenM_getIdx] at hm
    obtain ⟨⟨eg1, i⟩, ha, h⟩ := bind_eq_ok.1 h
    obtain ⟨t, ht⟩ := hd.exists_term _ hlt
    have key : ∀ t, TermOf e ids.length t → ∃ ts, t = .node m.op ts ∧ List.Forall₂ (Rep eg) m.children ts := by
      intro t ht
      cases t with
      | node op ts =>
        rw [termOf_iff] at ht
        obtain ⟨n', g1, g2, g3⟩ := ht
        rw [hnk] at g1; cases g1
        exact ⟨ts, by rw [hm.1, g2], forall₂_comp (forall₂_flip hm.2) g3 (fun a b c _ _ _ hab hbc => (hi _ _ hab).2 c hbc)⟩
    obtain ⟨ts, rfl, hts⟩ := key t ht
    obtain ⟨d, hdd⟩ := hin _ _ ht
    obtain ⟨hu1, hx1⟩ := hu.add hA hts hdd ha
    have hgrow := hx1.grow hu.good hu1.good
    obtain ⟨q1, q2, q3⟩ := ih eg1 (pre ++ [n]) (ids ++ [i]) eg' ids' (by simp [he]) (by simp [hl]) hu1 (by
      intro k j hj
      rw [List.getElem?_append] at hj
      split at hj
      · exact (hi.grow hgrow) k j hj
      · rename_i hk
        have hkk : k = ids.length := by
          rcases Nat.eq_or_lt_of_le (not_lt.1 hk) with h | h
          · exact h.symm
          · rw [List.getElem?_eq_none (by simp; omega)] at hj; cases hj
        subst hkk
        simp at hj
        subst hj
        exact ⟨hu1.good.inv.rep_lt (addUncanonical_rep hN hu.good hts ha), fun t ht => by
          obtain ⟨ts, rfl, hts⟩ := key t ht
          exact addUncanonical_rep hN hu.good hts ha⟩) h
    exact ⟨q1, hx1.trans q2, q3⟩

open EGraph in
/-- Adding an expression all of whose subterms are in `M`. -/
theorem Under.addExpr (hA : ∀ i, A.modify i = .done) {e : List (ENode Op)} (hw : WFExpr e) (hin : ∀ k t, TermOf e k t → ∃ d, Rep M d t)
    (hu : Under M hM eg) {i : Id} (h : EGraph.addExpr (A.at depth) eg e = .ok (eg', i)) :
    Under M hM eg' ∧ Ext eg eg' ∧ ∀ t, ExprTerm e t → Rep eg' i t := by
  have hN := (soundFor_of_quiet hA (RelIn M) hM.cong).hookOK trivial depth
  obtain ⟨k1, k2, -, -, k5⟩ := (addExpr_post hN (Or.inl hw) hu.good).elim h
  refine ⟨?_, k2, k5⟩
  unfold EGraph.addExpr at h
  obtain ⟨⟨eg1, j⟩, h1, h⟩ := bind_eq_ok.1 h
  obtain ⟨r, hr, h⟩ := bind_eq_ok.1 h
  cases h
  unfold EGraph.addExprUncanonical at h1
  obtain ⟨⟨eg1, ids⟩, h2, h1⟩ := bind_eq_ok.1 h1
  obtain ⟨j, hj, h1⟩ := bind_eq_ok.1 h1
  cases h1
  exact (Under.addExprGo hA hw.2 hin e eg [] [] _ _ rfl rfl hu (fun k i h => by simp at h) h2).1

/-- What `M` knows after the call. -/
def Call.Holds (M : EGraph Op D') : Call Op → Prop
  | .addExpr e => ∀ k t, TermOf e k t → ∃ d, Rep M d t
  | .union e1 e2 _ => (∀ k t, TermOf e1 k t → ∃ d, Rep M d t) ∧ (∀ k t, TermOf e2 k t → ∃ d, Rep M d t) ∧
      ∀ s t, ExprTerm e1 s → ExprTerm e2 t → ∃ d, Rep M d s ∧ Rep M d t
  | .unionTrusted e1 e2 _ => (∀ k t, TermOf e1 k t → ∃ d, Rep M d t) ∧ (∀ k t, TermOf e2 k t → ∃ d, Rep M d t) ∧
      ∀ s t, ExprTerm e1 s → ExprTerm e2 t → ∃ d, Rep M d s ∧ Rep M d t
  | .rebuild => True

theorem Call.Holds.grow {c : Call Op} (h : c.Holds eg) (hg : EGraph.Grow eg eg') : c.Holds eg' := by
  cases c with
  | addExpr e => exact fun k t ht => (h k t ht).imp (fun d hd => hg.rep _ _ hd)
  | union e1 e2 r =>
    exact ⟨fun k t ht => (h.1 k t ht).imp (fun d hd => hg.rep _ _ hd), fun k t ht => (h.2.1 k t ht).imp (fun d hd => hg.rep _ _ hd),
      fun s t hs ht => (h.2.2 s t hs ht).imp (fun d hd => ⟨hg.rep _ _ hd.1, hg.rep _ _ hd.2⟩)⟩
  | unionTrusted e1 e2 r =>
    exact ⟨fun k t ht => (h.1 k t ht).imp (fun d hd => hg.rep _ _ hd), fun k t ht => (h.2.1 k t ht).imp (fun d hd => hg.rep _ _ hd),
      fun s t hs ht => (h.2.2 s t hs ht).imp (fun d hd => ⟨hg.rep _ _ hd.1, hg.rep _ _ hd.2⟩)⟩
  | rebuild => trivial

open EGraph in
theorem addExpr_holds {C : Cfg Op D} {E : Err → Prop} {N : Analysis Op D} (hN : HookOK C E N) {e : List (ENode Op)} (hw : WFExpr e)
    (hg : Good C eg) {i : Id} (h : EGraph.addExpr N eg e = .ok (eg', i)) :
    Good C eg' ∧ Ext eg eg' ∧ (∀ k t, TermOf e k t → ∃ d, Rep eg' d t) ∧ ∀ t, ExprTerm e t → Rep eg' i t := by
  obtain ⟨k1, k2, -, -, k5⟩ := (addExpr_post hN (Or.inl hw) hg).elim h
  refine ⟨k1, k2, ?_, k5⟩
  unfold EGraph.addExpr at h
  obtain ⟨⟨eg1, j⟩, h1, h⟩ := bind_eq_ok.1 h
  obtain ⟨r, hr, h⟩ := bind_eq_ok.1 h
  cases h
  unfold EGraph.addExprUncanonical at h1
  obtain ⟨⟨eg1, ids⟩, h2, h1⟩ := bind_eq_ok.1 h1
  obtain ⟨j, hj, h1⟩ := bind_eq_ok.1 h1
  cases h1
  obtain ⟨-, -, q3, q4⟩ := (addExprGo_post hN (Or.inl hw.2) e eg [] [] rfl rfl hg (fun k i h => by simp at h)).elim h2
  intro k t ht
  have hk : k < ids.length := lt_of_lt_of_eq ht.lt (show ids.length = e.length from q4).symm
  exact ⟨ids[k], (q3 k _ (List.getElem?_eq_getElem hk)).2 t ht⟩

open EGraph in
theorem Call.run_holds {C : Cfg Op D} {E : Err → Prop} (hE : E .fuel) {N : Analysis Op D} (hN : HookOK C E N) (hC : ∀ s t, C.R s t)
    (hJ : ∀ r a b, C.J r a b) {c : Call Op} (hw : c.WF) {fuel : Nat} (hg : Good C eg) (h : c.run N fuel eg = .ok eg') :
    Good C eg' ∧ Ext eg eg' ∧ c.Holds eg' := by
  have un : ∀ {e1 e2 : List (ENode Op)} {g1 g2 g3 : EGraph Op D} {a b : Id} {did : Bool} {r : Symbol}, WFExpr e1 → WFExpr e2 →
      EGraph.addExpr N eg e1 = .ok (g1, a) → EGraph.addExpr N g1 e2 = .ok (g2, b) →
      (g2.union N a b r = .ok (g3, did) ∨ g2.unionTrusted N a b r = .ok (g3, did)) →
      Good C g3 ∧ Ext eg g3 ∧ (∀ k t, TermOf e1 k t → ∃ d, Rep g3 d t) ∧ (∀ k t, TermOf e2 k t → ∃ d, Rep g3 d t) ∧
        ∀ s t, ExprTerm e1 s → ExprTerm e2 t → ∃ d, Rep g3 d s ∧ Rep g3 d t := by
    intro e1 e2 g1 g2 g3 a b did r w1 w2 h1 h2 h3
    obtain ⟨k1, k2, k3, k4⟩ := addExpr_holds hN w1 hg h1
    obtain ⟨l1, l2, l3, l4⟩ := addExpr_holds hN w2 k1 h2
    have gr1 := l2.grow k1 l1
    obtain ⟨s, hs⟩ : ∃ s, ExprTerm e1 s := (Dag.exists_term w1.2 _ (by have := List.length_pos_iff.2 w1.1; omega)).imp (fun s hs => ⟨w1.1, hs⟩)
    obtain ⟨t, ht⟩ : ∃ t, ExprTerm e2 t := (Dag.exists_term w2.2 _ (by have := List.length_pos_iff.2 w2.1; omega)).imp (fun s hs => ⟨w2.1, hs⟩)
    have hp := Good.union_post (caller := r) hN l1 (gr1.rep _ _ (k4 s hs)) (l4 t ht) (hC s t) (hJ r a b)
    obtain ⟨m1, m2, m3⟩ : Good C g3 ∧ Ext g2 g3 ∧ g3.rt a = g3.rt b := by
      rcases h3 with h3 | h3
      · obtain ⟨m1, m2, m3, -⟩ := hp.1.elim h3; exact ⟨m1, m2, m3⟩
      · obtain ⟨m1, m2, m3, -⟩ := hp.2.elim h3; exact ⟨m1, m2, m3⟩
    have gr2 := m2.grow l1 m1
    refine ⟨m1, (k2.trans l2).trans m2, fun k t ht => (k3 k t ht).imp (fun d hd => gr2.rep _ _ (gr1.rep _ _ hd)),
      fun k t ht => (l3 k t ht).imp (fun d hd => gr2.rep _ _ hd), fun s t hs ht => ?_⟩
    have r1 := gr2.rep _ _ (gr1.rep _ _ (k4 s hs))
    have r2 := gr2.rep _ _ (l4 t ht)
    exact ⟨a, r1, m1.inv.rep_congr (m1.inv.rep_lt r1) m3.symm r2⟩
  cases c with
  | addExpr e =>
    obtain ⟨⟨g, i⟩, h1, h⟩ := bind_eq_ok.1 h
    cases h
    obtain ⟨k1, k2, k3, -⟩ := addExpr_holds hN hw hg h1
    exact ⟨k1, k2, k3⟩
  | union e1 e2 r =>
    obtain ⟨⟨g1, a⟩, h1, h⟩ := bind_eq_ok.1 h
    obtain ⟨⟨g2, b⟩, h2, h⟩ := bind_eq_ok.1 h
    obtain ⟨⟨g3, d⟩, h3, h⟩ := bind_eq_ok.1 h
    cases h
    exact un hw.1 hw.2 h1 h2 (Or.inl h3)
  | unionTrusted e1 e2 r =>
    obtain ⟨⟨g1, a⟩, h1, h⟩ := bind_eq_ok.1 h
    obtain ⟨⟨g2, b⟩, h2, h⟩ := bind_eq_ok.1 h
    obtain ⟨⟨g3, d⟩, h3, h⟩ := bind_eq_ok.1 h
    cases h
    exact un hw.1 hw.2 h1 h2 (Or.inr h3)
  | rebuild =>
    obtain ⟨⟨g, i⟩, h1, h⟩ := bind_eq_ok.1 h
    cases h
    obtain ⟨k1, k2, -⟩ := (rebuild_post hE hN _ hg).elim h1
    exact ⟨k1, k2, trivial⟩

open EGraph in
theorem runCalls_holds {C : Cfg Op D} {E : Err → Prop} (hE : E .fuel) {N : Analysis Op D} (hN : HookOK C E N) (hC : ∀ s t, C.R s t)
    (hJ : ∀ r a b, C.J r a b) {fuel : Nat} : ∀ {cs : List (Call Op)} {eg : EGraph Op D}, (∀ c ∈ cs, c.WF) → Good C eg → runCalls N fuel eg cs = .ok eg' →
    Good C eg' ∧ Ext eg eg' ∧ Tidy eg' ∧ ∀ c ∈ cs, c.Holds eg' := by
  intro cs
  induction cs with
  | nil =>
    intro eg _ hg h
    obtain ⟨⟨g, i⟩, h1, h⟩ := bind_eq_ok.1 h
    cases h
    obtain ⟨k1, k2, k3, -⟩ := (rebuild_post hE hN _ hg).elim h1
    exact ⟨k1, k2, k3, by simp⟩
  | cons c cs ih =>
    intro eg hw hg h
    obtain ⟨g, h1, h⟩ := bind_eq_ok.1 h
    obtain ⟨k1, k2, k3⟩ := Call.run_holds hE hN hC hJ (hw c (by simp)) hg h1
    obtain ⟨l1, l2, l3, l4⟩ := ih (fun c hc => hw c (by simp [hc])) k1 h
    refine ⟨l1, k2.trans l2, l3, fun d hd => ?_⟩
    rcases List.mem_cons.1 hd with rfl | hd
    · exact k3.grow (l2.grow k1 l1)
    · exact l4 d hd

/-- A call all of whose equalities are known to `M`. -/
theorem Under.call (hA : ∀ i, A.modify i = .done) {c : Call Op} (hw : c.WF) (hc : c.Holds M) (hu : Under M hM eg) {fuel : Nat}
    (h : c.run (A.at depth) fuel eg = .ok eg') : Under M hM eg' := by
  have un : ∀ {e1 e2 : List (ENode Op)} {g1 g2 g3 : EGraph Op D} {a b : Id} {did : Bool} {r : Symbol}, WFExpr e1 → WFExpr e2 →
      ((∀ k t, TermOf e1 k t → ∃ d, Rep M d t) ∧ (∀ k t, TermOf e2 k t → ∃ d, Rep M d t) ∧
        ∀ s t, ExprTerm e1 s → ExprTerm e2 t → ∃ d, Rep M d s ∧ Rep M d t) →
      EGraph.addExpr (A.at depth) eg e1 = .ok (g1, a) → EGraph.addExpr (A.at depth) g1 e2 = .ok (g2, b) →
      (g2.union (A.at depth) a b r = .ok (g3, did) ∨ g2.unionTrusted (A.at depth) a b r = .ok (g3, did)) → Under M hM g3 := by
    intro e1 e2 g1 g2 g3 a b did r w1 w2 hc h1 h2 h3
    obtain ⟨k1, k2, k3⟩ := hu.addExpr hA w1 hc.1 h1
    obtain ⟨l1, l2, l3⟩ := k1.addExpr hA w2 hc.2.1 h2
    obtain ⟨s, hs⟩ : ∃ s, ExprTerm e1 s := (Dag.exists_term w1.2 _ (by have := List.length_pos_iff.2 w1.1; omega)).imp (fun s hs => ⟨w1.1, hs⟩)
    obtain ⟨t, ht⟩ : ∃ t, ExprTerm e2 t := (Dag.exists_term w2.2 _ (by have := List.length_pos_iff.2 w2.1; omega)).imp (fun s hs => ⟨w2.1, hs⟩)
    obtain ⟨d, hd1, hd2⟩ := hc.2.2 s t hs ht
    exact (l1.union hA ((l2.grow k1.good l1.good).rep _ _ (k3 s hs)) (l3 t ht) hd1 hd2 ⟨r, h3⟩).1
  cases c with
  | addExpr e =>
    obtain ⟨⟨g, i⟩, h1, h⟩ := bind_eq_ok.1 h
    cases h
    exact (hu.addExpr hA hw hc h1).1
  | union e1 e2 r =>
    obtain ⟨⟨g1, a⟩, h1, h⟩ := bind_eq_ok.1 h
    obtain ⟨⟨g2, b⟩, h2, h⟩ := bind_eq_ok.1 h
    obtain ⟨⟨g3, d⟩, h3, h⟩ := bind_eq_ok.1 h
    cases h
    exact un hw.1 hw.2 hc h1 h2 (Or.inl h3)
  | unionTrusted e1 e2 r =>
    obtain ⟨⟨g1, a⟩, h1, h⟩ := bind_eq_ok.1 h
    obtain ⟨⟨g2, b⟩, h2, h⟩ := bind_eq_ok.1 h
    obtain ⟨⟨g3, d⟩, h3, h⟩ := bind_eq_ok.1 h
    cases h
    exact un hw.1 hw.2 hc h1 h2 (Or.inr h3)
  | rebuild =>
    obtain ⟨⟨g, i⟩, h1, h⟩ := bind_eq_ok.1 h
    cases h
    exact hu.rebuild hA h1

theorem Under.calls (hA : ∀ i, A.modify i = .done) {fuel : Nat} : ∀ {cs : List (Call Op)} {eg : EGraph Op D}, (∀ c ∈ cs, c.WF) →
    (∀ c ∈ cs, c.Holds M) → Under M hM eg → runCalls (A.at depth) fuel eg cs = .ok eg' → Under M hM eg' := by
  intro cs
  induction cs with
  | nil => intro eg _ _ hu h; exact hu.call (c := .rebuild) hA trivial trivial h
  | cons c cs ih =>
    intro eg hw hc hu h
    obtain ⟨g, h1, h⟩ := bind_eq_ok.1 h
    exact ih (fun c h => hw c (by simp [h])) (fun c h => hc c (by simp [h])) (hu.call hA (hw c (by simp)) (hc c (by simp)) h1) h

end Egg
