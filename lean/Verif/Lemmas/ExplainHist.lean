import Verif.Lemmas.CheckProof
import Verif.Lemmas.Closed
import Verif.Lemmas.ExplainPath
import Verif.Lemmas.ExplainTerm
import Verif.Lemmas.ShortFrame
import Verif.Lemmas.Hist
import Verif.Lemmas.AddAgain
/-
Explanations in reachable e-graphs.
-/
namespace Egg
variable {Op D : Type} [DecidableEq Op] [Lang Op]

omit [Lang Op] in
theorem XOk.edges {opt : Prop} {J : Symbol → Id → Id → Prop} {nodes : List (ENode Op)} {conn : Id → Id → Prop}
    {x x' : Explain Op} {L : List (Id × Id × Justification)} (h : XOk opt J nodes conn x L) (hf : x'.find = x.find)
    (hm : Explain.MemoLt nodes.length x') : EdgesOK J nodes.length x' := by
  refine ⟨by rw [hf]; exact h.inv.len, ?_, ?_, hm⟩
  · intro i e he hne
    rw [hf] at he
    obtain ⟨k, a, b, h1, h2, h3⟩ := h.inv.edge i e he hne
    have hab := h.inv.logLt a b _ (List.mem_of_getElem? h1)
    refine ⟨h2, ?_, ?_⟩
    · rcases h3 with ⟨_, _, h3⟩ | ⟨_, _, h3⟩ <;> rw [h3]
      · exact hab.2
      · exact hab.1
    · intro s hs
      rw [hs] at h1
      have := h.logJ a b s (List.mem_of_getElem? h1)
      rcases h3 with ⟨h3, rfl, h4⟩ | ⟨h3, rfl, h4⟩
      · rw [if_pos h3, h4]; exact this
      · rw [if_neg (by rw [h3]; decide), h4]; exact this
  · intro i e c he hc
    rw [hf] at he
    obtain ⟨h1, h2, _, h4⟩ := h.nb i e he c hc
    exact ⟨h1, h2, h4⟩

namespace EGraph
variable {C : Cfg Op D} {E : Err → Prop} {N : Analysis Op D} {eg : EGraph Op D}

omit [Lang Op] in
theorem cachesOK_nil {Q : Symbol → Term Op → Term Op → Prop} {nodes : List (ENode Op)} : Explain.CachesOK Q nodes ([], []) := by
  constructor
  · intro _ _ _ h; simp [AMap.get?] at h
  · intro _ _ h; simp [AMap.get?] at h

/-- Explanations that are returned are valid. -/
theorem explainId_valid (hg : Good C eg) {ch : Explain.Choices} {fuel : Nat} {a b : Id} {p : List (TreeTerm Op)} {eg' : EGraph Op D}
    (he : eg.explainIdEquivalence ch fuel a b = .ok (p, eg')) {Q : Symbol → Term Op → Term Op → Prop}
    (hQ : ∀ r a b s t, C.J r a b → TermOf eg.nodes a s → TermOf eg.nodes b t → Q r s t) :
    ∃ s t, TermOf eg.nodes a s ∧ TermOf eg.nodes b t ∧ ValidTree Q s p t := by
  obtain ⟨ha, hb, _, x, x', hx, _, h1, h2, _, cs, h3⟩ := explainId_ok hg he
  obtain ⟨L, hL⟩ := hg.inv.expl x hx
  obtain ⟨s, hs⟩ := hg.inv.core.dag.exists_term a ha
  obtain ⟨t, ht⟩ := hg.inv.core.dag.exists_term b hb
  exact ⟨s, t, hs, ht, ((Explain.explain_sound hg.inv.core.dag (hL.edges h1.find h2) hQ fuel).1 a b _ _ p hb h3
    cachesOK_nil).2 s t hs ht⟩

/-- Without optimization of lengths, every request about equal ids is answered. -/
theorem explainId_returns (hg : Good C eg) (hC : ¬ C.optimized) {x : Explain Op} (hx : eg.explain = some x)
    (ho : x.optimize = false) {a b : Id} (hab : SameClass eg a b) :
    ∃ f0, ∀ ch fuel, f0 ≤ fuel → ∃ p, eg.explainIdEquivalence ch fuel a b = .ok (p, eg) := by
  obtain ⟨ha, hb, hrt⟩ := hg.inv.sameClass_iff.1 hab
  obtain ⟨L, hL⟩ := hg.inv.expl x hx
  have hdm : Explain.DirectMemo x := by
    intro l r c nx hm
    obtain ⟨h1, e, nb, h2, h3, h4, s, h5⟩ := (hL.short l r c nx hm).2 hC
    exact ⟨h1, e, nb, h2, h3, h4, by rw [h5]; rfl⟩
  have hpg := Explain.direct_good hg.inv.core.dag hL.inv hdm
  obtain ⟨f0, hf0⟩ := Explain.explain_terminates hg.inv.core.dag hL.inv.logLt hpg _ _ a b ha hb
    ((hL.inv.logConn a b ha hb).2 hrt) rfl rfl
  refine ⟨f0, fun ch fuel hf => ?_⟩
  obtain ⟨p, cs, hp⟩ := hf0 fuel hf ([], [])
  refine ⟨p, ?_⟩
  unfold explainIdEquivalence
  simp only [hg.inv.find ha, hg.inv.find hb, ok_bind, hrt, ne_eq, not_true, if_false, hx]
  unfold Explain.explainEquivalence
  simp only [ho, Bool.false_eq_true, if_false, ok_bind, hp]
  simp only [pure, Except.pure, ok_bind]
  rw [← hx]

/-- Invariant of `add_instantiation_noncanonical`: the ids stand exactly for instances. -/
theorem addInstGo_exact (hN : HookOK C E N) (hq : QuietMod N) {e : PatternAst Op} (hd : Dag e) {s : Subst} {τ : Var → Term Op} :
    ∀ (rest : List (ENode (PatOp Op)))
    (eg : EGraph Op D) (pre : List (ENode (PatOp Op))) (ids : List Id) {eg' : EGraph Op D} {ids' : List Id}, e = pre ++ rest → ids.length = pre.length →
    Good C eg → eg.explain.isSome →
    (∀ v x, s.get v = some x → x < eg.nodes.length ∧ TermOf eg.nodes (eg.rt x) (τ v)) → (∀ n ∈ e, ∀ v, n.op = .var v → n.children = []) →
    (∀ (k : Nat) (j : Id), ids[k]? = some j → ∀ L, TermOf e k L → ∃ t, Inst τ L t ∧ TermOf eg.nodes j t) →
    addInstGo N s eg rest ids = .ok (eg', ids') → Good C eg' ∧ Cons eg eg' ∧ eg'.explain.isSome ∧ ids'.length = e.length ∧
    (∀ (k : Nat) (j : Id), ids'[k]? = some j → ∀ L, TermOf e k L → ∃ t, Inst τ L t ∧ TermOf eg'.nodes j t) := by
  intro rest
  induction rest with
  | nil =>
    intro eg pre ids eg' ids' he hl hg hx hs hv hi h
    cases h
    exact ⟨hg, Cons.refl _, hx, by simp [he, hl], hi⟩
  | cons n rest ih =>
    intro eg pre ids eg' ids' he hl hg hx hs hv hi h
    have hnk : e[ids.length]? = some n := by rw [he, hl]; simp
    have hnm : n ∈ e := by rw [he]; simp
    have hpush : ∀ (eg1 : EGraph Op D) (i : Id), (∀ j t, TermOf eg.nodes j t → TermOf eg1.nodes j t) →
        (∀ L, TermOf e ids.length L → ∃ t, Inst τ L t ∧ TermOf eg1.nodes i t) →
        ∀ (k : Nat) (j : Id), (ids ++ [i])[k]? = some j → ∀ L, TermOf e k L → ∃ t, Inst τ L t ∧ TermOf eg1.nodes j t := by
      intro eg1 i hmono hnew k j hk L hL
      rw [List.getElem?_append] at hk
      split at hk
      · obtain ⟨t, h1, h2⟩ := hi k j hk L hL
        exact ⟨t, h1, hmono _ _ h2⟩
      · have hk' : k = ids.length := by
          have := getElem?_lt hk
          simp at this; omega
        subst hk'
        simp at hk
        subst hk
        exact hnew L hL
    unfold addInstGo at h
    cases hop : n.op with
    | var v =>
      simp only [hop] at h
      obtain ⟨x, h1, h⟩ := bind_eq_ok.1 h
      obtain ⟨y, h2, h⟩ := bind_eq_ok.1 h
      have hx1 : s.get v = some x := unwrap_eq_ok.1 h1
      obtain ⟨hxl, hxt⟩ := hs v x hx1
      rw [hg.inv.find hxl] at h2
      cases h2
      refine ih eg (pre ++ [n]) (ids ++ [eg.rt x]) (by rw [he]; simp) (by simp [hl]) hg hx hs hv ?_ h
      refine hpush eg _ (fun _ _ h => h) (fun L hL => ⟨τ v, ?_, hxt⟩)
      obtain ⟨o, ts⟩ := L
      obtain ⟨n', g1, g2, g3⟩ := termOf_iff.1 hL
      rw [hnk] at g1; cases g1
      rw [hv n hnm v hop] at g3
      cases g3
      rw [← g2, hop]
      exact .var
    | op o =>
      simp only [hop] at h
      obtain ⟨m, hm, h⟩ := bind_eq_ok.1 h
      obtain ⟨⟨eg1, i⟩, h1, h'⟩ := bind_eq_ok.1 h
      clear h
      have hmm : m.op = o ∧ List.Forall₂ (fun c j => ids[c]? = some j) n.children m.children := by
        rw [ENode.mapChildrenM, bind_eq_ok] at hm
        obtain ⟨cs, h2, h3⟩ := hm
        cases h3
        rw [mapM_eq_ok] at h2
        exact ⟨rfl, forall₂_mono_mem h2 (fun a _ b _ hb => getIdx_eq_ok.1 hb)⟩
      have hmc : ∀ c ∈ m.children, c < eg.nodes.length := by
        intro c hc
        obtain ⟨b, hb1, hb⟩ := forall₂_mem_left (forall₂_flip hmm.2) hc
        have hbl : b < e.length := by have := hd _ _ hnk b hb1; have := getElem?_lt hnk; omega
        obtain ⟨L, hL⟩ := hd.exists_term b hbl
        obtain ⟨t, _, ht⟩ := hi b c hb L hL
        exact ht.lt
      obtain ⟨q1, q2, ni, q3, _, q5⟩ := (addUncanonical_post hN hg hmc).elim h1
      obtain ⟨c1, _⟩ := addUncanonical_quiet hq hg.inv hmc h1
      have q5 := q5 hx
      subst q5
      have hmono : ∀ j t, TermOf eg.nodes j t → TermOf eg1.nodes j t := by
        intro j t ht
        obtain ⟨l, hl⟩ := q2.nodes
        rw [hl]; exact ht.append
      have hrec := ih eg1 (pre ++ [n]) (ids ++ [i]) (by rw [he]; simp) (by simp [hl]) q1 (by rw [q2.expl]; exact hx)
        (fun v x hv => by
          obtain ⟨k1, k2⟩ := hs v x hv
          exact ⟨q2.lt k1, by rw [c1.rt x k1]; exact hmono _ _ k2⟩) hv
        (hpush eg1 i hmono (fun L hL => by
          obtain ⟨o', ps⟩ := L
          obtain ⟨n', g1, g2, g3⟩ := termOf_iff.1 hL
          rw [hnk] at g1; cases g1
          rw [hop] at g2; subst g2
          have hex : List.Forall₂ (fun c p => ∃ t, Inst τ p t ∧ TermOf eg.nodes c t) ni.children ps :=
            forall₂_comp (forall₂_flip hmm.2) g3 (fun a b c _ _ _ hab hbc => hi _ _ hab _ hbc)
          have : ∃ ts, List.Forall₂ (Inst τ) ps ts ∧ List.Forall₂ (TermOf eg.nodes) ni.children ts := by
            clear * - hex
            generalize ni.children = cs at hex
            induction hex with
            | nil => exact ⟨[], .nil, .nil⟩
            | cons h _ ih =>
              obtain ⟨t, h1, h2⟩ := h
              obtain ⟨ts, h3, h4⟩ := ih
              exact ⟨t :: ts, .cons h1 h3, .cons h2 h4⟩
          obtain ⟨ts, k1, k2⟩ := this
          refine ⟨.node o ts, ?_, ?_⟩
          · obtain ⟨k3, k4⟩ := forall₂_iff_get?.1 k1
            exact .node k3 k4
          · rw [termOf_iff]
            exact ⟨ni, q3, hmm.1, forall₂_mono_mem k2 (fun _ _ _ _ h => hmono _ _ h)⟩)) h'
      obtain ⟨r1, r2, r3, r4, r5⟩ := hrec
      exact ⟨r1, c1.trans r2, r3, r4, r5⟩

theorem addInst_exact (hN : HookOK C E N) (hq : QuietMod N) {e : PatternAst Op} (hw : PatWF e) {s : Subst} {τ : Var → Term Op}
    {eg' : EGraph Op D} {i : Id} (hg : Good C eg) (hx : eg.explain.isSome)
    (hs : ∀ v x, s.get v = some x → x < eg.nodes.length ∧ TermOf eg.nodes (eg.rt x) (τ v))
    (h : addInstantiationNoncanonical N eg e s = .ok (eg', i)) : Good C eg' ∧ Cons eg eg' ∧ eg'.explain.isSome ∧
    ∀ L, ExprTerm e L → ∃ t, Inst τ L t ∧ TermOf eg'.nodes i t := by
  unfold addInstantiationNoncanonical at h
  obtain ⟨⟨eg1, ids⟩, h1, h⟩ := bind_eq_ok.1 h
  obtain ⟨j, h2, h⟩ := bind_eq_ok.1 h
  cases h
  obtain ⟨g1, g2, g3, g4, g5⟩ := addInstGo_exact (τ := τ) hN hq hw.1.2 e eg [] [] rfl rfl hg hx hs hw.2 (by simp) h1
  refine ⟨g1, g2, g3, fun L hL => g5 (e.length - 1) i ?_ L hL.2⟩
  rw [unwrap_eq_ok] at h2
  rw [List.getLast?_eq_getElem?, g4] at h2
  exact h2

end EGraph
end Egg
