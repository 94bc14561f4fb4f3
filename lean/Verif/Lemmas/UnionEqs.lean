import Verif.Lemmas.IdToExpr
/-
The unions recorded in the proof forest imply all equalities of the e-graph.
-/
namespace Egg
variable {Op D : Type} [DecidableEq Op] [Lang Op]

omit [Lang Op] in
theorem XOk.monoJ {opt opt' : Prop} {J J' : Symbol → Id → Id → Prop} {nodes : List (ENode Op)} {conn : Id → Id → Prop}
    {x : Explain Op} {L : List (Id × Id × Justification)} (h : XOk opt J nodes conn x L)
    (hJ : ∀ s a b, J s a b → J' s a b) (ho : opt → opt') : XOk opt' J' nodes conn x L := by
  refine ⟨h.inv, ?_, fun l r c nx hg => ⟨(h.short l r c nx hg).1, fun h' => (h.short l r c nx hg).2 (fun h0 => h' (ho h0))⟩, fun a b s hs => hJ _ _ _ (h.logJ a b s hs), h.logNb⟩
  intro i e he c hc
  obtain ⟨h1, h2, h3, h4⟩ := h.nb i e he c hc
  refine ⟨h1, h2, h3, fun s hs => ?_⟩
  have := h4 s hs
  split
  · rename_i hf; rw [if_pos hf] at this; exact hJ _ _ _ this
  · rename_i hf; rw [if_neg hf] at this; exact hJ _ _ _ this

/-- The equations between the terms of the ids listed in `l`. -/
def EqsAt (nodes : List (ENode Op)) (l : List (Id × Id × Symbol)) : Term Op → Term Op → Prop :=
  fun s t => ∃ a b r, (a, b, r) ∈ l ∧ TermOf nodes a s ∧ TermOf nodes b t

omit [Lang Op] in
theorem XOk.mem_unionEqualities {opt : Prop} {J : Symbol → Id → Id → Prop} {nodes : List (ENode Op)} {conn : Id → Id → Prop}
    {x : Explain Op} {L : List (Id × Id × Justification)} (h : XOk opt J nodes conn x L) {a b : Id} {r : Symbol}
    (hm : (a, b, r) ∈ x.unionEqualities) : J r a b ∧ a < nodes.length ∧ b < nodes.length ∧ conn a b := by
  simp only [Explain.unionEqualities, List.mem_flatMap, List.mem_filterMap] at hm
  obtain ⟨e, he, c, hc, hq⟩ := hm
  obtain ⟨i, hi⟩ := List.getElem?_of_mem he
  obtain ⟨h1, h2, h3, h4⟩ := h.nb i e hi c hc
  split at hq
  · rename_i hf
    cases hj : c.justification with
    | congruence => rw [hj] at hq; cases hq
    | rule s =>
      rw [hj] at hq
      simp only [Option.some.injEq, Prod.mk.injEq] at hq
      obtain ⟨rfl, rfl, rfl⟩ := hq
      have := h4 s hj
      rw [if_pos hf] at this
      rw [h1]
      exact ⟨this, by rw [← h.inv.len]; exact getElem?_lt hi, h2, h3⟩
  · cases hq

omit [Lang Op] in
theorem XOk.log_mem {opt : Prop} {J : Symbol → Id → Id → Prop} {nodes : List (ENode Op)} {conn : Id → Id → Prop}
    {x : Explain Op} {L : List (Id × Id × Justification)} (h : XOk opt J nodes conn x L) {a b : Id} {r : Symbol}
    (hm : (a, b, Justification.rule r) ∈ L) : (a, b, r) ∈ x.unionEqualities := by
  obtain ⟨⟨e, he, hc⟩, _⟩ := h.logNb a b (.rule r) hm
  simp only [Explain.unionEqualities, List.mem_flatMap, List.mem_filterMap]
  exact ⟨e, List.mem_of_getElem? he, _, hc, by simp⟩

omit [Lang Op] in
/-- Ids connected by the log have terms that are equal by the recorded rules. -/
theorem XOk.geq {opt : Prop} {J : Symbol → Id → Id → Prop} {nodes : List (ENode Op)} {conn : Id → Id → Prop}
    {x : Explain Op} {L : List (Id × Id × Justification)} (h : XOk opt J nodes conn x L) (hd : Dag nodes) :
    ∀ k, k ≤ L.length → ∀ i j s t, Conn (L.take k) i j → TermOf nodes i s → TermOf nodes j t →
      GEq (EqsAt nodes x.unionEqualities) s t := by
  intro k
  induction k with
  | zero =>
    intro _ i j s t hc hs ht
    have e0 : ∀ a b, Conn [] a b → a = b := by
      intro a b h
      induction h with
      | rel a b h => obtain ⟨_, h⟩ := h; cases h
      | refl => rfl
      | symm _ _ _ ih => exact ih.symm
      | trans _ _ _ _ _ ih1 ih2 => exact ih1.trans ih2
    have : i = j := e0 i j (by simpa using hc)
    subst this
    rw [hs.unique ht]
    exact .refl _
  | succ k ih =>
    intro hk i j s t hc hs ht
    obtain ⟨⟨a, b, ju⟩, hab⟩ : ∃ y, L[k]? = some y := ⟨_, List.getElem?_eq_getElem (by omega)⟩
    have htake : L.take (k + 1) = L.take k ++ [(a, b, ju)] := by
      rw [List.take_add_one, hab]; rfl
    rw [htake, conn_append] at hc
    obtain ⟨hal, hbl⟩ := h.inv.logLt a b ju (List.mem_of_getElem? hab)
    obtain ⟨ta, hta⟩ := hd.exists_term a hal
    obtain ⟨tb, htb⟩ := hd.exists_term b hbl
    have hkey : GEq (EqsAt nodes x.unionEqualities) ta tb := by
      cases ju with
      | rule r => exact .ax ⟨a, b, r, h.log_mem (List.mem_of_getElem? hab), hta, htb⟩
      | congruence =>
        obtain ⟨na, nb, h1, h2, h3, h4⟩ := h.inv.logCongr k a b hab
        cases hta with
        | @mk _ n ss g1 g2 g3 =>
          cases htb with
          | @mk _ m ts f1 f2 f3 =>
            rw [h1] at g1; cases g1
            rw [h2] at f1; cases f1
            rw [h3]
            refine .congr _ (by rw [← g2, ← f2, h4.length_eq]) ?_
            intro q s' t' hs' ht'
            have hql : q < na.children.length := by rw [g2]; exact getElem?_lt hs'
            have hqr : q < nb.children.length := by rw [f2]; exact getElem?_lt ht'
            exact ih (by omega) _ _ _ _ ((forall₂_iff_get?.1 h4).2 q _ _ (List.getElem?_eq_getElem hql)
              (List.getElem?_eq_getElem hqr)) (g3 q _ _ (List.getElem?_eq_getElem hql) hs')
              (f3 q _ _ (List.getElem?_eq_getElem hqr) ht')
    rcases hc with hc | ⟨h1, h2⟩ | ⟨h1, h2⟩
    · exact ih (by omega) i j s t hc hs ht
    · exact (ih (by omega) _ _ _ _ h1 hs hta).trans (hkey.trans (ih (by omega) _ _ _ _ h2 htb ht))
    · exact (ih (by omega) _ _ _ _ h1 hs htb).trans (hkey.symm.trans (ih (by omega) _ _ _ _ h2 hta ht))

namespace EGraph

/-- The invariant for the equality generated by the recorded unions. -/
theorem InvW.recorded {W : Id → Id → Prop} {C : Cfg Op D} {eg : EGraph Op D} (h : InvW W C eg) {x : Explain Op}
    (hx : eg.explain = some x) :
    InvW W (Cfg.ofR (GEq (EqsAt eg.nodes x.unionEqualities)) .geq (fun _ _ _ => True)) eg := by
  refine ⟨h.wf, h.len, h.memoNodup, h.clsNodup, h.core, h.apq, ?_, ?_⟩
  · obtain ⟨L, hL⟩ := h.expl x hx
    intro i j s t hij hs ht
    refine hL.geq h.core.dag L.length (Nat.le_refl _) i j s t ?_ hs ht
    rw [List.take_length]
    exact (hL.inv.logConn i j hs.lt ht.lt).2 hij
  · intro x' hx'
    obtain ⟨L, hL⟩ := h.expl x' hx'
    exact ⟨L, hL.monoJ (fun _ _ _ _ => trivial) (fun _ => trivial)⟩

end EGraph
end Egg
