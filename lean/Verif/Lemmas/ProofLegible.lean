import Verif.Lemmas.ProofMade
import Verif.Lemmas.ProofEnds
import Verif.Lemmas.ExplainHist
/-
Explanations consist of operators of the e-graph and of reasons of unions.
-/
namespace Egg
variable {Op : Type} {T : OpText Op} {name : Symbol → List Char} {P : List Char → Prop}

/-- A term whose operators are legible with their numbers of arguments. -/
inductive Term.LegibleT (T : OpText Op) (P : List Char → Prop) : Term Op → Prop where
  | node {o args} : OpLegible T P o args.length → (∀ a ∈ args, LegibleT T P a) → LegibleT T P (.node o args)

theorem termOf_legible {nodes : List (ENode Op)} (hn : ∀ n ∈ nodes, OpLegible T P n.op n.children.length) {i : Id} {t : Term Op}
    (h : TermOf nodes i t) : t.LegibleT T P := by
  induction h with
  | @mk i n ts h1 h2 h3 ih =>
    refine .node ?_ ?_
    · rw [← h2]; exact hn n (List.mem_of_getElem? h1)
    · intro a ha
      obtain ⟨k, hk, rfl⟩ := List.mem_iff_getElem.1 ha
      exact ih k (n.children[k]'(by omega)) _ (List.getElem?_eq_getElem _) (List.getElem?_eq_getElem _)

theorem plain_legible {f : FlatTerm Op} (hf : f.Plain) (h : f.term.LegibleT T P) : f.Legible T name P := by
  induction hf with
  | @mk o cs _ ih =>
    rw [FlatTerm.term_eq] at h
    cases h with
    | node h1 h2 =>
      rw [List.length_map] at h1
      exact .mk h1.text h1.notKey h1.reads (by simp) (fun c hc => ih c hc (h2 _ (List.mem_map_of_mem hc)))

theorem oneRewrite_legible {Q : Symbol → Term Op → Term Op → Prop}
    (hQ : ∀ r s t, Q r s t → s.LegibleT T P ∧ t.LegibleT T P ∧ P (name r)) {s : Term Op} {f : FlatTerm Op} (h : OneRewrite Q s f)
    (hs : s.LegibleT T P) : f.Legible T name P ∧ f.term.LegibleT T P := by
  induction h with
  | @fwd s o r cs h1 h2 =>
    obtain ⟨_, b, c⟩ := hQ _ _ _ h2
    refine ⟨?_, b⟩
    rw [FlatTerm.term_eq] at b
    cases b with
    | node b1 b2 =>
      rw [List.length_map] at b1
      exact .mk b1.text b1.notKey b1.reads (by simp; exact c) (fun c hc => plain_legible (h1 c hc) (b2 _ (List.mem_map_of_mem hc)))
  | @bwd s o r cs h1 h2 =>
    obtain ⟨b, _, c⟩ := hQ _ _ _ h2
    refine ⟨?_, b⟩
    rw [FlatTerm.term_eq] at b
    cases b with
    | node b1 b2 =>
      rw [List.length_map] at b1
      exact .mk b1.text b1.notKey b1.reads (by simp; exact c) (fun c hc => plain_legible (h1 c hc) (b2 _ (List.mem_map_of_mem hc)))
  | @child s o pre c post h1 h2 _ ih =>
    cases hs with
    | node b1 b2 =>
      obtain ⟨k1, k2⟩ := ih (b2 s (by simp))
      have hl : (pre ++ c :: post).length = (pre.map FlatTerm.term ++ s :: post.map FlatTerm.term).length := by simp
      constructor
      · rw [← hl] at b1
        refine .mk b1.text b1.notKey b1.reads (by simp) ?_
        intro d hd
        rcases List.mem_append.1 hd with hd | hd
        · exact plain_legible (h1 d hd) (b2 _ (List.mem_append_left _ (List.mem_map_of_mem hd)))
        · rcases List.mem_cons.1 hd with rfl | hd
          · exact k1
          · exact plain_legible (h2 d hd) (b2 _ (List.mem_append_right _ (.tail _ (List.mem_map_of_mem hd))))
      · rw [FlatTerm.term_eq]
        refine .node (by rw [List.length_map, hl]; exact b1) ?_
        intro a ha
        obtain ⟨d, hd, rfl⟩ := List.mem_map.1 ha
        rcases List.mem_append.1 hd with hd | hd
        · exact b2 _ (List.mem_append_left _ (List.mem_map_of_mem hd))
        · rcases List.mem_cons.1 hd with rfl | hd
          · exact k2
          · exact b2 _ (List.mem_append_right _ (.tail _ (List.mem_map_of_mem hd)))

theorem rewrites_legible {Q : Symbol → Term Op → Term Op → Prop}
    (hQ : ∀ r s t, Q r s t → s.LegibleT T P ∧ t.LegibleT T P ∧ P (name r)) {s t : Term Op} {fl : List (FlatTerm Op)}
    (h : Rewrites Q s fl t) (hs : s.LegibleT T P) : ∀ f ∈ fl, f.Legible T name P := by
  induction h with
  | nil => simp
  | cons h1 _ ih =>
    obtain ⟨k1, k2⟩ := oneRewrite_legible hQ h1 hs
    intro f hf
    rcases List.mem_cons.1 hf with rfl | hf
    · exact k1
    · exact ih k2 f hf

theorem validFlat_legible {Q : Symbol → Term Op → Term Op → Prop}
    (hQ : ∀ r s t, Q r s t → s.LegibleT T P ∧ t.LegibleT T P ∧ P (name r)) {s t : Term Op} {fl : List (FlatTerm Op)}
    (h : ValidFlat Q s fl t) (hs : s.LegibleT T P) : ∀ f ∈ fl, f.Legible T name P := by
  obtain ⟨f, fs, rfl, h1, h2, h3⟩ := h
  intro g hg
  rcases List.mem_cons.1 hg with rfl | hg
  · exact plain_legible h1 (by rw [h2]; exact hs)
  · exact rewrites_legible hQ h3 hs g hg

/-- Any property of single nodes of a tree. -/
theorem RcTree.induct {R : TreeTerm Op → Prop} {t : RcTree Op}
    (h : ∀ u : RcTree Op, Occurs u t → (∀ q ∈ u.childProofs, ∀ v ∈ q, R v.tree) → R u.tree) : R t.tree := by
  have key : ∀ (n : Nat) (v : RcTree Op), sizeOf v < n → Occurs v t → R v.tree := by
    intro n
    induction n with
    | zero => intro v hv; omega
    | succ n ih =>
      intro v hv hocc
      refine h v hocc ?_
      intro q hq w hw
      obtain ⟨p, c, l, o, b, f, cps⟩ := v
      have a := List.sizeOf_lt_of_mem (show q ∈ cps from hq)
      have b := List.sizeOf_lt_of_mem hw
      simp only [RcTree.mk.sizeOf_spec] at hv
      exact ih w (by omega) (Occurs.trans (.child (show q ∈ cps from hq) hw .refl) hocc)
  exact key _ t (Nat.lt_succ_self _) .refl

theorem RcTree.legible_of_made {J : Symbol → Id → Id → Prop} {nodes : List (ENode Op)} {t : RcTree Op}
    (h : ∀ u, Occurs u t → Made J nodes u) (hn : ∀ n ∈ nodes, OpLegible T P n.op n.children.length)
    (hJ : ∀ r a b, J r a b → P (name r)) : t.tree.Legible T name P := by
  refine RcTree.induct (R := TreeTerm.Legible T name P) ?_
  intro u hu ih
  have hm := h u hu
  obtain ⟨n, hn', e1, e2⟩ := hm.ofNode
  obtain ⟨p, c, l, o, b, f, cps⟩ := u
  simp only [RcTree.op, RcTree.childProofs] at e1 e2
  have ho := hn n hn'
  rw [← e1, ← e2] at ho
  rw [tree_mk]
  refine .mk ho.text ho.notKey (by rw [List.length_map]; exact ho.reads) ?_ ?_
  · intro r hr
    rcases hr with hr | hr
    · exact hJ _ _ _ (hm.bwd r hr)
    · exact hJ _ _ _ (hm.fwd r hr)
  · intro q hq v hv
    obtain ⟨q', hq', rfl⟩ := List.mem_map.1 hq
    obtain ⟨v', hv', rfl⟩ := List.mem_map.1 hv
    exact ih q' hq' v' hv'

theorem TreeTerm.Legible.texts {t : TreeTerm Op} (h : t.Legible T name P) : t.Texts T name P := by
  induction h with
  | mk h1 _ _ h4 _ ih => exact .mk h1 h4 ih

namespace EGraph
variable {D : Type} [DecidableEq Op] [Lang Op] {C : Cfg Op D} {eg : EGraph Op D}

/-- The explanation with addresses. -/
theorem explainId_shared (hg : Good C eg) {ch : Explain.Choices} {fuel : Nat} {a b : Id} {p : List (TreeTerm Op)} {eg' : EGraph Op D}
    (he : eg.explainIdEquivalence ch fuel a b = .ok (p, eg')) :
    ∃ ts : List (RcTree Op), eg.explainIdShared ch fuel a b = .ok ts ∧ ts.map RcTree.tree = p ∧ RcTree.Shared ts ∧
      ∀ u : RcTree Op, u.OccursIn ts → RcTree.Made C.J eg.nodes u := by
  obtain ⟨ha, hb, hfind, x, x', hx, he', h1, h2, hc, cs, h3⟩ := explainId_ok hg he
  obtain ⟨L, hL⟩ := hg.inv.expl x hx
  obtain ⟨ts, cs', k1, k2, k3, k4⟩ := Explain.explainRc_ok hg.inv.core.dag (hL.edges h1.find h2) hb h3
  refine ⟨ts, ?_, k2, k3, k4⟩
  unfold explainIdEquivalence at he
  obtain ⟨l, hl, he⟩ := bind_eq_ok.1 he
  obtain ⟨r, hr, he⟩ := bind_eq_ok.1 he
  unfold explainIdShared
  rw [hl, hr]
  simp only [ok_bind]
  split at he
  · cases he
  · rename_i hne
    rw [if_neg hne]
    rw [hx] at he ⊢
    simp only at he ⊢
    obtain ⟨⟨p1, x1⟩, h4, h5⟩ := bind_eq_ok.1 he
    rw [he'] at h5
    cases h5
    unfold Explain.explainEquivalence at h4
    obtain ⟨x2, h6, h7⟩ := bind_eq_ok.1 h4
    obtain ⟨⟨p2, c2⟩, h8, h9⟩ := bind_eq_ok.1 h7
    cases h9
    rw [h6]
    simp only [ok_bind, k1]
    rfl

end EGraph
end Egg
