import Verif.Model.Mapper
import Verif.Lemmas.Hist
import Verif.Spec.Structure
/-
Lemmas about `map_egraph`.
-/
namespace Egg

namespace AMap
variable {K V : Type} [DecidableEq K]

theorem nodup_foldl_insert : ∀ (l : List (K × V)) (m : AMap K V), (keys m).Nodup →
    (keys (l.foldl (fun m kv => AMap.insert m kv.1 kv.2) m)).Nodup
  | [], _, h => h
  | x :: l, m, h => nodup_foldl_insert l _ (nodup_insert h x.1 x.2)

theorem nodup_ofList (l : List (K × V)) : (keys (ofList l)).Nodup := nodup_foldl_insert l [] List.nodup_nil

theorem get?_ofList_reverse (k : K) : ∀ (l : List (K × V)), get? (ofList l.reverse) k = get? l k
  | [] => rfl
  | (k', v) :: l => by
    have ih := get?_ofList_reverse k l
    unfold ofList at ih ⊢
    rw [List.reverse_cons, List.foldl_append, List.foldl_cons, List.foldl_nil, get?_insert, ih]
    rfl

theorem get?_map_inj {K2 V2 : Type} [DecidableEq K2] (g : K → K2) (hg : Function.Injective g) (h : V → V2) :
    ∀ (m : AMap K V) (k : K), get? (m.map fun kv => (g kv.1, h kv.2)) (g k) = (get? m k).map h
  | [], k => rfl
  | (k', v) :: m, k => by
    simp only [List.map_cons, get?, hg.eq_iff]
    split
    · rfl
    · exact get?_map_inj g hg h m k

theorem get?_map_some {K2 V2 : Type} [DecidableEq K2] (g : K → K2) (h : V → V2) {m : AMap K V}
    {k2 : K2} {v2 : V2} (hh : get? (m.map fun kv => (g kv.1, h kv.2)) k2 = some v2) :
    ∃ k v, k2 = g k ∧ v2 = h v ∧ (k, v) ∈ m := by
  have := mem_of_get? hh
  simp only [List.mem_map, Prod.mk.injEq, Prod.exists] at this
  obtain ⟨k, v, hm, rfl, rfl⟩ := this
  exact ⟨k, v, rfl, rfl, hm⟩

end AMap

variable {Op Op2 D D2 : Type} [DecidableEq Op] [Lang Op] [DecidableEq Op2] [Lang Op2]
namespace LanguageMapper
variable {m : LanguageMapper Op Op2 D D2}

theorem mapNode_inj (hm : Function.Injective m.mapOp) : Function.Injective m.mapNode := by
  intro a b h
  cases a; cases b
  simp only [mapNode, ENode.mk.injEq] at h
  rw [hm h.1, h.2]

theorem rt_map {eg : EGraph Op D} : (m.mapEGraph eg).rt = eg.rt := rfl
theorem find_map {eg : EGraph Op D} {i : Id} : (m.mapEGraph eg).find i = eg.find i := rfl

theorem get_classes {eg : EGraph Op D} (c : Id) :
    (m.mapEGraph eg).classes.get? c = (eg.classes.get? c).map m.mapEClass := by
  show AMap.get? (AMap.ofList (eg.classes.reverse.map _)) c = _
  rw [List.map_reverse, AMap.get?_ofList_reverse]
  exact AMap.get?_map_inj _root_.id (fun _ _ h => h) _ _ _

theorem get_memo {eg : EGraph Op D} (hm : Function.Injective m.mapOp) (n : ENode Op) :
    (m.mapEGraph eg).memo.get? (m.mapNode n) = eg.memo.get? n := by
  show AMap.get? (AMap.ofList (eg.memo.reverse.map _)) _ = _
  rw [List.map_reverse, AMap.get?_ofList_reverse]
  have := AMap.get?_map_inj m.mapNode (mapNode_inj hm) (_root_.id) eg.memo n
  simpa using this

theorem get_memo_some {eg : EGraph Op D} (hm : Function.Injective m.mapOp)
    {n2 : ENode Op2} {j : Id} (hj : (m.mapEGraph eg).memo.get? n2 = some j) :
    ∃ n, n2 = m.mapNode n ∧ eg.memo.get? n = some j := by
  have hj' := hj
  change AMap.get? (AMap.ofList (eg.memo.reverse.map _)) _ = _ at hj'
  rw [List.map_reverse, AMap.get?_ofList_reverse] at hj'
  obtain ⟨n, v, rfl, rfl, hv⟩ := AMap.get?_map_some m.mapNode (_root_.id) (m := eg.memo) (by simpa using hj')
  exact ⟨n, rfl, by rw [← get_memo hm]; exact hj⟩

theorem get_byOp {eg : EGraph Op D} (hdi : Function.Injective m.mapDisc) (d : Lang.Disc Op) :
    (m.mapEGraph eg).classesForOp (m.mapDisc d) = eg.classesForOp d := by
  show AMap.get? (AMap.ofList (eg.byOp.reverse.map _)) _ = _
  rw [List.map_reverse, AMap.get?_ofList_reverse]
  have := AMap.get?_map_inj m.mapDisc hdi (_root_.id) eg.byOp d
  simpa [EGraph.classesForOp] using this

theorem get_byOp_some {eg : EGraph Op D} (hdi : Function.Injective m.mapDisc) {d2 : Lang.Disc Op2} {l : List Id}
    (hl : (m.mapEGraph eg).classesForOp d2 = some l) : ∃ d, d2 = m.mapDisc d ∧ eg.classesForOp d = some l := by
  have hl' := hl
  change AMap.get? (AMap.ofList (eg.byOp.reverse.map _)) _ = _ at hl'
  rw [List.map_reverse, AMap.get?_ofList_reverse] at hl'
  obtain ⟨n, v, rfl, rfl, hv⟩ := AMap.get?_map_some m.mapDisc (_root_.id) (m := eg.byOp) (by simpa using hl')
  exact ⟨n, rfl, by rw [← get_byOp hdi]; exact hl⟩

theorem get_nodes {eg : EGraph Op D} (i : Id) : (m.mapEGraph eg).nodes[i]? = (eg.nodes[i]?).map m.mapNode := by
  simp [mapEGraph]

theorem get_nodes_some {eg : EGraph Op D} {i : Id} {n2 : ENode Op2} (h : (m.mapEGraph eg).nodes[i]? = some n2) :
    ∃ n, eg.nodes[i]? = some n ∧ n2 = m.mapNode n := by
  rw [get_nodes, Option.map_eq_some_iff] at h
  obtain ⟨n, h1, h2⟩ := h
  exact ⟨n, h1, h2.symm⟩

theorem nodes_len {eg : EGraph Op D} : (m.mapEGraph eg).nodes.length = eg.nodes.length := by simp [mapEGraph]

theorem sk_map {eg : EGraph Op D} (c : Id) :
    (m.mapEGraph eg).sk c = (eg.sk c).map fun s => ⟨s.id, s.nodes.map m.mapNode, s.parents⟩ := by
  unfold EGraph.sk
  rw [get_classes]
  cases eg.classes.get? c <;> rfl

theorem sk_map_some {eg : EGraph Op D} {c : Id} {s2 : Skel Op2}
    (hs : (m.mapEGraph eg).sk c = some s2) :
    ∃ s, eg.sk c = some s ∧ s2 = ⟨s.id, s.nodes.map m.mapNode, s.parents⟩ := by
  rw [sk_map, Option.map_eq_some_iff] at hs
  obtain ⟨s, h1, h2⟩ := hs
  exact ⟨s, h1, h2.symm⟩

theorem cong_map (hm : Function.Injective m.mapOp) {rt : Id → Id} {a b : ENode Op} :
    Cong rt (m.mapNode a) (m.mapNode b) ↔ Cong rt a b := by
  simp [Cong, mapNode, hm.eq_iff]

theorem mapChildren_map {f : Id → Id} {n : ENode Op} :
    (m.mapNode n).mapChildren f = m.mapNode (n.mapChildren f) := rfl

theorem cov_map {eg : EGraph Op D} (i : Id) :
    Cov eg.rt (m.mapEGraph eg).nodes (m.mapEGraph eg).sk i ↔ Cov eg.rt eg.nodes eg.sk i := by
  constructor
  · intro hc n hn ch hch
    obtain ⟨s2, h1, h2⟩ := hc (m.mapNode n) (by rw [get_nodes, hn]; rfl) ch hch
    obtain ⟨s, h3, rfl⟩ := sk_map_some h1
    exact ⟨s, h3, h2⟩
  · intro hc n2 hn ch hch
    obtain ⟨n, h1, rfl⟩ := get_nodes_some hn
    obtain ⟨s, h2, h3⟩ := hc n h1 ch hch
    exact ⟨_, by rw [sk_map, h2]; rfl, h3⟩

theorem _root_.Egg.forall₂_map_split {α β γ : Type} {P : α → β → Prop} {g : β → γ} {as : List α} {cs : List γ}
    (h : List.Forall₂ (fun a c => ∃ b, P a b ∧ c = g b) as cs) : ∃ bs, List.Forall₂ P as bs ∧ cs = bs.map g := by
  induction h with
  | nil => exact ⟨[], .nil, rfl⟩
  | cons h _ ih =>
    obtain ⟨b, hb, rfl⟩ := h
    obtain ⟨bs, hbs, rfl⟩ := ih
    exact ⟨b :: bs, .cons hb hbs, rfl⟩

omit [Lang Op] [Lang Op2] [DecidableEq Op] [DecidableEq Op2] in
theorem _root_.Egg.termOf_mapOp {f : Op → Op2} {nodes : List (ENode Op)} {i : Id} {t2 : Term Op2}
    (h : TermOf (nodes.map fun n => ⟨f n.op, n.children⟩) i t2) :
    ∃ t, TermOf nodes i t ∧ t2 = t.map f := by
  induction h with
  | @mk i n2 ts2 h1 h2 h3 ih =>
    rw [List.getElem?_map, Option.map_eq_some_iff] at h1
    obtain ⟨n, hn, rfl⟩ := h1
    obtain ⟨ts, h4, rfl⟩ := forall₂_map_split (forall₂_iff_get?.2 ⟨h2, ih⟩)
    exact ⟨.node n.op ts, termOf_iff.2 ⟨n, hn, rfl, h4⟩, by rw [Term.map_node]⟩

theorem _root_.Egg.GEq.map {f : Op → Op2} {E : Term Op → Term Op → Prop} {E2 : Term Op2 → Term Op2 → Prop}
    (hE : ∀ s t, E s t → E2 (s.map f) (t.map f)) {s t : Term Op} (h : GEq E s t) : GEq E2 (s.map f) (t.map f) := by
  induction h with
  | ax h => exact .ax (hE _ _ h)
  | refl => exact .refl _
  | symm _ ih => exact ih.symm
  | trans _ _ ih1 ih2 => exact ih1.trans ih2
  | congr op hl _ ih =>
    rw [Term.map_node, Term.map_node]
    refine .congr _ (by simpa using hl) ?_
    intro k s t hs ht
    rw [List.getElem?_map, Option.map_eq_some_iff] at hs ht
    obtain ⟨s, hs, rfl⟩ := hs
    obtain ⟨t, ht, rfl⟩ := ht
    exact ih k s t hs ht

/-- Every class of the translated e-graph represents exactly the translations of the terms that
the class represented before. -/
theorem rep_map {eg : EGraph Op D} {c : Id} {t2 : Term Op2} :
    Rep (m.mapEGraph eg) c t2 ↔ ∃ t, Rep eg c t ∧ t2 = t.map m.mapOp := by
  constructor
  · intro hr
    induction hr with
    | @mk c r cls2 n2 ts2 h1 h2 h3 h4 h5 ih =>
      rw [get_classes, Option.map_eq_some_iff] at h2
      obtain ⟨cls, hcls, rfl⟩ := h2
      obtain ⟨n, hn, rfl⟩ := List.mem_map.1 h3
      obtain ⟨ts, h6, rfl⟩ := forall₂_map_split (forall₂_iff_get?.2 ⟨h4, ih⟩)
      have h6' := forall₂_iff_get?.1 h6
      exact ⟨.node n.op ts, .mk h1 hcls hn h6'.1 h6'.2, by rw [Term.map_node]; rfl⟩
  · rintro ⟨t, hr, rfl⟩
    induction hr with
    | @mk c r cls n ts h1 h2 h3 h4 h5 ih =>
      rw [Term.map_node]
      refine .mk (n := m.mapNode n) h1 (by rw [get_classes, h2]; rfl)
        (List.mem_map.2 ⟨n, h3, rfl⟩) (by simpa [mapNode] using h4) ?_
      intro k d t hd ht
      rw [List.getElem?_map, Option.map_eq_some_iff] at ht
      obtain ⟨t, ht, rfl⟩ := ht
      exact ih k d t hd ht

/-- The invariant carries over. -/
theorem good_map (hm : Function.Injective m.mapOp) {C : Cfg Op D} {eg : EGraph Op D} (hg : EGraph.Good C eg)
    {R : Term Op2 → Term Op2 → Prop} (hR : IsCongruence R) (hC : ∀ s t, C.R s t → R (s.map m.mapOp) (t.map m.mapOp))
    (J : Symbol → Id → Id → Prop) : EGraph.Good (Cfg.ofR R hR J) (m.mapEGraph eg) := by
  have hi := hg.inv
  have hc := hi.core
  have hlen : (m.mapEGraph eg).nodes.length = eg.nodes.length := nodes_len
  have hcov : ∀ i, Cov (m.mapEGraph eg).rt (m.mapEGraph eg).nodes (m.mapEGraph eg).sk i ↔ Cov eg.rt eg.nodes eg.sk i :=
    cov_map
  refine ⟨⟨hi.wf, hlen.trans hi.len, ⟨?_, ?_⟩, ?_, ?_, hi.apq, ?_, ?_⟩, ?_⟩
  · exact AMap.nodup_ofList _
  · intro h
    have : eg.nodes = [] := by
      refine hi.memoNodup.2 ?_
      cases hmm : eg.memo with
      | nil => rfl
      | cons x l =>
        have h1 := get_memo (m := m) (eg := eg) hm x.1
        rw [h, hmm] at h1
        simp [AMap.get?] at h1
    simp [mapEGraph, this]
  · exact AMap.nodup_ofList _
  · refine ⟨?_, hc.rtIdem, ?_, ?_, ?_, ?_, ?_, ?_, ?_, ?_, ?_, ?_, ?_, ?_⟩
    · rw [hlen]; exact hc.rtLt
    · rw [hlen]; exact hc.rtOut
    · intro i n2 h2 c hcm
      obtain ⟨n, h1, rfl⟩ := get_nodes_some h2
      exact hc.dag i n h1 c hcm
    · intro c
      rw [hlen, sk_map, Option.isSome_map]
      exact hc.clsKey c
    · intro c s2 hs
      obtain ⟨s, h1, rfl⟩ := sk_map_some hs
      exact hc.clsId c s h1
    · intro c s2 hs n2 hn2
      obtain ⟨s, h1, rfl⟩ := sk_map_some hs
      obtain ⟨n, h2, rfl⟩ := List.mem_map.1 hn2
      obtain ⟨i, k, h3, h4, h5⟩ := hc.clsNodes c s h1 n h2
      exact ⟨i, m.mapNode k, by rw [get_nodes, h3]; rfl, h4, (cong_map hm).2 h5⟩
    · intro i k2 hk
      obtain ⟨k, h1, rfl⟩ := get_nodes_some hk
      obtain ⟨s, n, h2, h3, h4⟩ := hc.nodesCls i k h1
      refine ⟨_, m.mapNode n, by rw [sk_map]; show Option.map _ (eg.sk (eg.rt i)) = _; rw [h2]; rfl, List.mem_map.2 ⟨n, h3, rfl⟩, (cong_map hm).2 h4⟩
    · intro k2 j hj
      obtain ⟨n, rfl, h1⟩ := get_memo_some hm hj
      obtain ⟨nj, h2, h3, h4⟩ := hc.memo n j h1
      exact ⟨m.mapNode nj, by rw [get_nodes, h2]; rfl, (cong_map hm).2 h3, (hcov j).2 h4⟩
    · intro i n2 h2
      obtain ⟨n, h1, rfl⟩ := get_nodes_some h2
      obtain ⟨r, nr, h3, h4, h5, h6⟩ := hc.cov i n h1
      exact ⟨r, m.mapNode nr, by rw [get_nodes, h3]; rfl, (hcov r).2 h4, (cong_map hm).2 h5, h6⟩
    · intro c s2 hs p hp
      obtain ⟨s, h1, rfl⟩ := sk_map_some hs
      rw [hlen, hcov]
      exact hc.parents c s h1 p hp
    · intro p hp
      rw [hlen, hcov]
      exact hc.pendOk p hp
    · intro p hp
      rw [hlen, hcov]
      exact hc.apOk p hp
    · intro i n2 h2 hcv
      obtain ⟨n, h1, rfl⟩ := get_nodes_some h2
      rcases hc.congr i n h1 ((hcov i).1 hcv) with h | ⟨j, h3, h4⟩
      · exact .inl h
      · refine .inr ⟨j, ?_, h4⟩
        rw [mapChildren_map]
        show (m.mapEGraph eg).memo.get? (m.mapNode (n.mapChildren eg.rt)) = some j
        rw [get_memo hm]; exact h3
  · intro i j s2 t2 hij hs ht
    obtain ⟨s, hs', rfl⟩ := termOf_mapOp (f := m.mapOp) hs
    obtain ⟨t, ht', rfl⟩ := termOf_mapOp (f := m.mapOp) ht
    exact hC _ _ (hi.sound i j s t hij hs' ht')
  · intro x hx; cases hx
  · exact ⟨fun _ _ _ _ _ => trivial, fun _ _ _ _ => .inr fun _ _ _ _ => trivial, fun _ _ _ _ _ => trivial⟩

/-- A rebuilt e-graph stays rebuilt. -/
theorem rebuilt_map (hm : Function.Injective m.mapOp) {eg : EGraph Op D} 
    (hle : ∀ a b : ENode Op, Lang.le (m.mapNode a) (m.mapNode b) = Lang.le a b)
    (hdi : Function.Injective m.mapDisc) (hd : ∀ o, Lang.disc (m.mapOp o) = m.mapDisc (Lang.disc o))
    (h : Rebuilt eg) : Rebuilt (m.mapEGraph eg) := by
  have hcls : ∀ {c cl2}, (m.mapEGraph eg).classes.get? c = some cl2 →
      ∃ cl, eg.classes.get? c = some cl ∧ cl2 = m.mapEClass cl := by
    intro c cl2 hc
    rw [get_classes, Option.map_eq_some_iff] at hc
    obtain ⟨cl, h1, h2⟩ := hc
    exact ⟨cl, h1, h2.symm⟩
  refine ⟨h.pending, ?_, ?_, ?_, ?_, ?_, ?_⟩
  · intro c cl2 hc
    obtain ⟨cl, h1, rfl⟩ := hcls hc
    exact h.keys c cl h1
  · intro c cl2 hc n2 hn2
    obtain ⟨cl, h1, rfl⟩ := hcls hc
    obtain ⟨n, h2, rfl⟩ := List.mem_map.1 hn2
    exact h.canon c cl h1 n h2
  · intro c cl2 hc
    obtain ⟨cl, h1, rfl⟩ := hcls hc
    refine List.pairwise_map.2 ((h.sorted c cl h1).imp ?_)
    intro a b hab
    exact ⟨by rw [hle]; exact hab.1, fun e => hab.2 (mapNode_inj hm e)⟩
  · intro c c' cl2 cl2' n2 hc hc' hn2 hn2'
    obtain ⟨cl, h1, rfl⟩ := hcls hc
    obtain ⟨cl', h1', rfl⟩ := hcls hc'
    obtain ⟨n, h2, rfl⟩ := List.mem_map.1 hn2
    obtain ⟨n', h2', e⟩ := List.mem_map.1 hn2'
    have := mapNode_inj hm e
    subst this
    exact h.unique c c' cl cl' n' h1 h1' h2 h2'
  · intro d2 l hl
    obtain ⟨d, rfl, h1⟩ := get_byOp_some hdi hl
    exact h.indexNodup d l h1
  · intro d2 x
    constructor
    · rintro ⟨l, hl, hx⟩
      obtain ⟨d, rfl, h1⟩ := get_byOp_some hdi hl
      obtain ⟨cl, h2, n, h3, h4⟩ := (h.index d x).1 ⟨l, h1, hx⟩
      exact ⟨m.mapEClass cl, by rw [get_classes, h2]; rfl, m.mapNode n, List.mem_map.2 ⟨n, h3, rfl⟩,
        by rw [← h4]; exact hd n.op⟩
    · rintro ⟨cl2, hc, n2, hn2, rfl⟩
      obtain ⟨cl, h1, rfl⟩ := hcls hc
      obtain ⟨n, h2, rfl⟩ := List.mem_map.1 hn2
      obtain ⟨l, h3, h4⟩ := (h.index (Lang.disc n.op) x).2 ⟨cl, h1, n, h2, rfl⟩
      refine ⟨l, ?_, h4⟩
      show (m.mapEGraph eg).classesForOp (Lang.disc (m.mapOp n.op)) = some l
      rw [hd, get_byOp hdi, h3]

end LanguageMapper
end Egg
