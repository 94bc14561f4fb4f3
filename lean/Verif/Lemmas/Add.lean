import Verif.Lemmas.Inv
/-
Preservation of the invariant by `add`.
-/
namespace Egg
namespace EGraph
variable {Op D : Type} [DecidableEq Op] [Lang Op]
variable {W : Id → Id → Prop} {C : Cfg Op D} {eg : EGraph Op D}

theorem pushParents_ok : ∀ (cs : List Id) (eg : EGraph Op D) (id : Id), UF.WF eg.uf →
    (AMap.keys eg.classes).Nodup →
    (∀ c ∈ cs, c < eg.uf.length ∧ ∃ k, eg.classes.get? (eg.rt c) = some k) →
    ∃ uf cl, pushParents eg cs id = .ok { eg with uf := uf, classes := cl } ∧ UF.Same eg.uf uf ∧
      (AMap.keys cl).Nodup ∧
      ∀ c, AMap.get? cl c = (eg.classes.get? c).map (fun k => { k with
        parents := k.parents ++ List.replicate ((cs.map eg.rt).count c) id }) := by
  intro cs
  induction cs with
  | nil =>
    intro eg id hwf hnd _
    refine ⟨eg.uf, eg.classes, rfl, UF.Same.refl hwf, hnd, ?_⟩
    intro c
    cases eg.classes.get? c <;> simp
  | cons c cs ih =>
    intro eg id hwf hnd hcs
    obtain ⟨hc, k, hk⟩ := hcs c (by simp)
    obtain ⟨uf1, hf, hs⟩ := UF.findMut_ok hwf hc
    have hrt1 : ∀ cl, ({ eg with uf := uf1, classes := cl } : EGraph Op D).rt = eg.rt := by
      intro cl; funext i; exact hs.root i
    obtain ⟨uf2, cl, h1, h2, h3, h4⟩ := ih
      { eg with uf := uf1, classes := eg.classes.insert (eg.rt c) { k with parents := k.parents ++ [id] } } id
      hs.wf (AMap.nodup_insert hnd _ _) (by
        intro c' hc'
        obtain ⟨g1, k', g2⟩ := hcs c' (by simp [hc'])
        refine ⟨by show c' < uf1.length; rw [hs.len]; exact g1, ?_⟩
        rw [hrt1]
        simp only [AMap.get?_insert]
        split
        · exact ⟨_, rfl⟩
        · exact ⟨k', g2⟩)
    refine ⟨uf2, cl, ?_, hs.trans h2, h3, ?_⟩
    · simp only [pushParents, hf, ok_bind]
      have : eg.classes.get? (UF.root eg.uf c) = some k := hk
      simp only [this, unwrap, ok_bind]
      exact h1
    · intro c'
      rw [h4 c', hrt1]
      simp only [AMap.get?_insert, List.map_cons, List.count_cons]
      by_cases e : eg.rt c = c'
      · subst e
        rw [if_pos rfl, hk]
        simp only [Option.map_some, beq_self_eq_true, if_true]
        congr 2
        rw [List.append_assoc]
        congr 1
      · rw [if_neg e]
        simp [e]

/-- The state after a new class for `n` was created, before the `modify` hook. -/
structure NewCls (eg eg1 : EGraph Op D) (n : ENode Op) (d : D) : Prop where
  new : eg.mem (n.mapChildren eg.rt) = none
  nodes : eg1.nodes = eg.nodes ++ [n]
  rt : ∀ i, eg1.rt i = eg.rt i
  len : eg1.uf.length = eg.uf.length + 1
  memo : eg1.memo = eg.memo.insert (n.mapChildren eg.rt) eg.nodes.length
  pending : eg1.pending = eg.nodes.length :: eg.pending
  apending : eg1.apending = eg.apending
  classes : ∀ c, eg1.classes.get? c =
    if c = eg.nodes.length then some ⟨eg.nodes.length, [n.mapChildren eg.rt], d, []⟩
    else (eg.classes.get? c).map (fun k => { k with
        parents := k.parents ++ List.replicate ((n.children.map eg.rt).count c) eg.nodes.length })
  byOp : eg1.byOp = eg.byOp
  clean : eg1.clean = eg.clean
  expl : eg1.explain.isSome = eg.explain.isSome
  un : ∀ x', eg1.explain = some x' → ∃ x, eg.explain = some x ∧ ∀ m, x'.uncanonMemo.get? m =
    if n = m then some eg.nodes.length else x.uncanonMemo.get? m

theorem NewCls.ext {eg1 : EGraph Op D} {n : ENode Op} {d : D} (h : NewCls eg eg1 n d) : Ext eg eg1 :=
  ⟨⟨[n], h.nodes⟩, fun i j _ _ e => by rw [h.rt, h.rt, e], h.expl, fun m hm => by
    unfold EGraph.mem at *
    rw [h.memo, AMap.get?_insert]
    split
    · simp
    · exact hm, fun i _ e => by rw [← h.rt, e], fun hm => by
    refine absurd h.new (hm _ ?_)
    unfold EGraph.mem
    rw [h.memo, AMap.get?_insert, if_pos rfl]
    simp⟩

/-- The state after a second copy of a memoised e-node was recorded. -/
structure NewDup (eg eg1 : EGraph Op D) (n : ENode Op) (e : Id) : Prop where
  old : eg.rt e < eg.nodes.length
  nodes : eg1.nodes = eg.nodes ++ [n]
  rt : ∀ i, eg1.rt i = if i = eg.nodes.length then eg.rt e else eg.rt i
  len : eg1.uf.length = eg.uf.length + 1
  memo : eg1.memo = eg.memo
  pending : eg1.pending = eg.pending
  apending : eg1.apending = eg.apending
  classes : eg1.classes = eg.classes
  byOp : eg1.byOp = eg.byOp
  clean : eg1.clean = eg.clean
  expl : eg1.explain.isSome = eg.explain.isSome
  un : ∀ x', eg1.explain = some x' → ∃ x, eg.explain = some x ∧ ∀ m, x'.uncanonMemo.get? m =
    if n = m then some eg.nodes.length else x.uncanonMemo.get? m

theorem NewDup.ext {eg1 : EGraph Op D} {n : ENode Op} {e : Id} (h : NewDup eg eg1 n e) : Ext eg eg1 := by
  refine ⟨⟨[n], h.nodes⟩, fun i j hi hj e => ?_, h.expl, fun m hm => by unfold EGraph.mem at *; rw [h.memo]; exact hm,
    fun i hi e => ?_, fun _ i h1 h2 e => ?_⟩
  · rw [h.rt, h.rt, if_neg (by omega), if_neg (by omega), e]
  · rw [h.rt, if_neg (by omega)] at e; exact e
  · rw [h.nodes] at h2
    simp only [List.length_append, List.length_singleton] at h2
    have := h.old
    rw [h.rt, if_pos (by omega)] at e
    omega

theorem rt_makeSet (h : InvW W C eg) : ∀ i, UF.root (eg.uf ++ [eg.uf.length]) i = eg.rt i := by
  intro i
  by_cases hi : i < eg.uf.length
  · exact UF.root_makeSet h.wf hi
  · by_cases e : i = eg.uf.length
    · subst e
      rw [UF.root_makeSet_new h.wf]
      exact (UF.root_of_ge hi).symm
    · rw [UF.root_of_ge (by simp; omega)]
      exact (UF.root_of_ge hi).symm

theorem termOf_append_cases {nodes : List (ENode Op)} {n : ENode Op} (hd : Dag nodes)
    (hch : ∀ c ∈ n.children, c < nodes.length) {i : Id} {t : Term Op}
    (h : TermOf (nodes ++ [n]) i t) :
    TermOf nodes i t ∨ (i = nodes.length ∧ ∃ ts, t = .node n.op ts ∧
      List.Forall₂ (TermOf nodes) n.children ts) := by
  have hi := h.lt
  by_cases e : i < nodes.length
  · exact Or.inl (h.of_append hd e)
  · right
    have e : i = nodes.length := by simp at hi; omega
    refine ⟨e, ?_⟩
    cases t with
    | node op ts =>
      rw [termOf_iff] at h
      obtain ⟨m, h1, h2, h3⟩ := h
      rw [e] at h1
      simp at h1
      subst h1
      refine ⟨ts, by rw [h2], ?_⟩
      exact forall₂_mono_mem h3 (fun c hc t _ ht => ht.of_append hd (hch c hc))

theorem sound_new {R : Term Op → Term Op → Prop} (hc : IsCongruence R) {rt : Id → Id}
    {nodes : List (ENode Op)} (hd : Dag nodes) (h : SoundRt R rt nodes) {n : ENode Op}
    (hch : ∀ c ∈ n.children, c < nodes.length)
    (hlt : ∀ i, i < nodes.length → rt i < nodes.length) (hnew : rt nodes.length = nodes.length) :
    SoundRt R rt (nodes ++ [n]) := by
  intro i j s t e hs ht
  rcases termOf_append_cases hd hch hs with hs' | ⟨ei, _⟩
  · rcases termOf_append_cases hd hch ht with ht' | ⟨ej, _⟩
    · exact h i j s t e hs' ht'
    · subst ej
      have := hlt i hs'.lt
      omega
  · subst ei
    rcases termOf_append_cases hd hch ht with ht' | ⟨ej, _⟩
    · have := hlt j ht'.lt
      omega
    · subst ej
      rw [hs.unique ht]
      exact hc.refl t

theorem sound_dup {R : Term Op → Term Op → Prop} (hc : IsCongruence R) {rt : Id → Id}
    {nodes : List (ENode Op)} (hd : Dag nodes) (h : SoundRt R rt nodes) {n m : ENode Op} {e : Id}
    (hch : ∀ c ∈ n.children, c < nodes.length) (hm : nodes[e]? = some m) (hnm : Cong rt m n) :
    SoundRt R (fun i => if i = nodes.length then rt e else rt i) (nodes ++ [n]) := by
  have key : ∀ {ts}, List.Forall₂ (TermOf nodes) n.children ts → ∃ s, TermOf nodes e s ∧
      R s (.node n.op ts) := by
    intro ts hts
    obtain ⟨s, hs⟩ := hd.exists_term e (getElem?_lt hm)
    refine ⟨s, hs, ?_⟩
    cases s with
    | node op ss =>
      rw [termOf_iff] at hs
      obtain ⟨m', h1, h2, h3⟩ := hs
      rw [hm] at h1; cases h1
      rw [← h2]
      exact h.cong hc hnm.1 hnm.2 h3 hts
  intro i j s t eq hs ht
  rcases termOf_append_cases hd hch hs with hs' | ⟨ei, ts, rfl, hts⟩
  · have hi := hs'.lt
    simp only [if_neg (show ¬ i = nodes.length by omega)] at eq
    rcases termOf_append_cases hd hch ht with ht' | ⟨ej, us, rfl, hus⟩
    · have hj := ht'.lt
      simp only [if_neg (show ¬ j = nodes.length by omega)] at eq
      exact h i j s t eq hs' ht'
    · simp only [if_pos ej] at eq
      obtain ⟨u, hu, hR⟩ := key hus
      exact hc.trans (h _ _ _ _ eq hs' hu) hR
  · simp only [if_pos ei] at eq
    obtain ⟨v, hv, hRv⟩ := key hts
    rcases termOf_append_cases hd hch ht with ht' | ⟨ej, us, rfl, hus⟩
    · have hj := ht'.lt
      simp only [if_neg (show ¬ j = nodes.length by omega)] at eq
      exact hc.trans (hc.symm hRv) (h _ _ _ _ eq hv ht')
    · obtain ⟨u, hu, hR⟩ := key hus
      exact hc.trans (hc.symm hRv) (hc.trans (h _ _ _ _ rfl hv hu) hR)

theorem addUncanonical_cases (N : Analysis Op D) (h : Inv C eg) {n : ENode Op}
    (hch : ∀ c ∈ n.children, c < eg.nodes.length) :
    (∃ e i ni, eg.mem (n.mapChildren eg.rt) = some e ∧ addUncanonical N eg n = .ok (eg, i) ∧
      eg.nodes[i]? = some ni ∧ Cong eg.rt ni n ∧ (eg.explain = none → i = e) ∧
      (∀ x, eg.explain = some x → ni = n ∧ x.uncanonMemo.get? n = some i)) ∨
    (∃ e x eg1, eg.mem (n.mapChildren eg.rt) = some e ∧ eg.explain = some x ∧
      x.uncanonMemo.get? n = none ∧ addUncanonical N eg n = .ok (eg1, eg.nodes.length) ∧
      Inv C eg1 ∧ NewDup eg eg1 n e) ∨
    (eg.mem (n.mapChildren eg.rt) = none ∧ ∃ eg1 : D → EGraph Op D,
      (∀ d, Inv C (eg1 d) ∧ NewCls eg (eg1 d) n d) ∧
      addUncanonical N eg n =
        (N.make { eg with uf := eg.uf ++ [eg.uf.length] } n eg.nodes.length >>= fun d =>
          N.modify (eg1 d) eg.nodes.length >>= fun eg' =>
            .ok ({ eg' with clean := false }, eg.nodes.length))) := by
  have hcan := h.canon hch
  have hrtlt : ∀ i, i < eg.nodes.length → eg.rt i < eg.nodes.length := h.core.rtLt
  have hrtnew : eg.rt eg.nodes.length = eg.nodes.length := h.core.rtOut _ (le_refl _)
  cases hm : eg.mem (n.mapChildren eg.rt) with
  | some e =>
    have heL := h.core.memLt hm
    obtain ⟨ne, hne, hnec, _⟩ := h.core.memo _ _ hm
    have hcanon : Cong eg.rt (n.mapChildren eg.rt) n :=
      (Cong.canon_left (fun c _ => h.core.rtIdem c)).2 (Cong.refl _)
    have hm' : eg.memo.get? (n.mapChildren eg.rt) = some e := hm
    cases hx : eg.explain with
    | none =>
      left
      refine ⟨e, e, ne, rfl, ?_, hne, hnec.trans hcanon, fun _ => rfl, by intro x hx'; cases hx'⟩
      simp [addUncanonical, hcan, hm', h.find heL, hx]
    | some x =>
      obtain ⟨L, hX⟩ := h.expl x hx
      cases hu : x.uncanonMemo.get? n with
      | some i =>
        left
        have hi := hX.inv.unSound n i hu
        refine ⟨e, i, n, rfl, ?_, hi, Cong.refl _, (fun hn => by cases hn), ?_⟩
        · simp [addUncanonical, hcan, hm', h.find heL, hx, hu]
        · intro x' hx'; cases hx'; exact ⟨rfl, hu⟩
      | none =>
        right; left
        -- make_set, explain.add, union, explain.union
        have hlen : eg.uf.length = eg.nodes.length := h.len.symm
        obtain ⟨x1, g1, g2, g3⟩ := hX.addNew (conn' := fun i j => eg.rt i = eg.rt j) n
          (fun _ _ _ _ => Iff.rfl) rfl
          (by intro i hi; rw [hrtnew]; have := hrtlt i hi; omega)
          (by intro i hi; rw [hrtnew]; have := hrtlt i hi; omega)
        have hwf1 := UF.wf_makeSet h.wf
        have hrt1 := rt_makeSet h
        have hre : UF.root (eg.uf ++ [eg.uf.length]) (eg.rt e) = eg.rt e := by
          rw [hrt1, h.core.rtIdem]
        have hrn : UF.root (eg.uf ++ [eg.uf.length]) eg.uf.length = eg.uf.length := by
          rw [hrt1, hlen, hrtnew]
        have hreL := hrtlt e heL
        have hlt1 : eg.rt e < (eg.uf ++ [eg.uf.length]).length := by simp; omega
        have hlt2 : eg.uf.length < (eg.uf ++ [eg.uf.length]).length := by simp
        obtain ⟨hw2, hr2⟩ := UF.union_spec hwf1 hlt1 hlt2 hre hrn (by omega)
        generalize huf2 : (eg.uf ++ [eg.uf.length]).set eg.uf.length (eg.rt e) = uf2 at hw2 hr2
        have hl2 : uf2.length = eg.uf.length + 1 := by rw [← huf2]; simp
        have hrt2 : ∀ i, UF.root uf2 i = if i = eg.nodes.length then eg.rt e else eg.rt i := by
          intro i
          by_cases hi : i < (eg.uf ++ [eg.uf.length]).length
          · rw [hr2 i hi, hrt1]
            by_cases ei : i = eg.nodes.length
            · subst ei; rw [hrtnew, hlen]
            · rw [if_neg ei, if_neg]
              have : i < eg.nodes.length := by simp at hi; omega
              have := hrtlt i this
              omega
          · rw [UF.root_of_ge (by rw [hl2]; simpa using hi)]
            simp at hi
            rw [if_neg (by omega), h.core.rtOut i (by omega)]
        have hconn : ∀ i k, i < (eg.nodes ++ [n]).length → k < (eg.nodes ++ [n]).length →
            (UF.root uf2 i = UF.root uf2 k ↔ eg.rt i = eg.rt k ∨
              (eg.rt i = eg.rt e ∧ eg.rt eg.nodes.length = eg.rt k) ∨
              (eg.rt i = eg.rt eg.nodes.length ∧ eg.rt e = eg.rt k)) := by
          intro i k hi hk
          rw [hrt2, hrt2]
          simp only [List.length_append, List.length_singleton] at hi hk
          by_cases ei : i = eg.nodes.length <;> by_cases ek : k = eg.nodes.length
          · subst ei; subst ek; simp
          · have := hrtlt k (by omega)
            subst ei; rw [hrtnew]; simp [ek]; omega
          · have := hrtlt i (by omega)
            subst ek; rw [hrtnew]; simp [ei]; omega
          · have := hrtlt k (by omega)
            have := hrtlt i (by omega)
            rw [hrtnew]; simp [ei, ek]; omega
        have hnnew : (eg.nodes ++ [n])[eg.nodes.length]? = some n := by simp
        have hnold : (eg.nodes ++ [n])[e]? = some ne := by
          rw [List.getElem?_append_left heL, hne]
        have hdag' : Dag (eg.nodes ++ [n]) := by
          intro i m hm c hc
          rw [List.getElem?_append] at hm
          split at hm
          · exact h.core.dag i m hm c hc
          · rename_i hi
            rw [List.getElem?_singleton] at hm
            split at hm
            · cases hm
              have := hch c hc
              omega
            · cases hm
        obtain ⟨x2, k1, k2, k3⟩ := g2.union (a := e) (b := eg.nodes.length) (j := .congruence)
          (conn' := fun i j => UF.root uf2 i = UF.root uf2 j)
          (by simp; omega) (by simp) (by rw [hrtnew]; omega) (fun _ => rfl) (fun _ _ e => e.symm)
          (by
            intro _
            have := hnec.trans hcanon
            exact ⟨ne, n, hnold, hnnew, this.1, forall₂_map_eq.2 this.2⟩)
          (by intro s hs; cases hs) hdag' hconn
        refine ⟨e, x, { eg with uf := uf2, nodes := eg.nodes ++ [n], explain := some x2 }, rfl, rfl, hu, ?_, ?_, ?_⟩
        · simp only [addUncanonical, hcan, ok_bind, hm', h.find heL, hx, hu, UF.makeSet]
          rw [hlen] at huf2 hlt1 hlt2 ⊢
          simp only [g1, ok_bind, UF.union, huf2]
          have hlt3 : eg.nodes.length < List.length eg.uf + 1 := by omega
          simp [hlt1, hlt2, hlt3, huf2, k1]
        · have hrtf : ({ eg with uf := uf2, nodes := eg.nodes ++ [n], explain := some x2 } : EGraph Op D).rt =
              fun i => if i = eg.nodes.length then eg.rt e else eg.rt i := by funext i; exact hrt2 i
          refine ⟨hw2, by show (eg.nodes ++ [n]).length = uf2.length; simp [hl2, hlen],
            ⟨h.memoNodup.1, fun e => by show eg.nodes ++ [n] = []; have : eg.memo = [] := e; rw [this] at hm'; cases hm'⟩, h.clsNodup, ?_, h.apq, ?_, ?_⟩
          · rw [hrtf]; exact h.core.addDup hch hm
          · rw [hrtf]; exact sound_dup C.isCong h.core.dag h.sound hch hne (hnec.trans hcanon)
          · intro y hy; cases hy; exact ⟨_, k2⟩
        · exact ⟨hreL, rfl, hrt2, hl2, rfl, rfl, rfl, rfl, rfl, rfl, by simp [hx], by
            intro x' hx'; cases hx'; exact ⟨x, hx, fun m => by rw [k3]; exact g3 m⟩⟩
  | none =>
    right; right
    refine ⟨rfl, ?_⟩
    have hm' : eg.memo.get? (n.mapChildren eg.rt) = none := hm
    have hlen : eg.uf.length = eg.nodes.length := h.len.symm
    have hwf1 := UF.wf_makeSet h.wf
    have hrt1 := rt_makeSet h
    -- push parents
    have hchildren : ∀ c ∈ (n.mapChildren eg.rt).children, c < eg.nodes.length ∧ eg.rt c = c := by
      intro c hc
      simp only [ENode.mapChildren, List.mem_map] at hc
      obtain ⟨c', hc', rfl⟩ := hc
      exact ⟨hrtlt _ (hch c' hc'), h.core.rtIdem _⟩
    let eg0 : EGraph Op D := { eg with uf := eg.uf ++ [eg.uf.length], nodes := eg.nodes ++ [n] }
    have hrt0 : eg0.rt = eg.rt := by funext i; exact hrt1 i
    obtain ⟨uf2, cl, p1, p2, p3, p4⟩ := pushParents_ok (n.mapChildren eg.rt).children eg0 eg.nodes.length
      hwf1 h.clsNodup (by
        intro c hc
        obtain ⟨c1, c2⟩ := hchildren c hc
        refine ⟨by show c < (eg.uf ++ [eg.uf.length]).length; simp; omega, ?_⟩
        rw [hrt0]
        exact h.exists_cls c1)
    have hcount : ∀ c, ((n.mapChildren eg.rt).children.map eg0.rt).count c = (n.children.map eg.rt).count c := by
      intro c
      rw [hrt0]
      congr 1
      simp only [ENode.mapChildren, List.map_map]
      apply List.map_congr_left
      intro c' _; exact h.core.rtIdem c'
    have hrt2 : ∀ i, UF.root uf2 i = eg.rt i := by
      intro i; rw [p2.root]; exact hrt1 i
    -- explanation
    have hxex : ∃ x', explainAdd eg.explain n eg.nodes.length = .ok x' ∧ x'.isSome = eg.explain.isSome ∧
        (∀ y, x' = some y → ∃ L, XOk C.optimized C.J (eg.nodes ++ [n]) (fun i j => eg.rt i = eg.rt j) y L) ∧
        ∀ y, x' = some y → ∃ x, eg.explain = some x ∧ ∀ m, y.uncanonMemo.get? m =
          if n = m then some eg.nodes.length else x.uncanonMemo.get? m := by
      cases hx : eg.explain with
      | none => exact ⟨none, rfl, rfl, (by intro y hy; cases hy), by intro y hy; cases hy⟩
      | some x =>
        obtain ⟨L, hX⟩ := h.expl x hx
        obtain ⟨x1, g1, g2, g3⟩ := hX.addNew (conn' := fun i j => eg.rt i = eg.rt j) n
          (fun _ _ _ _ => Iff.rfl) rfl
          (by intro i hi; rw [hrtnew]; have := hrtlt i hi; omega)
          (by intro i hi; rw [hrtnew]; have := hrtlt i hi; omega)
        exact ⟨some x1, by simp [explainAdd, g1], rfl, (by intro y hy; cases hy; exact ⟨L, g2⟩),
          by intro y hy; cases hy; exact ⟨x, rfl, g3⟩⟩
    obtain ⟨x', hxeq, hxs, hxok, hxun⟩ := hxex
    let eg1 : D → EGraph Op D := fun d =>
      { eg with
        uf := uf2
        nodes := eg.nodes ++ [n]
        pending := eg.nodes.length :: eg.pending
        classes := AMap.insert cl eg.nodes.length ⟨eg.nodes.length, [n.mapChildren eg.rt], d, []⟩
        memo := eg.memo.insert (n.mapChildren eg.rt) eg.nodes.length
        explain := x' }
    have hrtf : ∀ d, (eg1 d).rt = eg.rt := by intro d; funext i; exact hrt2 i
    have hcls : ∀ d c, (eg1 d).classes.get? c =
        if c = eg.nodes.length then some ⟨eg.nodes.length, [n.mapChildren eg.rt], d, []⟩
        else (eg.classes.get? c).map (fun k => { k with
            parents := k.parents ++ List.replicate ((n.children.map eg.rt).count c) eg.nodes.length }) := by
      intro d c
      show AMap.get? (AMap.insert cl _ _) c = _
      rw [AMap.get?_insert]
      by_cases e : c = eg.nodes.length
      · rw [if_pos e.symm, if_pos e]
      · rw [if_neg (Ne.symm e), if_neg e, p4 c, hcount]
    have huflen : uf2.length = eg.uf.length + 1 := by
      rw [p2.len]; simp [eg0]
    refine ⟨eg1, ?_, ?_⟩
    · intro d
      refine ⟨⟨p2.wf, ?_, ?_, ?_, ?_, h.apq, ?_, ?_⟩, ?_⟩
      · show (eg.nodes ++ [n]).length = uf2.length
        simp [huflen, hlen]
      · exact ⟨AMap.nodup_insert h.memoNodup.1 _ _, fun e => absurd e (AMap.insert_ne_nil _ _ _)⟩
      · exact AMap.nodup_insert p3 _ _
      · rw [hrtf]
        refine h.core.addNew hch hm ?_ ?_
        · intro c
          show ((eg1 d).classes.get? c).map _ = _
          rw [hcls]
          by_cases e : c = eg.nodes.length
          · simp [e]
          · rw [if_neg e, if_neg e]
            simp only [sk, Option.map_map]
            rfl
        · intro m
          show AMap.get? (eg.memo.insert _ _) m = _
          rw [AMap.get?_insert]; rfl
      · rw [hrtf]
        exact sound_new C.isCong h.core.dag h.sound hch hrtlt hrtnew
      · intro y hy
        rw [hrtf]
        exact hxok y hy
      · exact ⟨hm, rfl, hrt2, huflen, rfl, rfl, rfl, hcls d, rfl, rfl, hxs, hxun⟩
    · unfold addUncanonical
      simp only [hcan, ok_bind, hm', makeNewEClass, UF.makeSet]
      rw [hlen]
      have hb : ∀ {α β : Type} {x : Res α} {f g : α → Res β}, (∀ a, f a = g a) → (x >>= f) = (x >>= g) := by
        intro α β x f g hfg
        cases x with
        | ok a => exact hfg a
        | error e => rfl
      have p1' : ({ eg with uf := eg.uf ++ [eg.nodes.length], nodes := eg.nodes ++ [n] } : EGraph Op D).pushParents
          (n.mapChildren eg.rt).children eg.nodes.length =
          .ok { eg with uf := uf2, nodes := eg.nodes ++ [n], classes := cl } := by
        have := p1
        simp only [eg0, hlen] at this
        exact this
      rw [bind_assoc]
      apply hb
      intro d
      simp only [p1', ok_bind]
      have hm'' : (eg.memo.get? (n.mapChildren eg.rt)).isSome = false := by rw [hm']; rfl
      simp only [hm'', Bool.false_eq_true, if_false, pure_eq_ok, ok_bind, hxeq]
      rfl

end EGraph
end Egg
