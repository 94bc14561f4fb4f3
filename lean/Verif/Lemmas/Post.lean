import Verif.Lemmas.Data
/-
Every operation keeps the full invariant and only extends the e-graph.
-/
namespace Egg
namespace EGraph
variable {Op D : Type} [DecidableEq Op] [Lang Op]
variable {W : Id → Id → Prop} {C : Cfg Op D} {eg : EGraph Op D}

/-- The state in which `make` is called for a new class. -/
theorem childData_makeSet (h : InvW W C eg) {n : ENode Op} (hch : ∀ c ∈ n.children, c < eg.nodes.length)
    {ds : List D} (hcd : CD eg.rt eg.dt n.children ds) :
    ChildData { eg with uf := eg.uf ++ [eg.uf.length] } n ds := by
  refine forall₂_mono_mem hcd ?_
  intro c hc d _ e
  obtain ⟨k, hk⟩ := h.exists_cls (hch c hc)
  refine ⟨k, ?_, ?_⟩
  · have : UF.find (eg.uf ++ [eg.uf.length]) c = .ok (eg.rt c) := by
      rw [UF.find_ok_iff (UF.wf_makeSet h.wf)]
      refine ⟨?_, rt_makeSet h c⟩
      have := hch c hc
      have := h.len
      simp; omega
    show (do let r ← UF.find (eg.uf ++ [eg.uf.length]) c; unwrap (eg.classes.get? r)) = _
    simp [this, hk, unwrap]
  · simp only [dt, hk, Option.map_some, Option.some.injEq] at e
    exact e

/-- `add_uncanonical` keeps the invariant; the id it returns names an e-node
congruent to the argument. -/
theorem addUncanonical_post {E : Err → Prop} {N : Analysis Op D} (hN : HookOK C E N) (h : Good C eg)
    {n : ENode Op} (hch : ∀ c ∈ n.children, c < eg.nodes.length) :
    Post E (addUncanonical N eg n) (fun r => Good C r.1 ∧ Ext eg r.1 ∧
      ∃ ni, r.1.nodes[r.2]? = some ni ∧ Cong r.1.rt ni n ∧ (eg.explain.isSome → ni = n)) := by
  rcases addUncanonical_cases N h.inv hch with ⟨e, i, ni, h1, h2, h3, h4, h5, h6⟩ |
      ⟨e, x, eg1, h1, h2, h3, h4, h5, h6⟩ | ⟨h1, eg1, h2, h3⟩
  · rw [h2]
    refine ⟨h, Ext.refl _, ni, h3, h4, ?_⟩
    intro hs
    obtain ⟨x, hx⟩ := Option.isSome_iff_exists.1 hs
    exact (h6 x hx).1
  · rw [h4]
    exact ⟨h6.good h h5 hch h1, h6.ext, n, by simp [h6.nodes], Cong.refl _, fun _ => rfl⟩
  · rw [h3]
    obtain ⟨ds, hds⟩ := cd_exists h.inv hch
    apply Post.bind (hN.make _ n eg.nodes.length ds (childData_makeSet h.inv hch hds))
    intro d hd
    obtain ⟨hi, hn⟩ := h2 d
    apply Post.bind (hN.modify (eg1 d) eg.nodes.length (hn.good h hi hch hds hd) (by rw [hn.nodes]; simp))
    rintro eg' ⟨hi', hx'⟩
    refine ⟨hi'.setClean false, ?_, n, ?_, Cong.refl _, fun _ => rfl⟩
    · have := hn.ext.trans hx'
      exact ⟨this.nodes, this.rt, this.expl, this.mem, this.root, this.fresh⟩
    · have : (eg1 d).nodes[eg.nodes.length]? = some n := by rw [hn.nodes]; simp
      exact hx'.get this

/-- `perform_union` keeps the invariant and makes the two ids equal. -/
theorem performUnion_post {E : Err → Prop} {N : Analysis Op D} (hN : HookOK C E N) {e1 e2 : Id}
    {rule : Option Justification}
    (h : InvW (WP (eg.rt e1) (eg.rt e2)) C eg)
    (hd : DInv C eg.rt eg.nodes eg.cov eg.apending.queue eg.dt)
    (he1 : e1 < eg.nodes.length) (he2 : e2 < eg.nodes.length)
    (hR : ∀ s t, TermOf eg.nodes e1 s → TermOf eg.nodes e2 t → C.R s t)
    (hJ : JustOK C eg e1 e2 rule) :
    Post E (performUnion N eg e1 e2 rule) (fun r => Good C r.1 ∧ Ext eg r.1 ∧
      r.1.rt e1 = r.1.rt e2 ∧ (r.2 = true ↔ eg.rt e1 ≠ eg.rt e2)) := by
  rcases performUnion_cases (N := N) h he1 he2 hR hJ with ⟨h1, eg', h2, h3, h4, h5, h7, _, h8, h9, _, _, h6⟩ |
    ⟨h1, eg1, a, b, c1, c2, h2, h3, h4, h5, _⟩
  · rw [h2]
    refine ⟨⟨h3, ?_⟩, .same h5 h4 h6 (fun n hn => by unfold EGraph.mem at *; rw [h7]; exact hn), by rw [h4, h4, h1], by simp [h1]⟩
    have e1 : eg'.rt = eg.rt := funext h4
    unfold cov
    rw [e1, h5, h8, dt_same h9, sk_same h9]
    exact hd
  · rw [h5]
    have haL : a < eg1.nodes.length := by
      rw [h3.nodes]
      have := h.core.rtLt
      rcases h2 with ⟨e, _⟩ | ⟨e, _⟩ <;> rw [e]
      · exact this _ he1
      · exact this _ he2
    apply Post.bind (hN.modify eg1 a (h3.good hN h hd h4) haL)
    rintro eg' ⟨hi', hx'⟩
    refine ⟨hi', h3.ext.trans hx', ?_, by simp [h1]⟩
    apply hx'.rt e1 e2 (by rw [h3.nodes]; exact he1) (by rw [h3.nodes]; exact he2)
    rw [h3.rt, h3.rt]
    rcases h2 with ⟨e, e'⟩ | ⟨e, e'⟩
    · rw [e, e', if_neg h1, if_pos rfl]
    · rw [e, e', if_pos rfl, if_neg (Ne.symm h1)]

theorem performUnion_good {E : Err → Prop} {N : Analysis Op D} (hN : HookOK C E N) {e1 e2 : Id}
    {rule : Option Justification} (h : Good C eg)
    (he1 : e1 < eg.nodes.length) (he2 : e2 < eg.nodes.length)
    (hR : ∀ s t, TermOf eg.nodes e1 s → TermOf eg.nodes e2 t → C.R s t)
    (hJ : JustOK C eg e1 e2 rule) :
    Post E (performUnion N eg e1 e2 rule) (fun r => Good C r.1 ∧ Ext eg r.1 ∧
      r.1.rt e1 = r.1.rt e2 ∧ (r.2 = true ↔ eg.rt e1 ≠ eg.rt e2)) :=
  performUnion_post hN (h.inv.monoW (fun _ _ e => Or.inl e)) h.data he1 he2 hR hJ

theorem pendingStep_post {E : Err → Prop} {N : Analysis Op D} (hN : HookOK C E N) {cls : Id} {rest : List Id}
    (h : Good C eg) (hp : eg.pending = cls :: rest) :
    Post E (pendingStep N { eg with pending := rest } cls) (fun r => Good C r.1 ∧ Ext eg r.1) := by
  obtain ⟨node, uf, hn, hs, heq, hinv⟩ := pendingStep_eq N h.inv hp
  rw [heq]
  have hrt : ∀ (g : EGraph Op D), g.uf = uf → g.rt = eg.rt := by
    intro g hg; funext i; show UF.root g.uf i = _; rw [hg]; exact hs.root i
  have hmi : ∀ n, eg.mem n ≠ none → AMap.get? (eg.memo.insert (node.mapChildren eg.rt) cls) n ≠ none := by
    intro n hn'
    rw [AMap.get?_insert]
    split
    · simp
    · exact hn'
  cases hm : eg.mem (node.mapChildren eg.rt) with
  | none =>
    rw [hm] at hinv
    exact ⟨h.frame hinv (fun i => hs.root i) rfl rfl (fun _ h => h),
      .same rfl (fun i => by rw [hrt _ rfl]) rfl hmi⟩
  | some m =>
    rw [hm] at hinv
    obtain ⟨h1, h2, h3, h4⟩ := pending_union_pre (rest := rest)
      (mm := eg.memo.insert (node.mapChildren eg.rt) cls) h.inv hn hs hm
    have hg := hrt { eg with pending := rest, uf := uf, memo := eg.memo.insert (node.mapChildren eg.rt) cls } rfl
    refine Post.mono (performUnion_post hN (by rw [hg]; exact hinv) ?_ h1 h2 h3 h4) ?_
    · unfold cov
      rw [hg]
      exact h.data
    · rintro r ⟨g1, g2, _⟩
      refine ⟨g1, Ext.trans (b := { eg with pending := rest, uf := uf, memo := eg.memo.insert (node.mapChildren eg.rt) cls }) ?_ g2⟩
      exact .same rfl (fun i => by rw [hg]) rfl hmi

theorem pendingLoop_post {E : Err → Prop} (hE : E .fuel) {N : Analysis Op D} (hN : HookOK C E N) :
    ∀ (f : Nat) (eg : EGraph Op D) (k : Nat), Good C eg →
    Post E (pendingLoop N f eg k) (fun r => Good C r.1 ∧ Ext eg r.1 ∧ r.1.pending = []) := by
  intro f
  induction f with
  | zero => intro eg k _; exact hE
  | succ f ih =>
    intro eg k h
    unfold pendingLoop
    cases hp : eg.pending with
    | nil => exact ⟨h, Ext.refl _, hp⟩
    | cons cls rest =>
      apply Post.bind (pendingStep_post hN h hp)
      rintro ⟨eg1, b⟩ ⟨h1, h2⟩
      exact Post.mono (ih eg1 _ h1) (fun r hr => ⟨hr.1, h2.trans hr.2.1, hr.2.2⟩)

/-- The two outcomes of one step of the analysis loop; `eg` still has `cls` in its queue. -/
theorem analysisStep_cases {E : Err → Prop} {N : Analysis Op D} (hN : HookOK C E N) {cls : Id}
    {q : UniqueQueue Id} (h : Good C eg) (hp : eg.apending.pop = some (cls, q)) :
    cls < eg.nodes.length ∧ ∃ (n : ENode Op) (uf : UF) (k : EClass Op D) (ds : List D), UF.Same eg.uf uf ∧ eg.classes.get? (eg.rt cls) = some k ∧
      ChildData { eg with apending := q, uf := uf } n ds ∧
      analysisStep N { eg with apending := q } cls =
        (N.remake { eg with apending := q, uf := uf } n (eg.rt cls) >>= fun d =>
          if (N.merge k.data d).2.1 then
            N.modify { eg with uf := uf, classes := eg.classes.insert (eg.rt cls) { k with data := (N.merge k.data d).1 }, apending := q.extend k.parents } (eg.rt cls)
          else .ok { eg with uf := uf, classes := eg.classes.insert (eg.rt cls) { k with data := (N.merge k.data d).1 }, apending := q }) ∧
      ∀ d, MakeOK C n.op ds d →
        Good C { eg with uf := uf, classes := eg.classes.insert (eg.rt cls) { k with data := (N.merge k.data d).1 }, apending := q.extend k.parents } ∧
        ((N.merge k.data d).2.1 = false →
          Good C { eg with uf := uf, classes := eg.classes.insert (eg.rt cls) { k with data := (N.merge k.data d).1 }, apending := q }) := by
  obtain ⟨hq1, hq2⟩ := UniqueQueue.pop_some h.inv.apq hp
  have hcls : cls < eg.nodes.length := by
    refine (h.inv.core.apOk cls ?_).1
    rw [hq2]; simp
  unfold analysisStep
  have hn : eg.nodes[cls]? = some eg.nodes[cls] := List.getElem?_eq_getElem hcls
  have hchl : ∀ c ∈ (eg.nodes[cls]).children, c < eg.nodes.length := fun c hc => h.inv.core.childLt hn hc
  rw [getIdx_eq_ok.2 (show ({ eg with apending := q } : EGraph Op D).nodes[cls]? = _ from hn)]
  obtain ⟨uf, hf, hs⟩ := h.inv.findMut hcls
  simp only [ok_bind, hf]
  obtain ⟨ds, hds⟩ := cd_exists h.inv hchl
  have h1 := (h.inv.popAp hp).same hs
  have hrt1 : ({ eg with apending := q, uf := uf } : EGraph Op D).rt = eg.rt := by funext i; exact hs.root i
  obtain ⟨k, hk⟩ := h.inv.exists_cls hcls
  refine ⟨hcls, eg.nodes[cls], uf, k, ds, hs, hk, childData_of_cd h1 hchl (by rw [hrt1]; exact hds), ?_, ?_⟩
  · congr 1
    funext d
    rw [show unwrap (({ eg with apending := q, uf := uf } : EGraph Op D).classes.get? (eg.rt cls)) = .ok k from unwrap_eq_ok.2 hk]
    rfl
  intro d hd
  have hdk : eg.dt (eg.rt cls) = some k.data := by simp [dt, hk]
  have hVd : ∀ (i : Id) t, eg.rt i = eg.rt cls → TermOf eg.nodes i t → C.V (N.merge k.data d).1 t := by
    intro i t e ht
    refine hN.mergeV (h.data.valid i _ t (by rw [e]; exact hdk) ht) ?_
    obtain ⟨s, hs'⟩ := h.inv.core.dag.exists_term cls hcls
    refine C.vResp (h.inv.sound cls i s t e.symm hs' ht) ?_
    cases s with
    | node o ss =>
      rw [termOf_iff] at hs'
      obtain ⟨m, g1, g2, g3⟩ := hs'
      rw [hn] at g1; cases g1
      rw [← g2]
      apply hd.2.2
      exact forall₂_comp (forall₂_flip hds) g3 (fun a b c _ _ _ hab hbc => h.data.valid b a c hab hbc)
  have hlub : ∀ u, C.le k.data u →
      (∀ (i : Id) (n : ENode Op) ds, eg.nodes[i]? = some n → eg.rt i = eg.rt cls →
        CD eg.rt eg.dt n.children ds → C.B n.op ds u) → C.le (N.merge k.data d).1 u := by
    intro u h1 h2
    exact hN.mergeLub h1 (hd.2.1 u (h2 cls _ ds hn rfl hds))
  have hpop : ∀ (ap : UniqueQueue Id), (∀ i ∈ q.queue, i ∈ ap.queue) →
      ∀ (i : Id) (n : ENode Op), eg.nodes[i]? = some n → i ∈ eg.apending.queue → n.children ≠ [] → i ∈ ap.queue ∨
      (∀ ds, eg.rt i = eg.rt cls ∧ (CD eg.rt eg.dt n.children ds → C.B n.op ds (N.merge k.data d).1)) := by
    intro ap hap i n hni hin _
    rw [hq2] at hin
    rcases List.mem_cons.1 hin with e | hin
    · subst e
      right
      intro ds'
      refine ⟨rfl, fun hcd => ?_⟩
      rw [hn] at hni; cases hni
      rw [CD.unique hcd hds]
      exact C.bUp hd.1 (hN.mergeR _ _)
    · exact Or.inl (hap i hin)
  constructor
  · exact h.setData hs hk (N.merge k.data d).1 (UniqueQueue.inv_extend hq1 k.parents)
      (fun p hp => by
        rcases (UniqueQueue.mem_extend hq1 _ _).1 hp with hp | hp
        · left; rw [hq2]; simp [hp]
        · exact Or.inr hp)
      (Or.inl (fun p hp => (UniqueQueue.mem_extend hq1 _ _).2 (Or.inr hp)))
      (hN.mergeL _ _) hVd hlub
      (hpop _ (fun i hi => (UniqueQueue.mem_extend hq1 _ _).2 (Or.inl hi)))
  · intro hf
    refine h.setData hs hk (N.merge k.data d).1 hq1 (fun p hp => ?_)
      (Or.inr (hN.flagL _ _ hf)) (hN.mergeL _ _) hVd hlub (hpop _ (fun i hi => hi))
    left; rw [hq2]; simp [hp]

/-- One step of the analysis loop; `eg` still has `cls` in its queue. -/
theorem analysisStep_post {E : Err → Prop} {N : Analysis Op D} (hN : HookOK C E N) {cls : Id}
    {q : UniqueQueue Id} (h : Good C eg) (hp : eg.apending.pop = some (cls, q)) :
    Post E (analysisStep N { eg with apending := q } cls) (fun eg' => Good C eg' ∧ Ext eg eg') := by
  obtain ⟨hcls, n, uf, k, ds, hs, hk, hcd, heq, hgood⟩ := analysisStep_cases hN h hp
  rw [heq]
  have hext : ∀ (g : EGraph Op D), g.uf = uf → g.nodes = eg.nodes → g.explain = eg.explain → g.memo = eg.memo → Ext eg g := by
    intro g h1 h2 h3 h4
    refine .same h2 (fun i => ?_) (by rw [h3]) fun n hn => by unfold EGraph.mem at *; rw [h4]; exact hn
    show UF.root g.uf i = _
    rw [h1]; exact hs.root i
  apply Post.bind (hN.remake _ n (eg.rt cls) ds hcd)
  intro d hd
  obtain ⟨g1, g2⟩ := hgood d hd
  split
  · refine Post.mono (hN.modify _ (eg.rt cls) g1 (h.inv.core.rtLt _ hcls)) ?_
    rintro eg' ⟨g3, g4⟩
    exact ⟨g3, Ext.trans (b := _) (hext _ (by rfl) (by rfl) (by rfl) (by rfl)) g4⟩
  · rename_i hf
    exact ⟨g2 (by simpa using hf), hext _ (by rfl) (by rfl) (by rfl) (by rfl)⟩

theorem analysisLoop_post {E : Err → Prop} (hE : E .fuel) {N : Analysis Op D} (hN : HookOK C E N) :
    ∀ (f : Nat) (eg : EGraph Op D), Good C eg →
    Post E (analysisLoop N f eg) (fun r => Good C r ∧ Ext eg r ∧ r.apending.queue = []) := by
  intro f
  induction f with
  | zero => intro eg _; exact hE
  | succ f ih =>
    intro eg h
    unfold analysisLoop
    cases hp : eg.apending.pop with
    | none => exact ⟨h, Ext.refl _, UniqueQueue.pop_none.1 hp⟩
    | some cq =>
      obtain ⟨cls, q⟩ := cq
      apply Post.bind (analysisStep_post hN h hp)
      rintro eg1 ⟨h1, h2⟩
      exact Post.mono (ih eg1 h1) (fun r hr => ⟨hr.1, Ext.trans h2 hr.2.1, hr.2.2⟩)

/-- `set_analysis_data` with a datum that is valid and accounts for no more and
no less than the old one. -/
theorem setAnalysisData_post {E : Err → Prop} {N : Analysis Op D} (hN : HookOK C E N) {i : Id} {d : D}
    (h : Good C eg) (hi : i < eg.nodes.length)
    (hd : ∀ k, eg.index i = .ok k → C.le k.data d ∧ C.le d k.data)
    (hV : ∀ (j : Id) t, eg.rt j = eg.rt i → TermOf eg.nodes j t → C.V d t) :
    Post E (setAnalysisData N eg i d) (fun eg' => Good C eg' ∧ Ext eg eg') := by
  unfold setAnalysisData
  obtain ⟨uf, hf, hs⟩ := h.inv.findMut hi
  obtain ⟨k, hk', hk⟩ := h.inv.index hi
  simp only [ok_bind, hf, hk, unwrap]
  have h2 := h.setData hs hk d (UniqueQueue.inv_extend h.inv.apq k.parents)
      (fun p hp => (UniqueQueue.mem_extend h.inv.apq _ _).1 hp)
      (Or.inr (hd k hk').2) (hd k hk').1 hV (fun u hu _ => C.leTrans (hd k hk').2 hu)
      (fun j n _ hj _ => Or.inl ((UniqueQueue.mem_extend h.inv.apq _ _).2 (Or.inl hj)))
  refine Post.mono (hN.modify _ (eg.rt i) h2 (h.inv.core.rtLt _ hi)) ?_
  rintro eg' ⟨g1, g2⟩
  refine ⟨g1, Ext.trans ?_ g2⟩
  exact .same rfl (fun i => hs.root i) rfl fun _ h => h

theorem processUnions_post {E : Err → Prop} (hE : E .fuel) {N : Analysis Op D} (hN : HookOK C E N) :
    ∀ (f : Nat) (eg : EGraph Op D) (k : Nat), Good C eg →
    Post E (processUnions N f eg k) (fun r => Good C r.1 ∧ Ext eg r.1 ∧ r.1.pending = [] ∧
      r.1.apending.queue = []) := by
  intro f
  induction f with
  | zero => intro eg k _; exact hE
  | succ f ih =>
    intro eg k h
    unfold processUnions
    split
    · rename_i hc
      simp only [Bool.and_eq_true] at hc
      exact ⟨h, Ext.refl _, List.isEmpty_iff.1 hc.1, UniqueQueue.isEmpty_iff.1 hc.2⟩
    · apply Post.bind (pendingLoop_post hE hN f eg k h)
      rintro ⟨eg1, k1⟩ ⟨h1, h2, _⟩
      apply Post.bind (analysisLoop_post hE hN f eg1 h1)
      rintro eg2 ⟨h3, h4, _⟩
      exact Post.mono (ih eg2 k1 h3) (fun r hr => ⟨hr.1, (h2.trans h4).trans hr.2.1, hr.2.2⟩)

theorem rebuildClasses_good (h : Good C eg) (hp : eg.pending = []) (hap : eg.apending.queue = []) :
    ∃ eg' t, rebuildClasses eg = .ok (eg', t) ∧ Good C eg' ∧ Ext eg eg' ∧ Tidy eg' ∧
      (∀ i, eg'.rt i = eg.rt i) ∧ eg'.nodes = eg.nodes ∧ eg'.memo = eg.memo ∧
      (∀ c, eg'.classes.get? c = (eg.classes.get? c).map (tidyCls eg.rt)) := by
  obtain ⟨eg2, t, g1, g2, g3, g4, g5, g6, g7, g8, g9⟩ := rebuildClasses_post h.inv hp hap
  refine ⟨eg2, t, g1, ⟨g2, ?_⟩, g3, g4, g5, g6, g7, g9⟩
  have e1 : eg2.rt = eg.rt := funext g5
  have e2 : eg2.dt = eg.dt := by
    funext c
    simp only [dt, g9]
    cases eg.classes.get? c <;> rfl
  rw [e1, g6, e2, g4.apending, ← hap]
  refine h.data.frame ?_ (fun _ h => h)
  intro i hc hil
  refine h.inv.core.covBack hil ?_ ?_ hc
  · intro n hn; rw [g6]; exact hn
  · intro c s' hs' hp
    obtain ⟨k, hk, rfl⟩ := cls_of_sk hs'
    rw [g9] at hk
    cases hc : eg.classes.get? c with
    | none => rw [hc] at hk; simp at hk
    | some k0 =>
      rw [hc] at hk
      simp only [Option.map_some, Option.some.injEq] at hk
      subst hk
      exact ⟨c, _, sk_eq hc, hp⟩

theorem rebuild_post {E : Err → Prop} (hE : E .fuel) {N : Analysis Op D} (hN : HookOK C E N) (fuel : Nat)
    (h : Good C eg) :
    Post E (rebuild N fuel eg) (fun r => Good C r.1 ∧ Ext eg r.1 ∧ Tidy r.1 ∧ r.1.clean = true) := by
  unfold rebuild
  apply Post.bind (processUnions_post hE hN fuel eg 0 h)
  rintro ⟨eg1, k⟩ ⟨h1, h2, h3, h4⟩
  obtain ⟨eg2, t, g1, g2, g3, g4, _⟩ := rebuildClasses_good h1 h3 h4
  simp only [g1, ok_bind]
  refine ⟨g2.setClean true, ?_, ⟨g4.pending, g4.apending, g4.canon, g4.sorted, g4.ixNodup, g4.index⟩, rfl⟩
  have := h2.trans g3
  exact ⟨this.nodes, this.rt, this.expl, this.mem, this.root, this.fresh⟩

end EGraph
end Egg
