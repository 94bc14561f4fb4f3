import Verif.Lemmas.Hist
/-
Whenever the datum of a class changes, `modify` is run on that class afterwards.
-/
namespace Egg
namespace EGraph
variable {Op D : Type} [DecidableEq Op] [Lang Op]
variable {W : Id → Id → Prop} {C : Cfg Op D} {eg : EGraph Op D} {E : Err → Prop} {N : Analysis Op D}
variable {P : D → Term Op → Prop}

/-- Every class represents what its datum promises, except that the classes of the ids listed in `X`
may still lack what the listed datum promises (their `modify` is being run). -/
def Kept (P : D → Term Op → Prop) (X : List (Id × D)) (eg : EGraph Op D) : Prop :=
  ∀ c k, eg.classes.get? c = some k →
    (∀ t, P k.data t → Rep eg c t) ∨ ∃ x ∈ X, eg.rt x.1 = c ∧ ∀ t, P k.data t → P x.2 t

/-- What `modify` is assumed to do in terms of `Kept`. -/
structure HookK (C : Cfg Op D) (P : D → Term Op → Prop) (N : Analysis Op D) : Prop where
  flag : ∀ a b t, (N.merge a b).2.1 = false → P (N.merge a b).1 t → P a t
  modify : ∀ X eg i k eg', Good C eg → i < eg.nodes.length → eg.classes.get? (eg.rt i) = some k →
    Kept P ((i, k.data) :: X) eg → N.modify eg i = .ok eg' → Kept P X eg'

theorem Kept.cons {X : List (Id × D)} (h : Kept P X eg) (x : Id × D) : Kept P (x :: X) eg := by
  intro c k hk
  rcases h c k hk with h | ⟨y, hy, h⟩
  · exact Or.inl h
  · exact Or.inr ⟨y, by simp [hy], h⟩

/-- From one state to another in which classes only gained terms. -/
theorem Kept.trans {X X' : List (Id × D)} {eg' : EGraph Op D} (h : Kept P X eg)
    (hrep : ∀ c t, Rep eg c t → Rep eg' c t) (hX : ∀ x ∈ X, x ∈ X')
    (hc : ∀ c k', eg'.classes.get? c = some k' →
      (∃ k, eg.classes.get? c = some k ∧ (∀ t, P k'.data t → P k.data t) ∧ ∀ i, eg.rt i = c → eg'.rt i = c) ∨
      ∃ x ∈ X', eg'.rt x.1 = c ∧ ∀ t, P k'.data t → P x.2 t) : Kept P X' eg' := by
  intro c k' hk'
  rcases hc c k' hk' with ⟨k, hk, hd, hr⟩ | h2
  · rcases h c k hk with h1 | ⟨x, hx, h1, h2⟩
    · exact Or.inl (fun t ht => hrep c t (h1 t (hd t ht)))
    · exact Or.inr ⟨x, hX x hx, hr _ h1, fun t ht => h2 t (hd t ht)⟩
  · exact Or.inr h2

theorem Kept.same {X : List (Id × D)} {eg' : EGraph Op D} (h : Kept P X eg)
    (hrep : ∀ c t, Rep eg c t → Rep eg' c t) (hrt : ∀ i, eg'.rt i = eg.rt i) (hc : eg'.classes = eg.classes) :
    Kept P X eg' := by
  refine h.trans hrep (fun _ h => h) ?_
  intro c k' hk'
  rw [hc] at hk'
  exact Or.inl ⟨k', hk', fun _ h => h, fun i hi => by rw [hrt]; exact hi⟩

theorem addUncanonical_kept (hN : HookOK C E N) (hK : HookK C P N) (h : Good C eg) {X : List (Id × D)}
    (hk : Kept P X eg) {n : ENode Op} (hch : ∀ c ∈ n.children, c < eg.nodes.length) {r : EGraph Op D × Id}
    (hr : addUncanonical N eg n = .ok r) : Kept P X r.1 := by
  have hN := hN.mono (E' := fun _ => True) (fun _ _ => trivial)
  rcases addUncanonical_cases N h.inv hch with ⟨e, i, ni, h1, h2, h3, h4, h5, h6⟩ |
      ⟨e, x, eg1, h1, h2, h3, h4, h5, h6⟩ | ⟨h1, eg1, h2, h3⟩
  · rw [h2] at hr; cases hr; exact hk
  · rw [h4] at hr; cases hr
    have hg := h6.good h h5 hch h1
    refine hk.trans (fun c t ht => h6.ext.rep h.inv hg.inv t ht) (fun _ h => h) ?_
    intro c k' hk'
    simp only [h6.classes] at hk'
    refine Or.inl ⟨k', hk', fun _ h => h, ?_⟩
    intro i hi
    show eg1.rt i = c
    rw [h6.rt]
    split
    · rename_i e1
      exfalso
      have hcl : c < eg.nodes.length := ((h.inv.core.clsKey c).1 (by simp [sk, hk'])).1
      rw [e1, h.inv.core.rtOut _ (le_refl _)] at hi
      omega
    · exact hi
  · rw [h3] at hr
    obtain ⟨ds, hds⟩ := cd_exists h.inv hch
    obtain ⟨d, hd, hr⟩ := bind_eq_ok.1 hr
    have hd' := (hN.make _ n eg.nodes.length ds (childData_makeSet h.inv hch hds)).elim hd
    obtain ⟨hi, hn⟩ := h2 d
    obtain ⟨eg', hm, hr⟩ := bind_eq_ok.1 hr
    cases hr
    have hg := hn.good h hi hch hds hd'
    have hrn : (eg1 d).rt eg.nodes.length = eg.nodes.length := by
      rw [hn.rt, h.inv.core.rtOut _ (le_refl _)]
    have hcn := hn.classes eg.nodes.length
    rw [if_pos rfl] at hcn
    have hl : eg.nodes.length < (eg1 d).nodes.length := by rw [hn.nodes]; simp
    have hk1 : Kept P ((eg.nodes.length, d) :: X) (eg1 d) := by
      refine hk.trans (fun c t ht => hn.ext.rep h.inv hg.inv t ht) (fun _ h => List.mem_cons_of_mem _ h) ?_
      intro c k' hk'
      rw [hn.classes] at hk'
      split at hk'
      · rename_i e
        cases hk'
        exact Or.inr ⟨_, List.mem_cons_self, by rw [e]; exact hrn, fun _ h => h⟩
      · obtain ⟨k, hk0, rfl⟩ := Option.map_eq_some_iff.1 hk'
        exact Or.inl ⟨k, hk0, fun _ h => h, fun i hi => by rw [hn.rt]; exact hi⟩
    have hk2 := hK.modify X (eg1 d) eg.nodes.length _ eg' hg hl (by rw [hrn]; exact hcn) hk1 hm
    exact hk2.same (fun c t ht => rep_frame (by rfl) (by rfl) t ht) (fun _ => rfl) rfl

theorem performUnion_kept (hN : HookOK C E N) (hK : HookK C P N) {e1 e2 : Id}
    {rule : Option Justification} {X : List (Id × D)} (hk : Kept P X eg)
    (h : InvW (WP (eg.rt e1) (eg.rt e2)) C eg)
    (hd : DInv C eg.rt eg.nodes eg.cov eg.apending.queue eg.dt)
    (he1 : e1 < eg.nodes.length) (he2 : e2 < eg.nodes.length)
    (hR : ∀ s t, TermOf eg.nodes e1 s → TermOf eg.nodes e2 t → C.R s t)
    (hJ : JustOK C eg e1 e2 rule) {r : EGraph Op D × Bool} (hr : performUnion N eg e1 e2 rule = .ok r) :
    Kept P X r.1 := by
  rcases performUnion_cases (N := N) h he1 he2 hR hJ with ⟨h1, eg', h2, h3, h4, h5, h7, _, h8, h9, _, _, h6⟩ |
    ⟨h1, eg1, a, b, c1, c2, h2, h3, h4, h5, _⟩
  · rw [h2] at hr; cases hr
    have hx : Ext eg eg' := .same h5 h4 h6 fun n hn => by unfold EGraph.mem at *; rw [h7]; exact hn
    exact hk.same (fun c t ht => hx.rep h h3 t ht) h4 h9
  · rw [h5] at hr
    obtain ⟨eg', hm, hr⟩ := bind_eq_ok.1 hr
    cases hr
    have hg := h3.good hN h hd h4
    have haL : a < eg1.nodes.length := by
      rw [h3.nodes]
      have := h.core.rtLt
      rcases h2 with ⟨e, _⟩ | ⟨e, _⟩ <;> rw [e]
      · exact this _ he1
      · exact this _ he2
    have hra : eg1.rt a = a := by rw [h3.rt, h3.rootA, if_neg h3.ne]
    have hca := AMap.get?_insert (m := eg.classes.erase b) (k := a) (k' := a)
      (v := { c1 with data := (N.merge c1.data c2.data).1, nodes := concatVecs c1.nodes c2.nodes, parents := concatVecs c1.parents c2.parents })
    rw [if_pos rfl, ← h3.classes] at hca
    refine hK.modify X eg1 a _ eg' hg haL (by rw [hra]; exact hca) ?_ hm
    refine hk.trans (fun c t ht => h3.ext.rep h h4 t ht) (fun _ h => List.mem_cons_of_mem _ h) ?_
    intro c k' hk'
    rw [h3.classes, AMap.get?_insert] at hk'
    split at hk'
    · rename_i e
      cases hk'
      exact Or.inr ⟨_, List.mem_cons_self, by rw [← e]; exact hra, fun _ h => h⟩
    · rw [AMap.get?_erase] at hk'
      split at hk'
      · cases hk'
      · rename_i hne
        refine Or.inl ⟨k', hk', fun _ h => h, ?_⟩
        intro i hi
        rw [h3.rt, hi, if_neg (fun e => hne e.symm)]

theorem performUnion_kept' (hN : HookOK C E N) (hK : HookK C P N) {e1 e2 : Id}
    {rule : Option Justification} {X : List (Id × D)} (hk : Kept P X eg) (h : Good C eg)
    (he1 : e1 < eg.nodes.length) (he2 : e2 < eg.nodes.length)
    (hR : ∀ s t, TermOf eg.nodes e1 s → TermOf eg.nodes e2 t → C.R s t)
    (hJ : JustOK C eg e1 e2 rule) {r : EGraph Op D × Bool} (hr : performUnion N eg e1 e2 rule = .ok r) :
    Kept P X r.1 :=
  performUnion_kept hN hK hk (h.inv.monoW (fun _ _ e => Or.inl e)) h.data he1 he2 hR hJ hr

theorem pendingStep_kept (hN : HookOK C E N) (hK : HookK C P N) {X : List (Id × D)} (hk : Kept P X eg) {cls : Id} {rest : List Id}
    (h : Good C eg) (hp : eg.pending = cls :: rest) {r : EGraph Op D × Bool}
    (hr : pendingStep N { eg with pending := rest } cls = .ok r) : Kept P X r.1 := by
  obtain ⟨node, uf, hn, hs, heq, hinv⟩ := pendingStep_eq N h.inv hp
  rw [heq] at hr
  have hrt : ∀ (g : EGraph Op D), g.uf = uf → g.rt = eg.rt := by
    intro g hg; funext i; show UF.root g.uf i = _; rw [hg]; exact hs.root i
  have hmi : ∀ n, eg.mem n ≠ none → AMap.get? (eg.memo.insert (node.mapChildren eg.rt) cls) n ≠ none := by
    intro n hn'
    rw [AMap.get?_insert]
    split
    · simp
    · exact hn'
  have hx : Ext eg { eg with pending := rest, uf := uf, memo := eg.memo.insert (node.mapChildren eg.rt) cls } :=
    .same rfl (fun i => by rw [hrt _ rfl]) rfl hmi
  cases hm : eg.mem (node.mapChildren eg.rt) with
  | none =>
    rw [hm] at hinv hr
    cases hr
    exact hk.same (fun c t ht => hx.rep h.inv hinv t ht) (fun i => by rw [hrt _ rfl]) rfl
  | some m =>
    rw [hm] at hinv hr
    obtain ⟨h1, h2, h3, h4⟩ := pending_union_pre (rest := rest)
      (mm := eg.memo.insert (node.mapChildren eg.rt) cls) h.inv hn hs hm
    have hg := hrt { eg with pending := rest, uf := uf, memo := eg.memo.insert (node.mapChildren eg.rt) cls } rfl
    refine performUnion_kept hN hK (hk.same (fun c t ht => hx.rep h.inv hinv t ht) (fun i => by rw [hg]) rfl)
      (by rw [hg]; exact hinv) ?_ h1 h2 h3 h4 hr
    unfold cov
    rw [hg]
    exact h.data

theorem pendingLoop_kept (hN : HookOK C E N) (hK : HookK C P N) {X : List (Id × D)} :
    ∀ (f : Nat) (eg : EGraph Op D) (k : Nat), Good C eg → Kept P X eg → ∀ r, pendingLoop N f eg k = .ok r → Kept P X r.1 := by
  intro f
  induction f with
  | zero => intro eg k _ _ r hr; cases hr
  | succ f ih =>
    intro eg k h hk r hr
    unfold pendingLoop at hr
    cases hp : eg.pending with
    | nil => rw [hp] at hr; cases hr; exact hk
    | cons cls rest =>
      rw [hp] at hr
      obtain ⟨⟨eg1, b⟩, h1, hr⟩ := bind_eq_ok.1 hr
      exact ih eg1 _ ((pendingStep_post hN h hp).elim h1).1 (pendingStep_kept hN hK hk h hp h1) r hr

/-- Changing the datum of a class. -/
theorem Kept.setData {X : List (Id × D)} (hk : Kept P X eg) {uf : UF} (hs : UF.Same eg.uf uf) {c : Id} {k : EClass Op D}
    (hc : eg.classes.get? c = some k) (h : Good C eg) (d : D) {ap : UniqueQueue Id}
    (hg : Good C { eg with uf := uf, classes := eg.classes.insert c { k with data := d }, apending := ap }) :
    Kept P ((c, d) :: X) { eg with uf := uf, classes := eg.classes.insert c { k with data := d }, apending := ap } ∧
    ((∀ t, P d t → P k.data t) → Kept P X { eg with uf := uf, classes := eg.classes.insert c { k with data := d }, apending := ap }) := by
  have hrt : ∀ i, ({ eg with uf := uf, classes := eg.classes.insert c { k with data := d }, apending := ap } : EGraph Op D).rt i = eg.rt i :=
    fun i => hs.root i
  have hx : Ext eg { eg with uf := uf, classes := eg.classes.insert c { k with data := d }, apending := ap } :=
    .same rfl hrt rfl fun _ h => h
  have hrc : eg.rt c = c := ((h.inv.core.clsKey c).1 (by simp [sk, hc])).2
  constructor
  · refine hk.trans (fun c t ht => hx.rep h.inv hg.inv t ht) (fun _ h => List.mem_cons_of_mem _ h) ?_
    intro c' k' hk'
    simp only at hk'
    rw [AMap.get?_insert] at hk'
    split at hk'
    · rename_i e
      cases hk'
      exact Or.inr ⟨_, List.mem_cons_self, by rw [hrt, ← e]; exact hrc, fun _ h => h⟩
    · exact Or.inl ⟨k', hk', fun _ h => h, fun i hi => by rw [hrt]; exact hi⟩
  · intro hd
    refine hk.trans (fun c t ht => hx.rep h.inv hg.inv t ht) (fun _ h => h) ?_
    intro c' k' hk'
    simp only at hk'
    rw [AMap.get?_insert] at hk'
    split at hk'
    · rename_i e
      cases hk'
      exact Or.inl ⟨k, by rw [← e]; exact hc, hd, fun i hi => by rw [hrt]; exact hi⟩
    · exact Or.inl ⟨k', hk', fun _ h => h, fun i hi => by rw [hrt]; exact hi⟩

theorem analysisStep_kept (hN : HookOK C E N) (hK : HookK C P N) {X : List (Id × D)} (hk : Kept P X eg) {cls : Id}
    {q : UniqueQueue Id} (h : Good C eg) (hp : eg.apending.pop = some (cls, q)) {eg' : EGraph Op D}
    (hr : analysisStep N { eg with apending := q } cls = .ok eg') : Kept P X eg' := by
  obtain ⟨hcls, n, uf, k, ds, hs, hc, hcd, heq, hgood⟩ := analysisStep_cases hN h hp
  rw [heq] at hr
  obtain ⟨d, hd, hr⟩ := bind_eq_ok.1 hr
  have hN' := hN.mono (E' := fun _ => True) (fun _ _ => trivial)
  obtain ⟨g1, g2⟩ := hgood d ((hN'.remake _ n (eg.rt cls) ds hcd).elim hd)
  split at hr
  · refine hK.modify X _ _ { k with data := (N.merge k.data d).1 } eg' g1 (h.inv.core.rtLt _ hcls) ?_ (hk.setData hs hc h _ g1).1 hr
    have : eg.rt (eg.rt cls) = eg.rt cls := h.inv.core.rtIdem _
    show AMap.get? _ (UF.root uf (eg.rt cls)) = _
    rw [hs.root]
    show AMap.get? _ (eg.rt (eg.rt cls)) = _
    rw [this, AMap.get?_insert, if_pos rfl]
  · rename_i hf
    cases hr
    have hf' : (N.merge k.data d).2.1 = false := by simpa using hf
    exact (hk.setData hs hc h _ (g2 hf')).2 (fun t ht => hK.flag _ _ t hf' ht)

theorem analysisLoop_kept (hN : HookOK C E N) (hK : HookK C P N) {X : List (Id × D)} :
    ∀ (f : Nat) (eg : EGraph Op D), Good C eg → Kept P X eg → ∀ r, analysisLoop N f eg = .ok r → Kept P X r := by
  intro f
  induction f with
  | zero => intro eg _ _ r hr; cases hr
  | succ f ih =>
    intro eg h hk r hr
    unfold analysisLoop at hr
    cases hp : eg.apending.pop with
    | none => rw [hp] at hr; cases hr; exact hk
    | some cq =>
      obtain ⟨cls, q⟩ := cq
      rw [hp] at hr
      obtain ⟨eg1, h1, hr⟩ := bind_eq_ok.1 hr
      exact ih eg1 ((analysisStep_post hN h hp).elim h1).1 (analysisStep_kept hN hK hk h hp h1) r hr

theorem processUnions_kept (hN : HookOK C E N) (hK : HookK C P N) {X : List (Id × D)} :
    ∀ (f : Nat) (eg : EGraph Op D) (k : Nat), Good C eg → Kept P X eg → ∀ r, processUnions N f eg k = .ok r → Kept P X r.1 := by
  have hN := hN.mono (E' := fun _ => True) (fun _ _ => trivial)
  intro f
  induction f with
  | zero => intro eg k _ _ r hr; cases hr
  | succ f ih =>
    intro eg k h hk r hr
    unfold processUnions at hr
    split at hr
    · cases hr; exact hk
    · obtain ⟨⟨eg1, k1⟩, h1, hr⟩ := bind_eq_ok.1 hr
      obtain ⟨eg2, h2, hr⟩ := bind_eq_ok.1 hr
      have g1 := ((pendingLoop_post trivial hN f eg k h).elim h1).1
      exact ih eg2 _ ((analysisLoop_post trivial hN f eg1 g1).elim h2).1
        (analysisLoop_kept hN hK f eg1 g1 (pendingLoop_kept hN hK f eg k h hk _ h1) _ h2) r hr

theorem rebuild_kept (hN : HookOK C E N) (hK : HookK C P N) {X : List (Id × D)} {fuel : Nat} (h : Good C eg) (hk : Kept P X eg)
    {r : EGraph Op D × Nat} (hr : rebuild N fuel eg = .ok r) : Kept P X r.1 := by
  have hN := hN.mono (E' := fun _ => True) (fun _ _ => trivial)
  unfold rebuild at hr
  obtain ⟨⟨eg1, k⟩, h1, hr⟩ := bind_eq_ok.1 hr
  have hk1 := processUnions_kept hN hK fuel eg 0 h hk _ h1
  obtain ⟨p1, p2, p3, p4⟩ := (processUnions_post trivial hN fuel eg 0 h).elim h1
  obtain ⟨eg2, t, g1, g2, g3, g4, g5, g6, g7, g8⟩ := rebuildClasses_good p1 p3 p4
  simp only [g1, ok_bind] at hr
  cases hr
  have hk2 : Kept P X eg2 := by
    refine hk1.trans (fun c t ht => g3.rep p1.inv g2.inv t ht) (fun _ h => h) ?_
    intro c k' hk'
    rw [g8] at hk'
    obtain ⟨k0, hk0, rfl⟩ := Option.map_eq_some_iff.1 hk'
    exact Or.inl ⟨k0, hk0, fun _ h => h, fun i hi => by rw [g5]; exact hi⟩
  exact hk2.same (fun c t ht => rep_frame (by rfl) (by rfl) t ht) (fun _ => rfl) rfl

theorem setAnalysisData_kept (hN : HookOK C E N) (hK : HookK C P N) {X : List (Id × D)} {i : Id} {d : D}
    (h : Good C eg) (hk : Kept P X eg) (hi : Valid eg i) (hso : SetOK C eg i d) {eg' : EGraph Op D}
    (hr : setAnalysisData N eg i d = .ok eg') : Kept P X eg' := by
  have hi' := h.valid_iff.1 hi
  unfold setAnalysisData at hr
  obtain ⟨uf, hf, hs⟩ := h.inv.findMut hi'
  obtain ⟨k, hk', hc⟩ := h.inv.index hi'
  simp only [ok_bind, hf, hc, unwrap] at hr
  have h2 := h.setData hs hc d (UniqueQueue.inv_extend h.inv.apq k.parents)
      (fun p hp => (UniqueQueue.mem_extend h.inv.apq _ _).1 hp)
      (Or.inr (hso.1 k hk').2) (hso.1 k hk').1
      (fun j t e ht => hso.2 t (h.inv.rep_congr hi' e (h.inv.rep_of_termOf t ht))) (fun u hu _ => C.leTrans (hso.1 k hk').2 hu)
      (fun j n _ hj _ => Or.inl ((UniqueQueue.mem_extend h.inv.apq _ _).2 (Or.inl hj)))
  refine hK.modify X _ _ { k with data := d } eg' h2 (h.inv.core.rtLt _ hi') ?_ (hk.setData hs hc h _ h2).1 hr
  have : eg.rt (eg.rt i) = eg.rt i := h.inv.core.rtIdem _
  show AMap.get? _ (UF.root uf (eg.rt i)) = _
  rw [hs.root]
  show AMap.get? _ (eg.rt (eg.rt i)) = _
  rw [this, AMap.get?_insert, if_pos rfl]

theorem union_kept (hN : HookOK C E N) (hK : HookK C P N) {X : List (Id × D)} (h : Good C eg) (hk : Kept P X eg)
    {a b : Id} {caller : Symbol} {s t : Term Op}
    (ha : Rep eg a s) (hb : Rep eg b t) (hR : C.R s t) (hJ : C.J caller a b) {r : EGraph Op D × Bool} :
    (EGraph.union N eg a b caller = .ok r → Kept P X r.1) ∧ (EGraph.unionTrusted N eg a b caller = .ok r → Kept P X r.1) := by
  have hR' : ∀ s t, TermOf eg.nodes a s → TermOf eg.nodes b t → C.R s t := by
    intro s' t' hs' ht'
    exact C.isCong.trans (h.inv.rep_sound s ha hs') (C.isCong.trans hR (C.isCong.symm (h.inv.rep_sound t hb ht')))
  have h1 := h.inv.rep_lt ha
  have h2 := h.inv.rep_lt hb
  have ht : EGraph.unionTrusted N eg a b caller = .ok r → Kept P X r.1 :=
    fun hr => performUnion_kept' hN hK (rule := some (.rule caller)) hk h h1 h2 hR' hJ hr
  refine ⟨?_, ht⟩
  unfold EGraph.union
  split
  · exact ht
  · rename_i hx
    exact fun hr => performUnion_kept' hN hK hk h h1 h2 hR' (by simpa [JustOK] using hx) hr

theorem add_kept (hN : HookOK C E N) (hK : HookK C P N) {X : List (Id × D)} (h : Good C eg) (hk : Kept P X eg)
    {n : ENode Op} (hn : ∀ c ∈ n.children, Valid eg c) {r : EGraph Op D × Id} (hr : EGraph.add N eg n = .ok r) : Kept P X r.1 := by
  unfold EGraph.add at hr
  obtain ⟨⟨eg1, i⟩, h1, hr⟩ := bind_eq_ok.1 hr
  obtain ⟨j, _, hr⟩ := bind_eq_ok.1 hr
  cases hr
  exact addUncanonical_kept hN hK h hk (fun c hc => h.valid_iff.1 (hn c hc)) (r := (eg1, i)) h1

theorem Prog.run_kept (hN : HookOK C E N) (hK : HookK C P N) {X : List (Id × D)} : ∀ (p : Prog Op D) (eg : EGraph Op D),
    Good C eg → p.Safe C E N eg → Kept P X eg → ∀ eg', p.run N eg = .ok eg' → Kept P X eg' := by
  intro p
  induction p with
  | done => intro eg h _ hk eg' hr; cases hr; exact hk
  | panic => intro eg h hs hk eg' hr; cases hr
  | read k ih => intro eg h hs hk eg' hr; exact ih eg eg h hs hk eg' hr
  | add n k ih =>
    intro eg h hs hk eg' hr
    unfold Prog.run at hr
    by_cases hn : ∀ c ∈ n.children, Valid eg c
    · obtain ⟨r, h1, hr⟩ := bind_eq_ok.1 hr
      have hp := (Good.add_post hN h hn).elim h1
      obtain ⟨j, nj, q1, q2, q3, _⟩ := hp.2.2
      have hrl : r.2 < r.1.nodes.length := by rw [q2]; exact hp.1.inv.core.rtLt _ (getElem?_lt q1)
      refine ih r.2 r.1 hp.1 (hs.2 r.1 r.2 h1 (h.later hp.1 hp.2.1) ⟨hp.1.valid_iff.2 hrl, ?_⟩) (add_kept hN hK h hk hn h1) eg' hr
      intro ts hts
      refine hp.1.inv.rep_congr hrl ?_ (hp.1.rep_node q1 q3 hts)
      rw [q2, hp.1.inv.core.rtIdem]
    · rw [add_error h hn] at hr; cases hr
  | union a b caller k ih =>
    intro eg h hs hk eg' hr
    unfold Prog.run at hr
    by_cases hv : Valid eg a ∧ Valid eg b
    · obtain ⟨⟨s, t, ha, hb, hR⟩, hJ⟩ := hs.2.1 hv.1 hv.2
      obtain ⟨r, h1, hr⟩ := bind_eq_ok.1 hr
      have hp := (Good.union_post hN h ha hb hR hJ).1.elim h1
      have hlt := h.later hp.1 hp.2.1
      exact ih r.2 r.1 hp.1 (hs.2.2 r.1 r.2 h1 hlt (hp.1.inv.sameClass_iff.2
          ⟨hp.1.valid_iff.1 (hlt.valid _ hv.1), hp.1.valid_iff.1 (hlt.valid _ hv.2), hp.2.2.1⟩))
        ((union_kept hN hK h hk ha hb hR hJ).1 h1) eg' hr
    · rw [(union_error h hv).1] at hr; cases hr
  | setData i d k ih =>
    intro eg h hs hk eg' hr
    unfold Prog.run at hr
    by_cases hv : Valid eg i
    · obtain ⟨r, h1, hr⟩ := bind_eq_ok.1 hr
      have hp := (Good.setData_post hN h hv hs.2.1).elim h1
      exact ih r hp.1 (hs.2.2 r h1 (h.later hp.1 hp.2)) (setAnalysisData_kept hN hK h hk hv hs.2.1 h1) eg' hr
    · rw [setData_error h hv] at hr; cases hr

theorem Prog.run_ends (hN : HookOK C E N) {Q : EGraph Op D → Prop} : ∀ (p : Prog Op D) (eg : EGraph Op D),
    Good C eg → p.Safe C E N eg → p.Ends C N Q eg → ∀ eg', p.run N eg = .ok eg' → Q eg' := by
  intro p
  induction p with
  | done => intro eg h _ hk eg' hr; cases hr; exact hk
  | panic => intro eg h hs hk eg' hr; cases hr
  | read k ih => intro eg h hs hk eg' hr; exact ih eg eg h hs hk eg' hr
  | add n k ih =>
    intro eg h hs hk eg' hr
    unfold Prog.run at hr
    by_cases hn : ∀ c ∈ n.children, Valid eg c
    · obtain ⟨r, h1, hr⟩ := bind_eq_ok.1 hr
      have hp := (Good.add_post hN h hn).elim h1
      obtain ⟨j, nj, q1, q2, q3, _⟩ := hp.2.2
      have hrl : r.2 < r.1.nodes.length := by rw [q2]; exact hp.1.inv.core.rtLt _ (getElem?_lt q1)
      have hlt := h.later hp.1 hp.2.1
      have hrep : Valid r.1 r.2 ∧ ∀ ts, List.Forall₂ (Rep r.1) n.children ts → Rep r.1 r.2 (.node n.op ts) := by
        refine ⟨hp.1.valid_iff.2 hrl, ?_⟩
        intro ts hts
        refine hp.1.inv.rep_congr hrl ?_ (hp.1.rep_node q1 q3 hts)
        rw [q2, hp.1.inv.core.rtIdem]
      exact ih r.2 r.1 hp.1 (hs.2 r.1 r.2 h1 hlt hrep) (hk r.1 r.2 h1 hlt hrep) eg' hr
    · rw [add_error h hn] at hr; cases hr
  | union a b caller k ih =>
    intro eg h hs hk eg' hr
    unfold Prog.run at hr
    by_cases hv : Valid eg a ∧ Valid eg b
    · obtain ⟨⟨s, t, ha, hb, hR⟩, hJ⟩ := hs.2.1 hv.1 hv.2
      obtain ⟨r, h1, hr⟩ := bind_eq_ok.1 hr
      have hp := (Good.union_post hN h ha hb hR hJ).1.elim h1
      have hlt := h.later hp.1 hp.2.1
      have hsc := hp.1.inv.sameClass_iff.2
          ⟨hp.1.valid_iff.1 (hlt.valid _ hv.1), hp.1.valid_iff.1 (hlt.valid _ hv.2), hp.2.2.1⟩
      exact ih r.2 r.1 hp.1 (hs.2.2 r.1 r.2 h1 hlt hsc) (hk r.1 r.2 h1 hlt hsc) eg' hr
    · rw [(union_error h hv).1] at hr; cases hr
  | setData i d k ih =>
    intro eg h hs hk eg' hr
    unfold Prog.run at hr
    by_cases hv : Valid eg i
    · obtain ⟨r, h1, hr⟩ := bind_eq_ok.1 hr
      have hp := (Good.setData_post hN h hv hs.2.1).elim h1
      have hlt := h.later hp.1 hp.2
      exact ih r hp.1 (hs.2.2 r h1 hlt) (hk r h1 hlt) eg' hr
    · rw [setData_error h hv] at hr; cases hr

theorem hookK {U : UserAnalysis Op D} (hE : E .fuel) (hU : U.OK C E) (hP : U.Delivers C P) :
    ∀ depth, HookK C P (U.at depth) := by
  intro depth
  induction depth with
  | zero => exact ⟨hP.flag, fun _ _ _ _ _ _ _ _ _ h => by cases h⟩
  | succ depth ih =>
    refine ⟨hP.flag, ?_⟩
    intro X eg i k eg' h hi hc hk hr
    have hs := hU.modify depth eg i h.sensible (h.valid_iff.2 hi)
    have hr' : (U.modify i).run (U.at depth) eg = .ok eg' := hr
    have h1 := Prog.run_kept (hU.hookOK hE depth) ih _ eg h hs hk eg' hr'
    have h2 := (Prog.run_post (hU.hookOK hE depth) _ eg h hs).elim hr'
    intro c k' hk'
    rcases h1 c k' hk' with h3 | ⟨x, hx, h3, h4⟩
    · exact Or.inl h3
    · rcases List.mem_cons.1 hx with e | hx
      · subst e
        left
        intro t ht
        obtain ⟨k0, hk0, hk1⟩ := h.inv.index hi
        rw [hc] at hk1; cases hk1
        have hrep := Prog.run_ends (hU.hookOK hE depth) _ eg h hs (hP.modify depth eg i k t h.sensible hk0 (h4 t ht)) eg' hr'
        have hc' : c < eg'.nodes.length := ((h2.1.inv.core.clsKey c).1 (by simp [sk, hk'])).1
        refine h2.1.inv.rep_congr hc' ?_ hrep
        show eg'.rt i = eg'.rt c
        rw [h3]
        have := h2.1.inv.core.rtIdem i
        rw [← h3]; exact this.symm
      · exact Or.inr ⟨x, hx, h3, h4⟩

theorem Step.kept {allow : Caller Op D} (hN : HookOK C E N) (hK : HookK C P N)
    (hallow : ∀ eg i d, Good C eg → allow eg i d → SetOK C eg i d)
    {U : List (UnionRec Op)} {eg' : EGraph Op D}
    (hs : Step N allow eg U eg') (hU : ∀ u ∈ U, C.R u.s u.t ∧ C.J u.reason u.a u.b) (h : Good C eg) (hk : Kept P [] eg) :
    Kept P [] eg' := by
  have hset : ∀ x : Option (Explain Op), Kept P [] { eg with explain := x } := fun x =>
    hk.same (fun c t ht => rep_frame (by rfl) (by rfl) t ht) (fun _ => rfl) rfl
  cases hs with
  | explain he =>
    unfold withExplanationsEnabled at he
    split at he
    · cases he; exact hk
    · split at he
      · cases he
      · cases he; exact hset _
  | restore => exact hk.same (fun c t ht => rep_frame (by rfl) (by rfl) t ht) (fun _ => rfl) rfl
  | disable _ => exact hset _
  | noOptimize he =>
    unfold withoutExplanationLengthOptimization at he
    split at he
    · cases he; exact hset _
    · cases he
  | optimize he =>
    unfold withExplanationLengthOptimization at he
    split at he
    · cases he; exact hset _
    · cases he
  | query hx he =>
    obtain ⟨_, _, _, x, x', hx, rfl, _⟩ := explainId_ok h he
    exact hset _
  | @add _ n i he =>
    by_cases hn : ∀ c ∈ n.children, Valid eg c
    · exact addUncanonical_kept hN hK h hk (fun c hc => h.valid_iff.1 (hn c hc)) he
    · rw [addUncanonical_error h hn] at he; cases he
  | union ha hb he =>
    obtain ⟨hR, hJ⟩ := hU _ (List.mem_singleton.2 rfl)
    exact (union_kept hN hK h hk ha hb hR hJ).1 he
  | unionTrusted ha hb he =>
    obtain ⟨hR, hJ⟩ := hU _ (List.mem_singleton.2 rfl)
    exact (union_kept hN hK h hk ha hb hR hJ).2 he
  | @setData _ i d ha he =>
    by_cases hi : Valid eg i
    · exact setAnalysisData_kept hN hK h hk hi (hallow _ _ _ h ha) he
    · rw [setData_error h hi] at he; cases he
  | rebuild he => exact rebuild_kept hN hK h hk he

theorem Hist.kept {allow : Caller Op D} (hN : HookOK C E N) (hK : HookK C P N)
    (hallow : ∀ eg i d, Good C eg → allow eg i d → SetOK C eg i d)
    {U : List (UnionRec Op)} (hs : Hist N allow U eg) (hU : ∀ u ∈ U, C.R u.s u.t ∧ C.J u.reason u.a u.b)
    (hq : allow.optimized → C.optimized := by exact fun _ => trivial) : Kept P [] eg := by
  unfold Hist at hs
  generalize h0 : (EGraph.new : EGraph Op D) = eg0 at hs
  induction hs with
  | refl => subst h0; intro c k hk; simp [EGraph.new, AMap.get?] at hk
  | tail hst hstep ih =>
    have hg := (Hist.good hN hallow (by subst h0; exact hst) (fun u hu => hU u (by simp [hu])) hq).1
    exact Step.kept hN hK hallow hstep (fun u hu => hU u (by simp [hu])) hg (ih (fun u hu => hU u (by simp [hu])))

end EGraph
end Egg
