import Verif.Lemmas.Rep
import Verif.Lemmas.ShortFrame
/-
User analyses given as programs satisfy the hook assumptions; histories keep the
invariant.
-/
namespace Egg
variable {Op D : Type} [DecidableEq Op] [Lang Op]

theorem UF.findMut_error {ps : UF} {i : Id} (hi : ¬ i < ps.length) : UF.findMut ps i = .error .panic := by
  unfold UF.findMut UF.findMutLoop
  rw [List.getElem?_eq_none (by omega)]

theorem mapM_error {α β : Type} {f : α → Res β} {e : Err} : ∀ {l : List α},
    (∀ a ∈ l, f a = .error e ∨ ∃ b, f a = .ok b) → (∃ a ∈ l, f a = .error e) → l.mapM f = .error e := by
  intro l
  induction l with
  | nil => rintro _ ⟨a, h, _⟩; cases h
  | cons a l ih =>
    intro h1 h2
    rw [List.mapM_cons]
    rcases h1 a (by simp) with h | ⟨b, h⟩
    · rw [h]; rfl
    · rw [h, ih (fun x hx => h1 x (by simp [hx])) ?_]
      · rfl
      · obtain ⟨x, hx, hx'⟩ := h2
        rcases List.mem_cons.1 hx with rfl | hx
        · rw [h] at hx'; cases hx'
        · exact ⟨x, hx, hx'⟩

namespace EGraph
variable {W : Id → Id → Prop} {C : Cfg Op D} {eg : EGraph Op D} {E : Err → Prop} {N : Analysis Op D}

theorem InvW.canon_error (h : InvW W C eg) {n : ENode Op} (hn : ∃ c ∈ n.children, ¬ c < eg.nodes.length) :
    eg.canon n = .error .panic := by
  unfold EGraph.canon ENode.mapChildrenM
  rw [mapM_error (e := .panic)]
  · rfl
  · intro c _
    by_cases hc : c < eg.nodes.length
    · exact Or.inr ⟨_, h.find hc⟩
    · exact Or.inl (UF.find_error_of_ge (by rw [← h.len]; exact hc))
  · obtain ⟨c, hc, hc'⟩ := hn
    exact ⟨c, hc, UF.find_error_of_ge (by rw [← h.len]; exact hc')⟩

theorem HookOK.mono {E' : Err → Prop} (h : HookOK C E N) (hE : ∀ e, E e → E' e) : HookOK C E' N := by
  have pm : ∀ {α : Type} {x : Res α} {P : α → Prop}, Post E x P → Post E' x P := by
    intro α x P hp
    cases x with
    | ok a => exact hp
    | error e => exact hE e hp
  exact ⟨fun a b c d h' => pm (h.make a b c d h'), fun a b c d h' => pm (h.remake a b c d h'), h.mergeV,
    h.mergeL, h.mergeR, h.mergeLub, h.flagL, h.flagR, fun a b c d => pm (h.modify a b c d)⟩

theorem Good.valid_iff (h : Good C eg) {i : Id} : Valid eg i ↔ i < eg.nodes.length := h.inv.valid_iff

theorem Good.rep_V (h : Good C eg) {i : Id} {k : EClass Op D} {t : Term Op} (hk : eg.index i = .ok k)
    (hr : Rep eg i t) : C.V k.data t := by
  have hi := h.inv.rep_lt hr
  obtain ⟨k', h1, h2⟩ := h.inv.index hi
  rw [hk] at h1; cases h1
  obtain ⟨s, hs⟩ := h.inv.core.dag.exists_term i hi
  refine C.vResp (h.inv.rep_sound t hr hs) (h.data.valid i _ s ?_ hs)
  simp [dt, h2]

theorem Good.sensible (h : Good C eg) : Sensible C eg := by
  refine ⟨fun i hi => h.inv.exists_rep (h.valid_iff.1 hi), ?_, ?_, ?_⟩
  · intro c k n ch hk hn hch
    rw [h.valid_iff]
    exact h.inv.core.clsNodeLt (sk_eq hk) hn ch hch
  · intro a b s t hab ha hb
    exact h.inv.rep_related ha hb (h.inv.sameClass_iff.1 hab).2.2
  · intro i k t hk hr
    exact h.rep_V hk hr

theorem Good.union_post (hN : HookOK C E N) (h : Good C eg) {a b : Id} {caller : Symbol} {s t : Term Op}
    (ha : Rep eg a s) (hb : Rep eg b t) (hR : C.R s t) (hJ : C.J caller a b) :
    Post E (EGraph.union N eg a b caller) (fun r => Good C r.1 ∧ Ext eg r.1 ∧
      r.1.rt a = r.1.rt b ∧ (r.2 = true ↔ eg.rt a ≠ eg.rt b)) ∧
    Post E (EGraph.unionTrusted N eg a b caller) (fun r => Good C r.1 ∧ Ext eg r.1 ∧
      r.1.rt a = r.1.rt b ∧ (r.2 = true ↔ eg.rt a ≠ eg.rt b)) := by
  have hR' : ∀ s t, TermOf eg.nodes a s → TermOf eg.nodes b t → C.R s t := by
    intro s' t' hs' ht'
    exact C.isCong.trans (h.inv.rep_sound s ha hs') (C.isCong.trans hR (C.isCong.symm (h.inv.rep_sound t hb ht')))
  have h1 := h.inv.rep_lt ha
  have h2 := h.inv.rep_lt hb
  have ht : Post E (EGraph.unionTrusted N eg a b caller) (fun r => Good C r.1 ∧ Ext eg r.1 ∧
      r.1.rt a = r.1.rt b ∧ (r.2 = true ↔ eg.rt a ≠ eg.rt b)) := performUnion_good hN h h1 h2 hR' hJ
  refine ⟨?_, ht⟩
  unfold EGraph.union
  split
  · exact ht
  · rename_i hx
    exact performUnion_good hN h h1 h2 hR' (by simpa [JustOK] using hx)

theorem union_error (h : Good C eg) {a b : Id} {caller : Symbol} (hab : ¬ (Valid eg a ∧ Valid eg b)) :
    EGraph.union N eg a b caller = .error .panic ∧ EGraph.unionTrusted N eg a b caller = .error .panic := by
  have key : ∀ r, performUnion N eg a b r = .error .panic := by
    intro r
    unfold performUnion
    simp only [h.valid_iff] at hab
    by_cases ha : a < eg.nodes.length
    · obtain ⟨uf, h1, h2⟩ := h.inv.findMut ha
      have hb : ¬ b < uf.length := by rw [h2.len, ← h.inv.len]; exact fun hb => hab ⟨ha, hb⟩
      simp only [h1, ok_bind, UF.findMut_error hb]
      rfl
    · rw [h.inv.len] at ha
      simp only [UF.findMut_error ha]
      rfl
  exact ⟨by unfold EGraph.union; split <;> exact key _, key _⟩

theorem addUncanonical_error (h : Good C eg) {n : ENode Op} (hn : ¬ ∀ c ∈ n.children, Valid eg c) :
    addUncanonical N eg n = .error .panic := by
  unfold addUncanonical
  rw [h.inv.canon_error]
  · rfl
  · by_contra hc
    apply hn
    intro c hcm
    rw [h.valid_iff]
    by_contra hlt
    exact hc ⟨c, hcm, hlt⟩

theorem Good.setData_post (hN : HookOK C E N) (h : Good C eg) {i : Id} {d : D} (hi : Valid eg i)
    (hs : SetOK C eg i d) : Post E (setAnalysisData N eg i d) (fun eg' => Good C eg' ∧ Ext eg eg') := by
  have hi' := h.valid_iff.1 hi
  refine setAnalysisData_post hN h hi' hs.1 ?_
  intro j t e ht
  exact hs.2 t (h.inv.rep_congr hi' e (h.inv.rep_of_termOf t ht))

theorem setData_error (h : Good C eg) {i : Id} {d : D} (hi : ¬ Valid eg i) :
    setAnalysisData N eg i d = .error .panic := by
  unfold setAnalysisData
  rw [h.valid_iff, h.inv.len] at hi
  rw [UF.findMut_error hi]
  rfl

theorem Good.add_post (hN : HookOK C E N) (h : Good C eg) {n : ENode Op} (hn : ∀ c ∈ n.children, Valid eg c) :
    Post E (EGraph.add N eg n) (fun r => Good C r.1 ∧ Ext eg r.1 ∧ ∃ (i : Id) (ni : ENode Op),
      r.1.nodes[i]? = some ni ∧ r.2 = r.1.rt i ∧ Cong r.1.rt ni n ∧ (eg.explain.isSome → ni = n)) := by
  unfold EGraph.add
  apply Post.bind (addUncanonical_post hN h (fun c hc => h.valid_iff.1 (hn c hc)))
  rintro ⟨eg', i⟩ ⟨h1, h2, ni, h3, h4, h5⟩
  simp only [h1.inv.find (getElem?_lt h3), ok_bind]
  exact ⟨h1, h2, i, ni, h3, rfl, h4, h5⟩

theorem add_error (h : Good C eg) {n : ENode Op} (hn : ¬ ∀ c ∈ n.children, Valid eg c) :
    EGraph.add N eg n = .error .panic := by
  unfold EGraph.add
  rw [addUncanonical_error h hn]
  rfl

theorem Good.later {eg' : EGraph Op D} (h : Good C eg) (h' : Good C eg') (hx : Ext eg eg') : Later C eg eg' := by
  refine ⟨h'.sensible, ?_, fun i t hr => hx.rep h.inv h'.inv t hr⟩
  intro i hi
  rw [h.valid_iff] at hi
  rw [h'.valid_iff]
  have := hx.len
  omega

/-- The class of an entry of the node table represents what its e-node denotes. -/
theorem Good.rep_node (h : Good C eg) {i : Id} {ni n : ENode Op} (hi : eg.nodes[i]? = some ni)
    (hc : Cong eg.rt ni n) {ts : List (Term Op)} (hts : List.Forall₂ (Rep eg) n.children ts) :
    Rep eg i (.node n.op ts) := by
  obtain ⟨s, n2, q1, q2, q3⟩ := h.inv.core.nodesCls i ni hi
  obtain ⟨k2, hk2, rfl⟩ := cls_of_sk q1
  rw [h.inv.rep_iff]
  exact ⟨getElem?_lt hi, k2, n2, hk2, q2, by rw [q3.1, hc.1],
    h.inv.rep_children (h.inv.core.clsNodeLt q1 q2) (q3.trans hc).symm hts⟩

theorem Prog.run_post (hN : HookOK C E N) : ∀ (p : Prog Op D) (eg : EGraph Op D), Good C eg → p.Safe C E N eg →
    Post E (p.run N eg) (fun eg' => Good C eg' ∧ Ext eg eg') := by
  intro p
  induction p with
  | done => intro eg h _; exact ⟨h, Ext.refl _⟩
  | panic => intro eg h hs; exact hs
  | read k ih => intro eg h hs; exact ih eg eg h hs
  | add n k ih =>
    intro eg h hs
    unfold Prog.run
    by_cases hn : ∀ c ∈ n.children, Valid eg c
    · cases hr : EGraph.add N eg n with
      | error e => have := Good.add_post hN h hn; rw [hr] at this; exact this
      | ok r =>
        have hp := (Good.add_post hN h hn).elim hr
        obtain ⟨j, nj, q1, q2, q3, _⟩ := hp.2.2
        have hrl : r.2 < r.1.nodes.length := by rw [q2]; exact hp.1.inv.core.rtLt _ (getElem?_lt q1)
        refine (ih r.2 r.1 hp.1 (hs.2 r.1 r.2 hr (h.later hp.1 hp.2.1) ⟨hp.1.valid_iff.2 hrl, ?_⟩)).mono ?_
        · intro ts hts
          refine hp.1.inv.rep_congr hrl ?_ (hp.1.rep_node q1 q3 hts)
          rw [q2, hp.1.inv.core.rtIdem]
        rintro eg' ⟨h1, h2⟩
        exact ⟨h1, hp.2.1.trans h2⟩
    · rw [add_error h hn]
      exact hs.1.resolve_left hn
  | union a b caller k ih =>
    intro eg h hs
    unfold Prog.run
    by_cases hv : Valid eg a ∧ Valid eg b
    · obtain ⟨⟨s, t, ha, hb, hR⟩, hJ⟩ := hs.2.1 hv.1 hv.2
      have hp := (Good.union_post hN h ha hb hR hJ).1
      cases hr : EGraph.union N eg a b caller with
      | error e => rw [hr] at hp; exact hp
      | ok r =>
        rw [hr] at hp
        have hlt := h.later hp.1 hp.2.1
        refine (ih r.2 r.1 hp.1 (hs.2.2 r.1 r.2 hr hlt (hp.1.inv.sameClass_iff.2
          ⟨hp.1.valid_iff.1 (hlt.valid _ hv.1), hp.1.valid_iff.1 (hlt.valid _ hv.2), hp.2.2.1⟩))).mono ?_
        rintro eg' ⟨h1, h2⟩
        exact ⟨h1, hp.2.1.trans h2⟩
    · rw [(union_error h hv).1]
      exact hs.1.resolve_left hv
  | setData i d k ih =>
    intro eg h hs
    unfold Prog.run
    by_cases hv : Valid eg i
    · have hp := Good.setData_post hN h hv hs.2.1
      cases hr : EGraph.setAnalysisData N eg i d with
      | error e => rw [hr] at hp; exact hp
      | ok r =>
        rw [hr] at hp
        refine (ih r hp.1 (hs.2.2 r hr (h.later hp.1 hp.2))).mono ?_
        rintro eg' ⟨h1, h2⟩
        exact ⟨h1, hp.2.trans h2⟩
    · rw [setData_error h hv]
      exact hs.1.resolve_left hv

theorem _root_.Egg.UserAnalysis.OK.hookOK {U : UserAnalysis Op D} (hE : E .fuel) (hU : U.OK C E) :
    ∀ depth, HookOK C E (U.at depth) := by
  intro depth
  induction depth with
  | zero =>
    exact ⟨hU.make, hU.remake, hU.mergeV, hU.mergeL, hU.mergeR, hU.mergeLub, hU.flagL, hU.flagR,
      fun _ _ _ _ => hE⟩
  | succ depth ih =>
    refine ⟨hU.make, hU.remake, hU.mergeV, hU.mergeL, hU.mergeR, hU.mergeLub, hU.flagL, hU.flagR, ?_⟩
    intro eg i h hi
    exact Prog.run_post ih _ eg h (hU.modify depth eg i h.sensible (h.valid_iff.2 hi))

/-! ### Steps -/

/-- The state grows: ids stay, representation and equality are kept. -/
structure Grow (eg eg' : EGraph Op D) : Prop where
  nodes : ∃ l, eg'.nodes = eg.nodes ++ l
  rt : ∀ i j, i < eg.nodes.length → j < eg.nodes.length → eg.rt i = eg.rt j → eg'.rt i = eg'.rt j
  rep : ∀ i t, Rep eg i t → Rep eg' i t
  mem : ∀ n, eg.mem n ≠ none → eg'.mem n ≠ none
  root : ∀ i, i < eg.nodes.length → eg'.rt i = i → eg.rt i = i
  fresh : (∀ n, eg'.mem n ≠ none → eg.mem n ≠ none) → ∀ i, eg.nodes.length ≤ i → i < eg'.nodes.length → eg'.rt i ≠ i

theorem Ext.grow {eg' : EGraph Op D} (hx : Ext eg eg') (h : Good C eg) (h' : Good C eg') : Grow eg eg' :=
  ⟨hx.nodes, hx.rt, fun _ t hr => hx.rep h.inv h'.inv t hr, hx.mem, hx.root, hx.fresh⟩

theorem Grow.same {eg' : EGraph Op D} (h1 : eg'.nodes = eg.nodes) (h2 : ∀ i, eg'.rt i = eg.rt i)
    (h3 : ∀ i t, Rep eg i t → Rep eg' i t) (h4 : ∀ n, eg.mem n ≠ none → eg'.mem n ≠ none) : Grow eg eg' :=
  ⟨⟨[], by simp [h1]⟩, fun i j _ _ e => by rw [h2, h2, e], h3, h4, fun i _ e => by rw [← h2, e],
    fun _ i h5 h6 => by rw [h1] at h6; omega⟩

theorem Grow.refl (eg : EGraph Op D) : Grow eg eg := .same rfl (fun _ => rfl) (fun _ _ h => h) fun _ h => h

theorem Grow.len {eg' : EGraph Op D} (h : Grow eg eg') : eg.nodes.length ≤ eg'.nodes.length := by
  obtain ⟨l, hl⟩ := h.nodes; rw [hl]; simp

theorem Grow.trans {a b c : EGraph Op D} (h : Grow a b) (h' : Grow b c) : Grow a c := by
  obtain ⟨l, hl⟩ := h.nodes
  obtain ⟨l', hl'⟩ := h'.nodes
  have := h.len
  refine ⟨⟨l ++ l', by rw [hl', hl, List.append_assoc]⟩, ?_, fun i t hr => h'.rep i t (h.rep i t hr), fun n hn => h'.mem n (h.mem n hn),
    fun i hi e => h.root i hi (h'.root i (by omega) e), fun hm i h1 h2 e => ?_⟩
  · intro i j hi hj e
    exact h'.rt i j (by omega) (by omega) (h.rt i j hi hj e)
  · by_cases hi : i < b.nodes.length
    · exact h.fresh (fun n hn => hm n (h'.mem n hn)) i h1 hi (h'.root i hi e)
    · exact h'.fresh (fun n hn => h.mem n (hm n hn)) i (by omega) h2 e

theorem rep_frame {g : EGraph Op D} (h1 : g.uf = eg.uf) (h2 : g.classes = eg.classes) : ∀ (t : Term Op) {i : Id},
    Rep eg i t → Rep g i t := by
  intro t
  induction t using Term.ind with
  | h op ts ih =>
    intro i hr
    rw [EGraph.rep_iff] at hr ⊢
    obtain ⟨r, k, n, g1, g2, g3, g4, g5⟩ := hr
    refine ⟨r, k, n, by unfold EGraph.find; rw [h1]; exact g1, by rw [h2]; exact g2, g3, g4, ?_⟩
    exact forall₂_mono_mem g5 (fun c _ t ht hc => ih t ht hc)

theorem Good.setExplain (h : Good C eg) {x : Option (Explain Op)}
    (hx : ∀ y, x = some y → ∃ L, XOk C.optimized C.J eg.nodes (fun i j => eg.rt i = eg.rt j) y L) :
    Good C { eg with explain := x } :=
  ⟨⟨h.inv.wf, h.inv.len, h.inv.memoNodup, h.inv.clsNodup, h.inv.core, h.inv.apq, h.inv.sound, hx⟩, h.data⟩

theorem grow_setExplain {x : Explain Op} : Grow eg { eg with explain := some x } :=
  .same rfl (fun _ => rfl) (fun _ t hr => rep_frame (by rfl) (by rfl) t hr) fun _ h => h

omit [Lang Op] in
theorem xok_new (opt : Prop) (J : Symbol → Id → Id → Prop) (conn : Id → Id → Prop) :
    XOk opt J ([] : List (ENode Op)) conn Explain.new [] := by
  refine ⟨⟨rfl, UF.wf_nil, ?_, ?_, ?_, ?_, ?_, ?_, ?_, ?_, ?_⟩, ?_, ?_, ?_, ?_⟩
  · intro i j hi; simp at hi
  · intro i e he; simp [Explain.new] at he
  · intro i j hi; simp at hi
  · intro a b j h; simp at h
  · intro k a b j h; simp at h
  · intro k a b h; simp at h
  · intro n i h; simp [Explain.new, AMap.get?] at h
  · intro i n h; simp at h
  · intro i e he; simp [Explain.new] at he
  · intro i e he; simp [Explain.new] at he
  · intro l r c nx h; simp [Explain.new, AMap.get?] at h
  · intro a b s h; simp at h
  · intro a b s h; simp at h

theorem explain_good (h : Good C eg) {eg' : EGraph Op D} (he : eg.withExplanationsEnabled = .ok eg') :
    Good C eg' ∧ Grow eg eg' := by
  unfold withExplanationsEnabled at he
  cases hx : eg.explain with
  | some x => rw [hx] at he; cases he; exact ⟨h, Grow.refl _⟩
  | none =>
    rw [hx] at he
    simp only at he
    split at he
    · cases he
    · rename_i hts
      cases he
      have hm : eg.memo = [] := by
        apply List.eq_nil_of_length_eq_zero
        have : ¬ eg.memo.length > 0 := hts
        omega
      have hn := h.inv.memoNodup.2 hm
      refine ⟨h.setExplain ?_, grow_setExplain⟩
      intro y hy
      cases hy
      rw [hn]
      exact ⟨[], xok_new _ _ _⟩

theorem noOptimize_good (h : Good C eg) {eg' : EGraph Op D}
    (he : eg.withoutExplanationLengthOptimization = .ok eg') : Good C eg' ∧ Grow eg eg' := by
  unfold withoutExplanationLengthOptimization at he
  cases hx : eg.explain with
  | none => rw [hx] at he; cases he
  | some x =>
    rw [hx] at he
    cases he
    refine ⟨h.setExplain ?_, grow_setExplain⟩
    intro y hy
    cases hy
    obtain ⟨L, hL⟩ := h.inv.expl x hx
    exact ⟨L, ⟨⟨hL.inv.len, hL.inv.wf, hL.inv.tree, hL.inv.edge, hL.inv.logConn, hL.inv.logLt, hL.inv.logFresh,
      hL.inv.logCongr, hL.inv.unSound, hL.inv.unComplete, hL.inv.cur⟩, hL.nb, hL.short, hL.logJ, hL.logNb⟩⟩

omit [Lang Op] in
theorem _root_.Egg.XOk.setMemo {opt : Prop} {J : Symbol → Id → Id → Prop} {nodes : List (ENode Op)} {conn : Id → Id → Prop}
    {x x' : Explain Op} {L : List (Id × Id × Justification)} (h : XOk opt J nodes conn x L)
    (hf : x'.find = x.find) (hu : x'.uncanonMemo = x.uncanonMemo)
    (hm : ∀ l r c nx, x'.shortMemo.get? (l, r) = some (c, nx) → nx < nodes.length ∧ (¬ opt → x.shortMemo.get? (l, r) = some (c, nx))) :
    XOk opt J nodes conn x' L := by
  obtain ⟨⟨h1, h2, h3, h4, h5, h6, h7, h8, h9, h10, h11⟩, hnb, hs, hj, hl⟩ := h
  refine ⟨⟨by rw [hf]; exact h1, by rw [hf]; exact h2, by rw [hf]; exact h3, by rw [hf]; exact h4, h5, h6, h7, h8,
    by rw [hu]; exact h9, by rw [hu]; exact h10, by rw [hf]; exact h11⟩, by rw [hf]; exact hnb, ?_, hj, by rw [hf]; exact hl⟩
  intro l r c nx hg
  refine ⟨(hm l r c nx hg).1, fun ho => ?_⟩
  rw [hf]
  exact (hs l r c nx ((hm l r c nx hg).2 ho)).2 ho

theorem optimize_good (h : Good C eg) {eg' : EGraph Op D}
    (he : eg.withExplanationLengthOptimization = .ok eg') : Good C eg' ∧ Grow eg eg' := by
  unfold withExplanationLengthOptimization at he
  cases hx : eg.explain with
  | none => rw [hx] at he; cases he
  | some x =>
    rw [hx] at he
    cases he
    refine ⟨h.setExplain ?_, grow_setExplain⟩
    intro y hy
    cases hy
    obtain ⟨L, hL⟩ := h.inv.expl x hx
    exact ⟨L, hL.setMemo rfl rfl (fun l r c nx hg => ⟨(hL.short l r c nx hg).1, fun _ => hg⟩)⟩

/-- What a successful request for an explanation tells. -/
theorem explainId_ok (h : Good C eg) {ch : Explain.Choices} {fuel : Nat} {a b : Id} {p : List (TreeTerm Op)} {eg' : EGraph Op D}
    (he : eg.explainIdEquivalence ch fuel a b = .ok (p, eg')) : a < eg.nodes.length ∧ b < eg.nodes.length ∧ eg.rt a = eg.rt b ∧
    ∃ x x', eg.explain = some x ∧ eg' = { eg with explain := some x' } ∧ Explain.SameTree x x' ∧
      Explain.MemoLt eg.nodes.length x' ∧ (x.optimize = false → x' = x) ∧
      ∃ cs, Explain.explainEnodes x' eg.nodes fuel a b ([], []) = .ok (p, cs) := by
  unfold explainIdEquivalence at he
  obtain ⟨l, hl, he⟩ := bind_eq_ok.1 he
  obtain ⟨r, hr, he⟩ := bind_eq_ok.1 he
  obtain ⟨hla, hlr⟩ := h.inv.find_iff.1 hl
  obtain ⟨hra, hrr⟩ := h.inv.find_iff.1 hr
  split at he
  · cases he
  rename_i hne
  have hlr' : l = r := by simpa using hne
  split at he
  · cases he
  rename_i x hx
  obtain ⟨⟨p', x'⟩, h1, he⟩ := bind_eq_ok.1 he
  cases he
  obtain ⟨L, hL⟩ := h.inv.expl x hx
  have hlen := hL.inv.len
  obtain ⟨g1, g2, g3, g4⟩ := Explain.explainEquivalence_lt h.inv.core.dag hlen
    (fun i e hi c hc => by rw [hlen]; exact (hL.nb i e hi c hc).2.1)
    (fun l r c nx hg => by rw [hlen]; exact (hL.short l r c nx hg).1) hla hra h1
  exact ⟨hla, hra, by rw [hlr, hrr, hlr'], x, x', hx, rfl, g1, by rw [← hlen]; exact g2, g3, g4⟩

theorem query_good (h : Good C eg) {ch : Explain.Choices} {fuel : Nat} {a b : Id} {p : List (TreeTerm Op)} {eg' : EGraph Op D}
    (hq : ∀ x, eg.explain = some x → x.optimize = true → C.optimized)
    (he : eg.explainIdEquivalence ch fuel a b = .ok (p, eg')) : Good C eg' ∧ Grow eg eg' := by
  obtain ⟨_, _, _, x, x', hx, rfl, g1, g2, g3, _⟩ := explainId_ok h he
  refine ⟨h.setExplain ?_, grow_setExplain⟩
  intro y hy
  cases hy
  obtain ⟨L, hL⟩ := h.inv.expl x hx
  refine ⟨L, hL.setMemo g1.find g1.uncanon (fun l r c nx hg => ⟨g2 _ _ _ _ hg, fun ho => ?_⟩)⟩
  cases hopt : x.optimize with
  | true => exact absurd (hq x hx hopt) ho
  | false => rw [← g3 hopt]; exact hg

/-- Writing and reading back an e-graph keeps the invariant. -/
theorem restored_good (h : Good C eg) : Good C eg.restored ∧ Grow eg eg.restored := by
  refine ⟨⟨⟨h.inv.wf, h.inv.len, h.inv.memoNodup, h.inv.clsNodup, ?_, h.inv.apq, h.inv.sound, ?_⟩, h.data⟩, ?_⟩
  · exact h.inv.core
  · intro y hy
    cases hx : eg.explain with
    | none =>
      have : eg.restored.explain = none := by unfold restored; rw [hx]; rfl
      rw [this] at hy
      cases hy
    | some x =>
      have : eg.restored.explain = some { x with shortMemo := [] } := by unfold restored; rw [hx]; rfl
      rw [this] at hy
      cases hy
      obtain ⟨L, hL⟩ := h.inv.expl x hx
      exact ⟨L, hL.setMemo rfl rfl (by intro l r c nx h; simp [AMap.get?] at h)⟩
  · exact .same rfl (fun _ => rfl) (fun _ t hr => rep_frame (by rfl) (by rfl) t hr) fun _ h => h

/-- Switching explanations off keeps the invariant. -/
theorem disabled_good (h : Good C eg) : Good C eg.withExplanationsDisabled ∧ Grow eg eg.withExplanationsDisabled := by
  refine ⟨⟨⟨h.inv.wf, h.inv.len, h.inv.memoNodup, h.inv.clsNodup, h.inv.core, h.inv.apq, h.inv.sound, ?_⟩, h.data⟩, ?_⟩
  · intro y hy; cases hy
  · exact .same rfl (fun _ => rfl) (fun _ t hr => rep_frame (by rfl) (by rfl) t hr) fun _ h => h

theorem Step.good {allow : Caller Op D} (hN : HookOK C E N)
    (hallow : ∀ eg i d, Good C eg → allow eg i d → SetOK C eg i d)
    {U : List (UnionRec Op)} {eg' : EGraph Op D}
    (hs : Step N allow eg U eg') (hU : ∀ u ∈ U, C.R u.s u.t ∧ C.J u.reason u.a u.b) (h : Good C eg)
    (hq : allow.optimized → C.optimized := by exact fun _ => trivial) :
    Good C eg' ∧ Grow eg eg' ∧
      ∀ u ∈ U, Rep eg' u.a u.s ∧ Rep eg' u.b u.t ∧ eg'.rt u.a = eg'.rt u.b := by
  have hN := hN.mono (E' := fun _ => True) (fun _ _ => trivial)
  cases hs with
  | explain he => exact ⟨(explain_good h he).1, (explain_good h he).2, by simp⟩
  | noOptimize he => exact ⟨(noOptimize_good h he).1, (noOptimize_good h he).2, by simp⟩
  | restore => exact ⟨(restored_good h).1, (restored_good h).2, by simp⟩
  | disable _ => exact ⟨(disabled_good h).1, (disabled_good h).2, by simp⟩
  | optimize he => exact ⟨(optimize_good h he).1, (optimize_good h he).2, by simp⟩
  | query hx he =>
    have := query_good h (fun x h1 h2 => hq (hx x h1 h2)) he
    exact ⟨this.1, this.2, by simp⟩
  | @add _ n i he =>
    by_cases hn : ∀ c ∈ n.children, Valid eg c
    · have := (addUncanonical_post hN h (fun c hc => h.valid_iff.1 (hn c hc))).elim he
      exact ⟨this.1, this.2.1.grow h this.1, by simp⟩
    · rw [addUncanonical_error h hn] at he; cases he
  | union ha hb he =>
    obtain ⟨hR, hJ⟩ := hU _ (List.mem_singleton.2 rfl)
    have := ((Good.union_post hN h ha hb hR hJ).1).elim he
    have hg := this.2.1.grow h this.1
    refine ⟨this.1, hg, ?_⟩
    intro u hu
    simp only [List.mem_singleton] at hu
    subst hu
    exact ⟨hg.rep _ _ ha, hg.rep _ _ hb, this.2.2.1⟩
  | unionTrusted ha hb he =>
    obtain ⟨hR, hJ⟩ := hU _ (List.mem_singleton.2 rfl)
    have := ((Good.union_post hN h ha hb hR hJ).2).elim he
    have hg := this.2.1.grow h this.1
    refine ⟨this.1, hg, ?_⟩
    intro u hu
    simp only [List.mem_singleton] at hu
    subst hu
    exact ⟨hg.rep _ _ ha, hg.rep _ _ hb, this.2.2.1⟩
  | @setData _ i d ha he =>
    by_cases hi : Valid eg i
    · have := (Good.setData_post hN h hi (hallow _ _ _ h ha)).elim he
      exact ⟨this.1, this.2.grow h this.1, by simp⟩
    · rw [setData_error h hi] at he; cases he
  | rebuild he =>
    have := (rebuild_post trivial hN _ h).elim he
    exact ⟨this.1, this.2.1.grow h this.1, by simp⟩

theorem Steps.good {allow : Caller Op D} (hN : HookOK C E N)
    (hallow : ∀ eg i d, Good C eg → allow eg i d → SetOK C eg i d)
    {U : List (UnionRec Op)} {eg' : EGraph Op D}
    (hs : Steps N allow eg U eg') (hU : ∀ u ∈ U, C.R u.s u.t ∧ C.J u.reason u.a u.b) (h : Good C eg)
    (hq : allow.optimized → C.optimized := by exact fun _ => trivial) :
    Good C eg' ∧ Grow eg eg' ∧
      ∀ u ∈ U, Rep eg' u.a u.s ∧ Rep eg' u.b u.t ∧ eg'.rt u.a = eg'.rt u.b := by
  induction hs with
  | refl => exact ⟨h, Grow.refl _, by simp⟩
  | tail _ hst ih =>
    obtain ⟨h1, h2, h3⟩ := ih (fun u hu => hU u (by simp [hu]))
    obtain ⟨g1, g2, g3⟩ := Step.good hN hallow hst (fun u hu => hU u (by simp [hu])) h1 hq
    refine ⟨g1, h2.trans g2, ?_⟩
    intro u hu
    rcases List.mem_append.1 hu with hu | hu
    · exact g3 u hu
    · obtain ⟨k1, k2, k3⟩ := h3 u hu
      exact ⟨g2.rep _ _ k1, g2.rep _ _ k2, g2.rt _ _ (h1.inv.rep_lt k1) (h1.inv.rep_lt k2) k3⟩

/-- Explanations stay switched on unless they are switched off. -/
theorem Step.expl {allow : Caller Op D} (hN : HookOK C E N)
    (hallow : ∀ eg i d, Good C eg → allow eg i d → SetOK C eg i d)
    {U : List (UnionRec Op)} {eg' : EGraph Op D}
    (hs : Step N allow eg U eg') (hU : ∀ u ∈ U, C.R u.s u.t ∧ C.J u.reason u.a u.b) (h : Good C eg)
    (hd : ¬ allow.disables) (hx : eg.explain.isSome) : eg'.explain.isSome := by
  have hN := hN.mono (E' := fun _ => True) (fun _ _ => trivial)
  cases hs with
  | explain he =>
    unfold withExplanationsEnabled at he
    repeat' split at he
    all_goals cases he
    all_goals first | exact hx | rfl
  | noOptimize he =>
    unfold withoutExplanationLengthOptimization at he
    split at he
    all_goals cases he
    rfl
  | restore => simpa [restored] using hx
  | disable h => exact absurd h hd
  | optimize he =>
    unfold withExplanationLengthOptimization at he
    split at he
    all_goals cases he
    rfl
  | query hx he =>
    obtain ⟨_, _, _, x, x', _, rfl, _⟩ := explainId_ok h he
    rfl
  | @add _ n i he =>
    by_cases hn : ∀ c ∈ n.children, Valid eg c
    · have := (addUncanonical_post hN h (fun c hc => h.valid_iff.1 (hn c hc))).elim he
      rw [this.2.1.expl]; exact hx
    · rw [addUncanonical_error h hn] at he; cases he
  | union ha hb he =>
    obtain ⟨hR, hJ⟩ := hU _ (List.mem_singleton.2 rfl)
    have := ((Good.union_post hN h ha hb hR hJ).1).elim he
    rw [this.2.1.expl]; exact hx
  | unionTrusted ha hb he =>
    obtain ⟨hR, hJ⟩ := hU _ (List.mem_singleton.2 rfl)
    have := ((Good.union_post hN h ha hb hR hJ).2).elim he
    rw [this.2.1.expl]; exact hx
  | @setData _ i d ha he =>
    by_cases hi : Valid eg i
    · have := (Good.setData_post hN h hi (hallow _ _ _ h ha)).elim he
      rw [this.2.expl]; exact hx
    · rw [setData_error h hi] at he; cases he
  | rebuild he =>
    have := (rebuild_post trivial hN _ h).elim he
    rw [this.2.1.expl]; exact hx

/-- Explanations stay switched off once there is a node. -/
theorem Step.explNone {allow : Caller Op D} (hN : HookOK C E N)
    (hallow : ∀ eg i d, Good C eg → allow eg i d → SetOK C eg i d)
    {U : List (UnionRec Op)} {eg' : EGraph Op D}
    (hs : Step N allow eg U eg') (hU : ∀ u ∈ U, C.R u.s u.t ∧ C.J u.reason u.a u.b) (h : Good C eg)
    (hne : eg.nodes ≠ []) (hx : eg.explain = none) : eg'.explain = none := by
  have hN := hN.mono (E' := fun _ => True) (fun _ _ => trivial)
  cases hs with
  | explain he =>
    unfold withExplanationsEnabled at he
    split at he
    · cases he; exact hx
    · split at he
      · cases he
      · rename_i hm
        exact absurd (h.inv.memoNodup.2 (by simpa [totalSize] using hm)) hne
  | noOptimize he => unfold withoutExplanationLengthOptimization at he; rw [hx] at he; cases he
  | restore => simp [restored, hx]
  | disable h => rfl
  | optimize he => unfold withExplanationLengthOptimization at he; rw [hx] at he; cases he
  | query _ he =>
    obtain ⟨_, _, _, x, x', hx', _⟩ := explainId_ok h he
    rw [hx] at hx'; cases hx'
  | @add _ n i he =>
    by_cases hn : ∀ c ∈ n.children, Valid eg c
    · have := (addUncanonical_post hN h (fun c hc => h.valid_iff.1 (hn c hc))).elim he
      have := this.2.1.expl; rw [hx] at this; simpa using this
    · rw [addUncanonical_error h hn] at he; cases he
  | union ha hb he =>
    obtain ⟨hR, hJ⟩ := hU _ (List.mem_singleton.2 rfl)
    have := ((Good.union_post hN h ha hb hR hJ).1).elim he
    have := this.2.1.expl; rw [hx] at this; simpa using this
  | unionTrusted ha hb he =>
    obtain ⟨hR, hJ⟩ := hU _ (List.mem_singleton.2 rfl)
    have := ((Good.union_post hN h ha hb hR hJ).2).elim he
    have := this.2.1.expl; rw [hx] at this; simpa using this
  | @setData _ i d ha he =>
    by_cases hi : Valid eg i
    · have := (Good.setData_post hN h hi (hallow _ _ _ h ha)).elim he
      have := this.2.expl; rw [hx] at this; simpa using this
    · rw [setData_error h hi] at he; cases he
  | rebuild he =>
    have := (rebuild_post trivial hN _ h).elim he
    have := this.2.1.expl; rw [hx] at this; simpa using this

theorem Steps.expl {allow : Caller Op D} (hN : HookOK C E N)
    (hallow : ∀ eg i d, Good C eg → allow eg i d → SetOK C eg i d)
    {U : List (UnionRec Op)} {eg' : EGraph Op D}
    (hs : Steps N allow eg U eg') (hU : ∀ u ∈ U, C.R u.s u.t ∧ C.J u.reason u.a u.b) (h : Good C eg)
    (hd : ¬ allow.disables) (hx : eg.explain.isSome)
    (hq : allow.optimized → C.optimized := by exact fun _ => trivial) : eg'.explain.isSome := by
  induction hs with
  | refl => exact hx
  | tail h1 hst ih =>
    obtain ⟨g1, -, -⟩ := Steps.good hN hallow h1 (fun u hu => hU u (by simp [hu])) h hq
    exact Step.expl hN hallow hst (fun u hu => hU u (by simp [hu])) g1 hd (ih (fun u hu => hU u (by simp [hu])))

theorem Hist.good {allow : Caller Op D} (hN : HookOK C E N)
    (hallow : ∀ eg i d, Good C eg → allow eg i d → SetOK C eg i d)
    {U : List (UnionRec Op)}
    (hs : Hist N allow U eg) (hU : ∀ u ∈ U, C.R u.s u.t ∧ C.J u.reason u.a u.b)
    (hq : allow.optimized → C.optimized := by exact fun _ => trivial) :
    Good C eg ∧ ∀ u ∈ U, Rep eg u.a u.s ∧ Rep eg u.b u.t ∧ eg.rt u.a = eg.rt u.b := by
  obtain ⟨h1, _, h3⟩ := Steps.good hN hallow hs hU (good_new C) hq
  exact ⟨h1, h3⟩

end EGraph
end Egg
