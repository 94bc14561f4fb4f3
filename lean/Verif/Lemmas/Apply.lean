import Verif.Spec.Rewrite
import Verif.Lemmas.AddExpr
import Verif.Lemmas.Pattern
/-
Instantiating patterns.
-/
namespace Egg
variable {Op D : Type} [DecidableEq Op] [Lang Op]

namespace EGraph
variable {W : Id → Id → Prop} {C : Cfg Op D} {eg : EGraph Op D} {E : Err → Prop} {N : Analysis Op D}

/-- Matches stay matches while the e-graph grows. -/
theorem pmatch_grow {eg' : EGraph Op D} (h : InvW W C eg) {W' : Id → Id → Prop} {C' : Cfg Op D}
    (h' : InvW W' C' eg') (hn : ∃ l, eg'.nodes = eg.nodes ++ l)
    (hrt : ∀ i j, i < eg.nodes.length → j < eg.nodes.length → eg.rt i = eg.rt j → eg'.rt i = eg'.rt j)
    {σ : Var → Option Id} : ∀ (t : Term (PatOp Op)) {c : Id}, PMatch eg σ c t → PMatch eg' σ c t := by
  have hlen : eg.nodes.length ≤ eg'.nodes.length := by obtain ⟨l, hl⟩ := hn; rw [hl]; simp
  intro t
  induction t using Term.ind with
  | h op ps ih =>
    intro c hm
    cases op with
    | var v =>
      rw [pmatch_var_iff] at hm ⊢
      obtain ⟨rfl, x, h1, h2⟩ := hm
      refine ⟨rfl, x, h1, ?_⟩
      rw [h.sameClass_iff] at h2
      rw [h'.sameClass_iff]
      exact ⟨by omega, by omega, hrt _ _ h2.1 h2.2.1 h2.2.2⟩
    | op o =>
      rw [pmatch_node_iff] at hm ⊢
      obtain ⟨k, n, h1, h2, h3, h4⟩ := hm
      rw [h.index_iff] at h1
      obtain ⟨hc, hk⟩ := h1
      obtain ⟨i, m, g1, g2, g3⟩ := h.core.clsNodes _ _ (sk_eq hk) n h2
      have hnl := h.core.clsNodeLt (sk_eq hk) h2
      have hml : ∀ c ∈ m.children, c < eg.nodes.length := fun c hc => h.core.childLt g1 hc
      have g1' : eg'.nodes[i]? = some m := by obtain ⟨l, hl⟩ := hn; rw [hl]; exact getElem?_prefix g1
      obtain ⟨s', n', q1, q2, q3⟩ := h'.core.nodesCls i m g1'
      obtain ⟨k', hk', rfl⟩ := cls_of_sk q1
      have e : eg'.rt i = eg'.rt c := hrt i c (getElem?_lt g1) hc g2
      refine ⟨k', n', ?_, q2, by rw [q3.1, ← g3.1, h3], ?_⟩
      · rw [h'.index_iff, ← e]; exact ⟨by omega, hk'⟩
      · have hcg : Cong eg'.rt n n' := by
          refine Cong.trans ⟨g3.1, ?_⟩ q3.symm
          rw [← forall₂_map_eq]
          exact forall₂_mono_mem (forall₂_map_eq.2 g3.2) (fun a ha b hb hab => hrt a b (hnl a ha) (hml b hb) hab)
        have hnl' := h'.core.clsNodeLt q1 q2
        have := forall₂_mono_mem h4 (fun d _ q hq hd => ih q hq hd)
        refine forall₂_comp (forall₂_flip (forall₂_map_eq.2 hcg.2)) this (fun a b q ha _ _ hab hbq => ?_)
        refine h'.pmatch_congr ?_ hbq
        rw [h'.sameClass_iff]
        exact ⟨h'.pmatch_lt hbq, hnl' a ha, hab⟩

theorem Ext.pmatch {eg' : EGraph Op D} (hx : Ext eg eg') (h : InvW W C eg) {W' : Id → Id → Prop} {C' : Cfg Op D}
    (h' : InvW W' C' eg') {σ : Var → Option Id} {t : Term (PatOp Op)} {c : Id} (hm : PMatch eg σ c t) : PMatch eg' σ c t :=
  pmatch_grow h h' hx.nodes hx.rt t hm

theorem Grow.pmatch {eg' : EGraph Op D} (hx : Grow eg eg') (h : InvW W C eg) {W' : Id → Id → Prop} {C' : Cfg Op D}
    (h' : InvW W' C' eg') {σ : Var → Option Id} {t : Term (PatOp Op)} {c : Id} (hm : PMatch eg σ c t) : PMatch eg' σ c t :=
  pmatch_grow h h' hx.nodes hx.rt t hm

/-- The class of an entry of the node table matches what its e-node stands for. -/
theorem InvW.pmatch_node (h : InvW W C eg) {i : Id} {ni n : ENode Op} (hi : eg.nodes[i]? = some ni)
    (hc : Cong eg.rt ni n) {σ : Var → Option Id} {ps : List (Term (PatOp Op))}
    (hps : List.Forall₂ (PMatch eg σ) n.children ps) : PMatch eg σ i (.node (.op n.op) ps) := by
  obtain ⟨s, n2, q1, q2, q3⟩ := h.core.nodesCls i ni hi
  obtain ⟨k2, hk2, rfl⟩ := cls_of_sk q1
  rw [pmatch_node_iff]
  refine ⟨k2, n2, by rw [h.index_iff]; exact ⟨getElem?_lt hi, hk2⟩, q2, by rw [q3.1, hc.1], ?_⟩
  have hnl := h.core.clsNodeLt q1 q2
  refine forall₂_comp (forall₂_map_eq.2 (q3.trans hc).2) hps (fun a b q ha _ _ hab hbq => h.pmatch_congr ?_ hbq)
  rw [h.sameClass_iff]
  exact ⟨h.pmatch_lt hbq, hnl a ha, hab.symm⟩

/-- The first `i` entries of `ids` are classes matching the first nodes of `e`. -/
def PidsOK (eg : EGraph Op D) (e : PatternAst Op) (σ : Var → Option Id) (i : Nat) (ids : List Id) : Prop :=
  ∀ (k : Nat) (x : Id), k < i → ids[k]? = some x → x < eg.nodes.length ∧ ∀ t, TermOf e k t → PMatch eg σ x t

theorem PidsOK.ext {e : PatternAst Op} {σ : Var → Option Id} {i : Nat} {ids : List Id} (hp : PidsOK eg e σ i ids)
    {eg' : EGraph Op D} (hx : Ext eg eg') (h : Good C eg) (h' : Good C eg') : PidsOK eg' e σ i ids := by
  intro k x hk hx'
  obtain ⟨h1, h2⟩ := hp k x hk hx'
  exact ⟨hx.lt h1, fun t ht => hx.pmatch h.inv h'.inv (h2 t ht)⟩

/-- The substitution binds the variables listed in the pattern to valid ids. -/
def Binds (eg : EGraph Op D) (s : Subst) (e : PatternAst Op) : Prop :=
  ∀ n ∈ e, ∀ v, n.op = .var v → ∃ x, s.get v = some x ∧ x < eg.nodes.length

theorem Binds.ext {s : Subst} {e : PatternAst Op} (hb : Binds eg s e) {eg' : EGraph Op D} (hx : Ext eg eg') : Binds eg' s e := by
  intro n hn v hv
  obtain ⟨x, h1, h2⟩ := hb n hn v hv
  exact ⟨x, h1, hx.lt h2⟩

/-- Translating the children of the next pattern node. -/
theorem pat_children {e : PatternAst Op} (hd : Dag e) {s : Subst} {i : Nat} {ids : List Id} (hp : PidsOK eg e s.get i ids)
    (hil : i ≤ ids.length) {n : ENode (PatOp Op)} (hn : e[i]? = some n) {o : Op} (ho : n.op = .op o) :
    ∃ m : ENode Op, ENode.mapChildrenM (getIdx ids) { op := o, children := n.children } = .ok m ∧
      (∀ c ∈ m.children, c < eg.nodes.length) ∧ m.op = o ∧
      ∀ t, TermOf e i t → ∃ ps, t = .node (.op o) ps ∧ List.Forall₂ (PMatch eg s.get) m.children ps := by
  have hlt : ∀ c ∈ n.children, c < i := fun c hc => hd i n hn c hc
  obtain ⟨m, hm⟩ := mapChildrenM_getIdx_total (n := ({ op := o, children := n.children } : ENode Op)) (ids := ids)
    (fun c hc => lt_of_lt_of_le (hlt c hc) hil)
  refine ⟨m, hm, ?_⟩
  rw [mapChildrenM_getIdx] at hm
  refine ⟨?_, hm.1, ?_⟩
  · intro c hc
    obtain ⟨b, hb, hbc⟩ := forall₂_mem_left (forall₂_flip hm.2) hc
    exact (hp b c (hlt b hb) hbc).1
  · intro t ht
    cases t with
    | node op ts =>
      rw [termOf_iff] at ht
      obtain ⟨n', g1, g2, g3⟩ := ht
      rw [hn] at g1; cases g1
      rw [ho] at g2; subst g2
      exact ⟨ts, rfl, forall₂_comp (forall₂_flip hm.2) g3 (fun a b c _ hb _ hab hbc =>
        (hp b a (hlt b hb) hab).2 c hbc)⟩

/-- The next pattern node is a variable. -/
theorem pat_var {e : PatternAst Op} {s : Subst} {i : Nat} {n : ENode (PatOp Op)} (hv : e[i]? = some n → n.children = [])
    (hn : e[i]? = some n) {v : Var} (ho : n.op = .var v) {x : Id} (hx : s.get v = some x) {y : Id} (hy : SameClass eg x y) :
    ∀ t, TermOf e i t → PMatch eg s.get y t := by
  intro t ht
  cases t with
  | node op ts =>
    rw [termOf_iff] at ht
    obtain ⟨n', g1, g2, g3⟩ := ht
    rw [hn] at g1; cases g1
    rw [ho] at g2; subst g2
    rw [hv hn] at g3
    cases g3
    exact .var hx hy

theorem PidsOK.set {e : PatternAst Op} {σ : Var → Option Id} {i : Nat} {ids : List Id} (hp : PidsOK eg e σ i ids) {x : Id}
    (hx : x < eg.nodes.length) (ht : ∀ t, TermOf e i t → PMatch eg σ x t) : PidsOK eg e σ (i + 1) (ids.set i x) := by
  intro k y hk hy
  rw [List.getElem?_set] at hy
  split at hy
  · next he =>
    subst he
    split at hy
    · cases hy; exact ⟨hx, ht⟩
    · cases hy
  · next he => exact hp k y (by omega) hy

theorem PidsOK.push {e : PatternAst Op} {σ : Var → Option Id} {i : Nat} {ids : List Id} (hp : PidsOK eg e σ i ids)
    (hl : ids.length = i) {x : Id} (hx : x < eg.nodes.length) (ht : ∀ t, TermOf e i t → PMatch eg σ x t) :
    PidsOK eg e σ (i + 1) (ids ++ [x]) := by
  intro k y hk hy
  rw [List.getElem?_append] at hy
  split at hy
  · exact hp k y (by omega) hy
  · have : k = i := by omega
    subst this
    simp [hl] at hy
    subst hy
    exact ⟨hx, ht⟩

theorem applyPatGo_post (hN : HookOK C E N) {e : PatternAst Op} (hw : PatWF e) {s : Subst} : ∀ (rest : List (ENode (PatOp Op)))
    (eg : EGraph Op D) (pre : List (ENode (PatOp Op))) (ids : List Id), e = pre ++ rest → ids.length = e.length →
    Good C eg → Binds eg s e → PidsOK eg e s.get pre.length ids →
    Post E (applyPatGo N s eg rest pre.length ids) (fun r => Good C r.1 ∧ Ext eg r.1 ∧ PidsOK r.1 e s.get e.length r.2 ∧
      r.2.length = e.length) := by
  intro rest
  induction rest with
  | nil =>
    intro eg pre ids he hl hg hb hi
    have : pre.length = e.length := by rw [he]; simp
    rw [this] at hi
    exact ⟨hg, Ext.refl _, hi, hl⟩
  | cons n rest ih =>
    intro eg pre ids he hl hg hb hi
    have hnk : e[pre.length]? = some n := by rw [he]; simp
    have hnm : n ∈ e := by rw [he]; simp
    have hpl : pre.length < e.length := getElem?_lt hnk
    unfold applyPatGo
    cases ho : n.op with
    | var v =>
      obtain ⟨x, hx, hxl⟩ := hb n hnm v ho
      have e1 : s.index v = .ok x := by unfold Subst.index; rw [hx]; rfl
      simp only [e1, ok_bind]
      have hxx : SameClass eg x x := by rw [hg.inv.sameClass_iff]; exact ⟨hxl, hxl, rfl⟩
      have := ih eg (pre ++ [n]) (ids.set pre.length x) (by simp [he]) (by simpa using hl) hg hb
        (by simpa using hi.set hxl (pat_var (fun h => hw.2 n hnm v ho) hnk ho hx hxx))
      simpa using this
    | op o =>
      obtain ⟨m, h1, h2, h3, h4⟩ := pat_children hw.1.2 hi (by omega) hnk ho
      simp only [h1, ok_bind]
      refine Post.bind (x := EGraph.add N eg m) (Good.add_post hN hg (fun c hc => hg.valid_iff.2 (h2 c hc))) ?_
      rintro ⟨eg1, x⟩ ⟨g1, g2, j, nj, q1, q2, q3, -⟩
      have q2 : x = eg1.rt j := q2
      have hxl : x < eg1.nodes.length := by rw [q2]; exact g1.inv.core.rtLt _ (getElem?_lt q1)
      have hj : SameClass eg1 j x := by
        rw [g1.inv.sameClass_iff]
        exact ⟨getElem?_lt q1, hxl, by rw [q2, g1.inv.core.rtIdem]⟩
      have := ih eg1 (pre ++ [n]) (ids.set pre.length x) (by simp [he]) (by simpa using hl) g1 (hb.ext g2)
        (by
          simpa using (hi.ext g2 hg g1).set hxl (fun t ht => by
            obtain ⟨ps, rfl, hps⟩ := h4 t ht
            have := forall₂_mono_mem hps (fun d _ q hq hd => g2.pmatch hg.inv g1.inv hd)
            rw [← h3]
            exact g1.inv.pmatch_congr hj (g1.inv.pmatch_node q1 q3 this)))
      refine Post.mono (by simpa using this) ?_
      rintro r ⟨r1, r2, r3, r4⟩
      exact ⟨r1, g2.trans r2, r3, r4⟩

/-- `apply_pat` adds the instance of the pattern and returns its class. -/
theorem applyPat_post (hN : HookOK C E N) {e : PatternAst Op} (hw : PatWF e) {s : Subst} (hg : Good C eg) (hb : Binds eg s e)
    {buf : List Id} (hl : buf.length = e.length) :
    Post E (applyPat N buf e eg s) (fun r => Good C r.1 ∧ Ext eg r.1 ∧ r.2.1.length = e.length ∧ r.2.2 < r.1.nodes.length ∧
      ∀ t, ExprTerm e t → PMatch r.1 s.get r.2.2 t) := by
  unfold applyPat
  refine Post.bind (x := applyPatGo N s eg e 0 buf) (applyPatGo_post hN hw e eg [] buf (by simp) hl hg hb
    (fun k x hk => absurd hk (Nat.not_lt_zero _))) ?_
  rintro ⟨eg1, ids⟩ ⟨h1, h2, h3, h4⟩
  have h4 : ids.length = e.length := h4
  have hpos : 0 < e.length := List.length_pos_iff.2 hw.1.1
  obtain ⟨x, hx⟩ : ∃ x, ids[e.length - 1]? = some x := ⟨_, List.getElem?_eq_getElem (by omega)⟩
  have hlast : ids.getLast? = some x := by rw [List.getLast?_eq_getElem?, h4]; exact hx
  dsimp only
  rw [hlast]
  obtain ⟨q1, q2⟩ := h3 _ _ (by omega) hx
  exact ⟨h1, h2, h4, q1, fun t ht => q2 t ht.2⟩

theorem addInstGo_post (hN : HookOK C E N) {e : PatternAst Op} (hw : PatWF e) {s : Subst} : ∀ (rest : List (ENode (PatOp Op)))
    (eg : EGraph Op D) (pre : List (ENode (PatOp Op))) (ids : List Id), e = pre ++ rest → ids.length = pre.length →
    Good C eg → Binds eg s e → PidsOK eg e s.get pre.length ids →
    Post E (addInstGo N s eg rest ids) (fun r => Good C r.1 ∧ Ext eg r.1 ∧ PidsOK r.1 e s.get e.length r.2 ∧
      r.2.length = e.length) := by
  intro rest
  induction rest with
  | nil =>
    intro eg pre ids he hl hg hb hi
    have : pre.length = e.length := by rw [he]; simp
    rw [this] at hi
    exact ⟨hg, Ext.refl _, hi, hl.trans this⟩
  | cons n rest ih =>
    intro eg pre ids he hl hg hb hi
    have hnk : e[pre.length]? = some n := by rw [he]; simp
    have hnm : n ∈ e := by rw [he]; simp
    unfold addInstGo
    cases ho : n.op with
    | var v =>
      obtain ⟨x, hx, hxl⟩ := hb n hnm v ho
      have e1 : s.index v = .ok x := by unfold Subst.index; rw [hx]; rfl
      simp only [e1, ok_bind, hg.inv.find hxl]
      have hrl := hg.inv.core.rtLt x hxl
      have hxx : SameClass eg x (eg.rt x) := by
        rw [hg.inv.sameClass_iff]; exact ⟨hxl, hrl, (hg.inv.core.rtIdem x).symm⟩
      have := ih eg (pre ++ [n]) (ids ++ [eg.rt x]) (by simp [he]) (by simp [hl]) hg hb
        (by simpa using hi.push hl hrl (pat_var (fun h => hw.2 n hnm v ho) hnk ho hx hxx))
      simpa using this
    | op o =>
      obtain ⟨m, h1, h2, h3, h4⟩ := pat_children hw.1.2 hi (by omega) hnk ho
      simp only [h1, ok_bind]
      refine Post.bind (x := addUncanonical N eg m) (addUncanonical_post hN hg h2) ?_
      rintro ⟨eg1, x⟩ ⟨g1, g2, nj, q1, q3, -⟩
      have hxl : x < eg1.nodes.length := getElem?_lt q1
      have := ih eg1 (pre ++ [n]) (ids ++ [x]) (by simp [he]) (by simp [hl]) g1 (hb.ext g2)
        (by
          simpa using (hi.ext g2 hg g1).push hl hxl (fun t ht => by
            obtain ⟨ps, rfl, hps⟩ := h4 t ht
            have := forall₂_mono_mem hps (fun d _ q hq hd => g2.pmatch hg.inv g1.inv hd)
            rw [← h3]
            exact g1.inv.pmatch_node q1 q3 this))
      refine Post.mono (by simpa using this) ?_
      rintro r ⟨r1, r2, r3, r4⟩
      exact ⟨r1, g2.trans r2, r3, r4⟩

/-- `add_instantiation_noncanonical` adds the instance of the pattern. -/
theorem addInst_post (hN : HookOK C E N) {e : PatternAst Op} (hw : PatWF e) {s : Subst} (hg : Good C eg) (hb : Binds eg s e) :
    Post E (addInstantiationNoncanonical N eg e s) (fun r => Good C r.1 ∧ Ext eg r.1 ∧ r.2 < r.1.nodes.length ∧
      ∀ t, ExprTerm e t → PMatch r.1 s.get r.2 t) := by
  unfold addInstantiationNoncanonical
  refine Post.bind (x := addInstGo N s eg e []) (addInstGo_post hN hw e eg [] [] (by simp) rfl hg hb
    (fun k x hk => absurd hk (Nat.not_lt_zero _))) ?_
  rintro ⟨eg1, ids⟩ ⟨h1, h2, h3, h4⟩
  have h4 : ids.length = e.length := h4
  have hpos : 0 < e.length := List.length_pos_iff.2 hw.1.1
  obtain ⟨x, hx⟩ : ∃ x, ids[e.length - 1]? = some x := ⟨_, List.getElem?_eq_getElem (by omega)⟩
  have hlast : ids.getLast? = some x := by rw [List.getLast?_eq_getElem?, h4]; exact hx
  dsimp only
  rw [hlast]
  obtain ⟨q1, q2⟩ := h3 _ _ (by omega) hx
  exact ⟨h1, h2, q1, fun t ht => q2 t ht.2⟩

/-! ### Instantiating is adding -/

theorem _root_.Egg.AddSteps.trans {a b c : EGraph Op D} (h : AddSteps N a b) (h' : AddSteps N b c) : AddSteps N a c := by
  induction h' with
  | refl => exact h
  | tail _ h2 ih => exact ih.tail h2

theorem _root_.Egg.AddSteps.steps {allow : Caller Op D} {eg' : EGraph Op D} (h : AddSteps N eg eg') :
    Steps N allow eg [] eg' := by
  induction h with
  | refl => exact .refl
  | tail _ h2 ih => exact ih.tail (.add h2)

theorem add_addSteps {n : ENode Op} {r : EGraph Op D × Id} (h1 : EGraph.add N eg n = .ok r) : AddSteps N eg r.1 := by
  unfold EGraph.add at h1
  rw [bind_eq_ok] at h1
  obtain ⟨⟨eg2, y⟩, h2, h1⟩ := h1
  rw [bind_eq_ok] at h1
  obtain ⟨z, _, h1⟩ := h1
  cases h1
  exact AddSteps.refl.tail h2

theorem applyPatGo_steps {s : Subst} : ∀ (e : List (ENode (PatOp Op))) (eg : EGraph Op D)
    (i : Nat) (ids : List Id) {eg' : EGraph Op D} {ids' : List Id}, applyPatGo N s eg e i ids = .ok (eg', ids') →
    AddSteps N eg eg' := by
  intro e
  induction e with
  | nil => intro eg i ids eg' ids' h; cases h; exact .refl
  | cons n rest ih =>
    intro eg i ids eg' ids' h
    unfold applyPatGo at h
    split at h
    · rw [bind_eq_ok] at h
      obtain ⟨x, _, h⟩ := h
      exact ih _ _ _ h
    · rw [bind_eq_ok] at h
      obtain ⟨m, _, h⟩ := h
      rw [bind_eq_ok] at h
      obtain ⟨⟨eg1, x⟩, h1, h⟩ := h
      exact (add_addSteps h1).trans (ih _ _ _ h)

theorem applyPat_steps {s : Subst} {e : PatternAst Op} {buf : List Id}
    {r : EGraph Op D × List Id × Id} (h : applyPat N buf e eg s = .ok r) : AddSteps N eg r.1 := by
  unfold applyPat at h
  rw [bind_eq_ok] at h
  obtain ⟨⟨eg1, ids⟩, h1, h⟩ := h
  rw [bind_eq_ok] at h
  obtain ⟨j, _, h⟩ := h
  cases h
  exact applyPatGo_steps _ _ _ _ h1

theorem addInstGo_steps {s : Subst} : ∀ (e : List (ENode (PatOp Op))) (eg : EGraph Op D)
    (ids : List Id) {eg' : EGraph Op D} {ids' : List Id}, addInstGo N s eg e ids = .ok (eg', ids') →
    AddSteps N eg eg' := by
  intro e
  induction e with
  | nil => intro eg ids eg' ids' h; cases h; exact .refl
  | cons n rest ih =>
    intro eg ids eg' ids' h
    unfold addInstGo at h
    split at h
    · rw [bind_eq_ok] at h
      obtain ⟨x, _, h⟩ := h
      rw [bind_eq_ok] at h
      obtain ⟨y, _, h⟩ := h
      exact ih _ _ h
    · rw [bind_eq_ok] at h
      obtain ⟨m, _, h⟩ := h
      rw [bind_eq_ok] at h
      obtain ⟨⟨eg1, x⟩, h1, h⟩ := h
      exact AddSteps.trans (AddSteps.refl.tail h1) (ih _ _ h)

theorem addInst_steps {s : Subst} {e : PatternAst Op}
    {r : EGraph Op D × Id} (h : addInstantiationNoncanonical N eg e s = .ok r) : AddSteps N eg r.1 := by
  unfold addInstantiationNoncanonical at h
  rw [bind_eq_ok] at h
  obtain ⟨⟨eg1, ids⟩, h1, h⟩ := h
  rw [bind_eq_ok] at h
  obtain ⟨j, _, h⟩ := h
  cases h
  exact addInstGo_steps _ _ _ h1

/-! ### Applying a pattern to matches -/

theorem Post.and {α : Type} {x : Res α} {P Q : α → Prop} (h : Post E x P) (h' : ∀ a, x = .ok a → Q a) :
    Post E x (fun a => P a ∧ Q a) := by
  cases x with
  | ok a => exact ⟨h, h' a rfl⟩
  | error e => exact h

/-- What is needed of a match in order to apply the pattern `e` to it. -/
structure MatchOK (eg : EGraph Op D) (tl : Term (PatOp Op)) (e : PatternAst Op) (c : Id) (s : Subst) : Prop where
  pmatch : PMatch eg s.get c tl
  binds : Binds eg s e

theorem MatchOK.ext {tl : Term (PatOp Op)} {e : PatternAst Op} {c : Id} {s : Subst} (h : MatchOK eg tl e c s)
    {eg' : EGraph Op D} (hx : Ext eg eg') (hg : Good C eg) (hg' : Good C eg') : MatchOK eg' tl e c s :=
  ⟨hx.pmatch hg.inv hg'.inv h.pmatch, h.binds.ext hx⟩

/-- What is needed of the pattern that was searched for when explanations are enabled. -/
def SearchAst (eg : EGraph Op D) (tl : Term (PatOp Op)) (s : Subst) (ast : Option (PatternAst Op)) : Prop :=
  ∃ l, ast = some l ∧ PatWF l ∧ ExprTerm l tl ∧ Binds eg s l

theorem SearchAst.ext {tl : Term (PatOp Op)} {s : Subst} {ast : Option (PatternAst Op)} (h : SearchAst eg tl s ast)
    {eg' : EGraph Op D} (hx : Ext eg eg') : SearchAst eg' tl s ast := by
  obtain ⟨l, h1, h2, h3, h4⟩ := h
  exact ⟨l, h1, h2, h3, h4.ext hx⟩

/-- The outcome of applying to one match. -/
structure OneOK (C : Cfg Op D) (N : Analysis Op D) (tl t : Term (PatOp Op)) (eg : EGraph Op D) (c : Id) (s : Subst)
    (eg' : EGraph Op D) (ids : List Id) : Prop where
  good : Good C eg'
  ext : Ext eg eg'
  tr : ∀ ms ids' eg'', Applies N tl t eg' ms ids' eg'' → Applies N tl t eg ((c, s) :: ms) (ids ++ ids') eg''

theorem unionInst_post (hN : HookOK C E N) (hR : ∀ s t, C.R s t) (hJ : ∀ r a b, C.J r a b) {l e : PatternAst Op}
    {tl t : Term (PatOp Op)} (hl : PatWF l) (htl : ExprTerm l tl) (he : PatWF e) (ht : ExprTerm e t) (hg : Good C eg)
    {s : Subst} (hb : Binds eg s l) (hb' : Binds eg s e) (hxs : eg.explain.isSome = true) (rule : Symbol) (c : Id) :
    Post E (eg.unionInstantiations N l e s rule) (fun r => OneOK C N tl t eg c s r.1 (if r.2.2 then [r.2.1] else [])) := by
  unfold unionInstantiations
  refine Post.bind (x := addInstantiationNoncanonical N eg l s) (Post.and (addInst_post hN hl hg hb)
    (fun a ha => addInst_steps ha)) ?_
  rintro ⟨eg1, id1⟩ ⟨⟨h1, h2, h3, h4⟩, h5⟩
  refine Post.bind (x := addInstantiationNoncanonical N eg1 e s) (Post.and (addInst_post hN he h1 (hb'.ext h2))
    (fun a ha => addInst_steps ha)) ?_
  rintro ⟨eg2, id2⟩ ⟨⟨g1, g2, g3, g4⟩, g5⟩
  have h3 : id1 < eg1.nodes.length := h3
  have g3 : id2 < eg2.nodes.length := g3
  have h3' : id1 < eg2.nodes.length := g2.lt h3
  obtain ⟨u, hu⟩ := g1.inv.exists_rep h3'
  obtain ⟨w, hw⟩ := g1.inv.exists_rep g3
  refine Post.bind (x := performUnion N eg2 id1 id2 (some (.rule rule))) (Post.and
    ((Good.union_post (caller := rule) hN g1 hu hw (hR _ _) (hJ _ _ _)).2)
    (fun a ha => (show UnionCall N eg2 id1 id2 a.1 a.2 from ⟨rule, Or.inr ha⟩))) ?_
  rintro ⟨eg3, did⟩ ⟨⟨k1, k2, k3, k4⟩, k5⟩
  have hf := k1.inv.find (k2.lt h3')
  dsimp only at hf ⊢
  rw [hf]
  have hl1 : id1 < eg3.nodes.length := k2.lt h3'
  have hl2 : id2 < eg3.nodes.length := k2.lt g3
  have hrl := k1.inv.core.rtLt id1 hl1
  refine ⟨k1, (h2.trans g2).trans k2, fun ms ids' eg'' hap => ?_⟩
  have hp1 : PMatch eg2 s.get id1 tl := g2.pmatch h1.inv g1.inv (h4 _ htl)
  have := Applies.cons (c := c) (r := eg3.rt id1) (AddSteps.trans h5 g5) (g4 _ ht) (Or.inr ⟨by rw [(h2.trans g2).expl]; exact hxs, hp1⟩) (Or.inr k5)
    (by
      rw [k4, g1.inv.sameClass_iff]
      constructor
      · rintro hne ⟨_, _, e⟩; exact hne e.symm
      · intro hne e; exact hne ⟨g3, h3', e.symm⟩)
    (by rw [k1.inv.sameClass_iff]; exact ⟨hrl, hl2, by rw [k1.inv.core.rtIdem]; exact k3⟩)
    (by rw [k1.inv.sameClass_iff]; exact ⟨hrl, hl1, by rw [k1.inv.core.rtIdem]⟩) hap
  cases did
  · exact this
  · exact this

theorem applyUnion_post (hN : HookOK C E N) (hR : ∀ s t, C.R s t) (hJ : ∀ r a b, C.J r a b) {tl t : Term (PatOp Op)}
    {s : Subst} {c i : Id} {eg1 : EGraph Op D} (h2 : AddSteps N eg eg1) (hx : Ext eg eg1) (hg : Good C eg1) (hil : i < eg1.nodes.length)
    (hcl : c < eg1.nodes.length) (hp : PMatch eg1 s.get i t) (caller : Symbol) :
    Post E (EGraph.union N eg1 i c caller) (fun r => OneOK C N tl t eg c s r.1 (if r.2 then [i] else [])) ∧
    Post E (EGraph.union N eg1 c i caller) (fun r => OneOK C N tl t eg c s r.1 (if r.2 then [c] else [])) := by
  obtain ⟨u, hu⟩ := hg.inv.exists_rep hil
  obtain ⟨w, hw⟩ := hg.inv.exists_rep hcl
  constructor
  · refine Post.mono (Post.and (Good.union_post (caller := caller) hN hg hu hw (hR _ _) (hJ _ _ _)).1
      (fun a ha => (show UnionCall N eg1 i c a.1 a.2 from ⟨caller, Or.inl ha⟩))) ?_
    rintro ⟨eg3, did⟩ ⟨⟨k1, k2, k3, k4⟩, k5⟩
    have hl1 : i < eg3.nodes.length := k2.lt hil
    have hl2 : c < eg3.nodes.length := k2.lt hcl
    refine ⟨k1, hx.trans k2, fun ms ids' eg'' hap => ?_⟩
    have := Applies.cons (c := c) (tl := tl) (r := i) h2 hp (Or.inl rfl) (Or.inl k5)
      (by
        rw [k4, hg.inv.sameClass_iff]
        constructor
        · rintro hne ⟨_, _, e⟩; exact hne e
        · intro hne e; exact hne ⟨hil, hcl, e⟩)
      (by rw [k1.inv.sameClass_iff]; exact ⟨hl1, hl1, rfl⟩)
      (by rw [k1.inv.sameClass_iff]; exact ⟨hl1, hl2, k3⟩) hap
    cases did
    · exact this
    · exact this
  · refine Post.mono (Post.and (Good.union_post (caller := caller) hN hg hw hu (hR _ _) (hJ _ _ _)).1
      (fun a ha => (show UnionCall N eg1 c i a.1 a.2 from ⟨caller, Or.inl ha⟩))) ?_
    rintro ⟨eg3, did⟩ ⟨⟨k1, k2, k3, k4⟩, k5⟩
    have hl1 : i < eg3.nodes.length := k2.lt hil
    have hl2 : c < eg3.nodes.length := k2.lt hcl
    refine ⟨k1, hx.trans k2, fun ms ids' eg'' hap => ?_⟩
    have := Applies.cons (c := c) (tl := tl) (r := c) h2 hp (Or.inl rfl) (Or.inr k5)
      (by
        rw [k4, hg.inv.sameClass_iff]
        constructor
        · rintro hne ⟨_, _, e⟩; exact hne e.symm
        · intro hne e; exact hne ⟨hil, hcl, e.symm⟩)
      (by rw [k1.inv.sameClass_iff]; exact ⟨hl2, hl1, k3⟩)
      (by rw [k1.inv.sameClass_iff]; exact ⟨hl2, hl2, rfl⟩) hap
    cases did
    · exact this
    · exact this

theorem applyOne_post (hN : HookOK C E N) (hR : ∀ s t, C.R s t) (hJ : ∀ r a b, C.J r a b) {p : Pattern Op}
    {tl t : Term (PatOp Op)} (he : PatWF p.ast) (ht : ExprTerm p.ast t) (hg : Good C eg) {c : Id} {s : Subst}
    (hm : MatchOK eg tl p.ast c s) {ast : Option (PatternAst Op)} (ha : ast ≠ none → eg.explain.isSome = true ∧ SearchAst eg tl s ast) (rule : Symbol) :
    Post E (p.applyOne N eg c s ast rule) (fun r => OneOK C N tl t eg c s r.1 r.2) := by
  unfold Pattern.applyOne
  refine Post.bind (x := applyPat N (List.replicate p.ast.length 0) p.ast eg s) (Post.and
    (applyPat_post hN he hg hm.binds (by simp)) (fun a ha => applyPat_steps ha)) ?_
  rintro ⟨eg1, buf, i⟩ ⟨⟨h1, h2, -, h3, h4⟩, h5⟩
  have h2 : Ext eg eg1 := h2
  have hil : i < eg1.nodes.length := h3
  have hcl : c < eg1.nodes.length := h2.lt (hg.inv.pmatch_lt hm.pmatch)
  cases ast with
  | none =>
    dsimp only
    refine Post.bind (x := EGraph.union N eg1 c i 0)
      (applyUnion_post (tl := tl) hN hR hJ h5 h2 h1 hil hcl (h4 _ ht) _).2 ?_
    rintro ⟨eg2, did⟩ h
    exact h
  | some l =>
    obtain ⟨q0, l', q1, q2, q3, q4⟩ := ha (by simp)
    cases q1
    dsimp only
    refine Post.bind (x := unionInstantiations N eg1 l p.ast s rule)
      (unionInst_post hN hR hJ q2 q3 he ht h1 (q4.ext h2) (hm.binds.ext h2) (by rw [h2.expl]; exact q0) rule c) ?_
    rintro ⟨eg2, i2, did⟩ h
    refine ⟨h.good, h2.trans h.ext, fun ms ids' eg'' hap => ?_⟩
    have h5 : AddSteps N eg eg1 := h5
    have := h.tr ms ids' eg'' hap
    dsimp only at this ⊢
    generalize ((if did = true then [i2] else []) ++ ids' : List Id) = ids at this ⊢
    cases this with
    | cons a1 a2 a3 a4 a5 a6 a7 a8 => exact Applies.cons (AddSteps.trans h5 a1) a2 a3 a4 a5 a6 a7 a8

theorem applySubsts_post (hN : HookOK C E N) (hR : ∀ s t, C.R s t) (hJ : ∀ r a b, C.J r a b) {p : Pattern Op}
    {tl t : Term (PatOp Op)} (he : PatWF p.ast) (ht : ExprTerm p.ast t) {ast : Option (PatternAst Op)} {c : Id} (rule : Symbol) :
    ∀ (ss : List Subst) (eg : EGraph Op D) (buf : List Id) (added : List Id), Good C eg → buf.length = p.ast.length →
    (∀ s ∈ ss, MatchOK eg tl p.ast c s) → (eg.explain.isSome → ∀ s ∈ ss, SearchAst eg tl s ast) →
    Post E (p.applySubsts N ast c rule eg ss buf added) (fun r => Good C r.1 ∧ Ext eg r.1 ∧ r.2.1.length = p.ast.length ∧
      ∃ ids, r.2.2 = added ++ ids ∧ ∀ ms ids' eg'', Applies N tl t r.1 ms ids' eg'' →
        Applies N tl t eg (ss.map (fun s => (c, s)) ++ ms) (ids ++ ids') eg'') := by
  intro ss
  induction ss with
  | nil =>
    intro eg buf added hg hl _ _
    exact ⟨hg, Ext.refl _, hl, [], by simp, fun ms ids' eg'' h => h⟩
  | cons s ss ih =>
    intro eg buf added hg hl hm ha
    have hs := hm s (by simp)
    have key : ∀ (eg1 : EGraph Op D) (buf1 ids1 : List Id), OneOK C N tl t eg c s eg1 ids1 → buf1.length = p.ast.length →
        Post E (p.applySubsts N ast c rule eg1 ss buf1 (added ++ ids1)) (fun r => Good C r.1 ∧ Ext eg r.1 ∧
          r.2.1.length = p.ast.length ∧ ∃ ids, r.2.2 = added ++ ids ∧ ∀ ms ids' eg'', Applies N tl t r.1 ms ids' eg'' →
          Applies N tl t eg ((s :: ss).map (fun s => (c, s)) ++ ms) (ids ++ ids') eg'') := by
      intro eg1 buf1 ids1 ho hl1
      refine Post.mono (ih eg1 buf1 (added ++ ids1) ho.good hl1 (fun s' hs' => (hm s' (by simp [hs'])).ext ho.ext hg ho.good)
        (fun hx s' hs' => (ha (by rw [← ho.ext.expl]; exact hx) s' (by simp [hs'])).ext ho.ext)) ?_
      rintro r ⟨r1, r2, r3, ids, r4, r5⟩
      refine ⟨r1, ho.ext.trans r2, r3, ids1 ++ ids, by rw [r4, List.append_assoc], fun ms ids' eg'' hap => ?_⟩
      have := ho.tr _ _ _ (r5 ms ids' eg'' hap)
      simpa using this
    have hif : ∀ (did : Bool) (i : Id), (if did = true then added ++ [i] else added) = added ++ (if did = true then [i] else []) := by
      intro did i; cases did <;> simp
    unfold Pattern.applySubsts
    split
    · next hx =>
      obtain ⟨l, rfl, q2, q3, q4⟩ := ha hx s (by simp)
      simp only [unwrap, ok_bind]
      refine Post.bind (x := unionInstantiations N eg l p.ast s rule)
        (unionInst_post hN hR hJ q2 q3 he ht hg q4 hs.binds hx rule c) ?_
      rintro ⟨eg2, i2, did⟩ h
      dsimp only at h ⊢
      rw [hif]
      exact key _ _ _ h hl
    · refine Post.bind (x := applyPat N buf p.ast eg s) (Post.and
        (applyPat_post hN he hg hs.binds hl) (fun a ha => applyPat_steps ha)) ?_
      rintro ⟨eg1, buf1, i⟩ ⟨⟨h1, h2, h2', h3, h4⟩, h5⟩
      have h2 : Ext eg eg1 := h2
      have hil : i < eg1.nodes.length := h3
      have hcl : c < eg1.nodes.length := h2.lt (hg.inv.pmatch_lt hs.pmatch)
      dsimp only
      refine Post.bind (x := EGraph.union N eg1 i c 0) (applyUnion_post (tl := tl) hN hR hJ h5 h2 h1 hil hcl (h4 _ ht) _).1 ?_
      rintro ⟨eg2, did⟩ h
      dsimp only at h ⊢
      rw [hif]
      exact key _ _ _ h h2'

theorem applyMatchesGo_post (hN : HookOK C E N) (hR : ∀ s t, C.R s t) (hJ : ∀ r a b, C.J r a b) {p : Pattern Op}
    {tl t : Term (PatOp Op)} (he : PatWF p.ast) (ht : ExprTerm p.ast t) (rule : Symbol) :
    ∀ (ms : List (SearchMatches Op)) (eg : EGraph Op D) (buf : List Id) (added : List Id), Good C eg →
    buf.length = p.ast.length → (∀ m ∈ ms, ∀ s ∈ m.substs, MatchOK eg tl p.ast m.eclass s) →
    (eg.explain.isSome → ∀ m ∈ ms, ∀ s ∈ m.substs, SearchAst eg tl s m.ast) →
    Post E (p.applyMatchesGo N rule eg ms buf added) (fun r => Good C r.1 ∧ Ext eg r.1 ∧
      ∃ ids, r.2 = added ++ ids ∧ Applies N tl t eg (flat ms) ids r.1) := by
  intro ms
  induction ms with
  | nil =>
    intro eg buf added hg hl _ _
    exact ⟨hg, Ext.refl _, [], by simp, .nil⟩
  | cons m ms ih =>
    intro eg buf added hg hl hm ha
    unfold Pattern.applyMatchesGo
    refine Post.bind (x := p.applySubsts N m.ast m.eclass rule eg m.substs buf added)
      (applySubsts_post (tl := tl) hN hR hJ he ht rule m.substs eg buf added hg hl (hm m (by simp)) (fun hx => ha hx m (by simp))) ?_
    rintro ⟨eg1, buf1, added1⟩ ⟨h1, h2, h3, ids, h4, h5⟩
    have h2 : Ext eg eg1 := h2
    dsimp only at h4 ⊢
    subst h4
    refine Post.mono (ih eg1 buf1 (added ++ ids) h1 h3 (fun m' hm' s hs => (hm m' (by simp [hm']) s hs).ext h2 hg h1)
      (fun hx m' hm' s hs => (ha (by rw [← h2.expl]; exact hx) m' (by simp [hm']) s hs).ext h2)) ?_
    rintro r ⟨r1, r2, ids', r3, r4⟩
    refine ⟨r1, h2.trans r2, ids ++ ids', by rw [r3, List.append_assoc], ?_⟩
    have := h5 _ _ _ r4
    simpa [flat] using this

/-! ### What a run of `Applies` achieves -/

theorem inst_of_pmatch {σ : Var → Option Id} (τ : Var → Term Op) : ∀ (t : Term (PatOp Op)) {c : Id}, PMatch eg σ c t →
    ∃ u, Inst τ t u := by
  intro t
  induction t using Term.ind with
  | h op ps ih =>
    intro c hm
    cases op with
    | var v =>
      rw [pmatch_var_iff] at hm
      obtain ⟨rfl, _⟩ := hm
      exact ⟨τ v, .var⟩
    | op o =>
      rw [pmatch_node_iff] at hm
      obtain ⟨k, n, _, _, _, h4⟩ := hm
      have : ∀ (ps : List (Term (PatOp Op))), (∀ q ∈ ps, ∃ u, Inst τ q u) → ∃ us, List.Forall₂ (Inst τ) ps us := by
        intro ps
        induction ps with
        | nil => intro _; exact ⟨[], .nil⟩
        | cons q ps ihp =>
          intro h
          obtain ⟨u, hu⟩ := h q (by simp)
          obtain ⟨us, hus⟩ := ihp (fun x hx => h x (by simp [hx]))
          exact ⟨u :: us, .cons hu hus⟩
      obtain ⟨us, hus⟩ := this ps (fun q hq => by
        obtain ⟨d, _, hd⟩ := forall₂_mem_left (forall₂_flip h4) hq
        exact ih q hq hd)
      exact ⟨.node o us, inst_node_iff.2 ⟨us, rfl, hus⟩⟩

/-- A choice of terms for the bound variables. -/
theorem exists_assignment (h : InvW W C eg) {s : Subst} (hs : ∀ v x, s.get v = some x → x < eg.nodes.length) {c : Id}
    (hc : c < eg.nodes.length) : ∃ τ : Var → Term Op, ∀ v x, s.get v = some x → Rep eg x (τ v) := by
  classical
  obtain ⟨t0, _⟩ := h.exists_rep hc
  refine ⟨fun v => if hv : ∃ t x, s.get v = some x ∧ Rep eg x t then hv.choose else t0, fun v x hx => ?_⟩
  obtain ⟨t, ht⟩ := h.exists_rep (hs v x hx)
  have hv : ∃ t x, s.get v = some x ∧ Rep eg x t := ⟨t, x, hx, ht⟩
  simp only [dif_pos hv]
  obtain ⟨y, h1, h2⟩ := hv.choose_spec
  rw [hx] at h1
  cases h1
  exact h2

theorem Steps.append {allow : Caller Op D} {a b c : EGraph Op D} {U V : List (UnionRec Op)}
    (h : Steps N allow a U b) (h' : Steps N allow b V c) : Steps N allow a (V ++ U) c := by
  induction h' with
  | refl => exact h
  | tail _ h2 ih => rw [List.append_assoc]; exact ih.tail h2

theorem _root_.Egg.AddSteps.ext (hN : HookOK C E N) {eg' : EGraph Op D} (h : AddSteps N eg eg') (hg : Good C eg) :
    Good C eg' ∧ Ext eg eg' := by
  induction h with
  | refl => exact ⟨hg, Ext.refl _⟩
  | @tail eg1 eg2 n i _ h2 ih =>
    obtain ⟨g1, x1⟩ := ih
    by_cases hn : ∀ c ∈ n.children, Valid eg1 c
    · have := (addUncanonical_post hN g1 (fun c hc => g1.valid_iff.1 (hn c hc))).elim h2
      exact ⟨this.1, x1.trans this.2.1⟩
    · rw [addUncanonical_error g1 hn] at h2; cases h2

theorem _root_.Egg.UnionCall.ext (hN : HookOK C E N) (hR : ∀ s t, C.R s t) (hJ : ∀ r a b, C.J r a b) {a b : Id}
    {eg' : EGraph Op D} {did : Bool} (h : UnionCall N eg a b eg' did) (hg : Good C eg) :
    Good C eg' ∧ Ext eg eg' := by
  obtain ⟨reason, h⟩ := h
  by_cases hv : Valid eg a ∧ Valid eg b
  · obtain ⟨u, hu⟩ := hg.inv.exists_rep (hg.valid_iff.1 hv.1)
    obtain ⟨w, hw⟩ := hg.inv.exists_rep (hg.valid_iff.1 hv.2)
    have := Good.union_post (caller := reason) hN hg hu hw (hR _ _) (hJ _ _ _)
    rcases h with h | h
    · have := this.1.elim h; exact ⟨this.1, this.2.1⟩
    · have := this.2.elim h; exact ⟨this.1, this.2.1⟩
  · have := union_error (N := N) (caller := reason) hg hv
    rcases h with h | h
    · rw [this.1] at h; cases h
    · rw [this.2] at h; cases h

/-- A run of `Applies` as a sequence of API calls: the unions are instances of the
rule, and in the end each match has been applied. -/
theorem Applies.result {allow : Caller Op D} (hN : HookOK C E N) (hR : ∀ s t, C.R s t)
    (hJ : ∀ r a b, C.J r a b) {tl t : Term (PatOp Op)}
    {eg0 : EGraph Op D} (h0 : Good C eg0) {ms : List (Id × Subst)} {ids : List Id} {eg' : EGraph Op D}
    (h : Applies N tl t eg ms ids eg') (hg : Good C eg) (hx : Grow eg0 eg)
    (hm : ∀ c s, (c, s) ∈ ms → PMatch eg0 s.get c tl ∧ ∀ v x, s.get v = some x → x < eg0.nodes.length) :
    ∃ U', Steps N allow eg U' eg' ∧ Good C eg' ∧ Ext eg eg' ∧
      (∀ u ∈ U', ∃ c s, (c, s) ∈ ms ∧ (InstancePair eg0 tl t s u.s u.t ∨ InstancePair eg0 tl t s u.t u.s)) ∧
      ∀ c s, (c, s) ∈ ms → ∃ i j, (j = c ∨ eg'.explain.isSome = true ∧ PMatch eg' s.get j tl) ∧
        PMatch eg' s.get i t ∧ SameClass eg' i j := by
  induction h with
  | nil => exact ⟨[], .refl, hg, Ext.refl _, by simp, by simp⟩
  | @cons eg eg1 eg2 eg' c s i j r did ms ids a1 a2 a3 a4 a5 a6 a7 a8 ih =>
    have st1 := AddSteps.steps (allow := allow) a1
    obtain ⟨g1, x1⟩ := AddSteps.ext hN a1 hg
    obtain ⟨hp, hs⟩ := hm c s (by simp)
    have hcl := h0.inv.pmatch_lt hp
    obtain ⟨τ, hτ⟩ := exists_assignment h0.inv hs hcl
    obtain ⟨u, hu⟩ := inst_of_pmatch τ _ hp
    obtain ⟨w, hw⟩ := inst_of_pmatch τ _ a2
    have x01 := hx.trans (x1.grow hg g1)
    have hp1 : PMatch eg1 s.get c tl := x01.pmatch h0.inv g1.inv hp
    have hrw : Rep eg1 i w := g1.inv.pmatch_rep _ a2 (fun v x _ hv => x01.rep _ _ (hτ v x hv)) hw
    have hpj : PMatch eg1 s.get j tl := by
      rcases a3 with rfl | h
      · exact hp1
      · exact h.2
    have hru : Rep eg1 j u := g1.inv.pmatch_rep _ hpj (fun v x _ hv => x01.rep _ _ (hτ v x hv)) hu
    have hU : ∃ rec : UnionRec Op, Step N allow eg1 [rec] eg2 ∧
        (InstancePair eg0 tl t s rec.s rec.t ∨ InstancePair eg0 tl t s rec.t rec.s) := by
      rcases a4 with ⟨reason, h | h⟩ | ⟨reason, h | h⟩
      · exact ⟨_, .union hrw hru h, Or.inr ⟨τ, hτ, hu, hw⟩⟩
      · exact ⟨_, .unionTrusted hrw hru h, Or.inr ⟨τ, hτ, hu, hw⟩⟩
      · exact ⟨_, .union hru hrw h, Or.inl ⟨τ, hτ, hu, hw⟩⟩
      · exact ⟨_, .unionTrusted hru hrw h, Or.inl ⟨τ, hτ, hu, hw⟩⟩
    obtain ⟨rec, st2, hrec⟩ := hU
    obtain ⟨g2, x2⟩ : Good C eg2 ∧ Ext eg1 eg2 := by
      rcases a4 with h | h
      · exact UnionCall.ext hN hR hJ h g1
      · exact UnionCall.ext hN hR hJ h g1
    obtain ⟨U', st3, g3, x3, k1, k2⟩ := ih g2 (x01.trans (x2.grow g1 g2)) (fun c s h => hm c s (by simp [h]))
    refine ⟨U' ++ [rec], ?_, g3, (x1.trans x2).trans x3, ?_, ?_⟩
    · have := Steps.append (st1.tail st2) st3
      simpa using this
    · intro u hu
      rcases List.mem_append.1 hu with hu | hu
      · obtain ⟨c', s', q1, q2⟩ := k1 u hu
        exact ⟨c', s', by simp [q1], q2⟩
      · simp only [List.mem_singleton] at hu
        subst hu
        exact ⟨c, s, by simp, hrec⟩
    · intro c' s' hcs
      rcases List.mem_cons.1 hcs with e | hcs
      · cases e
        have x13 := x2.trans x3
        refine ⟨i, j, ?_, x13.pmatch g1.inv g3.inv a2, ?_⟩
        · rcases a3 with h | h
          · exact Or.inl h
          · exact Or.inr ⟨by rw [x13.expl]; exact h.1, x13.pmatch g1.inv g3.inv h.2⟩
        · rw [g2.inv.sameClass_iff] at a6 a7
          rw [g3.inv.sameClass_iff]
          have := x3.len
          exact ⟨by omega, by omega, x3.rt _ _ a6.2.1 a7.2.1 (a6.2.2.symm.trans a7.2.2)⟩
      · exact k2 c' s' hcs

end EGraph
end Egg
