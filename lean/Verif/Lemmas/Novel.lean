import Verif.Lemmas.GreedyHist
import Verif.Spec.NovelHist
/-
Without redundant unions, the recorded rule edges are the edges of the proof forest.
-/
namespace Egg
variable {Op D : Type} [DecidableEq Op] [Lang Op]

/-- The rule edges of the neighbor lists are in the log. -/
def NbLog (x : Explain Op) (L : Log) : Prop := ∀ (i : Id) (e : ExplainNode), x.find[i]? = some e → ∀ c ∈ e.neighbors,
  ∀ s, c.justification = .rule s → (i, c.next, Justification.rule s) ∈ L ∨ (c.next, i, Justification.rule s) ∈ L

omit [Lang Op] in
theorem NbLog.same {x x' : Explain Op} {L : Log} (h : NbLog x L) (hf : x'.find = x.find) : NbLog x' L := by
  intro i e he; rw [hf] at he; exact h i e he

omit [Lang Op] in
theorem NbLog.addNew {opt : Prop} {J : Symbol → Id → Id → Prop} {nodes : List (ENode Op)} {conn conn' : Id → Id → Prop}
    {x : Explain Op} {L : Log} (h : XOk opt J nodes conn x L) (hn : NbLog x L) (n : ENode Op)
    (hold : ∀ i k, i < nodes.length → k < nodes.length → (conn' i k ↔ conn i k))
    (hself : conn' nodes.length nodes.length)
    (hl : ∀ i, i < nodes.length → ¬ conn' i nodes.length)
    (hr : ∀ i, i < nodes.length → ¬ conn' nodes.length i) {x' : Explain Op} (he : x.add n nodes.length = .ok x') :
    XOk opt J (nodes ++ [n]) conn' x' L ∧ NbLog x' L := by
  obtain ⟨x1, h1, h2, _⟩ := h.addNew n hold hself hl hr
  obtain ⟨x2, g1, _, _, _, _, g6, _⟩ := Explain.add_ok h.inv n hold hself hl hr
  rw [he] at h1 g1
  cases h1; cases g1
  refine ⟨h2, fun i e hi c hc s hs => ?_⟩
  rcases g6 i e hi with g | ⟨_, g⟩
  · exact hn i e g c hc s hs
  · rw [g] at hc; simp at hc

omit [Lang Op] in
theorem NbLog.union {opt : Prop} {J : Symbol → Id → Id → Prop} {nodes : List (ENode Op)} {conn conn' : Id → Id → Prop}
    {x : Explain Op} {L : Log} (h : XOk opt J nodes conn x L) (hn : NbLog x L) {a b : Id}
    {j : Justification}
    (ha : a < nodes.length) (hb : b < nodes.length) (hab : ¬ conn a b)
    (hrefl : ∀ i, conn i i) (hsymm : ∀ i k, conn i k → conn k i)
    (hcongr : j = .congruence → ∃ na nb, nodes[a]? = some na ∧ nodes[b]? = some nb ∧
      na.op = nb.op ∧ List.Forall₂ conn na.children nb.children)
    (hJ : ∀ s, j = .rule s → J s a b)
    (hdag : Dag nodes)
    (hconn' : ∀ i k, i < nodes.length → k < nodes.length →
      (conn' i k ↔ conn i k ∨ (conn i a ∧ conn b k) ∨ (conn i b ∧ conn a k))) {x' : Explain Op} (he : x.union a b j = .ok x') :
    XOk opt J nodes conn' x' (L ++ [(a, b, j)]) ∧ NbLog x' (L ++ [(a, b, j)]) := by
  obtain ⟨x1, h1, h2, _⟩ := h.union ha hb hab hrefl hsymm hcongr hJ hdag hconn'
  obtain ⟨x2, g1, _, _, _, _, _, g7⟩ := Explain.union_ok h.inv ha hb hab hcongr hdag hconn'
  rw [he] at h1 g1
  cases h1; cases g1
  refine ⟨h2, fun i e' hi c hc s hs => ?_⟩
  obtain ⟨e, k1, k2⟩ := g7 i e' hi
  rw [k2] at hc
  simp only [List.mem_append] at hc ⊢
  rcases hc with (hc | hc) | hc
  · exact (hn i e k1 c hc s hs).imp .inl .inl
  · split at hc
    · rename_i e; subst e
      rw [List.mem_singleton] at hc; subst hc
      simp only at hs; subst hs
      exact .inl (.inr (by simp))
    · simp at hc
  · split at hc
    · rename_i e; subst e
      rw [List.mem_singleton] at hc; subst hc
      simp only at hs; subst hs
      exact .inr (.inr (by simp))
    · simp at hc

namespace EGraph
variable {W : Id → Id → Prop} {C : Cfg Op D} {eg : EGraph Op D} {E : Err → Prop} {N : Analysis Op D}

/-- The explanation data of `eg` are fine, and have no redundant rule edges. -/
def Nov (C : Cfg Op D) (eg : EGraph Op D) : Prop := ∀ x, eg.explain = some x →
  ∃ L, XOk C.optimized C.J eg.nodes (fun i j => eg.rt i = eg.rt j) x L ∧ NbLog x L

/-- The hook changes nothing. -/
def NoModify (N : Analysis Op D) : Prop := ∀ eg i eg', N.modify eg i = .ok eg' → eg' = eg

theorem Nov.frame (h : Nov C eg) {eg' : EGraph Op D} (h1 : eg'.explain = eg.explain) (h2 : eg'.nodes = eg.nodes)
    (h3 : ∀ i, eg'.rt i = eg.rt i) : Nov C eg' := by
  intro x hx
  rw [h1] at hx
  obtain ⟨L, k1, k2⟩ := h x hx
  refine ⟨L, ?_, k2⟩
  rw [h2]
  exact k1.congrConn (fun i k _ _ => by rw [h3, h3])

theorem performUnion_explain (hQ : NoModify N) {e1 e2 : Id} {rule : Option Justification} {r : EGraph Op D × Bool}
    (h1 : e1 < eg.nodes.length) (h2 : e2 < eg.nodes.length) (hi : InvW W C eg)
    (hr : performUnion N eg e1 e2 rule = .ok r) :
    (eg.rt e1 = eg.rt e2 ∧ ((∀ s, rule ≠ some (.rule s)) → r.1.explain = eg.explain)) ∨
    (eg.rt e1 ≠ eg.rt e2 ∧ explainUnion eg.explain e1 e2 rule = .ok r.1.explain) := by
  obtain ⟨uf1, hf1, hs1⟩ := hi.findMut h1
  obtain ⟨uf2, hf2, hs2⟩ := (hi.same hs1).findMut (i := e2) h2
  rw [rt_same hs1] at hf2
  have hf2' : UF.findMut uf1 e2 = .ok (uf2, eg.rt e2) := hf2
  unfold performUnion at hr
  simp only [hf1, hf2', ok_bind] at hr
  by_cases hid : eg.rt e1 = eg.rt e2
  · refine .inl ⟨hid, fun hrule => ?_⟩
    rw [if_pos hid] at hr
    split at hr
    · rename_i s x _ ; exact absurd rfl (hrule s)
    · cases hr; rfl
  · refine .inr ⟨hid, ?_⟩
    rw [if_neg hid] at hr
    obtain ⟨c1, _, hr⟩ := bind_eq_ok.1 hr
    obtain ⟨c2, _, hr⟩ := bind_eq_ok.1 hr
    generalize (if c1.parents.length < c2.parents.length then (eg.rt e2, eg.rt e1) else (eg.rt e1, eg.rt e2)) = ids at hr
    obtain ⟨x, hx, hr⟩ := bind_eq_ok.1 hr
    obtain ⟨uf, _, hr⟩ := bind_eq_ok.1 hr
    obtain ⟨k2, _, hr⟩ := bind_eq_ok.1 hr
    obtain ⟨k1, _, hr⟩ := bind_eq_ok.1 hr
    split at hr
    · cases hr
    · obtain ⟨eg', hm, hr⟩ := bind_eq_ok.1 hr
      cases hr
      rw [hQ _ _ _ hm]
      exact hx

theorem performUnion_nov (hQ : NoModify N) {e1 e2 : Id} {rule : Option Justification} (hk : Nov C eg)
    (h : InvW (WP (eg.rt e1) (eg.rt e2)) C eg)
    (he1 : e1 < eg.nodes.length) (he2 : e2 < eg.nodes.length)
    (hR : ∀ s t, TermOf eg.nodes e1 s → TermOf eg.nodes e2 t → C.R s t)
    (hJ : JustOK C eg e1 e2 rule) (hnew : ∀ s, rule = some (.rule s) → eg.rt e1 ≠ eg.rt e2)
    {r : EGraph Op D × Bool} (hr : performUnion N eg e1 e2 rule = .ok r) : Nov C r.1 := by
  have hex := performUnion_explain hQ he1 he2 h hr
  rcases performUnion_cases (N := N) h he1 he2 hR hJ with ⟨h1, eg', h2, h3, h4, h5, _⟩ |
    ⟨h1, eg1, a, b, c1, c2, h2, h3, h4, h5, _⟩
  · rw [h2] at hr; cases hr
    rcases hex with ⟨_, hex⟩ | ⟨hne, _⟩
    · exact hk.frame (hex (fun s hs => hnew s hs h1)) h5 h4
    · exact absurd h1 hne
  · rw [h5] at hr
    obtain ⟨eg', hm, hr⟩ := bind_eq_ok.1 hr
    cases hr
    have := hQ _ _ _ hm
    subst this
    rcases hex with ⟨he, _⟩ | ⟨_, hex⟩
    · exact absurd he h1
    simp only at hex
    intro x' hx'
    rw [hx'] at hex
    cases hx : eg.explain with
    | none => rw [hx] at hex; cases hex
    | some x =>
      rw [hx] at hex
      obtain ⟨j, rfl⟩ : ∃ j, rule = some j := by
        cases rule with
        | none => cases hex
        | some j => exact ⟨j, rfl⟩
      have hun : x.union e1 e2 j = .ok x' := by
        simp only [explainUnion, unwrap, ok_bind] at hex
        obtain ⟨x1, hun, hex⟩ := bind_eq_ok.1 hex
        cases hex
        exact hun
      obtain ⟨L, k1, k2⟩ := hk x hx
      refine ⟨L ++ [(e1, e2, j)], ?_⟩
      have hrt : ∀ i, eg'.rt i = if eg.rt i = b then a else eg.rt i := h3.rt
      rw [h3.nodes]
      refine k2.union k1 he1 he2 h1 (fun _ => rfl) (fun _ _ e => e.symm) ?_ ?_ h.core.dag ?_ hun
      · intro hj; subst hj
        obtain ⟨n1, n2, g1, g2, g3, g4⟩ := hJ
        exact ⟨n1, n2, g1, g2, g3, forall₂_map_eq.2 g4⟩
      · intro s hs; subst hs; exact hJ
      · intro i k _ _
        rw [hrt, hrt]
        have key : ((if eg.rt i = b then a else eg.rt i) = (if eg.rt k = b then a else eg.rt k)) ↔
            eg.rt i = eg.rt k ∨ (eg.rt i = a ∧ b = eg.rt k) ∨ (eg.rt i = b ∧ a = eg.rt k) := by
          have := h3.ne
          split_ifs <;> omega
        rw [key]
        rcases h2 with ⟨e, e'⟩ | ⟨e, e'⟩
        · rw [e, e']
        · rw [e, e']; tauto

theorem pendingStep_nov (hQ : NoModify N) (hk : Nov C eg) {cls : Id} {rest : List Id}
    (h : Good C eg) (hp : eg.pending = cls :: rest) {r : EGraph Op D × Bool}
    (hr : pendingStep N { eg with pending := rest } cls = .ok r) : Nov C r.1 := by
  obtain ⟨node, uf, hn, hs, heq, hinv⟩ := pendingStep_eq N h.inv hp
  rw [heq] at hr
  have hrt : ∀ (g : EGraph Op D), g.uf = uf → g.rt = eg.rt := by
    intro g hg; funext i; show UF.root g.uf i = _; rw [hg]; exact hs.root i
  cases hm : eg.mem (node.mapChildren eg.rt) with
  | none =>
    rw [hm] at hinv hr
    cases hr
    exact hk.frame rfl rfl (fun i => by rw [hrt _ rfl])
  | some m =>
    rw [hm] at hinv hr
    obtain ⟨h1, h2, h3, h4⟩ := pending_union_pre (rest := rest)
      (mm := eg.memo.insert (node.mapChildren eg.rt) cls) h.inv hn hs hm
    have hg := hrt { eg with pending := rest, uf := uf, memo := eg.memo.insert (node.mapChildren eg.rt) cls } rfl
    exact performUnion_nov (eg := { eg with pending := rest, uf := uf, memo := eg.memo.insert (node.mapChildren eg.rt) cls }) hQ (hk.frame rfl rfl (fun i => by rw [hg])) (by rw [hg]; exact hinv) h1 h2 h3 h4 (by intro s hs; cases hs) hr

theorem pendingLoop_nov (hN : HookOK C E N) (hQ : NoModify N) :
    ∀ (f : Nat) (eg : EGraph Op D) (k : Nat), Good C eg → Nov C eg → ∀ r, pendingLoop N f eg k = .ok r → Nov C r.1 := by
  intro f
  induction f with
  | zero => intro eg k _ _ r hr; cases hr
  | succ f ih =>
    intro eg k h hk r hr
    unfold pendingLoop at hr
    cases hp : eg.pending with
    | nil => rw [hp] at hr; cases hr; exact hk
    | cons cls rest =>
      rw [hp] at hr
      obtain ⟨⟨eg1, b⟩, h1, hr⟩ := bind_eq_ok.1 hr
      exact ih eg1 _ ((pendingStep_post hN h hp).elim h1).1 (pendingStep_nov hQ hk h hp h1) r hr

theorem analysisStep_nov (hN : HookOK C E N) (hQ : NoModify N) (hk : Nov C eg) {cls : Id}
    {q : UniqueQueue Id} (h : Good C eg) (hp : eg.apending.pop = some (cls, q)) {eg' : EGraph Op D}
    (hr : analysisStep N { eg with apending := q } cls = .ok eg') : Nov C eg' := by
  obtain ⟨hcls, n, uf, k, ds, hs, hc, hcd, heq, hgood⟩ := analysisStep_cases hN h hp
  rw [heq] at hr
  obtain ⟨d, hd, hr⟩ := bind_eq_ok.1 hr
  split at hr
  · rw [hQ _ _ _ hr]; exact hk.frame rfl rfl (fun i => hs.root i)
  · cases hr; exact hk.frame rfl rfl (fun i => hs.root i)

theorem analysisLoop_nov (hN : HookOK C E N) (hQ : NoModify N) :
    ∀ (f : Nat) (eg : EGraph Op D), Good C eg → Nov C eg → ∀ r, analysisLoop N f eg = .ok r → Nov C r := by
  intro f
  induction f with
  | zero => intro eg _ _ r hr; cases hr
  | succ f ih =>
    intro eg h hk r hr
    unfold analysisLoop at hr
    cases hp : eg.apending.pop with
    | none => rw [hp] at hr; cases hr; exact hk
    | some cq =>
      obtain ⟨cls, q⟩ := cq
      rw [hp] at hr
      obtain ⟨eg1, h1, hr⟩ := bind_eq_ok.1 hr
      exact ih eg1 ((analysisStep_post hN h hp).elim h1).1 (analysisStep_nov hN hQ hk h hp h1) r hr

theorem processUnions_nov (hN : HookOK C E N) (hQ : NoModify N) :
    ∀ (f : Nat) (eg : EGraph Op D) (k : Nat), Good C eg → Nov C eg → ∀ r, processUnions N f eg k = .ok r → Nov C r.1 := by
  have hN := hN.mono (E' := fun _ => True) (fun _ _ => trivial)
  intro f
  induction f with
  | zero => intro eg k _ _ r hr; cases hr
  | succ f ih =>
    intro eg k h hk r hr
    unfold processUnions at hr
    split at hr
    · cases hr; exact hk
    · obtain ⟨⟨eg1, k1⟩, h1, hr⟩ := bind_eq_ok.1 hr
      obtain ⟨eg2, h2, hr⟩ := bind_eq_ok.1 hr
      have g1 := ((pendingLoop_post trivial hN f eg k h).elim h1).1
      exact ih eg2 _ ((analysisLoop_post trivial hN f eg1 g1).elim h2).1
        (analysisLoop_nov hN hQ f eg1 g1 (pendingLoop_nov hN hQ f eg k h hk _ h1) _ h2) r hr

theorem rebuildClasses_explain {eg' : EGraph Op D} {t : Nat} (h : rebuildClasses eg = .ok (eg', t)) : eg'.explain = eg.explain := by
  unfold rebuildClasses at h
  obtain ⟨_, _, h⟩ := bind_eq_ok.1 h
  cases h
  rfl

theorem rebuild_nov (hN : HookOK C E N) (hQ : NoModify N) {fuel : Nat} (h : Good C eg) (hk : Nov C eg)
    {r : EGraph Op D × Nat} (hr : rebuild N fuel eg = .ok r) : Nov C r.1 := by
  have hN := hN.mono (E' := fun _ => True) (fun _ _ => trivial)
  unfold rebuild at hr
  obtain ⟨⟨eg1, k⟩, h1, hr⟩ := bind_eq_ok.1 hr
  have hk1 := processUnions_nov hN hQ fuel eg 0 h hk _ h1
  obtain ⟨p1, p2, p3, p4⟩ := (processUnions_post trivial hN fuel eg 0 h).elim h1
  obtain ⟨eg2, t, g1, g2, g3, g4, g5, g6, g7, g8⟩ := rebuildClasses_good p1 p3 p4
  simp only [g1, ok_bind] at hr
  cases hr
  have := rebuildClasses_explain g1
  exact hk1.frame this g6 g5

theorem pushParents_explain : ∀ (cs : List Id) (eg : EGraph Op D) (i : Id) (eg' : EGraph Op D), pushParents eg cs i = .ok eg' →
    eg'.explain = eg.explain
  | [], _, _, _, h => by cases h; rfl
  | _ :: cs, _, i, _, h => by
    rw [pushParents] at h
    obtain ⟨_, _, h⟩ := bind_eq_ok.1 h
    obtain ⟨_, _, h⟩ := bind_eq_ok.1 h
    exact (pushParents_explain cs _ i _ h :)

theorem addUncanonical_explain (h : Inv C eg) {n : ENode Op} (hch : ∀ c ∈ n.children, c < eg.nodes.length) (hQ : NoModify N)
    {r : EGraph Op D × Id} (hr : addUncanonical N eg n = .ok r) :
    r.1 = eg ∨ (∃ e x x1 x2, eg.mem (n.mapChildren eg.rt) = some e ∧ eg.explain = some x ∧ x.uncanonMemo.get? n = none ∧
      x.add n eg.nodes.length = .ok x1 ∧ x1.union e eg.nodes.length .congruence = .ok x2 ∧ r.1.explain = some x2) ∨
    (eg.mem (n.mapChildren eg.rt) = none ∧ explainAdd eg.explain n eg.nodes.length = .ok r.1.explain) := by
  have hcan := h.canon hch
  unfold addUncanonical at hr
  simp only [hcan, ok_bind] at hr
  cases hm : eg.mem (n.mapChildren eg.rt) with
  | some e =>
    have hm' : eg.memo.get? (n.mapChildren eg.rt) = some e := hm
    simp only [hm'] at hr
    obtain ⟨id, _, hr⟩ := bind_eq_ok.1 hr
    cases hx : eg.explain with
    | none => simp only [hx] at hr; cases hr; exact .inl rfl
    | some x =>
      simp only [hx] at hr
      cases hu : x.uncanonMemo.get? n with
      | some i => simp only [hu] at hr; cases hr; exact .inl rfl
      | none =>
        simp only [hu, UF.makeSet] at hr
        obtain ⟨x1, h1, hr⟩ := bind_eq_ok.1 hr
        obtain ⟨uf, _, hr⟩ := bind_eq_ok.1 hr
        obtain ⟨x2, h2, hr⟩ := bind_eq_ok.1 hr
        cases hr
        exact .inr (.inl ⟨e, x, x1, x2, rfl, rfl, hu, by rw [h.len]; exact h1, by rw [h.len]; exact h2, rfl⟩)
  | none =>
    have hm' : eg.memo.get? (n.mapChildren eg.rt) = none := hm
    simp only [hm'] at hr
    obtain ⟨⟨eg1, id⟩, h1, hr⟩ := bind_eq_ok.1 hr
    obtain ⟨x, h2, hr⟩ := bind_eq_ok.1 hr
    obtain ⟨eg2, h3, hr⟩ := bind_eq_ok.1 hr
    cases hr
    have := hQ _ _ _ h3
    subst this
    unfold makeNewEClass UF.makeSet at h1
    simp only at h1
    obtain ⟨d, _, h1⟩ := bind_eq_ok.1 h1
    obtain ⟨eg3, h4, h1⟩ := bind_eq_ok.1 h1
    have h5 := pushParents_explain _ _ _ _ h4
    split at h1
    · cases h1
    · cases h1
      refine .inr (.inr ⟨rfl, ?_⟩)
      rw [h.len]
      simp only at h5 h2
      rw [h5] at h2
      exact h2

theorem addUncanonical_nov (hQ : NoModify N) (h : Good C eg) (hk : Nov C eg) {n : ENode Op}
    (hch : ∀ c ∈ n.children, c < eg.nodes.length) {r : EGraph Op D × Id} (hr : addUncanonical N eg n = .ok r) : Nov C r.1 := by
  have hrtlt : ∀ i, i < eg.nodes.length → eg.rt i < eg.nodes.length := h.inv.core.rtLt
  have hrtnew : eg.rt eg.nodes.length = eg.nodes.length := h.inv.core.rtOut _ (le_refl _)
  have hold1 : ∀ i, i < eg.nodes.length → ¬ (eg.rt i = eg.rt eg.nodes.length) := by
    intro i hi; rw [hrtnew]; have := hrtlt i hi; omega
  have hold2 : ∀ i, i < eg.nodes.length → ¬ (eg.rt eg.nodes.length = eg.rt i) := fun i hi e => hold1 i hi e.symm
  have hex := addUncanonical_explain h.inv hch hQ hr
  rcases addUncanonical_cases N h.inv hch with ⟨e, i, ni, h1, h2, _⟩ | ⟨e, x, eg1, h1, h2, h3, h4, h5, h6⟩ | ⟨h1, eg1, h2, h3⟩
  · rw [h2] at hr; cases hr; exact hk
  · rw [h4] at hr; cases hr
    rcases hex with hex | ⟨e', x', x1, x2, g1, g2, g3, g4, g5, g6⟩ | ⟨g1, _⟩
    · have := congrArg (fun g => g.nodes.length) hex
      simp [h6.nodes] at this
    · rw [h1] at g1; cases g1
      rw [h2] at g2; cases g2
      obtain ⟨L, k1, k2⟩ := hk x h2
      obtain ⟨m1, m2⟩ := k2.addNew k1 n (conn' := fun i j => eg.rt i = eg.rt j) (fun _ _ _ _ => Iff.rfl) rfl hold1 hold2 g4
      intro y hy
      simp only at hy g6
      rw [g6] at hy; cases hy
      have heL := h.inv.core.memLt h1
      obtain ⟨ne, hne, hnec, _⟩ := h.inv.core.memo _ _ h1
      have hcanon : Cong eg.rt (n.mapChildren eg.rt) n :=
        (Cong.canon_left (fun c _ => h.inv.core.rtIdem c)).2 (Cong.refl _)
      have hnnew : (eg.nodes ++ [n])[eg.nodes.length]? = some n := by simp
      have hnold : (eg.nodes ++ [n])[e]? = some ne := by
        rw [List.getElem?_append_left heL, hne]
      have hdag : Dag eg1.nodes := h5.core.dag
      rw [h6.nodes] at hdag
      show ∃ L, XOk C.optimized C.J eg1.nodes (fun i j => eg1.rt i = eg1.rt j) _ L ∧ _
      rw [h6.nodes]
      refine ⟨L ++ [(e, eg.nodes.length, .congruence)], m2.union m1 (by simp; omega) (by simp) (by rw [hrtnew]; have := hrtlt e heL; omega)
        (fun _ => rfl) (fun _ _ e => e.symm) ?_ (by intro s hs; cases hs) hdag ?_ g5⟩
      · intro _
        have := hnec.trans hcanon
        exact ⟨ne, n, hnold, hnnew, this.1, forall₂_map_eq.2 this.2⟩
      · intro i k hi hk
        rw [h6.rt, h6.rt]
        simp only [List.length_append, List.length_singleton] at hi hk
        by_cases ei : i = eg.nodes.length <;> by_cases ek : k = eg.nodes.length
        · subst ei; subst ek; simp
        · have := hrtlt k (by omega)
          subst ei; rw [hrtnew]; simp [ek]; omega
        · have := hrtlt i (by omega)
          subst ek; rw [hrtnew]; simp [ei]; omega
        · have := hrtlt k (by omega)
          have := hrtlt i (by omega)
          rw [hrtnew]; simp [ei, ek]; omega
    · rw [h1] at g1; cases g1
  · rw [h3] at hr
    obtain ⟨d, hd, hr⟩ := bind_eq_ok.1 hr
    obtain ⟨eg', hm, hr⟩ := bind_eq_ok.1 hr
    cases hr
    have := hQ _ _ _ hm
    subst this
    obtain ⟨hi, hn⟩ := h2 d
    rcases hex with hex | ⟨e', x', x1, x2, g1, _⟩ | ⟨_, hex⟩
    · have := congrArg (fun g => g.nodes.length) hex
      simp [hn.nodes] at this
    · rw [h1] at g1; cases g1
    · intro y hy
      simp only at hy hex
      rw [hy] at hex
      cases hx : eg.explain with
      | none => rw [hx] at hex; cases hex
      | some x =>
        rw [hx] at hex
        simp only [explainAdd] at hex
        obtain ⟨x1, g4, hex⟩ := bind_eq_ok.1 hex
        cases hex
        obtain ⟨L, k1, k2⟩ := hk x hx
        show ∃ L, XOk C.optimized C.J (eg1 d).nodes (fun i j => (eg1 d).rt i = (eg1 d).rt j) _ L ∧ _
        rw [hn.nodes, funext hn.rt]
        exact ⟨L, k2.addNew k1 n (conn' := fun i j => eg.rt i = eg.rt j) (fun _ _ _ _ => Iff.rfl) rfl hold1 hold2 g4⟩

theorem setAnalysisData_nov (hQ : NoModify N) (h : Good C eg) (hk : Nov C eg) {i : Id} {d : D} (hi : Valid eg i) {eg' : EGraph Op D}
    (hr : setAnalysisData N eg i d = .ok eg') : Nov C eg' := by
  obtain ⟨uf, hf, hs⟩ := h.inv.findMut (h.valid_iff.1 hi)
  unfold setAnalysisData at hr
  simp only [hf, ok_bind] at hr
  obtain ⟨k, _, hr⟩ := bind_eq_ok.1 hr
  rw [hQ _ _ _ hr]
  exact hk.frame rfl rfl (fun i => hs.root i)

theorem Step.nov {allow : Caller Op D} (hN : HookOK C E N) (hQ : NoModify N) {U : List (UnionRec Op)} {eg' : EGraph Op D}
    (hs : Step N allow eg U eg') (hU : ∀ u ∈ U, C.R u.s u.t ∧ C.J u.reason u.a u.b) (hnew : ∀ u ∈ U, ¬ SameClass eg u.a u.b)
    (hq : allow.optimized → C.optimized)
    (h : Good C eg) (hk : Nov C eg) : Nov C eg' := by
  have hmemo : ∀ (x x' : Explain Op), eg.explain = some x → x'.find = x.find → x'.uncanonMemo = x.uncanonMemo →
      (∀ l r c nx, x'.shortMemo.get? (l, r) = some (c, nx) → nx < eg.nodes.length ∧ (¬ C.optimized → x.shortMemo.get? (l, r) = some (c, nx))) →
      Nov C { eg with explain := some x' } := by
    intro x x' hx h1 h2 h3 y hy
    cases hy
    obtain ⟨L, k1, k2⟩ := hk x hx
    exact ⟨L, k1.setMemo h1 h2 h3, k2.same h1⟩
  have hun : ∀ {a b : Id} {s t : Term Op} {caller : Symbol} {r : EGraph Op D × Bool}, Rep eg a s → Rep eg b t → C.R s t → C.J caller a b →
      ¬ SameClass eg a b → (EGraph.union N eg a b caller = .ok r → Nov C r.1) ∧ (EGraph.unionTrusted N eg a b caller = .ok r → Nov C r.1) := by
    intro a b s t caller r ha hb hR hJ hn
    have hR' : ∀ s t, TermOf eg.nodes a s → TermOf eg.nodes b t → C.R s t := by
      intro s' t' hs' ht'
      exact C.isCong.trans (h.inv.rep_sound s ha hs') (C.isCong.trans hR (C.isCong.symm (h.inv.rep_sound t hb ht')))
    have h1 := h.inv.rep_lt ha
    have h2 := h.inv.rep_lt hb
    have hne : eg.rt a ≠ eg.rt b := fun e => hn (h.inv.sameClass_iff.2 ⟨h1, h2, e⟩)
    have ht : EGraph.unionTrusted N eg a b caller = .ok r → Nov C r.1 :=
      fun hr => performUnion_nov hQ (rule := some (.rule caller)) hk (h.inv.monoW (fun _ _ e => Or.inl e)) h1 h2 hR' hJ (fun _ _ => hne) hr
    refine ⟨?_, ht⟩
    unfold EGraph.union
    split
    · exact ht
    · rename_i hx
      exact fun hr => performUnion_nov hQ hk (h.inv.monoW (fun _ _ e => Or.inl e)) h1 h2 hR' (by simpa [JustOK] using hx) (fun _ _ => hne) hr
  cases hs with
  | explain he =>
    unfold withExplanationsEnabled at he
    split at he
    · cases he; exact hk
    · split at he
      · cases he
      · rename_i hts
        cases he
        have hm : eg.memo = [] := by
          apply List.eq_nil_of_length_eq_zero
          have : ¬ eg.memo.length > 0 := hts
          omega
        have hn := h.inv.memoNodup.2 hm
        intro y hy
        cases hy
        show ∃ L, XOk C.optimized C.J eg.nodes _ _ L ∧ _
        rw [hn]
        exact ⟨[], xok_new _ _ _, by intro i e he; simp [Explain.new] at he⟩
  | restore =>
    cases hx : eg.explain with
    | none => intro y hy; simp [restored, hx] at hy
    | some x =>
      have hres : eg.restored.explain = some { x with shortMemo := [] } := by unfold restored; rw [hx]; rfl
      have h0 := hmemo x { x with shortMemo := [] } hx rfl rfl (by intro l r c nx h; simp [AMap.get?] at h)
      exact h0.frame hres rfl (fun _ => rfl)
  | disable _ => intro y hy; cases hy
  | noOptimize he =>
    unfold withoutExplanationLengthOptimization at he
    split at he
    · rename_i x hx
      cases he
      obtain ⟨L, k1, _⟩ := hk x hx
      exact hmemo x _ hx rfl rfl (fun l r c nx hg => ⟨(k1.short l r c nx hg).1, fun _ => hg⟩)
    · cases he
  | optimize he =>
    unfold withExplanationLengthOptimization at he
    split at he
    · rename_i x hx
      cases he
      obtain ⟨L, k1, _⟩ := hk x hx
      exact hmemo x _ hx rfl rfl (fun l r c nx hg => ⟨(k1.short l r c nx hg).1, fun _ => hg⟩)
    · cases he
  | query hqx he =>
    obtain ⟨_, _, _, x, x', hx, rfl, g1, g2, g3, _⟩ := explainId_ok h he
    refine hmemo x x' hx g1.find g1.uncanon (fun l r c nx hg => ⟨g2 _ _ _ _ hg, fun ho => ?_⟩)
    cases hopt : x.optimize with
    | true => exact absurd (hq (hqx x hx hopt)) ho
    | false => rw [← g3 hopt]; exact hg
  | @add _ n i he =>
    by_cases hn : ∀ c ∈ n.children, Valid eg c
    · exact addUncanonical_nov hQ h hk (fun c hc => h.valid_iff.1 (hn c hc)) he
    · rw [addUncanonical_error h hn] at he; cases he
  | union ha hb he =>
    obtain ⟨hR, hJ⟩ := hU _ (List.mem_singleton.2 rfl)
    exact (hun ha hb hR hJ (hnew _ (List.mem_singleton.2 rfl))).1 he
  | unionTrusted ha hb he =>
    obtain ⟨hR, hJ⟩ := hU _ (List.mem_singleton.2 rfl)
    exact (hun ha hb hR hJ (hnew _ (List.mem_singleton.2 rfl))).2 he
  | @setData _ i d ha he =>
    by_cases hi : Valid eg i
    · exact setAnalysisData_nov hQ h hk hi he
    · rw [setData_error h hi] at he; cases he
  | rebuild he => exact rebuild_nov hN hQ h hk he

theorem _root_.Egg.NovelHist.nov {allow : Caller Op D} (hN : HookOK C E N) (hQ : NoModify N)
    (hallow : ∀ eg i d, Good C eg → allow eg i d → SetOK C eg i d) (hq : allow.optimized → C.optimized)
    {U : List (UnionRec Op)} (h : NovelHist N allow U eg) (hU : ∀ u ∈ U, C.R u.s u.t ∧ C.J u.reason u.a u.b) : Nov C eg := by
  induction h with
  | new => intro x hx; cases hx
  | @step U V eg eg' h hs hnew ih =>
    have hU1 : ∀ u ∈ U, C.R u.s u.t ∧ C.J u.reason u.a u.b := fun u hu => hU u (List.mem_append_right _ hu)
    have hg := (Hist.good hN hallow h.hist hU1 hq).1
    exact Step.nov hN hQ hs (fun u hu => hU u (List.mem_append_left _ hu)) (fun u hu => (hnew u hu).1) hq hg (ih hU1)

omit [DecidableEq Op] [Lang Op] in
theorem termOf_old {nodes l : List (ENode Op)} (hd : Dag nodes) {i : Id} (hi : i < nodes.length) {t : Term Op} (h : TermOf (nodes ++ l) i t) : TermOf nodes i t := by
  obtain ⟨t', ht'⟩ := hd.exists_term i hi
  rw [h.unique ht'.append]
  exact ht'

theorem _root_.Egg.NovelHist.apart {allow : Caller Op D} (hN : HookOK C E N)
    (hallow : ∀ eg i d, Good C eg → allow eg i d → SetOK C eg i d) (hq : allow.optimized → C.optimized)
    {U : List (UnionRec Op)} (h : NovelHist N allow U eg) (hU : ∀ u ∈ U, C.R u.s u.t ∧ C.J u.reason u.a u.b) :
    ∀ u ∈ U, ∀ t, TermOf eg.nodes u.a t → ¬ TermOf eg.nodes u.b t := by
  induction h with
  | new => intro u hu; simp at hu
  | @step U V eg eg' h hs hnew ih =>
    have hU1 : ∀ u ∈ U, C.R u.s u.t ∧ C.J u.reason u.a u.b := fun u hu => hU u (List.mem_append_right _ hu)
    have hV : ∀ u ∈ V, C.R u.s u.t ∧ C.J u.reason u.a u.b := fun u hu => hU u (List.mem_append_left _ hu)
    obtain ⟨hg, hrep⟩ := Hist.good hN hallow h.hist hU1 hq
    obtain ⟨_, hgr, _⟩ := Step.good hN hallow hs hV hg hq
    obtain ⟨l, hl⟩ := hgr.nodes
    intro u hu t h1 h2
    rw [hl] at h1 h2
    rcases List.mem_append.1 hu with hu | hu
    · have hlt : u.a < eg.nodes.length ∧ u.b < eg.nodes.length := by
        cases hs with
        | union ha hb _ =>
          rw [List.mem_singleton.1 hu]
          exact ⟨hg.inv.rep_lt ha, hg.inv.rep_lt hb⟩
        | unionTrusted ha hb _ =>
          rw [List.mem_singleton.1 hu]
          exact ⟨hg.inv.rep_lt ha, hg.inv.rep_lt hb⟩
        | _ => simp at hu
      exact (hnew u hu).2 t (termOf_old hg.inv.core.dag hlt.1 h1) (termOf_old hg.inv.core.dag hlt.2 h2)
    · obtain ⟨g1, g2, _⟩ := hrep u hu
      exact ih hU1 u hu t (termOf_old hg.inv.core.dag (hg.inv.rep_lt g1) h1) (termOf_old hg.inv.core.dag (hg.inv.rep_lt g2) h2)

end EGraph
end Egg
