import Verif.Lemmas.Thin
import Verif.Props.Closure
import Mathlib.Data.Nat.Find
/-
Histories with pruning follow histories without.
-/
namespace Egg
variable {Op D : Type} [DecidableEq Op] [Lang Op] {K : Op → Nat → Prop} {P : D → Prop}

/-! ### Requests for explanations -/

omit [Lang Op] in
theorem congrClassLoop_uf {nodes : List (ENode Op)} {uf uf' : UF} (h : UF.find uf = UF.find uf') (limit : Nat) :
    ∀ (l : List Id) (canon : AMap (ENode Op) (List Id)) (counter : Nat) (cn : List (List Id)),
      Explain.congrClassLoop nodes uf limit l canon counter cn = Explain.congrClassLoop nodes uf' limit l canon counter cn := by
  intro l
  induction l with
  | nil => intro canon counter cn; rfl
  | cons e l ih =>
    intro canon counter cn
    unfold Explain.congrClassLoop
    rw [h]
    simp only [ih]

omit [Lang Op] in
theorem congrClassesLoop_uf {x : Explain Op} {ch : Explain.Choices} {nodes : List (ENode Op)} {uf uf' : UF} (h : UF.find uf = UF.find uf')
    (fuel : Nat) : ∀ (l : List Id) (counter : Nat) (cn : List (List Id)),
      Explain.congrClassesLoop x ch nodes uf fuel l counter cn = Explain.congrClassesLoop x ch nodes uf' fuel l counter cn := by
  intro l
  induction l with
  | nil => intro counter cn; rfl
  | cons e l ih =>
    intro counter cn
    unfold Explain.congrClassesLoop
    simp only [congrClassLoop_uf h, ih]

omit [Lang Op] in
theorem explainEquivalence_uf {x : Explain Op} {ch : Explain.Choices} {nodes : List (ENode Op)} {uf uf' : UF} (h : UF.find uf = UF.find uf')
    (keys : List Id) (fuel : Nat) (a b : Id) :
    x.explainEquivalence ch nodes uf keys fuel a b = x.explainEquivalence ch nodes uf' keys fuel a b := by
  unfold Explain.explainEquivalence Explain.calculateShortestExplanations Explain.findCongruenceNeighbors
  simp only [congrClassesLoop_uf h]

theorem Thin.query {b : Mark} {eg g : EGraph Op D} (hC : ThinC K P b eg g) (ch : Explain.Choices) (fuel : Nat) (l r : Id) :
    Sim (fun p q => p.1 = q.1 ∧ ThinC K P b p.2 q.2) (eg.explainIdEquivalence ch fuel l r) (g.explainIdEquivalence ch fuel l r) := by
  have h := hC.thin
  unfold EGraph.explainIdEquivalence
  rw [h.find]
  refine Sim.same fun x => Sim.same fun y => ?_
  split
  · rfl
  · rw [h.explain]
    cases g.explain with
    | none => rfl
    | some z =>
      dsimp only
      rw [explainEquivalence_uf (funext h.uf.find), h.nodes, h.classes.keys]
      refine Sim.same fun pz => ?_
      exact Sim.ok ⟨rfl, ⟨h.uf, rfl, h.memo, rfl, h.pending, h.apending, h.clean, h.classes, h.below, h.byOp⟩, hC.cover, hC.ge⟩

/-! ### Terms -/

theorem Thinner.get? {eg g : EGraph Op D} (h : Thinner eg g) (r : Id) :
    (eg.classes.get? r = none ∧ g.classes.get? r = none) ∨ ∃ k k0, eg.classes.get? r = some k ∧ g.classes.get? r = some k0 ∧ Subclass k k0 := by
  have hc : CRel (fun _ _ => False) (fun _ => False) eg.classes g.classes := h.classes.imp (fun _ _ h => ⟨h.1, h.2, fun _ _ h => h.elim, fun h => h.elim⟩)
  rcases hc.get? r with h | ⟨k, k0, h1, h2, h3⟩
  · exact .inl h
  · exact .inr ⟨k, k0, h1, h2, h3.toSubclass⟩

theorem Thinner.rep {eg g : EGraph Op D} (h : Thinner eg g) {i : Id} {t : Term Op} (hr : Rep eg i t) : Rep g i t := by
  induction hr with
  | @mk c r cls n ts h1 h2 h3 h4 _ ih =>
    rcases h.get? r with ⟨h5, _⟩ | ⟨k, k0, h5, h6, h7⟩
    · rw [h5] at h2; cases h2
    · rw [h5] at h2
      cases h2
      exact .mk (by rw [← h.find]; exact h1) h6 (h7.nodes n h3) h4 ih

theorem Thinner.sameClass {eg g : EGraph Op D} (h : Thinner eg g) {a b : Id} : SameClass eg a b ↔ SameClass g a b := by
  unfold SameClass
  simp only [h.find]

theorem termFor_iff {eg : EGraph Op D} {i : Id} {op : Op} {ts : List (Term Op)} : TermFor eg i (.node op ts) ↔
    ∃ j n, SameClass eg i j ∧ eg.nodes[j]? = some n ∧ n.op = op ∧ List.Forall₂ (TermFor eg) n.children ts := by
  constructor
  · intro h
    cases h with
    | @mk i j n ts h1 h2 h3 h4 =>
      exact ⟨j, n, h1, h2, rfl, forall₂_iff_get?.2 ⟨h3, fun k c t hc ht => h4 k c t hc ht⟩⟩
  · rintro ⟨j, n, h1, h2, rfl, h3⟩
    exact .mk h1 h2 h3.length_eq (forall₂_iff_get?.1 h3).2

/-- The term that an id was made for. -/
theorem TermFor.of_termOf {eg : EGraph Op D} (hv : ∀ i, i < eg.nodes.length → Valid eg i) : ∀ {t : Term Op} {i : Id}, TermOf eg.nodes i t → TermFor eg i t := by
  intro t
  induction t using Term.ind with
  | h op ts ih =>
    intro i hi
    obtain ⟨r, hr⟩ := hv i hi.lt
    obtain ⟨n, h1, h2, h3⟩ := termOf_iff.1 hi
    exact termFor_iff.2 ⟨i, n, ⟨r, hr, hr⟩, h1, h2, forall₂_mono_mem h3 (fun c _ t ht hc => ih t ht hc)⟩

theorem Thinner.termFor {eg g : EGraph Op D} (h : Thinner eg g) : ∀ {t : Term Op} {i : Id}, TermFor eg i t ↔ TermFor g i t := by
  intro t
  induction t using Term.ind with
  | h op ts ih =>
    intro i
    rw [termFor_iff, termFor_iff, h.nodes]
    refine exists_congr fun j => exists_congr fun n => and_congr h.sameClass (and_congr_right fun _ => and_congr_right fun _ => ?_)
    constructor
    · exact fun hh => forall₂_mono_mem hh (fun c _ t ht hc => (ih t ht).1 hc)
    · exact fun hh => forall₂_mono_mem hh (fun c _ t ht hc => (ih t ht).2 hc)

theorem EGraph.InvW.termFor {W : Id → Id → Prop} {C : Cfg Op D} {g : EGraph Op D} (h : EGraph.InvW W C g) : ∀ {t : Term Op} {i : Id}, TermFor g i t ↔ Rep g i t := by
  intro t
  induction t using Term.ind with
  | h op ts ih =>
    intro i
    rw [termFor_iff, h.rep_iff]
    constructor
    · rintro ⟨j, m, ⟨r, q1, q2⟩, h1, rfl, h3⟩
      obtain ⟨s, n, g1, g2, g3⟩ := h.core.nodesCls j m h1
      obtain ⟨k, hk, rfl⟩ := EGraph.cls_of_sk g1
      have e : g.rt j = g.rt i := by rw [(h.find_iff.1 q1).2, (h.find_iff.1 q2).2]
      rw [e] at hk
      refine ⟨(h.find_iff.1 q1).1, k, n, hk, g2, g3.1, ?_⟩
      refine h.rep_children (h.core.clsNodeLt g1 g2) g3.symm ?_
      exact forall₂_mono_mem h3 (fun c _ t ht hc => (ih t ht).1 hc)
    · rintro ⟨hc, k, n, hk, hn, rfl, hch⟩
      obtain ⟨j, m, h1, h2, h3⟩ := h.core.clsNodes _ _ (EGraph.sk_eq hk) n hn
      refine ⟨j, m, ⟨_, h.find hc, by rw [← h2]; exact h.find (getElem?_lt h1)⟩, h1, h3.1.symm, ?_⟩
      have := h.rep_children (fun c hc => h.core.childLt h1 hc) h3 hch
      exact forall₂_mono_mem this (fun c _ t ht hc => (ih t ht).2 hc)

/-- The terms of a class of the smaller e-graph are those that the class of the complete one represents. -/
theorem Thinner.termFor_full {W : Id → Id → Prop} {C : Cfg Op D} {eg g : EGraph Op D} (h : Thinner eg g) (hi : EGraph.InvW W C g) {t : Term Op} {i : Id} :
    TermFor eg i t ↔ Rep g i t := h.termFor.trans hi.termFor

/-! ### From `Thinner` back -/

theorem UF.findLoop_mono {ps : UF} : ∀ {k k' : Nat} {i r : Id}, k ≤ k' → UF.findLoop k ps i = .ok r → UF.findLoop k' ps i = .ok r
  | 0, _, _, _, _, h => nomatch h
  | k + 1, 0, _, _, hk, _ => by omega
  | k + 1, k' + 1, i, r, hk, h => by
    unfold UF.findLoop at h ⊢
    split at h
    · cases h
    · split at h
      · rw [if_pos (by assumption)]; exact h
      · rw [if_neg (by assumption)]; exact UF.findLoop_mono (by omega) h

theorem UF.wf_of_find {ps : UF} (h : ∀ i, i < ps.length → ∃ r, UF.find ps i = .ok r) : UF.WF ps := by
  classical
  have hex : ∀ i, i < ps.length → ∃ k r, UF.findLoop k ps i = .ok r := fun i hi => by
    obtain ⟨r, hr⟩ := h i hi
    exact ⟨_, r, hr⟩
  refine ⟨fun i => if hi : i < ps.length then Nat.find (hex i hi) else 0, fun i p hp => ?_⟩
  have hi := getElem?_lt hp
  obtain ⟨r, hr⟩ := Nat.find_spec (hex i hi)
  have key : p ≠ i → ∀ k, UF.findLoop k ps i = .ok r → ∃ k', k = k' + 1 ∧ UF.findLoop k' ps p = .ok r := by
    intro hne k hk
    cases k with
    | zero => cases hk
    | succ k =>
      unfold UF.findLoop at hk
      rw [hp] at hk
      dsimp only at hk
      rw [if_neg (fun e => hne e.symm)] at hk
      exact ⟨k, rfl, hk⟩
  by_cases hne : p = i
  · subst hne; exact ⟨hi, fun h => absurd rfl h⟩
  · obtain ⟨k', h1, h2⟩ := key hne _ hr
    have hpl : p < ps.length := by
      cases k' with
      | zero => cases h2
      | succ k =>
        unfold UF.findLoop at h2
        split at h2
        · cases h2
        · exact getElem?_lt (by assumption)
    refine ⟨hpl, fun _ => ?_⟩
    dsimp only
    rw [dif_pos hi, dif_pos hpl]
    have : Nat.find (hex p hpl) ≤ k' := Nat.find_min' _ ⟨r, h2⟩
    omega

/-- Missing e-nodes are all there is to know. -/
theorem Thinner.thinW {W : Id → Id → Prop} {C : Cfg Op D} {eg g : EGraph Op D} (h : Thinner eg g) (hK : Kept K eg g) (hW : Whole P eg g) (hi : EGraph.InvW W C g) : ThinC K P 0 eg g := by
  have hwf : UF.WF eg.uf := UF.wf_of_find fun i hlt => by
    rw [h.ids, ← hi.len] at hlt
    exact ⟨_, by have := h.find i; unfold EGraph.find at this; rw [this]; exact hi.find hlt⟩
  have hu : USame eg.uf g.uf := USame.of_find hwf hi.wf h.find
  have hcls : CRel K P eg.classes g.classes := by
    have hmem : ∀ q ∈ g.classes, g.classes.get? q.1 = some q.2 ∧ g.index q.1 = .ok q.2 := by
      intro q hq
      have hg := (AMap.mem_iff_get? hi.clsNodup).1 hq
      refine ⟨hg, ?_⟩
      have hk := (hi.core.clsKey q.1).1 (by rw [EGraph.sk_eq hg]; rfl)
      obtain ⟨k, h1, h2⟩ := hi.index hk.1
      rw [hk.2, hg] at h2
      cases h2
      exact h1
    have hkeys : AMap.keys eg.classes = AMap.keys g.classes := by
      have hc := h.classes
      generalize eg.classes = l at hc
      generalize g.classes = l' at hc
      induction hc with
      | nil => rfl
      | cons h1 _ ih => simp only [AMap.keys, List.map_cons, h1.1]; congr 1
    have hmem' : ∀ p ∈ eg.classes, eg.classes.get? p.1 = some p.2 := fun p hp => (AMap.mem_iff_get? (by rw [hkeys]; exact hi.clsNodup)).1 hp
    have := h.classes
    refine List.Forall₂.imp (R := fun p q => (p.1 = q.1 ∧ Subclass p.2 q.2) ∧ p ∈ eg.classes ∧ q ∈ g.classes) ?_ ?_
    · rintro p q ⟨⟨h1, h2⟩, h3, h4⟩
      obtain ⟨q1, q2⟩ := hmem q h4
      have q3 : eg.index q.1 = .ok p.2 := by
        unfold EGraph.index at q2 ⊢
        rw [h.find]
        obtain ⟨r, k1, k2⟩ := bind_eq_ok.1 q2
        have hr : r = q.1 := by
          have hk := (hi.core.clsKey q.1).1 (by rw [EGraph.sk_eq q1]; rfl)
          rw [← (hi.find_iff.1 k1).2, hk.2]
        subst hr
        rw [k1, ← h1, ok_bind, hmem' p h3]
        rfl
      exact ⟨h1, h2, fun n hn hKn => hK q.1 p.2 q.2 q3 q2 n hn hKn, fun hP => hW q.1 p.2 q.2 q3 q2 (by rw [h2.data]; exact hP)⟩
    · rw [List.forall₂_iff_get] at this ⊢
      exact ⟨this.1, fun k a b => ⟨this.2 k a b, List.getElem_mem _, List.getElem_mem _⟩⟩
  refine ⟨⟨hu, h.nodes, h.memo, h.explain, h.pending, h.apending, h.clean, hcls, ?_, ?_⟩, ?_, Nat.zero_le _⟩
  · intro p hp n hn c hc
    have hg := (AMap.mem_iff_get? hi.clsNodup).1 hp
    rw [← hi.len]
    exact hi.core.clsNodeLt (EGraph.sk_eq hg) hn c hc
  · rintro d x ⟨ids, h1, h2⟩
    exact h.byOp d ids h1 x h2
  · intro i hlt
    have hlt' : i < g.nodes.length := by rw [hi.len, ← h.ids]; exact hlt
    obtain ⟨k, hk⟩ := hi.exists_cls hlt'
    rw [show UF.root eg.uf i = g.rt i from (hu.root i).symm]
    rcases h.get? (g.rt i) with ⟨_, h2⟩ | ⟨k1, _, h1, _, _⟩
    · rw [h2] at hk; cases hk
    · exact ⟨k1, h1, fun h => absurd h (Nat.not_lt_zero i)⟩

theorem Thinner.thinC {W : Id → Id → Prop} {C : Cfg Op D} {eg g : EGraph Op D} (h : Thinner eg g) (hK : Kept K eg g) (hi : EGraph.InvW W C g) :
    ThinC K (fun _ => False) 0 eg g := h.thinW hK (fun _ _ _ _ _ h => h.elim) hi

theorem ThinC.whole {b : Mark} {eg g : EGraph Op D} (h : ThinC K P b eg g) : Whole P eg g := by
  intro i k kf hk hkf hP
  unfold EGraph.index at hk hkf
  rw [← h.thin.find] at hkf
  obtain ⟨r, h1, h2⟩ := bind_eq_ok.1 hk
  obtain ⟨r', h3, h4⟩ := bind_eq_ok.1 hkf
  rw [h1] at h3
  cases h3
  rcases h.thin.classes.get? r with ⟨q1, _⟩ | ⟨k1, k2, q1, q2, q3⟩
  · rw [q1] at h2; cases h2
  · rw [q1] at h2
    rw [q2] at h4
    cases h2
    cases h4
    exact q3.whole (by rw [← q3.data]; exact hP)

/-! ### Steps -/

variable {N M : Analysis Op D} {allow : Caller Op D}

theorem ThinC.new : ThinC K P 0 (EGraph.new : EGraph Op D) EGraph.new :=
  ⟨⟨⟨UF.wf_nil, UF.wf_nil, rfl, fun _ => rfl⟩, rfl, rfl, rfl, rfl, rfl, rfl, .nil, fun _ h => (nomatch h), fun _ _ h => h⟩, fun i hi => absurd hi (Nat.not_lt_zero i), Nat.zero_le _⟩

theorem Thin.step (hN : HookSim K P N M) (ha : allow.Blind) (hP : ∀ eg i d, allow eg i d → ¬ P d) {eg g eg' : EGraph Op D} {U : List (UnionRec Op)} (hC : ThinC K P 0 eg g)
    (hs : Step N allow eg U eg') : ∃ g', Step M allow g U g' ∧ ThinC K P 0 eg' g' := by
  have h := hC.thin
  have ht := h.thinner
  cases hs with
  | explain hx =>
    unfold EGraph.withExplanationsEnabled EGraph.totalSize at hx
    rw [h.explain, h.memo] at hx
    cases hg : g.explain with
    | some x =>
      rw [hg] at hx
      cases hx
      exact ⟨g, .explain (by unfold EGraph.withExplanationsEnabled; rw [hg]), hC⟩
    | none =>
      rw [hg] at hx
      dsimp only at hx
      split at hx
      · cases hx
      · rename_i hm
        cases hx
        exact ⟨{ g with explain := some Explain.new }, .explain (by unfold EGraph.withExplanationsEnabled EGraph.totalSize; rw [hg]; dsimp only; rw [if_neg hm]),
          ⟨h.uf, h.nodes, rfl, rfl, h.pending, h.apending, h.clean, h.classes, h.below, h.byOp⟩, hC.cover, hC.ge⟩
  | noOptimize hx =>
    unfold EGraph.withoutExplanationLengthOptimization at hx
    rw [h.explain] at hx
    cases hg : g.explain with
    | none => rw [hg] at hx; cases hx
    | some x =>
      rw [hg] at hx
      cases hx
      exact ⟨{ g with explain := some { x with optimize := false } }, .noOptimize (by unfold EGraph.withoutExplanationLengthOptimization; rw [hg]),
        ⟨h.uf, h.nodes, h.memo, rfl, h.pending, h.apending, h.clean, h.classes, h.below, h.byOp⟩, hC.cover, hC.ge⟩
  | optimize hx =>
    unfold EGraph.withExplanationLengthOptimization at hx
    rw [h.explain] at hx
    cases hg : g.explain with
    | none => rw [hg] at hx; cases hx
    | some x =>
      rw [hg] at hx
      cases hx
      exact ⟨{ g with explain := some { x with optimize := true } }, .optimize (by unfold EGraph.withExplanationLengthOptimization; rw [hg]),
        ⟨h.uf, h.nodes, h.memo, rfl, h.pending, h.apending, h.clean, h.classes, h.below, h.byOp⟩, hC.cover, hC.ge⟩
  | @query _ ch fuel a b p ho hq =>
    obtain ⟨⟨p', g'⟩, h1, _, h2⟩ := (Thin.query hC ch fuel a b).of_ok hq
    exact ⟨g', .query (by rw [← h.explain]; exact ho) h1, h2⟩
  | add hx =>
    obtain ⟨⟨g', i⟩, h1, h2, _⟩ := (Thin.addUncanonical hN hC _).of_ok hx
    exact ⟨g', .add h1, h2⟩
  | union hs ht' hx =>
    obtain ⟨⟨g', i⟩, h1, h2, _⟩ := (Thin.union hN hC _ _ _).of_ok hx
    exact ⟨g', .union (ht.rep hs) (ht.rep ht') h1, h2⟩
  | unionTrusted hs ht' hx =>
    obtain ⟨⟨g', i⟩, h1, h2, _⟩ := (Thin.unionTrusted hN hC _ _ _).of_ok hx
    exact ⟨g', .unionTrusted (ht.rep hs) (ht.rep ht') h1, h2⟩
  | setData hx hd =>
    obtain ⟨g', h1, h2⟩ := (Thin.setAnalysisData hN hC _ _ (hP _ _ _ hx)).of_ok hd
    exact ⟨g', .setData (ha _ _ _ _ ht hx) h1, h2⟩
  | rebuild hx =>
    obtain ⟨⟨g', i⟩, h1, h2, _⟩ := (Thin.rebuild hN hC _).of_ok hx
    exact ⟨g', .rebuild h1, h2⟩
  | restore =>
    exact ⟨g.restored, .restore, ⟨h.uf, h.nodes, h.memo, by simp only [EGraph.restored, h.explain], h.pending, h.apending, rfl, h.classes, h.below, fun _ _ h => h⟩,
      hC.cover, hC.ge⟩
  | disable hd =>
    exact ⟨g.withExplanationsDisabled, .disable hd, ⟨h.uf, h.nodes, h.memo, rfl, h.pending, h.apending, h.clean, h.classes, h.below, h.byOp⟩, hC.cover, hC.ge⟩

theorem PruneHist.follow {A : PruneAnalysis Op D} (hA : A.OK K) (ha : allow.Blind) {depth : Nat} {U : List (UnionRec Op)} {eg : EGraph Op D}
    (h : PruneHist K (A.at depth) allow U eg) : ∃ g, Hist (A.full.at depth) allow U g ∧ ThinC K (fun _ => False) 0 eg g := by
  have hN := hA.hookSim depth
  induction h with
  | new => exact ⟨EGraph.new, .refl, .new⟩
  | @tail U V eg eg' _ hs ih =>
    obtain ⟨g, hg, hC⟩ := ih
    cases hs with
    | call hs =>
      obtain ⟨g', h1, h2⟩ := Thin.step hN ha (fun _ _ _ _ h => h) hC hs
      exact ⟨g', .tail hg h1, h2⟩
    | retain hk hr =>
      obtain ⟨eg2, h1, h2⟩ := Thin.retain hC (retain_lt hr) hk (fun _ _ h => h)
      rw [hr] at h1
      cases h1
      exact ⟨g, hg, h2⟩
    | union hs ht hx =>
      have hgood := (hist_good hg).inv
      rw [hC.thin.thinner.termFor_full hgood] at hs ht
      obtain ⟨⟨g', i⟩, h1, h2, _⟩ := (Thin.union hN hC _ _ _).of_ok hx
      exact ⟨g', .tail hg (.union hs ht h1), h2⟩
    | unionTrusted hs ht hx =>
      have hgood := (hist_good hg).inv
      rw [hC.thin.thinner.termFor_full hgood] at hs ht
      obtain ⟨⟨g', i⟩, h1, h2, _⟩ := (Thin.unionTrusted hN hC _ _ _).of_ok hx
      exact ⟨g', .tail hg (.unionTrusted hs ht h1), h2⟩

/-- The same for histories in which e-nodes are dropped only from classes whose data do not satisfy `P`. -/
theorem GuardHist.follow {A : PruneAnalysis Op D} (hA : A.OK K) (hG : A.Guards P) (ha : allow.Blind) (hP : ∀ eg i d, allow eg i d → ¬ P d)
    {depth : Nat} {U : List (UnionRec Op)} {eg : EGraph Op D}
    (h : GuardHist K P (A.at depth) allow U eg) : ∃ g, Hist (A.full.at depth) allow U g ∧ ThinC K P 0 eg g := by
  have hN := hA.hookSim' hG depth
  induction h with
  | new => exact ⟨EGraph.new, .refl, .new⟩
  | @call U V eg eg' _ hs ih =>
    obtain ⟨g, hg, hC⟩ := ih
    cases hs with
    | call hs =>
      obtain ⟨g', h1, h2⟩ := Thin.step hN ha hP hC hs
      exact ⟨g', .tail hg h1, h2⟩
    | retain hk hr =>
      obtain ⟨eg2, h1, h2⟩ := Thin.retainAll hC (retain_lt hr) (fun n => hk n trivial)
      rw [hr] at h1
      cases h1
      exact ⟨g, hg, h2⟩
    | union hs ht hx =>
      have hgood := (hist_good hg).inv
      rw [hC.thin.thinner.termFor_full hgood] at hs ht
      obtain ⟨⟨g', i⟩, h1, h2, _⟩ := (Thin.union hN hC _ _ _).of_ok hx
      exact ⟨g', .tail hg (.union hs ht h1), h2⟩
    | unionTrusted hs ht hx =>
      have hgood := (hist_good hg).inv
      rw [hC.thin.thinner.termFor_full hgood] at hs ht
      obtain ⟨⟨g', i⟩, h1, h2, _⟩ := (Thin.unionTrusted hN hC _ _ _).of_ok hx
      exact ⟨g', .tail hg (.unionTrusted hs ht h1), h2⟩
  | @retain U eg eg' i k keep _ hi hd hk hr ih =>
    obtain ⟨g, hg, hC⟩ := ih
    obtain ⟨eg2, h1, h2⟩ := Thin.retain hC (retain_lt hr) hk (fun k' hk' => by
      unfold EGraph.index at hi
      obtain ⟨r, q1, q2⟩ := bind_eq_ok.1 hi
      have : UF.root eg.uf i = r := by
        unfold UF.root
        rw [show UF.find eg.uf i = .ok r from q1]
      rw [this, unwrap_eq_ok.1 q2] at hk'
      cases hk'
      exact hd)
    rw [hr] at h1
    cases h1
    exact ⟨g, hg, h2⟩

end Egg
