import Verif.Spec.Prune
import Verif.Spec.PruneGuard
import Verif.Lemmas.ProofMade
import Verif.Lemmas.Rebuild
/-
Every operation on an e-graph with missing e-nodes does what it does on the complete e-graph.
-/
namespace Egg
variable {Op D : Type} [DecidableEq Op] [Lang Op]

theorem Sim.mono {α β : Type} {R Q : α → β → Prop} {x : Res α} {y : Res β} (h : Sim R x y) (hRQ : ∀ a b, R a b → Q a b) :
    Sim Q x y := by
  cases x <;> cases y
  · exact h
  · exact h.elim
  · exact h.elim
  · exact hRQ _ _ h

theorem Sim.of_ok {α β : Type} {R : α → β → Prop} {x : Res α} {y : Res β} {a : α} (h : Sim R x y) (hx : x = .ok a) :
    ∃ b, y = .ok b ∧ R a b := by
  subst hx
  cases y
  · exact h.elim
  · exact ⟨_, rfl, h⟩

theorem Sim.refl_eq {α : Type} (x : Res α) : Sim Eq x x := by
  cases x <;> rfl

/-! ### Union-find -/

/-- Same ids and representatives. -/
structure USame (ps ps' : UF) : Prop where
  wf : UF.WF ps
  wf' : UF.WF ps'
  len : ps'.length = ps.length
  root : ∀ i, UF.root ps' i = UF.root ps i

theorem USame.same {ps ps' qs qs' : UF} (h : USame ps ps') (h1 : UF.Same ps qs) (h2 : UF.Same ps' qs') : USame qs qs' :=
  ⟨h1.wf, h2.wf, by rw [h1.len, h2.len, h.len], fun i => by rw [h1.root, h2.root, h.root]⟩

theorem USame.find {ps ps' : UF} (h : USame ps ps') (i : Id) : UF.find ps i = UF.find ps' i := by
  by_cases hi : i < ps.length
  · rw [UF.find_eq_ok h.wf hi, UF.find_eq_ok h.wf' (by rw [h.len]; exact hi), h.root]
  · rw [UF.find_error_of_ge hi, UF.find_error_of_ge (by rw [h.len]; exact hi)]

theorem USame.of_find {ps ps' : UF} (h : UF.WF ps) (h' : UF.WF ps') (hf : ∀ i, UF.find ps i = UF.find ps' i) : USame ps ps' := by
  have key : ∀ i, i < ps'.length ↔ i < ps.length := by
    intro i
    constructor
    · intro hi
      have := hf i
      rw [UF.find_eq_ok h' hi] at this
      by_contra hc
      rw [UF.find_error_of_ge hc] at this
      cases this
    · intro hi
      have := hf i
      rw [UF.find_eq_ok h hi] at this
      by_contra hc
      rw [UF.find_error_of_ge hc] at this
      cases this
  refine ⟨h, h', ?_, ?_⟩
  · have h1 := (key ps.length).not.2 (Nat.lt_irrefl _)
    have h2 := (key ps'.length).not.1 (Nat.lt_irrefl _)
    omega
  · intro i
    by_cases hi : i < ps.length
    · have := hf i
      rw [UF.find_eq_ok h hi, UF.find_eq_ok h' ((key i).2 hi)] at this
      exact (Except.ok.inj this).symm
    · rw [UF.root_of_ge hi, UF.root_of_ge (fun hc => hi ((key i).1 hc))]

theorem UF.findMut_error_of_ge {ps : UF} {i : Id} (hi : ¬ i < ps.length) : UF.findMut ps i = .error .panic := by
  unfold UF.findMut UF.findMutLoop
  rw [List.getElem?_eq_none (by omega)]

theorem USame.findMut {ps ps' : UF} (h : USame ps ps') (i : Id) :
    Sim (fun p q => UF.Same ps p.1 ∧ UF.Same ps' q.1 ∧ p.2 = UF.root ps i ∧ q.2 = UF.root ps i ∧ i < ps.length)
      (UF.findMut ps i) (UF.findMut ps' i) := by
  by_cases hi : i < ps.length
  · obtain ⟨q, h1, h2⟩ := UF.findMut_ok h.wf hi
    obtain ⟨q', h3, h4⟩ := UF.findMut_ok h.wf' (i := i) (by rw [h.len]; exact hi)
    rw [h1, h3]
    exact ⟨h2, h4, rfl, h.root i, hi⟩
  · rw [UF.findMut_error_of_ge hi, UF.findMut_error_of_ge (by rw [h.len]; exact hi)]
    rfl

theorem USame.findMutList : ∀ (is : List Id) {ps ps' : UF}, USame ps ps' →
    Sim (fun p q => UF.Same ps p.1 ∧ UF.Same ps' q.1 ∧ p.2 = q.2 ∧ ∀ r ∈ p.2, r < ps.length) (UF.findMutList ps is) (UF.findMutList ps' is)
  | [], ps, ps', h => ⟨.refl h.wf, .refl h.wf', rfl, fun _ h => nomatch h⟩
  | i :: is, ps, ps', h => by
    unfold UF.findMutList
    refine Sim.bind (h.findMut i) ?_
    rintro ⟨p, r⟩ ⟨q, r'⟩ ⟨h1, h2, h3, h4, hi⟩
    dsimp only at h1 h2 h3 h4 ⊢
    refine Sim.bind (USame.findMutList is (h.same h1 h2)) ?_
    rintro ⟨p', rs⟩ ⟨q', rs'⟩ ⟨h5, h6, h7, h8⟩
    dsimp only at h5 h6 h7 h8 ⊢
    refine Sim.ok ⟨h1.trans h5, h2.trans h6, by rw [h3, h4, h7], ?_⟩
    intro x hx
    rcases List.mem_cons.1 hx with rfl | hx
    · rw [h3]; exact UF.root_lt h.wf hi
    · rw [← h1.len]; exact h8 x hx

theorem USame.makeSet {ps ps' : UF} (h : USame ps ps') : USame (ps ++ [ps.length]) (ps' ++ [ps'.length]) := by
  refine ⟨UF.wf_makeSet h.wf, UF.wf_makeSet h.wf', by simp [h.len], ?_⟩
  intro i
  by_cases hi : i < ps.length
  · rw [UF.root_makeSet h.wf hi, UF.root_makeSet h.wf' (by rw [h.len]; exact hi), h.root]
  · by_cases hi' : i = ps.length
    · subst hi'
      rw [UF.root_makeSet_new h.wf]
      rw [← h.len]
      exact UF.root_makeSet_new h.wf'
    · have e := h.len
      rw [UF.root_of_ge (by simp only [List.length_append, List.length_singleton]; omega),
        UF.root_of_ge (by simp only [List.length_append, List.length_singleton]; omega)]

theorem USame.link {ps ps' : UF} (h : USame ps ps') {a b : Id} (ha : a < ps.length) (hb : b < ps.length) (hra : UF.root ps a = a)
    (hrb : UF.root ps b = b) (hab : a ≠ b) :
    Sim (fun p q => USame p q ∧ p.length = ps.length) (UF.union ps a b) (UF.union ps' a b) := by
  unfold UF.union
  rw [if_pos hb, if_pos (by rw [h.len]; exact hb)]
  obtain ⟨h1, h2⟩ := UF.union_spec h.wf ha hb hra hrb hab
  obtain ⟨h3, h4⟩ := UF.union_spec h.wf' (a := a) (b := b) (by rw [h.len]; exact ha) (by rw [h.len]; exact hb)
    (by rw [h.root, hra]) (by rw [h.root, hrb]) hab
  refine Sim.ok ⟨⟨h1, h3, by simp [h.len], ?_⟩, by simp⟩
  intro i
  by_cases hi : i < ps.length
  · rw [h2 i hi, h4 i (by rw [h.len]; exact hi), h.root]
  · have e := h.len
    rw [UF.root_of_ge (by simp only [List.length_set]; omega), UF.root_of_ge (by simp only [List.length_set]; omega)]

/-! ### Classes -/

/-- `Subclass`, and no e-node that satisfies `K` is missing, and none at all if the datum satisfies `P`. -/
structure SubK (K : Op → Nat → Prop) (P : D → Prop) (k full : EClass Op D) : Prop extends Subclass k full where
  kept : ∀ n ∈ full.nodes, K n.op n.children.length → n ∈ k.nodes
  whole : P full.data → ∀ n ∈ full.nodes, n ∈ k.nodes

abbrev CRel (K : Op → Nat → Prop) (P : D → Prop) (m m0 : AMap Id (EClass Op D)) : Prop := List.Forall₂ (fun p q => p.1 = q.1 ∧ SubK K P p.2 q.2) m m0

variable {K : Op → Nat → Prop} {P : D → Prop}

omit [DecidableEq Op] [Lang Op] in
theorem CRel.get? {m m0 : AMap Id (EClass Op D)} (h : CRel K P m m0) (r : Id) :
    (m.get? r = none ∧ m0.get? r = none) ∨ ∃ k k0, m.get? r = some k ∧ m0.get? r = some k0 ∧ SubK K P k k0 := by
  induction h with
  | nil => exact .inl ⟨rfl, rfl⟩
  | @cons p q l l' hpq _ ih =>
    obtain ⟨a, k⟩ := p
    obtain ⟨b, k0⟩ := q
    obtain ⟨rfl, hk⟩ := hpq
    dsimp only at hk
    simp only [AMap.get?]
    by_cases hr : a = r
    · simp only [if_pos hr]
      exact .inr ⟨k, k0, rfl, rfl, hk⟩
    · simp only [if_neg hr]
      exact ih

omit [DecidableEq Op] [Lang Op] in
theorem CRel.unwrap {m m0 : AMap Id (EClass Op D)} (h : CRel K P m m0) (r : Id) :
    Sim (fun k k0 => m.get? r = some k ∧ m0.get? r = some k0 ∧ SubK K P k k0) (Egg.unwrap (m.get? r)) (Egg.unwrap (m0.get? r)) := by
  rcases h.get? r with ⟨h1, h2⟩ | ⟨k, k0, h1, h2, h3⟩
  · rw [h1, h2]; rfl
  · rw [h1, h2]; exact ⟨rfl, rfl, h3⟩

omit [DecidableEq Op] [Lang Op] in
theorem CRel.insert {m m0 : AMap Id (EClass Op D)} (h : CRel K P m m0) (r : Id) {k k0 : EClass Op D} (hk : SubK K P k k0) :
    CRel K P (m.insert r k) (m0.insert r k0) := by
  induction h with
  | nil => exact .cons ⟨rfl, hk⟩ .nil
  | @cons p q l l' hpq hl ih =>
    obtain ⟨a, c⟩ := p
    obtain ⟨b, c0⟩ := q
    obtain ⟨rfl, hc⟩ := hpq
    simp only [AMap.insert]
    by_cases hr : a = r
    · simp only [if_pos hr]
      exact .cons ⟨rfl, hk⟩ hl
    · simp only [if_neg hr]
      exact .cons ⟨rfl, hc⟩ ih

omit [DecidableEq Op] [Lang Op] in
theorem CRel.erase {m m0 : AMap Id (EClass Op D)} (h : CRel K P m m0) (r : Id) : CRel K P (m.erase r) (m0.erase r) := by
  induction h with
  | nil => exact .nil
  | @cons p q l l' hpq hl ih =>
    obtain ⟨a, c⟩ := p
    obtain ⟨b, c0⟩ := q
    obtain ⟨rfl, hc⟩ := hpq
    simp only [AMap.erase]
    by_cases hr : a = r
    · simp only [if_pos hr]
      exact ih
    · simp only [if_neg hr]
      exact .cons ⟨rfl, hc⟩ ih

omit [DecidableEq Op] [Lang Op] in
theorem CRel.keys {m m0 : AMap Id (EClass Op D)} (h : CRel K P m m0) : m.keys = m0.keys := by
  induction h with
  | nil => rfl
  | @cons p q l l' hpq hl ih =>
    simp only [AMap.keys, List.map_cons] at ih ⊢
    rw [ih, hpq.1]

/-- The e-nodes of the classes have valid children. -/
def NodesBelow (m : AMap Id (EClass Op D)) (b : Nat) : Prop := ∀ p ∈ m, ∀ n ∈ p.2.nodes, ∀ c ∈ n.children, c < b

omit [DecidableEq Op] [Lang Op] in
theorem NodesBelow.insert {m : AMap Id (EClass Op D)} {b : Nat} (h : NodesBelow m b) {r : Id} {k : EClass Op D}
    (hk : ∀ n ∈ k.nodes, ∀ c ∈ n.children, c < b) : NodesBelow (m.insert r k) b := by
  induction m with
  | nil =>
    intro p hp
    simp only [AMap.insert, List.mem_singleton] at hp
    subst hp
    exact hk
  | cons q m ih =>
    obtain ⟨a, c⟩ := q
    simp only [AMap.insert]
    have h' : NodesBelow m b := fun p hp => h p (.tail _ hp)
    split
    · intro p hp
      rcases List.mem_cons.1 hp with rfl | hp
      · exact hk
      · exact h' p hp
    · intro p hp
      rcases List.mem_cons.1 hp with rfl | hp
      · exact h _ (.head _)
      · exact ih h' p hp

omit [DecidableEq Op] [Lang Op] in
theorem NodesBelow.erase {m : AMap Id (EClass Op D)} {b : Nat} (h : NodesBelow m b) (r : Id) : NodesBelow (m.erase r) b := by
  induction m with
  | nil => exact h
  | cons q m ih =>
    obtain ⟨a, c⟩ := q
    simp only [AMap.erase]
    have h' : NodesBelow m b := fun p hp => h p (.tail _ hp)
    split
    · exact ih h'
    · intro p hp
      rcases List.mem_cons.1 hp with rfl | hp
      · exact h _ (.head _)
      · exact ih h' p hp

omit [DecidableEq Op] [Lang Op] in
theorem NodesBelow.mono {m : AMap Id (EClass Op D)} {b b' : Nat} (h : NodesBelow m b) (hb : b ≤ b') : NodesBelow m b' :=
  fun p hp n hn c hc => Nat.lt_of_lt_of_le (h p hp n hn c hc) hb

omit [DecidableEq Op] [Lang Op] in
theorem NodesBelow.get? {m : AMap Id (EClass Op D)} {b : Nat} (h : NodesBelow m b) {r : Id} {k : EClass Op D} (hk : m.get? r = some k) :
    ∀ n ∈ k.nodes, ∀ c ∈ n.children, c < b := h (r, k) (AMap.mem_of_get? hk)

/-! ### States -/

/-- `Thinner` with what the induction needs. -/
structure Thin (K : Op → Nat → Prop) (P : D → Prop) (eg g : EGraph Op D) : Prop where
  uf : USame eg.uf g.uf
  nodes : eg.nodes = g.nodes
  memo : eg.memo = g.memo
  explain : eg.explain = g.explain
  pending : eg.pending = g.pending
  apending : eg.apending = g.apending
  clean : eg.clean = g.clean
  classes : CRel K P eg.classes g.classes
  below : NodesBelow g.classes g.uf.length
  byOp : ∀ d x, EGraph.ixMem eg.byOp d x → EGraph.ixMem g.byOp d x

theorem Thin.thinner {eg g : EGraph Op D} (h : Thin K P eg g) : Thinner eg g :=
  ⟨h.uf.find, h.nodes, h.memo, h.explain, h.pending, h.apending, h.clean, h.classes.imp (fun _ _ h => ⟨h.1, h.2.toSubclass⟩),
    fun d ids hi i him => h.byOp d i ⟨ids, hi, him⟩, h.uf.len.symm⟩

theorem Thin.find {eg g : EGraph Op D} (h : Thin K P eg g) : eg.find = g.find := funext h.uf.find

theorem Thin.canon {eg g : EGraph Op D} (h : Thin K P eg g) (n : ENode Op) : eg.canon n = g.canon n := by
  unfold EGraph.canon
  rw [h.find]

/-- Compressing paths on both sides. -/
theorem Thin.compress {eg g : EGraph Op D} (h : Thin K P eg g) {p q : UF} (h1 : UF.Same eg.uf p) (h2 : UF.Same g.uf q) :
    Thin K P { eg with uf := p } { g with uf := q } :=
  ⟨h.uf.same h1 h2, h.nodes, h.memo, h.explain, h.pending, h.apending, h.clean, h.classes, by
    show NodesBelow g.classes q.length
    rw [h2.len]; exact h.below, h.byOp⟩

/-- A number of ids, and some of them. -/
structure Mark where
  n : Nat
  J : Id → Prop

instance (n : Nat) : OfNat Mark n := ⟨⟨n, fun _ => False⟩⟩

/-- Every id has a class, and the data of the marked ones do not satisfy `P`. -/
def Cover (P : D → Prop) (b : Mark) (eg : EGraph Op D) : Prop :=
  ∀ i, i < eg.uf.length → ∃ k, eg.classes.get? (UF.root eg.uf i) = some k ∧ (i < b.n → b.J i → ¬ P k.data)

/-- States of at least `b.n` ids. -/
structure ThinC (K : Op → Nat → Prop) (P : D → Prop) (b : Mark) (eg g : EGraph Op D) : Prop where
  thin : Thin K P eg g
  cover : Cover P b eg
  ge : b.n ≤ eg.uf.length

/-- Results that are states with values. -/
def ThinR (K : Op → Nat → Prop) (P : D → Prop) (b : Mark) {α : Type} (p q : EGraph Op D × α) : Prop := ThinC K P b p.1 q.1 ∧ p.2 = q.2

theorem ThinC.mono {b b' : Mark} {eg g : EGraph Op D} (h : ThinC K P b eg g) (hb : b'.n ≤ b.n) (hJ : ∀ j, j < b'.n → b'.J j → b.J j) : ThinC K P b' eg g :=
  ⟨h.thin, fun i hi => by
    obtain ⟨k, h1, h2⟩ := h.cover i hi
    exact ⟨k, h1, fun h3 h4 => h2 (Nat.lt_of_lt_of_le h3 hb) (hJ i h3 h4)⟩, Nat.le_trans hb h.ge⟩

theorem ThinC.zero {b : Mark} {eg g : EGraph Op D} (h : ThinC K P b eg g) : ThinC K P 0 eg g :=
  h.mono (Nat.zero_le _) (fun j h => absurd h (Nat.not_lt_zero j))

/-- The marked ids and those in `G`. -/
def Mark.and (b : Mark) (G : Id → Prop) (n : Nat) : Mark := ⟨n, fun j => (j < b.n ∧ b.J j) ∨ G j⟩

theorem ThinC.start {eg g : EGraph Op D} {b : Mark} (h : ThinC K P b eg g) {G : Id → Prop}
    (hG : ∀ j k, G j → eg.classes.get? (UF.root eg.uf j) = some k → ¬ P k.data) : ThinC K P (b.and G eg.uf.length) eg g :=
  ⟨h.thin, fun i hi => by
    obtain ⟨k, h1, h2⟩ := h.cover i hi
    refine ⟨k, h1, fun _ hj => ?_⟩
    rcases hj with ⟨h3, h4⟩ | h3
    · exact h2 h3 h4
    · exact hG i k h3 h1, Nat.le_refl _⟩

theorem ThinC.back {eg g : EGraph Op D} {b : Mark} {G : Id → Prop} {n : Nat} (h : ThinC K P (b.and G n) eg g) (hn : b.n ≤ n) : ThinC K P b eg g :=
  h.mono hn (fun _ h1 h2 => .inl ⟨h1, h2⟩)

theorem ThinC.marked {eg g : EGraph Op D} {b : Mark} {G : Id → Prop} {n : Nat} (h : ThinC K P (b.and G n) eg g) {j : Id} {k : EClass Op D} (hj : G j)
    (hn : j < n) (hk : eg.classes.get? (UF.root eg.uf j) = some k) : ¬ P k.data := by
  obtain ⟨k', h1, h2⟩ := h.cover j (Nat.lt_of_lt_of_le hn h.ge)
  rw [hk] at h1
  cases h1
  exact h2 hn (.inr hj)

/-- The hooks do the same on both sides. -/
structure HookSim (K : Op → Nat → Prop) (P : D → Prop) (N M : Analysis Op D) : Prop where
  make : ∀ eg g n i, Thinner eg g → N.make eg n i = M.make g n i
  remake : ∀ eg g n i, Thinner eg g → N.remake eg n i = M.remake g n i
  merge : N.merge = M.merge
  up : ∀ a b, P (M.merge a b).1 → P a ∧ P b
  modify : ∀ b eg g i, ThinC K P b eg g → i < eg.uf.length → Sim (ThinC K P b) (N.modify eg i) (M.modify g i)

/-- Replacing a class by another keeps every id in a class. -/
theorem Cover.insert {b : Mark} {eg eg' : EGraph Op D} (h : Cover P b eg) {p : UF} (h1 : UF.Same eg.uf p) {r : Id} {k k1 : EClass Op D}
    (hk : eg.classes.get? r = some k1) (hP : P k.data → P k1.data)
    (hu : eg'.uf = p) (hc : eg'.classes = eg.classes.insert r k) : Cover P b eg' := by
  intro i hi
  rw [hu] at hi ⊢
  rw [hc, AMap.get?_insert, h1.root]
  rw [h1.len] at hi
  obtain ⟨k', hk', hk''⟩ := h i hi
  by_cases hr : r = UF.root eg.uf i
  · rw [← hr, hk] at hk'
    cases hk'
    exact ⟨k, by rw [if_pos hr], fun h1 h2 h3 => hk'' h1 h2 (hP h3)⟩
  · exact ⟨k', by rw [if_neg hr, hk'], hk''⟩

theorem Cover.same {b : Mark} {eg eg' : EGraph Op D} (h : Cover P b eg) {p : UF} (h1 : UF.Same eg.uf p)
    (hu : eg'.uf = p) (hc : eg'.classes = eg.classes) : Cover P b eg' := by
  intro i hi
  rw [hu] at hi ⊢
  rw [hc, h1.root]
  exact h i (by rw [← h1.len]; exact hi)

variable {N M : Analysis Op D}

theorem Thin.pushParents : ∀ (cs : List Id) (id : Id) {eg g : EGraph Op D}, Thin K P eg g →
    Sim (fun p q => Thin K P p q ∧ UF.Same eg.uf p.uf ∧ ∀ r k, eg.classes.get? r = some k → ∃ k', p.classes.get? r = some k' ∧ k'.data = k.data)
      (eg.pushParents cs id) (g.pushParents cs id)
  | [], _, eg, g, h => ⟨h, .refl h.uf.wf, fun _ k h => ⟨k, h, rfl⟩⟩
  | c :: cs, id, eg, g, h => by
    unfold EGraph.pushParents
    refine Sim.bind (h.uf.findMut c) ?_
    rintro ⟨p, r⟩ ⟨q, r'⟩ ⟨h1, h2, rfl, h4, hi⟩
    dsimp only at h1 h2 h4 ⊢
    subst h4
    refine Sim.bind (h.classes.unwrap _) ?_
    rintro k k0 ⟨hk1, hk2, hk⟩
    have ht : Thin K P { eg with uf := p, classes := eg.classes.insert (UF.root eg.uf c) { k with parents := k.parents ++ [id] } }
        { g with uf := q, classes := g.classes.insert (UF.root eg.uf c) { k0 with parents := k0.parents ++ [id] } } :=
      ⟨h.uf.same h1 h2, h.nodes, h.memo, h.explain, h.pending, h.apending, h.clean,
        h.classes.insert _ ⟨⟨hk.id, hk.data, by simp only [hk.parents], hk.nodes⟩, hk.kept, hk.whole⟩, by
          show NodesBelow (g.classes.insert _ _) q.length
          rw [h2.len]
          exact h.below.insert (fun n hn => h.below.get? hk2 n hn), h.byOp⟩
    refine (Thin.pushParents cs id ht).mono ?_
    rintro a b ⟨h5, h6, h7⟩
    refine ⟨h5, h1.trans h6, fun r kr hr => ?_⟩
    by_cases he : UF.root eg.uf c = r
    · subst he
      rw [hk1] at hr
      cases hr
      exact h7 _ { k with parents := k.parents ++ [id] } (by
        show (eg.classes.insert _ _).get? _ = _
        rw [AMap.get?_insert, if_pos rfl])
    · exact h7 r kr (by
        show (eg.classes.insert _ _).get? r = _
        rw [AMap.get?_insert, if_neg he]
        exact hr)

theorem mapChildrenM_find_lt {eg : EGraph Op D} (hw : UF.WF eg.uf) {n m : ENode Op} (h : eg.canon n = .ok m) :
    ∀ c ∈ m.children, c < eg.uf.length := by
  unfold EGraph.canon ENode.mapChildrenM at h
  obtain ⟨cs, h1, h2⟩ := bind_eq_ok.1 h
  cases h2
  intro c hc
  rw [mapM_eq_ok] at h1
  obtain ⟨i, _, hi⟩ := forall₂_mem_left (forall₂_flip h1) hc
  exact (UF.find_sound hi).lt_root

theorem Thin.makeNewEClass (hN : HookSim K P N M) {m : Mark} {eg g : EGraph Op D} (h : Thin K P eg g) (hcov : Cover P m eg) (hge : m.n ≤ eg.uf.length) (enode original : ENode Op)
    (hc : ∀ c ∈ enode.children, c < g.uf.length) :
    Sim (fun p q => ThinR K P m p q ∧ p.2 < p.1.uf.length) (EGraph.makeNewEClass N eg enode original) (EGraph.makeNewEClass M g enode original) := by
  unfold EGraph.makeNewEClass UF.makeSet
  dsimp only
  have ht : Thin K P { eg with uf := eg.uf ++ [eg.uf.length] } { g with uf := g.uf ++ [g.uf.length] } :=
    ⟨h.uf.makeSet, h.nodes, h.memo, h.explain, h.pending, h.apending, h.clean, h.classes, h.below.mono (by simp), h.byOp⟩
  rw [hN.make _ _ original eg.uf.length ht.thinner, ← h.uf.len]
  refine Sim.same fun d => ?_
  have ht1 : Thin K P { eg with uf := eg.uf ++ [g.uf.length], nodes := eg.nodes ++ [original] }
      { g with uf := g.uf ++ [g.uf.length], nodes := g.nodes ++ [original] } := by
    have hu := h.uf.makeSet
    rw [← h.uf.len] at hu
    exact ⟨hu, by simp only [h.nodes], h.memo, h.explain, h.pending, h.apending, h.clean, h.classes, h.below.mono (by simp), h.byOp⟩
  refine Sim.bind (ht1.pushParents enode.children g.uf.length) ?_
  rintro a b ⟨h1, h2, h2'⟩
  have hal : a.uf.length = g.uf.length + 1 := by
    have e2 := h2.len
    have e3 := h.uf.len
    simp at e2
    omega
  have hb : g.uf.length ≤ b.uf.length := by
    have e1 := h1.uf.len
    have e2 := h2.len
    have e3 := h.uf.len
    simp at e2
    omega
  rw [h1.memo]
  split
  · exact rfl
  · refine Sim.ok ⟨⟨⟨⟨h1.uf, h1.nodes, by simp only [h1.memo], h1.explain, by simp only [h1.pending], h1.apending, h1.clean,
      h1.classes.insert _ ⟨⟨rfl, rfl, rfl, fun n hn => hn⟩, fun n hn _ => hn, fun _ n hn => hn⟩, h1.below.insert ?_, h1.byOp⟩, ?_, ?_⟩, rfl⟩, ?_⟩
    · intro n hn c hcn
      rw [List.mem_singleton.1 hn] at hcn
      exact Nat.lt_of_lt_of_le (hc c hcn) hb
    · intro i hi
      show ∃ k, (a.classes.insert _ _).get? (UF.root a.uf i) = some k ∧ _
      rw [AMap.get?_insert, h2.root]
      have hi' : i < eg.uf.length ∨ i = eg.uf.length := by
        have : i < a.uf.length := hi
        have := h.uf.len
        omega
      rcases hi' with hi' | rfl
      · obtain ⟨k, g1, g2⟩ := hcov i hi'
        obtain ⟨k', g3, g4⟩ := h2' _ k g1
        have hroot : UF.root (eg.uf ++ [g.uf.length]) i = UF.root eg.uf i := by rw [h.uf.len, UF.root_makeSet h.uf.wf hi']
        have hne : g.uf.length ≠ UF.root eg.uf i := by
          have := UF.root_lt h.uf.wf hi'
          have := h.uf.len
          omega
        refine ⟨k', ?_, ?_⟩
        · show (if g.uf.length = UF.root (eg.uf ++ [g.uf.length]) i then _ else _) = _
          rw [hroot, if_neg hne]
          exact g3
        · rw [g4]; exact g2
      · refine ⟨_, if_pos ?_, fun hlt => ?_⟩
        · show g.uf.length = UF.root (eg.uf ++ [g.uf.length]) eg.uf.length
          rw [h.uf.len, UF.root_makeSet_new h.uf.wf]
        · omega
    · show m.n ≤ a.uf.length
      have := h.uf.len
      omega
    · show g.uf.length < a.uf.length
      omega

theorem Thin.addUncanonical (hN : HookSim K P N M) {b : Mark} {eg g : EGraph Op D} (hC : ThinC K P b eg g) (n : ENode Op) :
    Sim (fun p q => ThinR K P b p q) (EGraph.addUncanonical N eg n) (EGraph.addUncanonical M g n) := by
  have h := hC.thin
  unfold EGraph.addUncanonical
  rw [h.canon, h.memo, h.find]
  cases hc : g.canon n with
  | error e => exact rfl
  | ok enode =>
    simp only [ok_bind]
    cases hm : g.memo.get? enode with
    | some existing =>
      dsimp only
      cases hf : g.find existing with
      | error e => exact rfl
      | ok id =>
        simp only [ok_bind]
        rw [h.explain]
        cases hx : g.explain with
        | none => exact Sim.ok ⟨hC, rfl⟩
        | some x =>
          dsimp only
          cases hu : x.uncanonMemo.get? n with
          | some i => exact Sim.ok ⟨hC, rfl⟩
          | none =>
            dsimp only [UF.makeSet]
            rw [← h.uf.len]
            refine Sim.same fun x1 => ?_
            have hr := UF.find_sound hf
            have hlt : id < g.uf.length := hr.lt_root
            have hms := h.uf.makeSet
            rw [← h.uf.len] at hms
            have hroot : UF.root g.uf id = id := (UF.root_eq_self_iff h.uf.wf' hlt).2 hr.fixed
            have hl1 : id < (eg.uf ++ [g.uf.length]).length := by simp [h.uf.len] at hlt ⊢; omega
            have hl2 : g.uf.length < (eg.uf ++ [g.uf.length]).length := by simp [h.uf.len]
            have hr1 : UF.root (eg.uf ++ [g.uf.length]) id = id := by
              rw [← hms.root, UF.root_makeSet h.uf.wf' hlt, hroot]
            have hr2 : UF.root (eg.uf ++ [g.uf.length]) g.uf.length = g.uf.length := by
              rw [← hms.root, UF.root_makeSet_new h.uf.wf']
            have hne : id ≠ g.uf.length := by omega
            obtain ⟨_, hnew⟩ := UF.union_spec hms.wf hl1 hl2 hr1 hr2 hne
            have hul : UF.union (eg.uf ++ [g.uf.length]) id g.uf.length = .ok ((eg.uf ++ [g.uf.length]).set g.uf.length id) := by
              unfold UF.union
              rw [if_pos hl2]
            obtain ⟨q, hq, h1, h2⟩ := (hms.link hl1 hl2 hr1 hr2 hne).of_ok hul
            rw [hul, hq]
            simp only [ok_bind]
            refine Sim.same fun x2 => ?_
            refine Sim.ok ⟨⟨⟨h1, by simp only [h.nodes], rfl, rfl, h.pending, h.apending, h.clean, h.classes, ?_, h.byOp⟩, ?_, ?_⟩, rfl⟩
            · refine h.below.mono ?_
              show _ ≤ q.length
              have e := h1.len
              rw [h2, List.length_append, List.length_singleton] at e
              have := h.uf.len
              omega
            · intro i hi
              have hi : i < (eg.uf ++ [g.uf.length]).length := by rw [← h2]; exact hi
              show ∃ k, eg.classes.get? (UF.root ((eg.uf ++ [g.uf.length]).set g.uf.length id) i) = some k ∧ _
              rw [hnew i hi]
              have hle := h.uf.len
              have hge := hC.ge
              by_cases hi' : i < eg.uf.length
              · have hnr : ¬ UF.root (eg.uf ++ [g.uf.length]) i = g.uf.length := by
                  rw [h.uf.len, UF.root_makeSet h.uf.wf hi']
                  have := UF.root_lt h.uf.wf hi'
                  omega
                rw [if_neg hnr, h.uf.len, UF.root_makeSet h.uf.wf hi']
                exact hC.cover i hi'
              · have hig : i = g.uf.length := by
                  simp at hi
                  omega
                rw [hig, if_pos hr2]
                obtain ⟨k, hk, _⟩ := hC.cover id (by rw [← h.uf.len]; exact hlt)
                rw [← h.uf.root, hroot] at hk
                exact ⟨k, hk, fun hlt => by omega⟩
            · have := hC.ge
              show b.n ≤ ((eg.uf ++ [g.uf.length]).set g.uf.length id).length
              simp
              omega
    | none =>
      dsimp only
      refine Sim.bind (h.makeNewEClass hN hC.cover hC.ge enode n (mapChildrenM_find_lt h.uf.wf' hc)) ?_
      rintro ⟨a, i⟩ ⟨b', j⟩ ⟨⟨h1, h2⟩, h3⟩
      dsimp only at h1 h2 h3 ⊢
      subst h2
      have h1' := h1.thin
      rw [h1'.explain]
      refine Sim.same fun x => ?_
      refine Sim.bind (hN.modify b _ _ i ⟨⟨h1'.uf, h1'.nodes, h1'.memo, rfl, h1'.pending, h1'.apending, h1'.clean, h1'.classes, h1'.below, h1'.byOp⟩,
        h1.cover, h1.ge⟩ h3) ?_
      intro a' b' h3
      have h3' := h3.thin
      exact Sim.ok ⟨⟨⟨h3'.uf, h3'.nodes, h3'.memo, h3'.explain, h3'.pending, h3'.apending, rfl, h3'.classes, h3'.below, h3'.byOp⟩, h3.cover, h3.ge⟩, rfl⟩

theorem Thin.add (hN : HookSim K P N M) {b : Mark} {eg g : EGraph Op D} (h : ThinC K P b eg g) (n : ENode Op) :
    Sim (fun p q => ThinR K P b p q ∧ p.2 < p.1.uf.length) (EGraph.add N eg n) (EGraph.add M g n) := by
  unfold EGraph.add
  refine Sim.bind (Thin.addUncanonical hN h n) ?_
  rintro ⟨a, i⟩ ⟨b', j⟩ ⟨h1, h2⟩
  dsimp only at h1 h2 ⊢
  subst h2
  rw [h1.thin.find]
  cases hf : b'.find i with
  | error e => rfl
  | ok r =>
    refine Sim.ok ⟨⟨h1, rfl⟩, ?_⟩
    show r < a.uf.length
    rw [← h1.thin.uf.len]
    exact (UF.find_sound hf).lt_root

theorem Thin.performUnion (hN : HookSim K P N M) {b : Mark} {eg g : EGraph Op D} (hC : ThinC K P b eg g) (e1 e2 : Id) (rule : Option Justification) :
    Sim (ThinR K P b) (EGraph.performUnion N eg e1 e2 rule) (EGraph.performUnion M g e1 e2 rule) := by
  have h := hC.thin
  unfold EGraph.performUnion
  dsimp only
  refine Sim.bind (h.uf.findMut e1) ?_
  rintro ⟨p, id1⟩ ⟨q, id1'⟩ ⟨a1, a2, a3, a4, a5⟩
  dsimp only at a1 a2 a3 a4 a5 ⊢
  rw [a4, ← a3]
  have hu1 := h.uf.same a1 a2
  refine Sim.bind (hu1.findMut e2) ?_
  rintro ⟨p', id2⟩ ⟨q', id2'⟩ ⟨b1, b2, b3, b4, b5⟩
  dsimp only at b1 b2 b3 b4 b5 ⊢
  rw [b4, ← b3]
  have hu := hu1.same b1 b2
  have hl1 : id1 < p'.length := by
    rw [b1.len, a1.len, a3]; exact UF.root_lt h.uf.wf a5
  have hl2 : id2 < p'.length := by
    rw [b1.len, b3]; exact UF.root_lt a1.wf b5
  have hr1 : UF.root p' id1 = id1 := by
    rw [b1.root, a1.root, a3]; exact UF.root_root h.uf.wf a5
  have hr2 : UF.root p' id2 = id2 := by
    rw [b1.root, b3]; exact UF.root_root a1.wf b5
  have hlen : q'.length = g.uf.length := by rw [b2.len, a2.len]
  have hlen' : p'.length = eg.uf.length := by rw [b1.len, a1.len]
  have hsame : UF.Same eg.uf p' := a1.trans b1
  have hge : b.n ≤ p'.length := by rw [hlen']; exact hC.ge
  have hbelow : NodesBelow g.classes q'.length := by rw [hlen]; exact h.below
  by_cases hid : id1 = id2
  · rw [if_pos hid, if_pos hid]
    rw [h.explain]
    split
    · refine Sim.same fun x => ?_
      exact Sim.ok ⟨⟨⟨hu, h.nodes, h.memo, rfl, h.pending, h.apending, rfl, h.classes, hbelow, h.byOp⟩, hC.cover.same hsame rfl rfl, hge⟩, rfl⟩
    · exact Sim.ok ⟨⟨⟨hu, h.nodes, h.memo, rfl, h.pending, h.apending, rfl, h.classes, hbelow, h.byOp⟩, hC.cover.same hsame rfl rfl, hge⟩, rfl⟩
  · rw [if_neg hid, if_neg hid]
    refine Sim.bind (h.classes.unwrap id1) ?_
    rintro c1 d1 ⟨_, _, hc1⟩
    refine Sim.bind (h.classes.unwrap id2) ?_
    rintro c2 d2 ⟨_, _, hc2⟩
    rw [hc1.parents, hc2.parents, h.explain]
    refine Sim.same fun x => ?_
    have key : ∀ i1 i2 : Id, i1 < p'.length → i2 < p'.length → UF.root p' i1 = i1 → UF.root p' i2 = i2 → i1 ≠ i2 →
        Sim (ThinR K P b) (do
          let uf ← UF.union p' i1 i2
          let class2 ← unwrap (eg.classes.get? i2)
          let class1 ← unwrap ((eg.classes.erase i2).get? i1)
          if class1.id ≠ i1 then .error .panic
          else do
            let eg ← N.modify (EGraph.linkClasses N { eg with clean := false, uf := p', explain := x } uf i1 i2 class1 class2) i1
            return (eg, true)) (do
          let uf ← UF.union q' i1 i2
          let class2 ← unwrap (g.classes.get? i2)
          let class1 ← unwrap ((g.classes.erase i2).get? i1)
          if class1.id ≠ i1 then .error .panic
          else do
            let eg ← M.modify (EGraph.linkClasses M { g with clean := false, uf := q', explain := x } uf i1 i2 class1 class2) i1
            return (eg, true)) := by
      intro i1 i2 l1 l2 r1 r2 hne
      have hul : UF.union p' i1 i2 = .ok (p'.set i2 i1) := by
        unfold UF.union
        rw [if_pos l2]
      obtain ⟨uf', hq, hu', hul'⟩ := (hu.link l1 l2 r1 r2 hne).of_ok hul
      obtain ⟨_, hnew⟩ := UF.union_spec hu.wf l1 l2 r1 r2 hne
      rw [hul, hq]
      simp only [ok_bind]
      refine Sim.bind (h.classes.unwrap i2) ?_
      rintro k2 m2 ⟨hk2', hm2, hk2⟩
      refine Sim.bind ((h.classes.erase i2).unwrap i1) ?_
      rintro k1 m1 ⟨hk1', hm1, hk1⟩
      rw [hk1.id]
      split
      · exact rfl
      · refine Sim.bind (hN.modify b _ _ i1 ⟨?_, ?_, ?_⟩ ?_) (fun a b hab => Sim.ok ⟨hab, rfl⟩)
        · have hbb : NodesBelow g.classes uf'.length := by
            rw [hu'.len, hul', ← hu.len]; exact hbelow
          refine ⟨hu', h.nodes, h.memo, rfl, ?_, ?_, rfl, ?_, ?_, h.byOp⟩
          · simp only [EGraph.linkClasses, hk2.parents, h.pending]
          · simp only [EGraph.linkClasses, hk2.parents, hk1.parents, h.apending, hN.merge, hk1.data, hk2.data]
          · refine (h.classes.erase i2).insert i1 ⟨⟨hk1.id, by simp only [hN.merge, hk1.data, hk2.data],
              by simp only [hk1.parents, hk2.parents], ?_⟩, ?_, ?_⟩
            · intro n hn
              rcases mem_concatVecs.1 hn with hn | hn
              · exact mem_concatVecs.2 (.inl (hk1.nodes n hn))
              · exact mem_concatVecs.2 (.inr (hk2.nodes n hn))
            · intro n hn hK
              rcases mem_concatVecs.1 hn with hn | hn
              · exact mem_concatVecs.2 (.inl (hk1.kept n hn hK))
              · exact mem_concatVecs.2 (.inr (hk2.kept n hn hK))
            · intro hP n hn
              obtain ⟨q1, q2⟩ := hN.up _ _ hP
              rcases mem_concatVecs.1 hn with hn | hn
              · exact mem_concatVecs.2 (.inl (hk1.whole q1 n hn))
              · exact mem_concatVecs.2 (.inr (hk2.whole q2 n hn))
          · refine (hbb.erase i2).insert ?_
            intro n hn
            rcases mem_concatVecs.1 hn with hn | hn
            · exact (hbb.erase i2).get? hm1 n hn
            · exact hbb.get? hm2 n hn
        · intro i hi
          have hi : i < p'.length := by rw [← hul']; exact hi
          show ∃ k, ((eg.classes.erase i2).insert i1 _).get? (UF.root (p'.set i2 i1) i) = some k ∧ _
          rw [hnew i hi, AMap.get?_insert, AMap.get?_erase]
          obtain ⟨k, g1, g2⟩ := hC.cover i (by rw [← hlen']; exact hi)
          by_cases hri : UF.root p' i = i2
          · rw [if_pos hri, if_pos rfl]
            rw [← hsame.root, hri, hk2'] at g1
            cases g1
            exact ⟨_, rfl, fun a b hP => g2 a b (hN.up _ _ (by rw [← hN.merge]; exact hP)).2⟩
          · rw [if_neg hri]
            by_cases h1i : i1 = UF.root p' i
            · rw [if_pos h1i]
              rw [AMap.get?_erase, if_neg (Ne.symm hne)] at hk1'
              rw [← hsame.root, ← h1i, hk1'] at g1
              cases g1
              exact ⟨_, rfl, fun a b hP => g2 a b (hN.up _ _ (by rw [← hN.merge]; exact hP)).1⟩
            · rw [if_neg h1i, if_neg (Ne.symm hri), hsame.root]
              exact ⟨k, g1, g2⟩
        · show b.n ≤ (p'.set i2 i1).length
          rw [List.length_set]; exact hge
        · show i1 < (p'.set i2 i1).length
          rw [List.length_set]; exact l1
    by_cases hp : d1.parents.length < d2.parents.length
    · simp only [if_pos hp]
      exact key id2 id1 hl2 hl1 hr2 hr1 (Ne.symm hid)
    · simp only [if_neg hp]
      exact key id1 id2 hl1 hl2 hr1 hr2 hid

theorem Thin.unionTrusted (hN : HookSim K P N M) {n : Mark} {eg g : EGraph Op D} (h : ThinC K P n eg g) (a b : Id) (reason : Symbol) :
    Sim (ThinR K P n) (EGraph.unionTrusted N eg a b reason) (EGraph.unionTrusted M g a b reason) := Thin.performUnion hN h _ _ _

theorem Thin.union (hN : HookSim K P N M) {n : Mark} {eg g : EGraph Op D} (h : ThinC K P n eg g) (a b : Id) (caller : Symbol) :
    Sim (ThinR K P n) (EGraph.union N eg a b caller) (EGraph.union M g a b caller) := by
  unfold EGraph.union
  rw [h.thin.explain]
  split
  · exact Thin.unionTrusted hN h a b caller
  · exact Thin.performUnion hN h _ _ _

theorem Thin.setAnalysisData (hN : HookSim K P N M) {b : Mark} {eg g : EGraph Op D} (hC : ThinC K P b eg g) (i : Id) (d : D) (hd : ¬ P d) :
    Sim (ThinC K P b) (EGraph.setAnalysisData N eg i d) (EGraph.setAnalysisData M g i d) := by
  have h := hC.thin
  unfold EGraph.setAnalysisData
  refine Sim.bind (h.uf.findMut i) ?_
  rintro ⟨p, r⟩ ⟨q, r'⟩ ⟨h1, h2, rfl, h4, hi⟩
  dsimp only at h1 h2 h4 ⊢
  subst h4
  refine Sim.bind (h.classes.unwrap _) ?_
  rintro k k0 ⟨hk1, hk2, hk⟩
  refine hN.modify b _ _ _ ⟨⟨h.uf.same h1 h2, h.nodes, h.memo, h.explain, h.pending, by simp only [h.apending, hk.parents], h.clean,
    h.classes.insert _ ⟨⟨hk.id, rfl, hk.parents, hk.nodes⟩, hk.kept, fun hP => absurd hP hd⟩, ?_, h.byOp⟩,
    hC.cover.insert h1 hk1 (fun hP => absurd hP hd) rfl rfl, ?_⟩ ?_
  · show NodesBelow (g.classes.insert _ _) q.length
    rw [h2.len]
    exact h.below.insert (fun n hn => h.below.get? hk2 n hn)
  · show b.n ≤ p.length
    rw [h1.len]; exact hC.ge
  · show _ < p.length
    rw [h1.len]
    exact UF.root_lt h.uf.wf hi

/-! ### Rebuilding -/

theorem Thin.pendingStep (hN : HookSim K P N M) {b : Mark} {eg g : EGraph Op D} (hC : ThinC K P b eg g) (cls : Id) :
    Sim (ThinR K P b) (EGraph.pendingStep N eg cls) (EGraph.pendingStep M g cls) := by
  have h := hC.thin
  unfold EGraph.pendingStep
  rw [show getIdx eg.nodes cls = getIdx g.nodes cls by rw [h.nodes]]
  refine Sim.same fun node => ?_
  refine Sim.bind (USame.findMutList node.children h.uf) ?_
  rintro ⟨p, cs⟩ ⟨q, cs'⟩ ⟨h1, h2, h3, _⟩
  dsimp only at h1 h2 h3 ⊢
  subst h3
  rw [h.memo]
  have ht : ThinC K P b { eg with uf := p, memo := g.memo.insert { node with children := cs } cls }
      { g with uf := q, memo := g.memo.insert { node with children := cs } cls } :=
    ⟨⟨h.uf.same h1 h2, h.nodes, rfl, h.explain, h.pending, h.apending, h.clean, h.classes, by
      show NodesBelow g.classes q.length
      rw [h2.len]; exact h.below, h.byOp⟩, hC.cover.same h1 rfl rfl, by
      show b.n ≤ p.length
      rw [h1.len]; exact hC.ge⟩
  cases g.memo.get? { node with children := cs } with
  | none => exact Sim.ok ⟨ht, rfl⟩
  | some m => exact Thin.performUnion hN ht _ _ _

theorem Thin.pendingLoop (hN : HookSim K P N M) {b : Mark} : ∀ (f k : Nat) {eg g : EGraph Op D}, ThinC K P b eg g →
    Sim (ThinR K P b) (EGraph.pendingLoop N f eg k) (EGraph.pendingLoop M f g k)
  | 0, _, _, _, _ => rfl
  | f + 1, k, eg, g, hC => by
    have h := hC.thin
    unfold EGraph.pendingLoop
    rw [h.pending]
    cases hp : g.pending with
    | nil => exact Sim.ok ⟨hC, rfl⟩
    | cons c rest =>
      dsimp only
      refine Sim.bind (Thin.pendingStep hN (⟨⟨h.uf, h.nodes, h.memo, h.explain, rfl, h.apending, h.clean, h.classes, h.below, h.byOp⟩, hC.cover, hC.ge⟩ :
        ThinC K P b { eg with pending := rest } { g with pending := rest }) c) ?_
      rintro ⟨a, x⟩ ⟨b', y⟩ ⟨h1, h2⟩
      dsimp only at h1 h2 ⊢
      subst h2
      exact Thin.pendingLoop hN f _ h1

theorem Thin.analysisStep (hN : HookSim K P N M) {b : Mark} {eg g : EGraph Op D} (hC : ThinC K P b eg g) (c : Id) :
    Sim (ThinC K P b) (EGraph.analysisStep N eg c) (EGraph.analysisStep M g c) := by
  have h := hC.thin
  unfold EGraph.analysisStep
  rw [show getIdx eg.nodes c = getIdx g.nodes c by rw [h.nodes]]
  refine Sim.same fun node => ?_
  refine Sim.bind (h.uf.findMut c) ?_
  rintro ⟨p, r⟩ ⟨q, r'⟩ ⟨h1, h2, rfl, h4, hi⟩
  dsimp only at h1 h2 h4 ⊢
  subst h4
  have ht := h.compress h1 h2
  rw [hN.remake _ _ node _ ht.thinner]
  refine Sim.same fun d => ?_
  refine Sim.bind (ht.classes.unwrap _) ?_
  rintro k k0 ⟨hk1, hk2, hk⟩
  rw [hN.merge, hk.data, hk.parents]
  have hb : NodesBelow (g.classes.insert (UF.root eg.uf c) { k0 with data := (M.merge k0.data d).1 }) q.length := by
    rw [h2.len]
    exact h.below.insert (fun n hn => h.below.get? hk2 n hn)
  have hc : CRel K P (eg.classes.insert (UF.root eg.uf c) { k with data := (M.merge k0.data d).1, parents := k0.parents })
      (g.classes.insert (UF.root eg.uf c) { k0 with data := (M.merge k0.data d).1 }) :=
    h.classes.insert _ ⟨⟨hk.id, rfl, rfl, hk.nodes⟩, hk.kept, fun hP => hk.whole (hN.up _ _ hP).1⟩
  have hge : b.n ≤ p.length := by rw [h1.len]; exact hC.ge
  split
  · refine hN.modify b _ _ _ ⟨⟨ht.uf, ht.nodes, ht.memo, ht.explain, ht.pending, by simp only [h.apending], ht.clean, hc, hb, h.byOp⟩,
      hC.cover.insert h1 hk1 (fun hP => by rw [hk.data]; exact (hN.up _ _ hP).1) rfl rfl, hge⟩ ?_
    show _ < p.length
    rw [h1.len]
    exact UF.root_lt h.uf.wf hi
  · exact Sim.ok ⟨⟨ht.uf, ht.nodes, ht.memo, ht.explain, ht.pending, ht.apending, ht.clean, hc, hb, h.byOp⟩, hC.cover.insert h1 hk1 (fun hP => by rw [hk.data]; exact (hN.up _ _ hP).1) rfl rfl, hge⟩

theorem Thin.analysisLoop (hN : HookSim K P N M) {b : Mark} : ∀ (f : Nat) {eg g : EGraph Op D}, ThinC K P b eg g →
    Sim (ThinC K P b) (EGraph.analysisLoop N f eg) (EGraph.analysisLoop M f g)
  | 0, _, _, _ => rfl
  | f + 1, eg, g, hC => by
    have h := hC.thin
    unfold EGraph.analysisLoop
    rw [h.apending]
    cases hp : g.apending.pop with
    | none => exact Sim.ok hC
    | some cq =>
      obtain ⟨c, q⟩ := cq
      dsimp only
      refine Sim.bind (Thin.analysisStep hN (⟨⟨h.uf, h.nodes, h.memo, h.explain, h.pending, rfl, h.clean, h.classes, h.below, h.byOp⟩, hC.cover, hC.ge⟩ :
        ThinC K P b { eg with apending := q } { g with apending := q }) c) ?_
      intro a b' h1
      exact Thin.analysisLoop hN f h1

theorem Thin.processUnions (hN : HookSim K P N M) {b : Mark} : ∀ (f k : Nat) {eg g : EGraph Op D}, ThinC K P b eg g →
    Sim (ThinR K P b) (EGraph.processUnions N f eg k) (EGraph.processUnions M f g k)
  | 0, _, _, _, _ => rfl
  | f + 1, k, eg, g, h => by
    unfold EGraph.processUnions
    rw [h.thin.pending, h.thin.apending]
    split
    · exact Sim.ok ⟨h, rfl⟩
    · refine Sim.bind (Thin.pendingLoop hN f k h) ?_
      rintro ⟨a, x⟩ ⟨b', y⟩ ⟨h1, h2⟩
      dsimp only at h1 h2 ⊢
      subst h2
      refine Sim.bind (Thin.analysisLoop hN f h1) ?_
      intro a b' h3
      exact Thin.processUnions hN f x h3

theorem rebuildClassesGo_sim : ∀ {m m0 : AMap Id (EClass Op D)} (_ : CRel K P m m0) {uf uf0 : UF} (_ : USame uf uf0) (_ : NodesBelow m0 uf0.length)
    (byOp byOp0 : AMap (Lang.Disc Op) (List Id)) (t t0 : Nat),
    Sim (fun p q => UF.Same uf p.1 ∧ UF.Same uf0 q.1 ∧ CRel K P p.2.2.1 q.2.2.1 ∧ NodesBelow q.2.2.1 uf0.length ∧
        ∀ r k, m.get? r = some k → ∃ k', AMap.get? p.2.2.1 r = some k' ∧ k'.data = k.data)
      (EGraph.rebuildClassesGo uf byOp m t) (EGraph.rebuildClassesGo uf0 byOp0 m0 t0) := by
  intro m m0 hm
  induction hm with
  | nil =>
    intro uf uf0 hu hb byOp byOp0 t t0
    exact Sim.ok ⟨.refl hu.wf, .refl hu.wf', .nil, hb, fun _ k h => ⟨k, h, rfl⟩⟩
  | @cons p q l l' hpq hl ih =>
    intro uf uf0 hu hb byOp byOp0 t t0
    obtain ⟨a, k⟩ := p
    obtain ⟨b, k0⟩ := q
    obtain ⟨rfl, hk⟩ := hpq
    have hb0 : ∀ n ∈ k0.nodes, ∀ c ∈ n.children, c < uf0.length := hb (a, k0) (.head _)
    have hb1 : ∀ n ∈ k.nodes, ∀ c ∈ n.children, c < uf.length := by
      intro n hn c hc
      rw [← hu.len]
      exact hb0 n (hk.nodes n hn) c hc
    obtain ⟨uf1, h1, h2⟩ := EGraph.canonNodes_ok k.nodes uf hu.wf hb1
    obtain ⟨uf2, h3, h4⟩ := EGraph.canonNodes_ok k0.nodes uf0 hu.wf' hb0
    unfold EGraph.rebuildClassesGo
    rw [h1, h3]
    simp only [ok_bind]
    refine Sim.bind (ih (hu.same h2 h4) (by rw [h4.len]; exact fun p hp => hb p (.tail _ hp)) _ _ _ _) ?_
    rintro ⟨x1, x2, x3, x4⟩ ⟨y1, y2, y3, y4⟩ ⟨g1, g2, g3, g4, g5⟩
    dsimp only at g1 g2 g3 g4 g5 ⊢
    rw [h4.len] at g4
    have hmem : ∀ (x : UF) (ns : List (ENode Op)) (n : ENode Op),
        n ∈ EGraph.dedupAdj (EGraph.sortBy Lang.le (ns.map fun n => n.mapChildren (UF.root x))) ↔ ∃ m ∈ ns, n = m.mapChildren (UF.root x) :=
      fun x ns n => EGraph.mem_tidy
    refine Sim.ok ⟨h2.trans g1, h4.trans g2, .cons ⟨rfl, ⟨hk.id, hk.data, hk.parents, ?_⟩, ?_, ?_⟩ g3, ?_, ?_⟩
    · intro n hn
      obtain ⟨m, hm, rfl⟩ := (hmem uf k.nodes n).1 hn
      refine (hmem uf0 k0.nodes _).2 ⟨m, hk.nodes m hm, ?_⟩
      have : UF.root uf = UF.root uf0 := funext fun i => (hu.root i).symm
      rw [this]
    · intro n hn hK
      obtain ⟨m, hm, rfl⟩ := (hmem uf0 k0.nodes n).1 hn
      refine (hmem uf k.nodes _).2 ⟨m, hk.kept m hm ?_, ?_⟩
      · simpa [ENode.mapChildren] using hK
      · have : UF.root uf = UF.root uf0 := funext fun i => (hu.root i).symm
        rw [this]
    · intro hP n hn
      obtain ⟨m, hm, rfl⟩ := (hmem uf0 k0.nodes n).1 hn
      refine (hmem uf k.nodes _).2 ⟨m, hk.whole hP m hm, ?_⟩
      have : UF.root uf = UF.root uf0 := funext fun i => (hu.root i).symm
      rw [this]
    · intro p hp
      rcases List.mem_cons.1 hp with rfl | hp
      · intro n hn c hc
        obtain ⟨m, hm, rfl⟩ := (hmem uf0 k0.nodes n).1 hn
        obtain ⟨d, hd, rfl⟩ := List.mem_map.1 hc
        exact UF.root_lt hu.wf' (hb0 m hm d hd)
      · exact g4 p hp
    · intro r kr hr
      simp only [AMap.get?] at hr ⊢
      by_cases ha : a = r
      · rw [if_pos ha] at hr ⊢
        cases hr
        exact ⟨_, rfl, rfl⟩
      · rw [if_neg ha] at hr ⊢
        exact g5 r kr hr

theorem Thin.rebuildClasses {b : Mark} {eg g : EGraph Op D} (hC : ThinC K P b eg g) :
    Sim (fun p q => ThinC K P b p.1 q.1) (EGraph.rebuildClasses eg) (EGraph.rebuildClasses g) := by
  have h := hC.thin
  have hnil : ∀ (m : AMap (Lang.Disc Op) (List Id)) d l, AMap.get? (m.map fun kv => (kv.1, ([] : List Id))) d = some l → l = [] := by
    intro m d l hl
    rw [EGraph.AMap.get?_mapVal m (fun _ => ([] : List Id))] at hl
    cases hm : AMap.get? m d with
    | none => rw [hm] at hl; cases hl
    | some x => rw [hm] at hl; cases hl; rfl
  have hb1 : ∀ kc ∈ eg.classes, ∀ n ∈ kc.2.nodes, ∀ c ∈ n.children, c < eg.uf.length := by
    intro kc hkc n hn c hc
    obtain ⟨kf, h1, h2, h3⟩ := forall₂_mem_left h.classes hkc
    rw [← h.uf.len]
    exact h.below kf h1 n (h3.nodes n hn) c hc
  obtain ⟨u1, m1, t1, e1, -, -, i1⟩ := EGraph.rebuildClassesGo_ok eg.classes eg.uf (eg.byOp.map fun kv => (kv.1, [])) 0 h.uf.wf
    (fun d l hl => by rw [hnil _ d l hl]; exact List.nodup_nil) hb1
  obtain ⟨u2, m2, t2, e2, -, -, i2⟩ := EGraph.rebuildClassesGo_ok g.classes g.uf (g.byOp.map fun kv => (kv.1, [])) 0 h.uf.wf'
    (fun d l hl => by rw [hnil _ d l hl]; exact List.nodup_nil) h.below
  have hs := rebuildClassesGo_sim h.classes h.uf h.below (eg.byOp.map fun kv => (kv.1, [])) (g.byOp.map fun kv => (kv.1, [])) 0 0
  unfold EGraph.rebuildClasses
  dsimp only
  rw [e1, e2] at hs ⊢
  obtain ⟨g1, g2, g3, g4, g5⟩ := hs
  dsimp only at g1 g2 g3 g4 g5
  refine Sim.ok ⟨⟨h.uf.same g1 g2, h.nodes, h.memo, h.explain, h.pending, h.apending, h.clean, g3, ?_, ?_⟩, ?_, ?_⟩
  · show NodesBelow _ u2.length
    rw [g2.len]
    exact g4
  · intro d x hx
    refine (i2 d x).2 ?_
    rcases (i1 d x).1 hx with ⟨l, hl, hx⟩ | ⟨kc, hkc, rfl, n, hn, hd⟩
    · rw [hnil _ d l hl] at hx; cases hx
    · obtain ⟨kf, h1, h2, h3⟩ := forall₂_mem_left h.classes hkc
      exact .inr ⟨kf, h1, h3.id, n, h3.nodes n hn, hd⟩
  · intro i hi
    have hi : i < eg.uf.length := by rw [← g1.len]; exact hi
    show ∃ k, AMap.get? _ (UF.root u1 i) = some k ∧ _
    rw [g1.root]
    obtain ⟨k, q1, q2⟩ := hC.cover i hi
    obtain ⟨k', q3, q4⟩ := g5 _ k q1
    exact ⟨k', q3, by rw [q4]; exact q2⟩
  · show b.n ≤ u1.length
    rw [g1.len]; exact hC.ge

theorem Thin.rebuild (hN : HookSim K P N M) {b : Mark} {eg g : EGraph Op D} (h : ThinC K P b eg g) (fuel : Nat) :
    Sim (ThinR K P b) (EGraph.rebuild N fuel eg) (EGraph.rebuild M fuel g) := by
  unfold EGraph.rebuild
  refine Sim.bind (Thin.processUnions hN fuel 0 h) ?_
  rintro ⟨a, x⟩ ⟨b', y⟩ ⟨h1, h2⟩
  dsimp only at h1 h2 ⊢
  subst h2
  refine Sim.bind (Thin.rebuildClasses h1) ?_
  rintro ⟨a, _⟩ ⟨b', _⟩ h3
  dsimp only at h3 ⊢
  have h3' := h3.thin
  exact Sim.ok ⟨⟨⟨h3'.uf, h3'.nodes, h3'.memo, h3'.explain, h3'.pending, h3'.apending, rfl, h3'.classes, h3'.below, h3'.byOp⟩, h3.cover, h3.ge⟩, rfl⟩

/-! ### Pruning -/

/-- Pruning an existing class succeeds and makes a thinner e-graph. -/
theorem Thin.retain {b : Mark} {eg g : EGraph Op D} (hC : ThinC K P b eg g) {i : Id} (hi : i < eg.uf.length) {keep : ENode Op → Bool}
    (hkeep : ∀ n, K n.op n.children.length → keep n = true)
    (hP : ∀ k, eg.classes.get? (UF.root eg.uf i) = some k → ¬ P k.data) :
    ∃ eg', eg.retain i keep = .ok eg' ∧ ThinC K P b eg' g := by
  have h := hC.thin
  obtain ⟨p, h1, h2⟩ := UF.findMut_ok h.uf.wf hi
  obtain ⟨k, hk, _⟩ := hC.cover i hi
  have hP := hP k hk
  refine ⟨{ eg with uf := p, classes := eg.classes.insert (UF.root eg.uf i) { k with nodes := k.nodes.filter keep } }, ?_,
    ⟨h.uf.same h2 (.refl h.uf.wf'), h.nodes, h.memo, h.explain, h.pending, h.apending, h.clean, ?_, h.below, h.byOp⟩,
    hC.cover.insert h2 (k := { k with nodes := k.nodes.filter keep }) hk (fun h => h) rfl rfl, ?_⟩
  · unfold EGraph.retain
    rw [h1]
    simp only [ok_bind, hk, unwrap_some, pure_eq_ok]
  · have hc := h.classes
    show CRel K P (eg.classes.insert (UF.root eg.uf i) { k with nodes := k.nodes.filter keep }) g.classes
    revert hk hc
    generalize eg.classes = m
    generalize g.classes = m0
    generalize UF.root eg.uf i = r
    intro hk hc
    induction hc with
    | nil => cases hk
    | @cons p q l l' hpq hl ih =>
      obtain ⟨a, c⟩ := p
      obtain ⟨b, c0⟩ := q
      obtain ⟨rfl, hc⟩ := hpq
      dsimp only at hc
      simp only [AMap.get?] at hk
      simp only [AMap.insert]
      by_cases ha : a = r
      · rw [if_pos ha] at hk ⊢
        cases hk
        exact .cons ⟨ha.symm, ⟨hc.id, hc.data, hc.parents, fun n hn => hc.nodes n (List.mem_of_mem_filter hn)⟩,
          fun n hn hK => List.mem_filter.2 ⟨hc.kept n hn hK, hkeep n hK⟩, fun h => absurd (by rw [hc.data]; exact h) hP⟩ hl
      · rw [if_neg ha] at hk ⊢
        exact .cons ⟨rfl, hc⟩ (ih hk)
  · show b.n ≤ p.length
    rw [h2.len]; exact hC.ge

theorem AMap.insert_same {α β : Type} [DecidableEq α] {m : AMap α β} {a : α} {v : β} (h : m.get? a = some v) : m.insert a v = m := by
  induction m with
  | nil => cases h
  | cons p m ih =>
    obtain ⟨b, w⟩ := p
    simp only [AMap.get?] at h
    simp only [AMap.insert]
    by_cases hb : b = a
    · rw [if_pos hb] at h ⊢
      cases h
      rw [hb]
    · rw [if_neg hb] at h ⊢
      rw [ih h]

/-- Keeping everything. -/
theorem Thin.retainAll {b : Mark} {eg g : EGraph Op D} (hC : ThinC K P b eg g) {i : Id} (hi : i < eg.uf.length) {keep : ENode Op → Bool}
    (hkeep : ∀ n, keep n = true) : ∃ eg', eg.retain i keep = .ok eg' ∧ ThinC K P b eg' g := by
  have h := hC.thin
  obtain ⟨p, h1, h2⟩ := UF.findMut_ok h.uf.wf hi
  obtain ⟨k, hk, _⟩ := hC.cover i hi
  have hk' : k.nodes.filter keep = k.nodes := List.filter_eq_self.2 (fun n _ => hkeep n)
  refine ⟨{ eg with uf := p, classes := eg.classes.insert (UF.root eg.uf i) { k with nodes := k.nodes.filter keep } }, ?_,
    ⟨h.uf.same h2 (.refl h.uf.wf'), h.nodes, h.memo, h.explain, h.pending, h.apending, h.clean, ?_, h.below, h.byOp⟩,
    hC.cover.insert h2 (k := { k with nodes := k.nodes.filter keep }) hk (fun h => h) rfl rfl, ?_⟩
  · unfold EGraph.retain
    rw [h1]
    simp only [ok_bind, hk, unwrap_some, pure_eq_ok]
  · show CRel K P (eg.classes.insert (UF.root eg.uf i) { k with nodes := k.nodes.filter keep }) g.classes
    rw [hk', AMap.insert_same hk]
    exact h.classes
  · show b.n ≤ p.length
    rw [h2.len]; exact hC.ge

theorem retain_lt {eg eg' : EGraph Op D} {i : Id} {keep : ENode Op → Bool} (h : eg.retain i keep = .ok eg') : i < eg.uf.length := by
  by_contra hc
  unfold EGraph.retain at h
  rw [UF.findMut_error_of_ge hc] at h
  cases h

/-! ### Programs -/

theorem PruneProg.sim (hN : HookSim K P N M) : ∀ (p : PruneProg Op D) (S T : Id → Prop) {b : Mark} {eg g : EGraph Op D}, p.Blind → p.Knows S → p.Keeps K →
    p.Guards P T → ThinC K P b eg g → (∀ i, S i → i < eg.uf.length) →
    (∀ i, T i → i < eg.uf.length ∧ ∀ k, eg.classes.get? (UF.root eg.uf i) = some k → ¬ P k.data) → Sim (ThinC K P b) (p.run N eg) (p.full.run M g) := by
  intro p
  induction p with
  | done => intro S T b eg g _ _ _ _ h _ _; exact Sim.ok h
  | panic => intro S T b eg g _ _ _ _ _ _ _; exact rfl
  | read k ih =>
    intro S T b eg g hb hk hK hG h hS hT
    unfold PruneProg.run PruneProg.full Prog.run
    rw [hb.1 eg g h.thin.thinner]
    refine ih g _ _ (hb.2 g) (hk g) (hK g) (hG g) h ?_ ?_
    · rintro i (hi | ⟨r, hi⟩)
      · exact hS i hi
      · rw [← h.thin.uf.len]
        exact (UF.find_sound hi).lt
    · rintro i (hi | ⟨k, hi, hP⟩)
      · exact hT i hi
      · unfold EGraph.index at hi
        obtain ⟨r, h1, h2⟩ := bind_eq_ok.1 hi
        have hlt := (UF.find_sound h1).lt
        refine ⟨by rw [← h.thin.uf.len]; exact hlt, fun k' hk' => ?_⟩
        have hr : UF.root g.uf i = r := by
          unfold UF.root
          rw [show UF.find g.uf i = .ok r from h1]
        rcases h.thin.classes.get? (UF.root eg.uf i) with ⟨q1, _⟩ | ⟨k1, k2, q1, q2, q3⟩
        · rw [q1] at hk'; cases hk'
        · rw [q1] at hk'
          cases hk'
          rw [← h.thin.uf.root, hr] at q2
          rw [unwrap_eq_ok.1 h2] at q2
          cases q2
          rw [q3.data]
          exact hP
  | add n k ih =>
    intro S T b eg g hb hk hK hG h hS hT
    unfold PruneProg.run PruneProg.full Prog.run
    refine Sim.bind (Thin.add hN (h.start (G := T) (fun j k hj => (hT j hj).2 k)) n) ?_
    rintro ⟨a, i⟩ ⟨b', j⟩ ⟨⟨h1, h2⟩, h3⟩
    dsimp only at h1 h2 h3 ⊢
    subst h2
    refine ih i _ T (hb i) (hk i) (hK i) (hG i) (h1.back h.ge) ?_ ?_
    · rintro j (hj | rfl)
      · exact Nat.lt_of_lt_of_le (hS j hj) h1.ge
      · exact h3
    · exact fun j hj => ⟨Nat.lt_of_lt_of_le (hT j hj).1 h1.ge, fun k hk => h1.marked hj (hT j hj).1 hk⟩
  | union x y caller k ih =>
    intro S T b eg g hb hk hK hG h hS hT
    unfold PruneProg.run PruneProg.full Prog.run
    refine Sim.bind (Thin.union hN (h.start (G := T) (fun j k hj => (hT j hj).2 k)) x y caller) ?_
    rintro ⟨a, i⟩ ⟨b', j⟩ ⟨h1, h2⟩
    dsimp only at h1 h2 ⊢
    subst h2
    exact ih i S T (hb i) (hk i) (hK i) (hG i) (h1.back h.ge) (fun j hj => Nat.lt_of_lt_of_le (hS j hj) h1.ge)
      (fun j hj => ⟨Nat.lt_of_lt_of_le (hT j hj).1 h1.ge, fun k hk => h1.marked hj (hT j hj).1 hk⟩)
  | setData i d k ih =>
    intro S T b eg g hb hk hK hG h hS hT
    unfold PruneProg.run PruneProg.full Prog.run
    refine Sim.bind (Thin.setAnalysisData hN (h.start (G := T) (fun j k hj => (hT j hj).2 k)) i d hG.1) ?_
    intro a b' h1
    exact ih S T hb hk hK hG.2 (h1.back h.ge) (fun j hj => Nat.lt_of_lt_of_le (hS j hj) h1.ge)
      (fun j hj => ⟨Nat.lt_of_lt_of_le (hT j hj).1 h1.ge, fun k hk => h1.marked hj (hT j hj).1 hk⟩)
  | retain i keep k ih =>
    intro S T b eg g hb hk hK hG h hS hT
    unfold PruneProg.run PruneProg.full
    obtain ⟨eg', h1, h2⟩ := Thin.retain (h.start (G := T) (fun j k hj => (hT j hj).2 k)) (hS i hk.1) (hK.1 eg) (hG.1.elim (fun hf k _ => hf k.data) (fun hi => (hT i hi).2))
    rw [h1]
    simp only [ok_bind]
    exact ih S T hb hk.2 hK.2 hG.2 (h2.back h.ge) (fun j hj => Nat.lt_of_lt_of_le (hS j hj) h2.ge)
      (fun j hj => ⟨Nat.lt_of_lt_of_le (hT j hj).1 h2.ge, fun k hk => h2.marked hj (hT j hj).1 hk⟩)

theorem PruneAnalysis.OK.hookSim' {A : PruneAnalysis Op D} (hA : A.OK K) (hG : A.Guards P) : ∀ depth : Nat, HookSim K P (A.at depth) (A.full.at depth)
  | 0 => ⟨fun eg g n i h => hA.make eg g n i h, fun eg g n i h => hA.remake eg g n i h, rfl, hG.merge, fun _ _ _ _ _ _ => rfl⟩
  | depth + 1 => ⟨fun eg g n i h => hA.make eg g n i h, fun eg g n i h => hA.remake eg g n i h, rfl, hG.merge, fun b eg g i h hi =>
      PruneProg.sim (hA.hookSim' hG depth) (A.modify i) _ _ (hA.modify i).1 (hA.modify i).2.1 (hA.modify i).2.2 (hG.modify i) h
        (fun j hj => by rw [hj]; exact hi) (fun _ h => h.elim)⟩

theorem PruneProg.guards_nothing : ∀ (p : PruneProg Op D) (S : Id → Prop), p.Guards (fun _ => False) S := by
  intro p
  induction p with
  | done => intro _; trivial
  | panic => intro _; trivial
  | read k ih => exact fun S eg => ih eg _
  | add n k ih => exact fun S i => ih i _
  | union x y caller k ih => exact fun S i => ih i _
  | setData i d k ih => exact fun S => ⟨fun h => h, ih _⟩
  | retain i keep k ih => exact fun S => ⟨.inl fun _ h => h, ih _⟩

theorem PruneAnalysis.OK.hookSim {A : PruneAnalysis Op D} (hA : A.OK K) (depth : Nat) : HookSim K (fun _ => False) (A.at depth) (A.full.at depth) :=
  hA.hookSim' ⟨fun _ _ h => h.elim, fun _ => PruneProg.guards_nothing _ _⟩ depth

end Egg
