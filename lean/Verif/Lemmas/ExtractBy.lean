import Verif.Spec.ExtractBy
import Verif.Lemmas.Extract
/-
Lemmas about the extractor with a cost function that looks at the e-nodes.
-/
namespace Egg
variable {Op D Cost : Type}

namespace NodeCostFn
variable {cf : NodeCostFn Op Cost}

theorem OK.refl (h : cf.OK) (a : Cost) : cf.pcmp a a = some .eq := by
  have h1 := h.comparable a a
  have h2 := h.swap a a
  cases h3 : cf.pcmp a a with
  | none => exact absurd h3 h1
  | some o => cases o <;> simp_all

theorem OK.leRefl (h : cf.OK) (a : Cost) : cf.Le a a := Or.inr (h.refl a)

theorem OK.lt_iff (h : cf.OK) {a b : Cost} : cf.pcmp a b = some .lt ↔ ¬ cf.Le b a := by
  unfold Le
  have h1 := h.comparable b a
  have h2 := h.swap b a
  cases h3 : cf.pcmp b a with
  | none => exact absurd h3 h1
  | some o =>
    rw [h3] at h2
    cases o
    · simp at h2 ⊢; exact h2
    · simp at h2 ⊢; exact h2
    · simp at h2 ⊢; exact h2

theorem OK.gt_iff (h : cf.OK) {a b : Cost} : cf.pcmp a b = some .gt ↔ ¬ cf.Le a b := by
  rw [h.swap, h.lt_iff]

theorem OK.total (h : cf.OK) (a b : Cost) : cf.Le a b ∨ cf.Le b a := by
  by_cases hb : cf.Le b a
  · exact Or.inr hb
  · exact Or.inl (Or.inl (h.lt_iff.2 hb))

theorem OK.same_iff (h : cf.OK) {a b : Cost} : cf.Same a b ↔ cf.Le a b ∧ cf.Le b a := by
  unfold Same
  constructor
  · intro he
    refine ⟨Or.inr he, ?_⟩
    by_contra hn
    rw [← h.lt_iff, he] at hn
    cases hn
  · rintro ⟨h1, h2⟩
    rcases h1 with h1 | h1
    · exact absurd h2 (h.lt_iff.1 h1)
    · exact h1

theorem OK.lt_of_lt_le (h : cf.OK) {a b c : Cost} (h1 : cf.pcmp a b = some .lt) (h2 : cf.Le b c) : cf.pcmp a c = some .lt := by
  rw [h.lt_iff] at h1 ⊢
  exact fun h3 => h1 (h.trans _ _ _ h2 h3)

theorem OK.lt_of_le_lt (h : cf.OK) {a b c : Cost} (h1 : cf.Le a b) (h2 : cf.pcmp b c = some .lt) : cf.pcmp a c = some .lt := by
  rw [h.lt_iff] at h2 ⊢
  exact fun h3 => h2 (h.trans _ _ _ h3 h1)

/-- Order of optional costs, `None` high. -/
def OLe (cf : NodeCostFn Op Cost) : Option Cost → Option Cost → Prop
  | _, none => True
  | none, some _ => False
  | some a, some b => cf.Le a b

theorem OK.ole_refl (h : cf.OK) (a : Option Cost) : cf.OLe a a := by
  cases a with
  | none => trivial
  | some a => exact h.leRefl a

theorem OK.ole_trans (h : cf.OK) {a b c : Option Cost} (h1 : cf.OLe a b) (h2 : cf.OLe b c) : cf.OLe a c := by
  cases a <;> cases b <;> cases c <;> simp only [OLe] at * <;> try trivial
  exact h.trans _ _ _ h1 h2

theorem OK.ole_total (h : cf.OK) (a b : Option Cost) : cf.OLe a b ∨ cf.OLe b a := by
  cases a <;> cases b <;> simp only [OLe] <;> try simp
  exact h.total _ _

theorem OK.cmpCost (h : cf.OK) (a b : Option Cost) : ∃ o, ByNode.cmpCost cf a b = .ok o ∧ (o = .gt ↔ ¬ cf.OLe a b) := by
  cases a with
  | none => cases b <;> simp [Egg.ByNode.cmpCost, OLe]
  | some a =>
    cases b with
    | none => simp [Egg.ByNode.cmpCost, OLe]
    | some b =>
      cases hp : cf.pcmp a b with
      | none => exact absurd hp (h.comparable a b)
      | some o =>
        refine ⟨o, by simp [Egg.ByNode.cmpCost, hp, unwrap], ?_⟩
        simp only [OLe]
        rw [← h.gt_iff, hp]
        simp

end NodeCostFn

/-- What the extractor needs of an e-graph: ids and classes belong together.  E-nodes may be missing from classes,
so an id need not represent a term. -/
structure ClassInv {Op D : Type} [DecidableEq Op] [Lang Op] (eg : EGraph Op D) : Prop where
  find_iff : ∀ {i r : Id}, eg.find i = .ok r ↔ i < eg.nodes.length ∧ eg.rt i = r
  rtIdem : ∀ i, eg.rt (eg.rt i) = eg.rt i
  rtLt : ∀ i, i < eg.nodes.length → eg.rt i < eg.nodes.length
  cls : ∀ c k, eg.classes.get? c = some k → k.id = c ∧ c < eg.nodes.length ∧ eg.rt c = c ∧
    ∀ n ∈ k.nodes, ∀ d ∈ n.children, d < eg.nodes.length
  nodup : (eg.classes.map Prod.fst).Nodup

theorem EGraph.InvW.classInv {Op D : Type} [DecidableEq Op] [Lang Op] {eg : EGraph Op D} {C : Cfg Op D} {W : Id → Id → Prop}
    (hi : EGraph.InvW W C eg) : ClassInv eg where
  find_iff := hi.find_iff
  rtIdem := hi.core.rtIdem
  rtLt := hi.core.rtLt
  cls := fun c k hk => by
    obtain ⟨h1, h2⟩ := clsOK_of_get hi hk
    rw [← h2]
    exact ⟨rfl, h1.root.1, h1.root.2, h1.child⟩
  nodup := hi.clsNodup

namespace ByNode

section
variable {cf : NodeCostFn Op Cost}

theorem minByGo_spec (h : cf.OK) : ∀ (rest : List (Option Cost × ENode Op)) (best : Option Cost × ENode Op),
    ∃ b, minByGo cf best rest = .ok b ∧ b ∈ best :: rest ∧ ∀ x ∈ best :: rest, cf.OLe b.1 x.1 := by
  intro rest
  induction rest with
  | nil =>
    intro best
    refine ⟨best, rfl, by simp, ?_⟩
    intro x hx
    simp only [List.mem_singleton] at hx
    subst hx
    exact h.ole_refl _
  | cons y rest ih =>
    intro best
    obtain ⟨o, h1, h2⟩ := h.cmpCost best.1 y.1
    obtain ⟨b, h3, h4, h5⟩ := ih (if o = .gt then y else best)
    refine ⟨b, by simp only [minByGo, h1, ok_bind]; exact h3, ?_, ?_⟩
    · rcases List.mem_cons.1 h4 with h4 | h4
      · split_ifs at h4 <;> simp [h4]
      · simp [h4]
    · have hb := h5 _ (List.mem_cons_self)
      have hle : cf.OLe b.1 best.1 ∧ cf.OLe b.1 y.1 := by
        by_cases ho : o = .gt
        · rw [if_pos ho] at hb
          have := (h.ole_total best.1 y.1).resolve_left (h2.1 ho)
          exact ⟨h.ole_trans hb this, hb⟩
        · rw [if_neg ho] at hb
          have : cf.OLe best.1 y.1 := by
            by_contra hn
            exact ho (h2.2 hn)
          exact ⟨hb, h.ole_trans hb this⟩
      intro x hx
      rcases List.mem_cons.1 hx with rfl | hx
      · exact hle.1
      · rcases List.mem_cons.1 hx with rfl | hx
        · exact hle.2
        · exact h5 x (by simp [hx])

end

/-! ### The cost of a node in a table of costs -/

section
variable [DecidableEq Op] [Lang Op] {eg : EGraph Op D} {cf : NodeCostFn Op Cost}
  {costs costs' : Costs Op Cost}

/-- The cost of the node `n` given the costs in the table. -/
def NodeCost (cf : NodeCostFn Op Cost) (eg : EGraph Op D) (costs : Costs Op Cost) (n : ENode Op) (x : Cost) : Prop :=
  ∃ cs, List.Forall₂ (HasCost eg costs) n.children cs ∧ x = cf.cost n cs

theorem NodeCost.unique {n : ENode Op} {x y : Cost} (h : NodeCost cf eg costs n x) (h' : NodeCost cf eg costs n y) : x = y := by
  obtain ⟨cs, h1, rfl⟩ := h
  obtain ⟨cs', h1', rfl⟩ := h'
  congr 1
  generalize n.children = l at h1 h1'
  induction h1 generalizing cs' with
  | nil => cases h1'; rfl
  | cons a b ih =>
    cases h1' with
    | cons a' b' => rw [a.unique a', ih _ b']

theorem _root_.Egg.ClassInv.find (hi : ClassInv eg) {i : Id} (h : i < eg.nodes.length) : eg.find i = .ok (eg.rt i) := hi.find_iff.2 ⟨h, rfl⟩

theorem clsOK_of_get (hi : ClassInv eg) {c : Id} {k : EClass Op D} {n : ENode Op} (h : eg.classes.get? c = some k) (hn : n ∈ k.nodes) :
    ClsOK eg k ∧ k.id = c := by
  obtain ⟨h1, h2, h3, h4⟩ := hi.cls c k h
  subst h1
  exact ⟨⟨h, List.ne_nil_of_mem hn, h4, h2, h3⟩, rfl⟩

theorem classes_ok (hi : ClassInv eg) {ks : List (EClass Op D)} (hks : ks.Perm (eg.classes.map Prod.snd)) (hne : ∀ k ∈ ks, k.nodes ≠ []) :
    ∀ k, ClsOK eg k ↔ k ∈ ks := by
  intro k
  constructor
  · intro h
    exact hks.mem_iff.2 (List.mem_map.2 ⟨(k.id, k), AMap.mem_of_get? h.get, rfl⟩)
  · intro h
    obtain ⟨n, hn⟩ := List.exists_mem_of_ne_nil _ (hne k h)
    obtain ⟨⟨c, k'⟩, h1, rfl⟩ := List.mem_map.1 (hks.mem_iff.1 h)
    exact (clsOK_of_get hi (AMap.get?_of_mem hi.nodup h1) hn).1

theorem allHaveCost_spec (hi : ClassInv eg) : ∀ (l : List Id), (∀ c ∈ l, c < eg.nodes.length) →
    ∃ b, allHaveCost eg costs l = .ok b ∧ (b = true ↔ ∀ c ∈ l, ∃ x, HasCost eg costs c x) := by
  intro l
  induction l with
  | nil => intro _; exact ⟨true, rfl, by simp⟩
  | cons c l ih =>
    intro hl
    obtain ⟨b, h1, h2⟩ := ih (fun c hc => hl c (by simp [hc]))
    simp only [allHaveCost, hi.find (hl c (by simp)), ok_bind]
    cases hg : costs.get? (eg.rt c) with
    | none =>
      refine ⟨false, rfl, ?_⟩
      constructor
      · intro h; cases h
      · intro h
        obtain ⟨x, m, hm⟩ := h c (by simp)
        rw [hg] at hm; cases hm
    | some e =>
      refine ⟨b, by simpa using h1, ?_⟩
      rw [h2]
      constructor
      · intro h d hd
        rcases List.mem_cons.1 hd with rfl | hd
        · exact ⟨e.1, e.2, hg⟩
        · exact h d hd
      · intro h d hd
        exact h d (by simp [hd])

theorem costIn_iff (hi : ClassInv eg) {c : Id} {op : Op} {ts : List (Term Op)} {v : Cost} :
    CostIn cf eg c (.node op ts) v ↔ c < eg.nodes.length ∧ ∃ k n ps, eg.classes.get? (eg.rt c) = some k ∧ n ∈ k.nodes ∧
      n.op = op ∧ List.Forall₂ (fun d (p : Term Op × Cost) => CostIn cf eg d p.1 p.2) n.children ps ∧
      ts = ps.map Prod.fst ∧ v = cf.cost n (ps.map Prod.snd) := by
  constructor
  · intro h
    cases h with
    | @mk _ r cls n _ vs h1 h2 h3 h4 h5 h6 =>
      rw [hi.find_iff] at h1
      obtain ⟨h1, rfl⟩ := h1
      refine ⟨h1, cls, n, ts.zip vs, h2, h3, rfl, forall₂_iff_get?.2 ⟨by simp; omega, ?_⟩, ?_, ?_⟩
      · intro j d p hd hp
        obtain ⟨q1, q2⟩ := List.getElem?_zip_eq_some.1 hp
        exact h6 j d p.1 p.2 hd q1 q2
      · rw [List.map_fst_zip (by omega)]
      · rw [List.map_snd_zip (by omega)]
  · rintro ⟨h1, k, n, ps, h2, h3, rfl, h4, rfl, rfl⟩
    have hl := h4.length_eq
    refine .mk (hi.find h1) h2 h3 (by simp [hl]) (by simp [hl]) ?_
    intro j d t v hd ht hv
    rw [List.getElem?_map, Option.map_eq_some_iff] at ht hv
    obtain ⟨p, hp, rfl⟩ := ht
    obtain ⟨q, hq, rfl⟩ := hv
    rw [hp] at hq
    cases hq
    exact (forall₂_iff_get?.1 h4).2 j d p hd hp

theorem costIn_congr (hi : ClassInv eg) {c d : Id} {t : Term Op} {v : Cost} (hd : d < eg.nodes.length)
    (he : eg.rt c = eg.rt d) (h : CostIn cf eg c t v) : CostIn cf eg d t v := by
  obtain ⟨op, ts⟩ := t
  rw [costIn_iff hi] at h ⊢
  obtain ⟨_, k, n, ps, h1, h2⟩ := h
  exact ⟨hd, k, n, ps, by rw [← he]; exact h1, h2⟩

/-- What is read off is represented. -/
theorem costIn_rep (hi : ClassInv eg) : ∀ (t : Term Op) (c : Id) (v : Cost), CostIn cf eg c t v → Rep eg c t := by
  intro t
  induction t using Term.ind with
  | h op ts ih =>
    intro c v h
    rw [costIn_iff hi] at h
    obtain ⟨hc, k, n, ps, h1, h2, h3, h4, rfl, rfl⟩ := h
    rw [EGraph.rep_iff]
    refine ⟨eg.rt c, k, n, hi.find hc, h1, h2, h3, ?_⟩
    rw [List.forall₂_map_right_iff]
    exact forall₂_mono_mem h4 (fun d _ p hp hdp => ih p.1 (List.mem_map_of_mem hp) d p.2 hdp)

/-- What is represented can be read off. -/
theorem rep_costIn (hi : ClassInv eg) (cf : NodeCostFn Op Cost) : ∀ (t : Term Op) (c : Id), Rep eg c t →
    ∃ v, CostIn cf eg c t v := by
  intro t
  induction t using Term.ind with
  | h op ts ih =>
    intro c h
    rw [EGraph.rep_iff] at h
    obtain ⟨r, k, n, hc, h1, h2, h3, h4⟩ := h
    rw [hi.find_iff] at hc
    obtain ⟨hc, rfl⟩ := hc
    have : ∃ ps, List.Forall₂ (fun d (p : Term Op × Cost) => CostIn cf eg d p.1 p.2) n.children ps ∧ ts = ps.map Prod.fst := by
      generalize n.children = l at h4
      induction h4 with
      | nil => exact ⟨[], .nil, rfl⟩
      | @cons d t l ts a b ih' =>
        obtain ⟨ps, q1, q2⟩ := ih' (fun t ht => ih t (by simp [ht]))
        obtain ⟨v, hv⟩ := ih t (by simp) d a
        exact ⟨(t, v) :: ps, .cons hv q1, by simp [q2]⟩
    obtain ⟨ps, q1, q2⟩ := this
    exact ⟨_, (costIn_iff hi).2 ⟨hc, k, n, ps, h1, h2, h3, q1, q2, rfl⟩⟩

theorem nodeTotalCost_spec (hi : ClassInv eg) {n : ENode Op} (hn : ∀ c ∈ n.children, c < eg.nodes.length) :
    ∃ o, nodeTotalCost cf eg costs n = .ok o ∧ ∀ x, o = some x ↔ NodeCost cf eg costs n x := by
  obtain ⟨b, h1, h2⟩ := allHaveCost_spec (costs := costs) hi n.children hn
  simp only [nodeTotalCost, h1, ok_bind]
  cases b with
  | false =>
    refine ⟨none, rfl, ?_⟩
    intro x
    constructor
    · intro h; cases h
    · rintro ⟨cs, h3, _⟩
      have : ∀ c ∈ n.children, ∃ x, HasCost eg costs c x := by
        intro c hc
        obtain ⟨x, _, hx⟩ := forall₂_mem_left h3 hc
        exact ⟨x, hx⟩
      exact absurd (h2.2 this) (by simp)
  | true =>
    obtain ⟨cs, hcs⟩ := forall₂_exists (R := HasCost eg costs) (as := n.children) (h2.1 rfl)
    have hm : n.children.mapM (childCost eg costs) = .ok cs := by
      rw [mapM_eq_ok]
      refine forall₂_mono_mem hcs ?_
      rintro c hc x _ ⟨m, hm⟩
      simp [childCost, hi.find (hn c hc), hm, unwrap]
    refine ⟨some (cf.cost n cs), by simp [hm], ?_⟩
    intro x
    constructor
    · intro h; cases h; exact ⟨cs, hcs, rfl⟩
    · intro h
      rw [h.unique ⟨cs, hcs, rfl⟩]

theorem makePass_spec (h : cf.OK) (hi : ClassInv eg) {k : EClass Op D} (hne : k.nodes ≠ [])
    (hk : ∀ n ∈ k.nodes, ∀ c ∈ n.children, c < eg.nodes.length) :
    ∃ o, makePass cf eg costs k = .ok o ∧
      (∀ x n, o = some (x, n) → n ∈ k.nodes ∧ NodeCost cf eg costs n x ∧
        ∀ m ∈ k.nodes, ∀ y, NodeCost cf eg costs m y → cf.Le x y) ∧
      (o = none → ∀ m ∈ k.nodes, ∀ y, ¬ NodeCost cf eg costs m y) := by
  obtain ⟨l, hl⟩ := forall₂_exists (as := k.nodes)
    (R := fun n (p : Option Cost × ENode Op) => costed cf eg costs n = .ok p ∧ p.2 = n ∧ ∀ x, p.1 = some x ↔ NodeCost cf eg costs n x)
    (fun n hn => by
      obtain ⟨o, h1, h2⟩ := nodeTotalCost_spec (cf := cf) (costs := costs) hi (hk n hn)
      exact ⟨(o, n), by simp [costed, h1], rfl, h2⟩)
  have hm : k.nodes.mapM (costed cf eg costs) = .ok l := by
    rw [mapM_eq_ok]
    exact forall₂_mono_mem hl (fun _ _ _ _ h => h.1)
  cases l with
  | nil => exact absurd (List.forall₂_nil_right_iff.1 hl) hne
  | cons p ps =>
    obtain ⟨b, h1, h2, h3⟩ := minByGo_spec h ps p
    obtain ⟨n, hn, _, hn2, hn3⟩ := forall₂_mem_left (forall₂_flip hl) h2
    refine ⟨b.1.map (fun c => (c, b.2)), by simp [makePass, hm, h1], ?_, ?_⟩
    · intro x m hx
      cases hb : b.1 with
      | none => rw [hb] at hx; cases hx
      | some c =>
        rw [hb] at hx
        cases hx
        rw [hn2]
        refine ⟨hn, (hn3 x).1 hb, ?_⟩
        intro m hm y hy
        obtain ⟨q, hq, _, _, hq3⟩ := forall₂_mem_left hl hm
        have := h3 q hq
        rw [hb, (hq3 y).2 hy] at this
        exact this
    · intro hx m hm y hy
      cases hb : b.1 with
      | some c => rw [hb] at hx; cases hx
      | none =>
        obtain ⟨q, hq, _, _, hq3⟩ := forall₂_mem_left hl hm
        have := h3 q hq
        rw [hb, (hq3 y).2 hy] at this
        exact this

/-! ### Invariant of the table -/

/-- The invariant of the cost table: entries belong to classes and are nodes of them;
costs are those of represented terms; a stored node is not more expensive now than the
stored cost; and the choice is ranked by cost and time of the last update. -/
structure TInv (cf : NodeCostFn Op Cost) (eg : EGraph Op D) (costs : Costs Op Cost) : Prop where
  key : ∀ c x n, costs.get? c = some (x, n) → ∃ k, eg.classes.get? c = some k ∧ n ∈ k.nodes
  real : ∀ c x n, costs.get? c = some (x, n) → ∃ t, CostIn cf eg c t x
  stored : ∀ c x n, costs.get? c = some (x, n) → ∃ y, NodeCost cf eg costs n y ∧ cf.Le y x
  rank : ∃ τ : Id → Nat, ∀ c x n, costs.get? c = some (x, n) → ∀ d ∈ n.children, ∀ y, HasCost eg costs d y →
    cf.Le y x ∧ (cf.pcmp y x = some .lt ∨ τ (eg.rt d) < τ c)

/-- Entries are only added and costs only go down. -/
def Dec (cf : NodeCostFn Op Cost) (costs costs' : Costs Op Cost) : Prop :=
  ∀ c x n, costs.get? c = some (x, n) → ∃ x' n', costs'.get? c = some (x', n') ∧ cf.Le x' x

theorem Dec.rfl' (h : cf.OK) (costs : Costs Op Cost) : Dec cf costs costs := fun _ x n hc => ⟨x, n, hc, h.leRefl x⟩

theorem Dec.trans {costs'' : Costs Op Cost} (h : cf.OK) (h1 : Dec cf costs costs') (h2 : Dec cf costs' costs'') :
    Dec cf costs costs'' := by
  intro c x n hc
  obtain ⟨x', n', h3, h4⟩ := h1 c x n hc
  obtain ⟨x'', n'', h5, h6⟩ := h2 c x' n' h3
  exact ⟨x'', n'', h5, h.trans _ _ _ h6 h4⟩

theorem Dec.hasCost (hd : Dec cf costs costs') {c : Id} {x : Cost} (hc : HasCost eg costs c x) :
    ∃ y, HasCost eg costs' c y ∧ cf.Le y x := by
  obtain ⟨m, hm⟩ := hc
  obtain ⟨y, m', h1, h2⟩ := hd _ _ _ hm
  exact ⟨y, ⟨m', h1⟩, h2⟩

theorem Dec.nodeCost (h : cf.OK) (hd : Dec cf costs costs') {n : ENode Op} {x : Cost} (hc : NodeCost cf eg costs n x) :
    ∃ y, NodeCost cf eg costs' n y ∧ cf.Le y x := by
  obtain ⟨cs, h1, rfl⟩ := hc
  have : ∃ cs', List.Forall₂ (HasCost eg costs') n.children cs' ∧ List.Forall₂ cf.Le cs' cs := by
    generalize n.children = l at h1
    induction h1 with
    | nil => exact ⟨[], .nil, .nil⟩
    | cons a b ih =>
      obtain ⟨cs', q1, q2⟩ := ih
      obtain ⟨y, p1, p2⟩ := hd.hasCost a
      exact ⟨y :: cs', .cons p1 q1, .cons p2 q2⟩
  obtain ⟨cs', q1, q2⟩ := this
  exact ⟨_, ⟨cs', q1, rfl⟩, h.mono _ _ _ q2⟩

theorem NodeCost.above (h : cf.OK) {n : ENode Op} {x : Cost} (hc : NodeCost cf eg costs n x) {d : Id} (hd : d ∈ n.children)
    {y : Cost} (hy : HasCost eg costs d y) : cf.Le y x := by
  obtain ⟨cs, h1, rfl⟩ := hc
  obtain ⟨y', hy', h2⟩ := forall₂_mem_left h1 hd
  rw [hy.unique h2]
  exact h.above _ _ _ hy'

theorem NodeCost.hasCost {n : ENode Op} {x : Cost} (hc : NodeCost cf eg costs n x) {d : Id} (hd : d ∈ n.children) :
    ∃ y, HasCost eg costs d y := by
  obtain ⟨cs, h1, rfl⟩ := hc
  obtain ⟨y', _, h2⟩ := forall₂_mem_left h1 hd
  exact ⟨y', h2⟩

theorem TInv.empty : TInv cf eg ([] : Costs Op Cost) :=
  ⟨fun _ _ _ h => by simp [AMap.get?] at h, fun _ _ _ h => by simp [AMap.get?] at h,
    fun _ _ _ h => by simp [AMap.get?] at h, ⟨fun _ => 0, fun _ _ _ h => by simp [AMap.get?] at h⟩⟩

theorem nodeCost_real (hi : ClassInv eg) (ht : TInv cf eg costs) {c : Id} {k : EClass Op D} {n : ENode Op} {x : Cost}
    (hk : eg.classes.get? c = some k) (hn : n ∈ k.nodes) (hlt : ∀ d ∈ n.children, d < eg.nodes.length)
    (hc : c < eg.nodes.length ∧ eg.rt c = c) (hx : NodeCost cf eg costs n x) :
    ∃ t, CostIn cf eg c t x := by
  obtain ⟨cs, h1, rfl⟩ := hx
  have : ∃ ps, List.Forall₂ (fun d (p : Term Op × Cost) => CostIn cf eg d p.1 p.2) n.children ps ∧ ps.map Prod.snd = cs := by
    generalize n.children = l at h1 hlt
    induction h1 with
    | nil => exact ⟨[], .nil, rfl⟩
    | @cons d x l cs a b ih =>
      obtain ⟨ps, q1, q2⟩ := ih (fun d hd => hlt d (by simp [hd]))
      obtain ⟨m, hm⟩ := a
      obtain ⟨t, p1⟩ := ht.real _ _ _ hm
      have hd := hlt d (by simp)
      exact ⟨(t, x) :: ps, .cons (costIn_congr hi hd (hi.rtIdem d) p1) q1, by simp [q2]⟩
  obtain ⟨ps, q1, rfl⟩ := this
  refine ⟨.node n.op (ps.map Prod.fst), ?_⟩
  rw [costIn_iff hi]
  exact ⟨hc.1, k, n, ps, by rw [hc.2]; exact hk, hn, rfl, q1, rfl, rfl⟩

/-- Storing a better node for a class. -/
theorem TInv.insert (h : cf.OK) (hi : ClassInv eg) (ht : TInv cf eg costs) {c : Id} {k : EClass Op D} {n : ENode Op} {x : Cost}
    (hk : eg.classes.get? c = some k) (hn : n ∈ k.nodes) (hlt : ∀ d ∈ n.children, d < eg.nodes.length)
    (hc : c < eg.nodes.length ∧ eg.rt c = c) (hx : NodeCost cf eg costs n x)
    (hold : ∀ y m, costs.get? c = some (y, m) → cf.pcmp x y = some .lt) :
    TInv cf eg (costs.insert c (x, n)) ∧ Dec cf costs (costs.insert c (x, n)) := by
  have hd : Dec cf costs (costs.insert c (x, n)) := by
    intro d y m hy
    rw [AMap.get?_insert]
    split
    · next he => subst he; exact ⟨x, n, rfl, Or.inl (hold y m hy)⟩
    · exact ⟨y, m, hy, h.leRefl y⟩
  -- costs of other classes are as before
  have hback : ∀ d y, HasCost eg (costs.insert c (x, n)) d y → (eg.rt d = c ∧ y = x) ∨ (eg.rt d ≠ c ∧ HasCost eg costs d y) := by
    rintro d y ⟨m, hm⟩
    rw [AMap.get?_insert] at hm
    split at hm
    · next he => cases hm; exact Or.inl ⟨he.symm, rfl⟩
    · next he => exact Or.inr ⟨fun e => he e.symm, m, hm⟩
  -- the new node does not have its own class as a child, unless that was cheaper
  obtain ⟨τ, hτ⟩ := ht.rank
  refine ⟨⟨?_, ?_, ?_, ?_⟩, hd⟩
  · intro d y m hy
    rw [AMap.get?_insert] at hy
    split at hy
    · next he => subst he; cases hy; exact ⟨k, hk, hn⟩
    · exact ht.key d y m hy
  · intro d y m hy
    rw [AMap.get?_insert] at hy
    split at hy
    · next he => subst he; cases hy; exact nodeCost_real hi ht hk hn hlt hc hx
    · exact ht.real d y m hy
  · intro d y m hy
    rw [AMap.get?_insert] at hy
    split at hy
    · next he => subst he; cases hy; exact hd.nodeCost h hx
    · obtain ⟨z, h1, h2⟩ := ht.stored d y m hy
      obtain ⟨w, h3, h4⟩ := hd.nodeCost h h1
      exact ⟨w, h3, h.trans _ _ _ h4 h2⟩
  · -- rank
    classical
    have hself : ∀ d ∈ n.children, eg.rt d ≠ c := by
      intro d hdn he
      obtain ⟨y, hy⟩ := hx.hasCost hdn
      have h1 := hx.above h hdn hy
      obtain ⟨m, hm⟩ := hy
      rw [he] at hm
      exact h.lt_iff.1 (hold y m hm) h1
    let B := (n.children.map (fun d => τ (eg.rt d))).foldr max 0 + 1
    have hB : ∀ d ∈ n.children, τ (eg.rt d) < B := by
      intro d hdn
      have : ∀ (l : List Nat) (z : Nat), z ∈ l → z ≤ l.foldr max 0 := by
        intro l
        induction l with
        | nil => intro z hz; simp at hz
        | cons a l ih =>
          intro z hz
          rcases List.mem_cons.1 hz with rfl | hz
          · simp
          · have := ih z hz
            simp only [List.foldr_cons]
            omega
      have := this _ _ (List.mem_map_of_mem (f := fun d => τ (eg.rt d)) hdn)
      simp only [B]
      omega
    refine ⟨fun d => if d = c then B else τ d, ?_⟩
    intro d y m hy e he z hz
    rw [AMap.get?_insert] at hy
    split at hy
    · next hdc =>
      subst hdc
      cases hy
      rcases hback e z hz with ⟨h1, _⟩ | ⟨h1, h2⟩
      · exact absurd h1 (hself e he)
      · refine ⟨hx.above h he h2, Or.inr ?_⟩
        simp only [if_neg h1, if_true]
        exact hB e he
    · next hdc =>
      have hdc' : d ≠ c := fun e => hdc e.symm
      rcases hback e z hz with ⟨h1, rfl⟩ | ⟨h1, h2⟩
      · -- the child is the class that got cheaper
        obtain ⟨w, hw, _⟩ := ht.stored d y m hy
        obtain ⟨q, hq⟩ := hw.hasCost he
        obtain ⟨h3, _⟩ := hτ d y m hy e he q hq
        obtain ⟨m', hm'⟩ := hq
        rw [h1] at hm'
        have := h.lt_of_lt_le (hold q m' hm') h3
        exact ⟨Or.inl this, Or.inl this⟩
      · obtain ⟨h3, h4⟩ := hτ d y m hy e he z h2
        refine ⟨h3, ?_⟩
        simp only [if_neg h1, if_neg hdc']
        exact h4

/-! ### Passes -/

/-- Every node of the class `k` with a cost in `costs` is dominated in `costs'`. -/
def Dominated (cf : NodeCostFn Op Cost) (eg : EGraph Op D) (costs costs' : Costs Op Cost) (k : EClass Op D) : Prop :=
  ∀ n ∈ k.nodes, ∀ x, NodeCost cf eg costs n x → ∃ v m, costs'.get? k.id = some (v, m) ∧ cf.Le v x

theorem costStep_spec (h : cf.OK) (hi : ClassInv eg) (ht : TInv cf eg costs) {k : EClass Op D} (hk : ClsOK eg k) (did : Bool) :
    ∃ o, makePass cf eg costs k = .ok o ∧ TInv cf eg (updateCosts cf costs did k.id o).1 ∧
      Dec cf costs (updateCosts cf costs did k.id o).1 ∧ Dominated cf eg costs (updateCosts cf costs did k.id o).1 k ∧
      ((updateCosts cf costs did k.id o).2 = false → did = false ∧ (updateCosts cf costs did k.id o).1 = costs) ∧
      ((updateCosts cf costs did k.id o).2 = true → did = true ∨ ∃ x n, n ∈ k.nodes ∧ NodeCost cf eg costs n x ∧
        ∀ y m, costs.get? k.id = some (y, m) → cf.pcmp x y = some .lt) := by
  obtain ⟨o, h1, h2, h3⟩ := makePass_spec (costs := costs) h hi hk.ne hk.child
  refine ⟨o, h1, ?_⟩
  cases o with
  | none =>
    have hu : updateCosts cf costs did k.id none = (costs, did) := by
      unfold updateCosts
      split <;> simp_all
    rw [hu]
    exact ⟨ht, Dec.rfl' h _, fun n hn x hx => absurd hx (h3 rfl n hn x), fun hd => ⟨hd, rfl⟩, fun hd => Or.inl hd⟩
  | some xn =>
    obtain ⟨x, n⟩ := xn
    obtain ⟨q1, q2, q3⟩ := h2 x n rfl
    have hins : ∀ (hold : ∀ y m, costs.get? k.id = some (y, m) → cf.pcmp x y = some .lt),
        TInv cf eg (costs.insert k.id (x, n)) ∧ Dec cf costs (costs.insert k.id (x, n)) ∧
        Dominated cf eg costs (costs.insert k.id (x, n)) k := by
      intro hold
      obtain ⟨r1, r2⟩ := ht.insert h hi hk.get q1 (hk.child n q1) hk.root q2 hold
      exact ⟨r1, r2, fun m hm y hy => ⟨x, n, by rw [AMap.get?_insert]; simp, q3 m hm y hy⟩⟩
    cases hg : costs.get? k.id with
    | none =>
      have hu : updateCosts cf costs did k.id (some (x, n)) = (costs.insert k.id (x, n), true) := by
        simp [updateCosts, hg]
      have hold : ∀ y m, costs.get? k.id = some (y, m) → cf.pcmp x y = some .lt := by
        intro y m hy; rw [hg] at hy; cases hy
      obtain ⟨r1, r2, r3⟩ := hins hold
      rw [hu]
      refine ⟨r1, r2, r3, ?_, fun _ => Or.inr ⟨x, n, q1, q2, fun y m hy => by cases hy⟩⟩
      intro hd; cases hd
    | some old =>
      obtain ⟨v, m⟩ := old
      by_cases hlt : cf.pcmp x v = some .lt
      · have hu : updateCosts cf costs did k.id (some (x, n)) = (costs.insert k.id (x, n), true) := by
          simp [updateCosts, hg, hlt]
        have hold : ∀ y m, costs.get? k.id = some (y, m) → cf.pcmp x y = some .lt := by
          intro y m hy; rw [hg] at hy; cases hy; exact hlt
        obtain ⟨r1, r2, r3⟩ := hins hold
        rw [hu]
        refine ⟨r1, r2, r3, ?_, fun _ => Or.inr ⟨x, n, q1, q2, fun y m hy => by cases hy; exact hlt⟩⟩
        intro hd; cases hd
      · have hu : updateCosts cf costs did k.id (some (x, n)) = (costs, did) := by
          simp [updateCosts, hg, hlt]
        rw [hu]
        refine ⟨ht, Dec.rfl' h _, ?_, fun hd => ⟨hd, rfl⟩, fun hd => Or.inl hd⟩
        intro m' hm' y hy
        have hvx : cf.Le v x := by
          by_contra hn
          exact hlt (h.lt_iff.2 hn)
        exact ⟨v, m, hg, h.trans _ _ _ hvx (q3 m' hm' y hy)⟩

theorem Dominated.later {costs'' : Costs Op Cost} {k : EClass Op D} (h : cf.OK) (hd : Dominated cf eg costs costs' k)
    (h2 : Dec cf costs' costs'') : Dominated cf eg costs costs'' k := by
  intro n hn x hx
  obtain ⟨v, m, h3, h4⟩ := hd n hn x hx
  obtain ⟨v', m', h5, h6⟩ := h2 _ _ _ h3
  exact ⟨v', m', h5, h.trans _ _ _ h6 h4⟩

theorem Dominated.earlier {costs0 : Costs Op Cost} {k : EClass Op D} (h : cf.OK) (hd : Dominated cf eg costs costs' k)
    (h2 : Dec cf costs0 costs) : Dominated cf eg costs0 costs' k := by
  intro n hn x hx
  obtain ⟨y, h3, h4⟩ := h2.nodeCost h hx
  obtain ⟨v', m', h5, h6⟩ := hd n hn y h3
  exact ⟨v', m', h5, h.trans _ _ _ h6 h4⟩

/-- An update is possible: some node of some class is cheaper than the entry. -/
def Improvable (cf : NodeCostFn Op Cost) (eg : EGraph Op D) (costs : Costs Op Cost) : Prop :=
  ∃ k, ClsOK eg k ∧ ∃ x n, n ∈ k.nodes ∧ NodeCost cf eg costs n x ∧
    ∀ y m, costs.get? k.id = some (y, m) → cf.pcmp x y = some .lt

theorem costPass_spec (h : cf.OK) (hi : ClassInv eg) : ∀ (ks : List (EClass Op D)) (costs : Costs Op Cost) (did : Bool),
    TInv cf eg costs → (∀ k ∈ ks, ClsOK eg k) →
    ∃ costs' did', costPass cf eg costs did ks = .ok (costs', did') ∧ TInv cf eg costs' ∧ Dec cf costs costs' ∧
      (∀ k ∈ ks, Dominated cf eg costs costs' k) ∧ (did' = false → did = false ∧ costs' = costs) ∧
      (did' = true → did = true ∨ ∃ costs1, TInv cf eg costs1 ∧ Dec cf costs costs1 ∧ Improvable cf eg costs1) := by
  intro ks
  induction ks with
  | nil =>
    intro costs did ht _
    exact ⟨costs, did, rfl, ht, Dec.rfl' h _, by simp, fun hd => ⟨hd, rfl⟩, fun hd => Or.inl hd⟩
  | cons k ks ih =>
    intro costs did ht hks
    obtain ⟨o, h1, h2, h3, h4, h5, h6⟩ := costStep_spec h hi ht (hks k (by simp)) did
    obtain ⟨costs', did', q1, q2, q3, q4, q5, q6⟩ := ih (updateCosts cf costs did k.id o).1 (updateCosts cf costs did k.id o).2 h2
      (fun k hk => hks k (by simp [hk]))
    refine ⟨costs', did', by simp only [costPass, h1, ok_bind]; exact q1, q2, h3.trans h q3, ?_, ?_, ?_⟩
    · intro k' hk'
      rcases List.mem_cons.1 hk' with rfl | hk'
      · exact h4.later h q3
      · exact (q4 k' hk').earlier h h3
    · intro hd
      obtain ⟨p1, p2⟩ := q5 hd
      obtain ⟨p3, p4⟩ := h5 p1
      exact ⟨p3, p2.trans p4⟩
    · intro hd
      rcases q6 hd with hd | ⟨costs1, r1, r2, r3⟩
      · rcases h6 hd with hd | hd
        · exact Or.inl hd
        · exact Or.inr ⟨costs, ht, Dec.rfl' h _, k, hks k (by simp), hd⟩
      · exact Or.inr ⟨costs1, r1, h3.trans h r2, r3⟩

/-- The entry of the class `c` is at most the cost of any term of the class. -/
def Final (cf : NodeCostFn Op Cost) (eg : EGraph Op D) (costs : Costs Op Cost) (c : Id) : Prop :=
  ∀ t y, CostIn cf eg c t y → ∃ v n, costs.get? c = some (v, n) ∧ cf.Le v y

theorem Final.later (h : cf.OK) {c : Id} (hf : Final cf eg costs c) (hd : Dec cf costs costs') : Final cf eg costs' c := by
  intro t y ht
  obtain ⟨v, n, h1, h2⟩ := hf t y ht
  obtain ⟨v', n', h3, h4⟩ := hd _ _ _ h1
  exact ⟨v', n', h3, h.trans _ _ _ h4 h2⟩

/-- When all entries are final, nothing can be improved. -/
theorem not_improvable (h : cf.OK) (hi : ClassInv eg) (ht : TInv cf eg costs)
    (hf : ∀ k, ClsOK eg k → Final cf eg costs k.id) : ¬ Improvable cf eg costs := by
  rintro ⟨k, hk, x, n, hn, hx, hlt⟩
  obtain ⟨t, h3⟩ := nodeCost_real hi ht hk.get hn (hk.child n hn) hk.root hx
  obtain ⟨v, m, h1, h2⟩ := hf k hk t x h3
  exact h.lt_iff.1 (hlt v m h1) h2

/-- A node of a class that is not final, all of whose children are final. -/
def Cand (cf : NodeCostFn Op Cost) (eg : EGraph Op D) (costs : Costs Op Cost) (k : EClass Op D) (x : Cost) : Prop :=
  ClsOK eg k ∧ ¬ Final cf eg costs k.id ∧ ∃ n ∈ k.nodes, NodeCost cf eg costs n x

theorem exists_cand (h : cf.OK) (hi : ClassInv eg) : ∀ (t : Term Op) (c : Id) (v : Cost), CostIn cf eg c t v →
    ¬ Final cf eg costs (eg.rt c) → ∃ k x, Cand cf eg costs k x ∧ cf.Le x v := by
  intro t
  induction t using Term.ind with
  | h op ts ih =>
    intro c v hr hnf
    rw [costIn_iff hi] at hr
    obtain ⟨hc, k, n, ps, hk, hn, rfl, hch, rfl, rfl⟩ := hr
    obtain ⟨hok, hid⟩ := clsOK_of_get hi hk hn
    by_cases hall : ∀ d ∈ n.children, Final cf eg costs (eg.rt d)
    · have : ∃ cs, List.Forall₂ (HasCost eg costs) n.children cs ∧ List.Forall₂ cf.Le cs (ps.map Prod.snd) := by
        have hlt := hok.child n hn
        clear ih
        generalize n.children = l at hch hall hlt
        induction hch with
        | nil => exact ⟨[], .nil, .nil⟩
        | @cons d p l ps a b ih =>
          obtain ⟨cs, q1, q2⟩ := ih (fun d hd => hall d (by simp [hd])) (fun d hd => hlt d (by simp [hd]))
          have hd := hlt d (by simp)
          obtain ⟨v, m, p1, p2⟩ := hall d (by simp) p.1 p.2 (costIn_congr hi (hi.rtLt d hd) (hi.rtIdem d).symm a)
          exact ⟨v :: cs, .cons ⟨m, p1⟩ q1, .cons p2 q2⟩
      obtain ⟨cs, q1, q2⟩ := this
      exact ⟨k, cf.cost n cs, ⟨hok, by rw [hid]; exact hnf, n, hn, cs, q1, rfl⟩, h.mono _ _ _ q2⟩
    · push Not at hall
      obtain ⟨d, hd, hdf⟩ := hall
      obtain ⟨p, hp, hrt⟩ := forall₂_mem_left hch hd
      obtain ⟨k', x, h1, h2⟩ := ih p.1 (List.mem_map_of_mem hp) d p.2 hrt hdf
      exact ⟨k', x, h1, h.trans _ _ _ h2 (h.above _ _ _ (List.mem_map_of_mem hp))⟩

theorem exists_least {α : Type} (h : cf.OK) (f : α → Cost) : ∀ (l : List α) (P : α → Prop), (∃ a ∈ l, P a) →
    ∃ a ∈ l, P a ∧ ∀ b ∈ l, P b → cf.Le (f a) (f b) := by
  intro l
  induction l with
  | nil => rintro P ⟨a, ha, _⟩; cases ha
  | cons b l ih =>
    intro P hex
    by_cases hl : ∃ a ∈ l, P a
    · obtain ⟨a, h1, h2, h3⟩ := ih P hl
      by_cases hb : P b ∧ cf.Le (f b) (f a)
      · refine ⟨b, by simp, hb.1, ?_⟩
        intro c hc hpc
        rcases List.mem_cons.1 hc with rfl | hc
        · exact h.leRefl _
        · exact h.trans _ _ _ hb.2 (h3 c hc hpc)
      · refine ⟨a, by simp [h1], h2, ?_⟩
        intro c hc hpc
        rcases List.mem_cons.1 hc with rfl | hc
        · exact (h.total (f a) (f c)).resolve_right (fun hle => hb ⟨hpc, hle⟩)
        · exact h3 c hc hpc
    · obtain ⟨a, ha, hpa⟩ := hex
      rcases List.mem_cons.1 ha with rfl | ha
      · refine ⟨a, by simp, hpa, ?_⟩
        intro c hc hpc
        rcases List.mem_cons.1 hc with rfl | hc
        · exact h.leRefl _
        · exact absurd ⟨c, hc, hpc⟩ hl
      · exact absurd ⟨a, ha, hpa⟩ hl

/-- If some class is not final before a pass over all classes, one such class is final
afterwards. -/
theorem pass_progress (h : cf.OK) (hi : ClassInv eg) {ks : List (EClass Op D)}
    (hall : ∀ k, ClsOK eg k → k ∈ ks) (hdom : ∀ k ∈ ks, Dominated cf eg costs costs' k)
    (hex : ∃ k, ClsOK eg k ∧ ¬ Final cf eg costs k.id) :
    ∃ k, ClsOK eg k ∧ ¬ Final cf eg costs k.id ∧ Final cf eg costs' k.id := by
  classical
  obtain ⟨k0, hk0, hf0⟩ := hex
  have hf0' := hf0
  unfold Final at hf0'
  push Not at hf0'
  obtain ⟨t0, v0, ht0, _⟩ := hf0'
  obtain ⟨k1, x1, hc1, _⟩ := exists_cand (cf := cf) (costs := costs) h hi t0 k0.id v0 ht0 (by rw [hk0.root.2]; exact hf0)
  -- all candidates come from a finite list
  let cands : List (EClass Op D × ENode Op) := ks.flatMap (fun k => k.nodes.map (fun n => (k, n)))
  let P : EClass Op D × ENode Op → Prop := fun p => ClsOK eg p.1 ∧ ¬ Final cf eg costs p.1.id ∧ p.2 ∈ p.1.nodes ∧ ∃ x, NodeCost cf eg costs p.2 x
  have hmem : ∀ k n, ClsOK eg k → n ∈ k.nodes → (k, n) ∈ cands := by
    intro k n hk hn
    exact List.mem_flatMap.2 ⟨k, hall k hk, List.mem_map.2 ⟨n, hn, rfl⟩⟩
  let f : EClass Op D × ENode Op → Cost := fun p => if hx : ∃ x, NodeCost cf eg costs p.2 x then hx.choose else x1
  have hf : ∀ p x, NodeCost cf eg costs p.2 x → f p = x := by
    intro p x hx
    have hex : ∃ x, NodeCost cf eg costs p.2 x := ⟨x, hx⟩
    simp only [f, dif_pos hex]
    exact hex.choose_spec.unique hx
  obtain ⟨a1, a2, n1, a3, a4⟩ := hc1
  obtain ⟨⟨k, n⟩, h1, ⟨h2, h3, h4, x, hx⟩, h5⟩ := exists_least h f cands P ⟨(k1, n1), hmem _ _ a1 a3, a1, a2, a3, x1, a4⟩
  refine ⟨k, h2, h3, ?_⟩
  obtain ⟨v, m, q1, q2⟩ := hdom k (hall k h2) n h4 x hx
  refine fun t y ht => ⟨v, m, q1, ?_⟩
  obtain ⟨k', x', ⟨c1, c2, n', c3, c4⟩, hle⟩ := exists_cand (cf := cf) (costs := costs) h hi t k.id y ht (by rw [h2.root.2]; exact h3)
  have := h5 (k', n') (hmem _ _ c1 c3) ⟨c1, c2, c3, x', c4⟩
  rw [hf (k, n) x hx, hf (k', n') x' c4] at this
  exact h.trans _ _ _ q2 (h.trans _ _ _ this hle)

/-- At a fixpoint all entries are final. -/
theorem final_of_dominated (h : cf.OK) (hi : ClassInv eg) (hdom : ∀ k, ClsOK eg k → Dominated cf eg costs costs k) :
    ∀ k, ClsOK eg k → Final cf eg costs k.id := by
  have key : ∀ (t : Term Op) (c : Id) (y : Cost), CostIn cf eg c t y → ∃ v m, costs.get? (eg.rt c) = some (v, m) ∧ cf.Le v y := by
    intro t
    induction t using Term.ind with
    | h op ts ih =>
      intro c y hr
      rw [costIn_iff hi] at hr
      obtain ⟨hc, k, n, ps, hk, hn, rfl, hch, rfl, rfl⟩ := hr
      obtain ⟨hok, hid⟩ := clsOK_of_get hi hk hn
      have : ∃ cs, List.Forall₂ (HasCost eg costs) n.children cs ∧ List.Forall₂ cf.Le cs (ps.map Prod.snd) := by
        generalize n.children = l at hch
        induction hch with
        | nil => exact ⟨[], .nil, .nil⟩
        | @cons d p l ps a b ih' =>
          obtain ⟨cs, q1, q2⟩ := ih' (fun t ht => ih t (by
            obtain ⟨q, hq, rfl⟩ := List.mem_map.1 ht
            exact List.mem_map_of_mem (List.mem_cons_of_mem _ hq)))
          obtain ⟨v, m, p1, p2⟩ := ih p.1 (by simp) d p.2 a
          exact ⟨v :: cs, .cons ⟨m, p1⟩ q1, .cons p2 q2⟩
      obtain ⟨cs, q1, q2⟩ := this
      obtain ⟨v, m, p1, p2⟩ := hdom k hok n hn _ ⟨cs, q1, rfl⟩
      rw [hid] at p1
      exact ⟨v, m, p1, h.trans _ _ _ p2 (h.mono _ _ _ q2)⟩
  intro k hk t y ht
  have := key t k.id y ht
  rwa [hk.root.2] at this

/-- The table at the end of `find_costs`. -/
structure Done (cf : NodeCostFn Op Cost) (eg : EGraph Op D) (costs : Costs Op Cost) : Prop where
  inv : TInv cf eg costs
  dom : ∀ k, ClsOK eg k → Dominated cf eg costs costs k
  final : ∀ k, ClsOK eg k → Final cf eg costs k.id

theorem findCosts_partial (h : cf.OK) (hi : ClassInv eg) {ks : List (EClass Op D)}
    (hall : ∀ k, ClsOK eg k ↔ k ∈ ks) : ∀ (f : Nat) (costs : Costs Op Cost), TInv cf eg costs →
    findCosts cf eg ks f costs = .error .fuel ∨ ∃ costs', findCosts cf eg ks f costs = .ok costs' ∧ Done cf eg costs' := by
  intro f
  induction f with
  | zero => intro costs _; exact Or.inl rfl
  | succ f ih =>
    intro costs ht
    obtain ⟨costs', did', h1, h2, h3, h4, h5, _⟩ := costPass_spec h hi ks costs false ht (fun k hk => (hall k).2 hk)
    simp only [findCosts, h1, ok_bind]
    cases did' with
    | true => exact ih costs' h2
    | false =>
      obtain ⟨_, rfl⟩ := h5 rfl
      have hd : ∀ k, ClsOK eg k → Dominated cf eg costs' costs' k := fun k hk => h4 k ((hall k).1 hk)
      exact Or.inr ⟨costs', rfl, ht, hd, final_of_dominated h hi hd⟩

theorem findCosts_total (h : cf.OK) (hi : ClassInv eg) {ks : List (EClass Op D)}
    (hall : ∀ k, ClsOK eg k ↔ k ∈ ks) (P : EClass Op D → Bool) : ∀ (f : Nat) (costs : Costs Op Cost), TInv cf eg costs →
    (∀ k, P k = true → Final cf eg costs k.id) → (ks.filter (fun k => !P k)).length < f →
    ∃ costs', findCosts cf eg ks f costs = .ok costs' := by
  intro f
  induction f generalizing P with
  | zero => intro costs _ _ hlt; omega
  | succ f ih =>
    intro costs ht hP hlt
    obtain ⟨costs', did', h1, h2, h3, h4, h5, h6⟩ := costPass_spec h hi ks costs false ht (fun k hk => (hall k).2 hk)
    simp only [findCosts, h1, ok_bind]
    cases did' with
    | false => exact ⟨costs', rfl⟩
    | true =>
      by_cases hex : ∃ k, ClsOK eg k ∧ ¬ Final cf eg costs k.id
      · obtain ⟨k, q1, q2, q3⟩ := pass_progress h hi (fun k hk => (hall k).1 hk) h4 hex
        classical
        refine ih (fun k' => P k' || decide (k'.id = k.id)) costs' h2 ?_ ?_
        · intro k' hk'
          simp only [Bool.or_eq_true, decide_eq_true_eq] at hk'
          rcases hk' with hk' | hk'
          · exact (hP k' hk').later h h3
          · rw [hk']; exact q3
        · have hkn : P k = false := by
            cases hp : P k with
            | false => rfl
            | true => exact absurd (hP k hp) q2
          have hmem : k ∈ ks.filter (fun k => !P k) := List.mem_filter.2 ⟨(hall k).1 q1, by simp [hkn]⟩
          have hsub : (ks.filter (fun k' => !(P k' || decide (k'.id = k.id)))).length < (ks.filter (fun k => !P k)).length := by
            have he : ks.filter (fun k' => !(P k' || decide (k'.id = k.id))) =
                (ks.filter (fun k => !P k)).filter (fun k' => !decide (k'.id = k.id)) := by
              rw [List.filter_filter]
              congr 1
              funext k'
              cases P k' <;> simp
            rw [he]
            exact List.length_filter_lt_length_iff_exists.2 ⟨k, hmem, by simp⟩
          omega
      · push Not at hex
        rcases h6 rfl with hd | ⟨costs1, r1, r2, r3⟩
        · cases hd
        · exact absurd r3 (not_improvable h hi r1 (fun k hk => (hex k hk).later h r2))

/-! ### Extracting terms -/

theorem Done.entry (hi : ClassInv eg) (hd : Done cf eg costs) {i : Id} {x : Cost} {n : ENode Op}
    (hx : costs.get? (eg.rt i) = some (x, n)) :
    ∃ k, eg.classes.get? (eg.rt i) = some k ∧ n ∈ k.nodes ∧
      (∀ d ∈ n.children, d < eg.nodes.length) ∧ (∃ y, NodeCost cf eg costs n y ∧ cf.Le y x ∧ cf.Le x y) := by
  obtain ⟨k, hk, hn⟩ := hd.inv.key _ _ _ hx
  obtain ⟨hok, hid⟩ := clsOK_of_get hi hk hn
  obtain ⟨y, hy, hle⟩ := hd.inv.stored _ _ _ hx
  obtain ⟨v, m, q1, q2⟩ := hd.dom k hok n hn y hy
  rw [hid, hx] at q1
  cases q1
  exact ⟨k, hk, hn, hok.child n hn, y, hy, hle, q2⟩

/-- The ranking of the choices. -/
theorem Done.wf (h : cf.OK) (hd : Done cf eg costs) : ∃ r : Fin eg.nodes.length → Fin eg.nodes.length → Prop, WellFounded r ∧
    ∀ (i : Id) (hi : i < eg.nodes.length) x n, costs.get? (eg.rt i) = some (x, n) → ∀ d ∈ n.children, ∀ (hdl : d < eg.nodes.length) y,
      HasCost eg costs d y → r ⟨d, hdl⟩ ⟨i, hi⟩ := by
  obtain ⟨τ, hτ⟩ := hd.inv.rank
  let r : Fin eg.nodes.length → Fin eg.nodes.length → Prop := fun a b => ∃ x y, HasCost eg costs a.1 x ∧ HasCost eg costs b.1 y ∧
    cf.Le x y ∧ (cf.pcmp x y = some .lt ∨ τ (eg.rt a.1) < τ (eg.rt b.1))
  have hirr : ∀ a, ¬ r a a := by
    rintro a ⟨x, y, h1, h2, h3, h4⟩
    have := h1.unique h2
    subst this
    rcases h4 with h4 | h4
    · exact h.lt_iff.1 h4 (h.leRefl x)
    · omega
  have htr : ∀ a b c, r a b → r b c → r a c := by
    rintro a b c ⟨x, y, h1, h2, h3, h4⟩ ⟨y', z, h5, h6, h7, h8⟩
    have := h2.unique h5
    subst this
    refine ⟨x, z, h1, h6, h.trans _ _ _ h3 h7, ?_⟩
    rcases h4 with h4 | h4
    · exact Or.inl (h.lt_of_lt_le h4 h7)
    · rcases h8 with h8 | h8
      · exact Or.inl (h.lt_of_le_lt h3 h8)
      · exact Or.inr (by omega)
  haveI : IsTrans (Fin eg.nodes.length) r := ⟨htr⟩
  haveI : Std.Irrefl r := ⟨hirr⟩
  refine ⟨r, Finite.wellFounded_of_trans_of_irrefl r, ?_⟩
  intro i hil x n hx d hdn hdl y hy
  obtain ⟨h1, h2⟩ := hτ _ _ _ hx d hdn y hy
  exact ⟨y, x, hy, ⟨n, hx⟩, h1, h2⟩

theorem Done.unfold (h : cf.OK) (hi : ClassInv eg) (hd : Done cf eg costs) {i : Id} (hlt : i < eg.nodes.length)
    (hc : ∃ x, HasCost eg costs i x) : ∃ t y x n, Unfolds (choice eg costs) i t ∧ CostIn cf eg i t y ∧ costs.get? (eg.rt i) = some (x, n) ∧ cf.Same x y := by
  obtain ⟨r, hwf, hr⟩ := hd.wf h
  suffices H : ∀ j : Fin eg.nodes.length, (∃ x, HasCost eg costs j.1 x) → ∃ t y x n, Unfolds (choice eg costs) j.1 t ∧ CostIn cf eg j.1 t y ∧
      costs.get? (eg.rt j.1) = some (x, n) ∧ cf.Same x y from H ⟨i, hlt⟩ hc
  intro j
  induction j using hwf.induction with
  | h j ih =>
    obtain ⟨i, hlt⟩ := j
    rintro ⟨x, n, hx⟩
    obtain ⟨k, hk, hn, hch, y, ⟨cs, hcs, rfl⟩, hle1, hle2⟩ := hd.entry hi hx
    have hlist : ∃ ps : List (Term Op × Cost), List.Forall₂ (Unfolds (choice eg costs)) n.children (ps.map Prod.fst) ∧
        List.Forall₂ (fun d (p : Term Op × Cost) => CostIn cf eg d p.1 p.2) n.children ps ∧
        List.Forall₂ cf.Le cs (ps.map Prod.snd) ∧ List.Forall₂ cf.Le (ps.map Prod.snd) cs := by
      have hstep : ∀ d ∈ n.children, ∀ y, HasCost eg costs d y → ∃ t z, Unfolds (choice eg costs) d t ∧ CostIn cf eg d t z ∧
          cf.Same y z := by
        intro d hdn y hy
        obtain ⟨t, z, x', n', q1, q2, q3, q4⟩ := ih ⟨d, hch d hdn⟩ (hr i hlt x n hx d hdn (hch d hdn) y hy) ⟨y, hy⟩
        obtain ⟨m, hm⟩ := hy
        have q3 : costs.get? (eg.rt d) = some (x', n') := q3
        rw [hm] at q3
        cases q3
        exact ⟨t, z, q1, q2, q4⟩
      clear hle1 hle2
      generalize n.children = l at hcs hstep
      induction hcs with
      | nil => exact ⟨[], .nil, .nil, .nil, .nil⟩
      | @cons d y l cs a b ih' =>
        obtain ⟨ps, p1, p2, p3, p4⟩ := ih' (fun d hd => hstep d (by simp [hd]))
        obtain ⟨t, z, q1, q2, q3⟩ := hstep d (by simp) y a
        have q3 := h.same_iff.1 q3
        exact ⟨(t, z) :: ps, .cons q1 p1, .cons q2 p2, .cons q3.1 p3, .cons q3.2 p4⟩
    obtain ⟨ps, p1, p2, p3, p4⟩ := hlist
    refine ⟨.node n.op (ps.map Prod.fst), cf.cost n (ps.map Prod.snd), x, n, ?_, ?_, hx, ?_⟩
    · rw [unfolds_iff]
      exact ⟨n, by simp [choice, hlt, hx], rfl, p1⟩
    · rw [costIn_iff hi]
      exact ⟨hlt, k, n, ps, hk, hn, rfl, p2, rfl, rfl⟩
    · rw [h.same_iff]
      exact ⟨h.trans _ _ _ hle2 (h.mono _ _ _ p3), h.trans _ _ _ (h.mono _ _ _ p4) hle1⟩

/-! ### The calls -/

theorem new_total (h : cf.OK) (hi : ClassInv eg) {ks : List (EClass Op D)} (hks : ks.Perm (eg.classes.map Prod.snd))
    (hne : ∀ k ∈ ks, k.nodes ≠ []) {passes : Nat} (hp : eg.classes.length < passes) : ∃ x, ByNode.new cf eg ks passes = .ok x := by
  obtain ⟨costs, hc⟩ := findCosts_total (P := fun _ => false) h hi (classes_ok hi hks hne) passes [] TInv.empty
    (fun k hk => by cases hk) (by have := hks.length_eq; simp at this ⊢; omega)
  exact ⟨⟨costs⟩, by simp [ByNode.new, hc]⟩

theorem new_done (h : cf.OK) (hi : ClassInv eg) {ks : List (EClass Op D)} (hks : ks.Perm (eg.classes.map Prod.snd))
    (hne : ∀ k ∈ ks, k.nodes ≠ []) {passes : Nat} {x : Extractor Op Cost} (hx : ByNode.new cf eg ks passes = .ok x) :
    Done cf eg x.costs := by
  unfold ByNode.new at hx
  rw [bind_eq_ok] at hx
  obtain ⟨costs, h1, h2⟩ := hx
  cases h2
  rcases findCosts_partial h hi (classes_ok hi hks hne) passes [] TInv.empty with h3 | ⟨costs', h3, h4⟩
  · rw [h1] at h3; cases h3
  · rw [h1] at h3; cases h3; exact h4

theorem Done.best (h : cf.OK) (hi : ClassInv eg) {x : Extractor Op Cost} (hd : Done cf eg x.costs) {c : Id} {t0 : Term Op} {v0 : Cost}
    (h0 : CostIn cf eg c t0 v0) :
    ∃ fuel cost e t v, (∀ f, fuel ≤ f → x.findBest eg f c = .ok (cost, e)) ∧ x.findBestCost eg c = .ok cost ∧
      WFExpr e ∧ ExprTerm e t ∧ Rep eg c t ∧ CostIn cf eg c t v ∧ cf.Same cost v ∧
      ∀ t' v', CostIn cf eg c t' v' → cf.Le cost v' := by
  have hc : c < eg.nodes.length := by
    obtain ⟨op, ts⟩ := t0
    exact ((costIn_iff hi).1 h0).1
  have hfin : ∀ t v, CostIn cf eg c t v → ∃ w m, x.costs.get? (eg.rt c) = some (w, m) ∧ cf.Le w v := by
    intro t v ht
    obtain ⟨op, ts⟩ := t
    obtain ⟨_, k, n, _, h1, h2, _⟩ := (costIn_iff hi).1 ht
    obtain ⟨hok, hid⟩ := clsOK_of_get hi h1 h2
    rw [← hid]
    exact hd.final k hok _ v (by rw [hid]; exact costIn_congr hi (hi.rtLt c hc) (hi.rtIdem c).symm ht)
  obtain ⟨w, m, hw, _⟩ := hfin t0 v0 h0
  obtain ⟨t, y, v, n, h1, h2, h3, h4⟩ := hd.unfold h hi hc ⟨w, m, hw⟩
  obtain ⟨op, ts⟩ := t
  have hu := unfolds_iff.1 h1
  obtain ⟨n', g1, g2, g3⟩ := hu
  have hnn : n' = n := by simpa [choice, hc, h3] using g1.symm
  subst hnn
  subst g2
  have hgn : ∀ i m, choice eg x.costs i = some m → x.findBestNode eg i = .ok m := by
    intro i m hm
    unfold choice at hm
    split at hm
    · next hlt =>
      rw [Option.map_eq_some_iff] at hm
      obtain ⟨e, he, rfl⟩ := hm
      simp [Extractor.findBestNode, Extractor.entry, hi.find hlt, he, unwrap]
    · cases hm
  obtain ⟨f0, e, q1, q2, q3, _⟩ := RecExpr.build_spec hgn g3
  have hwf : WFExpr e := ⟨q3.1, q2⟩
  refine ⟨f0, v, e, .node n'.op ts, y, ?_, ?_, hwf, q3, costIn_rep hi _ _ _ h2, h2, h4, ?_⟩
  · intro f hf
    simp [Extractor.findBest, Extractor.entry, hi.find hc, h3, unwrap, q1 f hf]
  · simp [Extractor.findBestCost, Extractor.entry, hi.find hc, h3, unwrap]
  · intro t' y' ht'
    obtain ⟨w', m', r1, r2⟩ := hfin t' y' ht'
    rw [h3] at r1
    cases r1
    exact r2

/-- A class of which no term can be read off has no entry. -/
theorem Done.none (hi : ClassInv eg) {x : Extractor Op Cost} (hd : Done cf eg x.costs) {c : Id} (hc : c < eg.nodes.length)
    (hn : ∀ t v, ¬ CostIn cf eg c t v) : x.entry eg c = .error .panic := by
  cases hx : x.costs.get? (eg.rt c) with
  | none => simp [Extractor.entry, hi.find hc, hx, unwrap]
  | some e =>
    obtain ⟨t, ht⟩ := hd.inv.real _ e.1 e.2 hx
    exact absurd (costIn_congr hi hc (hi.rtIdem c) ht) (hn _ _)

/-- `Extractor::new` panics on an empty class. -/
theorem costPass_empty (h : cf.OK) (hi : ClassInv eg) : ∀ (ks : List (EClass Op D)) (costs : Costs Op Cost) (did : Bool),
    (∀ k ∈ ks, ∀ n ∈ k.nodes, ∀ d ∈ n.children, d < eg.nodes.length) → (∃ k ∈ ks, k.nodes = []) →
    costPass cf eg costs did ks = .error .panic := by
  intro ks
  induction ks with
  | nil => rintro costs did _ ⟨k, hk, _⟩; cases hk
  | cons k ks ih =>
    rintro costs did hch ⟨k', hk', he⟩
    by_cases hk : k.nodes = []
    · simp [costPass, makePass, hk]
    · obtain ⟨o, h1, _⟩ := makePass_spec (costs := costs) h hi hk (hch k (by simp))
      simp only [costPass, h1, ok_bind]
      refine ih _ _ (fun k hk => hch k (by simp [hk])) ⟨k', ?_, he⟩
      rcases List.mem_cons.1 hk' with rfl | hk'
      · exact absurd he hk
      · exact hk'

theorem new_empty (h : cf.OK) (hi : ClassInv eg) {ks : List (EClass Op D)} (hks : ks.Perm (eg.classes.map Prod.snd))
    (he : ∃ k ∈ ks, k.nodes = []) (passes : Nat) : ByNode.new cf eg ks (passes + 1) = .error .panic := by
  have : costPass cf eg [] false ks = .error .panic := by
    refine costPass_empty h hi ks _ _ (fun k hk => ?_) he
    obtain ⟨⟨c, k'⟩, h1, rfl⟩ := List.mem_map.1 (hks.mem_iff.1 hk)
    exact (hi.cls c k' (AMap.get?_of_mem hi.nodup h1)).2.2.2
  simp [ByNode.new, findCosts, this]

end
end ByNode
end Egg
