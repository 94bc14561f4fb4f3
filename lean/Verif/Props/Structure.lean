import Verif.Props.Closure
import Verif.Lemmas.Struct
/-
C03-C06: union-find, union, hash-consing, lookup.
-/
namespace Egg
variable {Op D : Type} [DecidableEq Op] [Lang Op]

/-! ### C03 -/

theorem UFReach.wf {ps : UF} (h : UFReach ps) : UF.WF ps := by
  induction h with
  | new => exact UF.wf_nil
  | makeSet _ ih => exact UF.wf_makeSet ih
  | @findMut ps ps' i r _ hf ih =>
    by_cases hi : i < ps.length
    · obtain ⟨uf, h1, h2⟩ := UF.findMut_ok ih hi
      rw [hf] at h1; cases h1
      exact h2.wf
    · rw [UF.findMut_error hi] at hf; cases hf
  | @union ps ps' a b _ ha hb hab hu ih =>
    rw [UF.find_ok_iff ih] at ha hb
    unfold UF.union at hu
    rw [if_pos hb.1] at hu
    cases hu
    exact (UF.union_spec ih ha.1 hb.1 ha.2 hb.2 hab).1

/-- **C03.**  In every reachable union-find, `find` of every existing id succeeds,
and its result is its own `find`. -/
theorem c03_find_idempotent {ps : UF} (h : UFReach ps) {i : Id} (hi : i < ps.length) :
    ∃ r, UF.find ps i = .ok r ∧ UF.find ps r = .ok r := by
  have hw := h.wf
  refine ⟨UF.root ps i, UF.find_eq_ok hw hi, ?_⟩
  rw [UF.find_ok_iff hw]
  exact ⟨UF.root_lt hw hi, UF.root_root hw hi⟩

/-- **C03.**  A path-compressing find of an existing id succeeds, returns what
`find` returns, and leaves `find` of every id (existing or not) unchanged. -/
theorem c03_compression_invisible {ps : UF} (h : UFReach ps) {i : Id} (hi : i < ps.length) :
    ∃ ps' r, UF.findMut ps i = .ok (ps', r) ∧ UF.find ps i = .ok r ∧ ∀ j, UF.find ps' j = UF.find ps j := by
  have hw := h.wf
  obtain ⟨uf, h1, h2⟩ := UF.findMut_ok hw hi
  refine ⟨uf, _, h1, UF.find_eq_ok hw hi, ?_⟩
  intro j
  by_cases hj : j < ps.length
  · rw [UF.find_eq_ok hw hj, UF.find_eq_ok h2.wf (by rw [h2.len]; exact hj), h2.root]
  · rw [UF.find_error_of_ge hj, UF.find_error_of_ge (by rw [h2.len]; exact hj)]

/-- **C03.**  `union` of two roots makes the ids of the second tree (and no
others) answer the first root. -/
theorem c03_union_find {ps ps' : UF} (h : UFReach ps) {a b : Id} (ha : UF.find ps a = .ok a)
    (hb : UF.find ps b = .ok b) (hab : a ≠ b) (hu : UF.union ps a b = .ok ps') (i r : Id) :
    UF.find ps' i = .ok r ↔ (UF.find ps i = .ok b ∧ r = a) ∨ (UF.find ps i = .ok r ∧ r ≠ b) := by
  have hw := h.wf
  rw [UF.find_ok_iff hw] at ha hb
  unfold UF.union at hu
  rw [if_pos hb.1] at hu
  cases hu
  obtain ⟨h1, h2⟩ := UF.union_spec hw ha.1 hb.1 ha.2 hb.2 hab
  rw [UF.find_ok_iff h1, UF.find_ok_iff hw, UF.find_ok_iff hw]
  simp only [List.length_set]
  constructor
  · rintro ⟨hi, hr⟩
    rw [h2 i hi] at hr
    split at hr
    · rename_i e; exact Or.inl ⟨⟨hi, e⟩, hr.symm⟩
    · rename_i e; exact Or.inr ⟨⟨hi, hr⟩, by rw [← hr]; exact e⟩
  · rintro (⟨⟨hi, e⟩, rfl⟩ | ⟨⟨hi, e⟩, hne⟩)
    · exact ⟨hi, by rw [h2 i hi, if_pos e]⟩
    · exact ⟨hi, by rw [h2 i hi, if_neg (by rw [e]; exact hne), e]⟩

/-- **C03** for e-graphs: in every state of every history `find` is total and
idempotent on valid ids, and the canonical id is the key of a class. -/
theorem c03_egraph_find {A : UserAnalysis Op D} {depth : Nat} {allow : Caller Op D}
    {U : List (UnionRec Op)} {eg : EGraph Op D} (h : Hist (A.at depth) allow U eg) {i r : Id}
    (hr : eg.find i = .ok r) : eg.find r = .ok r ∧ ∃ k, eg.classes.get? r = some k ∧ k.id = r := by
  have hg := hist_good h
  rw [hg.inv.find_iff] at hr
  obtain ⟨hi, rfl⟩ := hr
  obtain ⟨k, hk⟩ := hg.inv.exists_cls hi
  exact ⟨hg.inv.find_iff.2 ⟨hg.inv.core.rtLt i hi, hg.inv.core.rtIdem i⟩, k, hk,
    hg.inv.core.clsId _ _ (EGraph.sk_eq hk)⟩

/-- Five sets, three unions, one compressing find: 4 → 3 → 1 → 0. -/
example : ∃ ps ps', UFReach ps ∧ ps = [0, 0, 2, 1, 3] ∧ UF.findMut ps 4 = .ok (ps', 0) ∧ ps' ≠ ps ∧
    UF.find ps 4 = .ok 0 :=
  ⟨_, _, .union (a := 0) (b := 1) (.union (a := 1) (b := 3) (.union (a := 3) (b := 4)
    (.makeSet (.makeSet (.makeSet (.makeSet (.makeSet .new))))) rfl rfl (by decide) rfl) rfl rfl (by decide) rfl)
    rfl rfl (by decide) rfl, rfl, rfl, by decide, rfl⟩

/-! ### C04 -/

/-- **C04.**  `union` answers `true` exactly when the two ids were in different
classes; afterwards exactly the pairs equal before, or lying one in each of the
two classes, are equal (for an analysis whose `modify` does nothing). -/
theorem c04_union_exact {A : UserAnalysis Op D} (hA : ∀ i, A.modify i = .done) {depth : Nat}
    {allow : Caller Op D} {U : List (UnionRec Op)} {eg eg' : EGraph Op D}
    (h : Hist (A.at depth) allow U eg) {a b : Id} {caller : Symbol} {r : Bool}
    (hu : EGraph.union (A.at depth) eg a b caller = .ok (eg', r)) :
    (r = true ↔ ¬ SameClass eg a b) ∧
    ∀ x y, SameClass eg' x y ↔ SameClass eg x y ∨ (SameClass eg x a ∧ SameClass eg b y) ∨
      (SameClass eg x b ∧ SameClass eg a y) := by
  have hg := hist_good h
  have hv : Valid eg a ∧ Valid eg b := by
    by_contra hv; rw [(EGraph.union_error hg hv).1] at hu; cases hu
  rw [hg.valid_iff, hg.valid_iff] at hv
  obtain ⟨rule, hrule, hJ⟩ : ∃ rule, EGraph.performUnion (A.at depth) eg a b rule = .ok (eg', r) ∧
      EGraph.JustOK (Cfg.ofR _ isCongruence_true anyReason) eg a b rule := by
    unfold EGraph.union at hu
    split at hu
    · exact ⟨_, hu, trivial⟩
    · rename_i hx; exact ⟨_, hu, by simpa [EGraph.JustOK] using hx⟩
  rcases EGraph.performUnion_cases (N := A.at depth) (hg.inv.monoW (fun _ _ e => Or.inl e)) hv.1 hv.2
      (fun _ _ _ _ => trivial) hJ with ⟨e, eg1, h1, h2, h3, h4, _⟩ | ⟨e, eg1, p, q, c1, c2, hpq, hl, h2, h3, _⟩
  · rw [hrule] at h1
    cases h1
    constructor
    · simp [hg.inv.sameClass_iff, e, hv]
    · intro x y
      simp only [h2.sameClass_iff, hg.inv.sameClass_iff, h3, h4, e]
      constructor
      · intro h; exact Or.inl h
      · rintro (h | ⟨⟨a1, a2, a3⟩, b1, b2, b3⟩ | ⟨⟨a1, a2, a3⟩, b1, b2, b3⟩)
        · exact h
        · exact ⟨a1, b2, a3.trans b3⟩
        · exact ⟨a1, b2, a3.trans b3⟩
  · rw [hrule, eq_comm, bind_eq_ok] at h3
    obtain ⟨eg2, h4, h5⟩ := h3
    cases h5
    have := A.quiet_modify hA h4
    subst this
    constructor
    · simp [hg.inv.sameClass_iff, e, hv]
    · intro x y
      simp only [h2.sameClass_iff, hg.inv.sameClass_iff, hl.rt, hl.nodes]
      have e' : eg.rt b ≠ eg.rt a := fun hh => e hh.symm
      rcases hpq with ⟨rfl, rfl⟩ | ⟨rfl, rfl⟩
      · by_cases hx : eg.rt x = eg.rt b <;> by_cases hy : eg.rt y = eg.rt b <;>
          simp [hx, hy, hv, e, e', eq_comm (a := eg.rt b), eq_comm (a := eg.rt a)] <;> tauto
      · by_cases hx : eg.rt x = eg.rt a <;> by_cases hy : eg.rt y = eg.rt a <;>
          simp [hx, hy, hv, e, e', eq_comm (a := eg.rt b), eq_comm (a := eg.rt a)] <;> tauto

/-- Whatever the hooks do, the flag is exact, the two ids are equal afterwards,
and no equality is lost. -/
theorem c04_union_any_hooks {A : UserAnalysis Op D} {depth : Nat}
    {allow : Caller Op D} {U : List (UnionRec Op)} {eg eg' : EGraph Op D}
    (h : Hist (A.at depth) allow U eg) {a b : Id} {caller : Symbol} {r : Bool}
    (hu : EGraph.union (A.at depth) eg a b caller = .ok (eg', r)) :
    (r = true ↔ ¬ SameClass eg a b) ∧ SameClass eg' a b ∧ ∀ x y, SameClass eg x y → SameClass eg' x y := by
  have hg := hist_good h
  have hv : Valid eg a ∧ Valid eg b := by
    by_contra hv; rw [(EGraph.union_error hg hv).1] at hu; cases hu
  obtain ⟨s, hs⟩ := hg.sensible.inhabited a hv.1
  obtain ⟨t, ht⟩ := hg.sensible.inhabited b hv.2
  obtain ⟨h1, h2, h3, h4⟩ := (EGraph.Good.union_post ((soundFor_true A).hookOK trivial depth) hg hs ht trivial
    trivial).1.elim hu
  rw [hg.valid_iff, hg.valid_iff] at hv
  have hl := h2.len
  refine ⟨?_, ?_, ?_⟩
  · rw [h4, hg.inv.sameClass_iff]; simp [hv]
  · rw [h1.inv.sameClass_iff]; exact ⟨by omega, by omega, h3⟩
  · intro x y hxy
    rw [hg.inv.sameClass_iff] at hxy
    rw [h1.inv.sameClass_iff]
    exact ⟨by omega, by omega, h2.rt x y hxy.1 hxy.2.1 hxy.2.2⟩

/-- Uniting `a` and `b` merges them and leaves `f a`, `f b` apart (no rebuild yet). -/
example : Hist (Ex.U0.at 1) .noSet [] Ex.e4 ∧
    EGraph.union (Ex.U0.at 1) Ex.e4 0 1 7 = .ok (Ex.e5, true) ∧ SameClass Ex.e5 0 1 ∧ ¬ SameClass Ex.e5 2 3 :=
  ⟨Ex.hist4 _, rfl, ⟨0, rfl, rfl⟩, by rintro ⟨r, h1, h2⟩; cases h1; cases h2⟩

/-! ### C05 -/

/-- **C05.**  The class of the id returned by `add` contains the added e-node
(whatever the hooks do). -/
theorem c05_add_contains {A : UserAnalysis Op D} {depth : Nat}
    {allow : Caller Op D} {U : List (UnionRec Op)} {eg eg' : EGraph Op D}
    (h : Hist (A.at depth) allow U eg) {n : ENode Op} {i : Id}
    (ha : EGraph.add (A.at depth) eg n = .ok (eg', i)) : Holds eg' i n ∧ eg'.find i = .ok i := by
  have hg := hist_good h
  have hn : ∀ c ∈ n.children, Valid eg c := by
    by_contra hn; rw [EGraph.add_error hg hn] at ha; cases ha
  obtain ⟨h1, h2, j, nj, h3, h4, h5, _⟩ :=
    (EGraph.Good.add_post ((soundFor_true A).hookOK trivial depth) hg hn).elim ha
  have hl := h2.len
  have hi : i = eg'.rt j := h4
  subst hi
  have hj := getElem?_lt h3
  have hlt := h1.inv.core.rtLt j hj
  have hid := h1.inv.core.rtIdem j
  refine ⟨h1.inv.holds_iff.2 ⟨hlt, ?_, j, nj, h3, hid.symm, h5⟩, h1.inv.find_iff.2 ⟨hlt, hid⟩⟩
  intro c hc
  have := hg.valid_iff.1 (hn c hc)
  exact lt_of_lt_of_le this hl

/-- **C05.**  Without explanations (and with an inert `modify`): after adding `n`,
adding or looking up any e-node with the same operator and equal children returns
the very same id and changes nothing. -/
theorem c05_add_again {A : UserAnalysis Op D} (hA : ∀ i, A.modify i = .done) {depth : Nat}
    {allow : Caller Op D} {U : List (UnionRec Op)} {eg eg' : EGraph Op D}
    (h : Hist (A.at depth) allow U eg) (hx : eg.explain = none) {n n' : ENode Op} {i : Id}
    (ha : EGraph.add (A.at depth) eg n = .ok (eg', i)) (hnn : SameNode eg' n' n) :
    EGraph.add (A.at depth) eg' n' = .ok (eg', i) ∧ eg'.lookup n' = .ok (some i) := by
  have hg := hist_good h
  have hn : ∀ c ∈ n.children, Valid eg c := by
    by_contra hn; rw [EGraph.add_error hg hn] at ha; cases ha
  have hn' : ∀ c ∈ n.children, c < eg.nodes.length := fun c hc => hg.valid_iff.1 (hn c hc)
  -- the memo answers for the canonical form of `n`
  have key : EGraph.Good (Cfg.ofR _ isCongruence_true anyReason) eg' ∧ eg'.explain = none ∧
      ∃ e, eg'.memo.get? (n.mapChildren eg'.rt) = some e ∧ i = eg'.rt e ∧ e < eg'.nodes.length := by
    have hgood := (EGraph.Good.add_post ((soundFor_true A).hookOK trivial depth) hg hn).elim ha
    have hex : eg'.explain = none := by
      have := hgood.2.1.expl; rw [hx] at this; simpa using this
    refine ⟨hgood.1, hex, ?_⟩
    unfold EGraph.add at ha
    rw [bind_eq_ok] at ha
    obtain ⟨⟨eg1, j⟩, h1, h2⟩ := ha
    rw [bind_eq_ok] at h2
    obtain ⟨r, h3, h4⟩ := h2
    cases h4
    rcases EGraph.addUncanonical_cases (A.at depth) hg.inv hn' with ⟨e, i', ni, g1, g2, g3, g4, g5, g6⟩ |
        ⟨e, x, eg2, g1, g2, g3⟩ | ⟨g1, eg2, g2, g3⟩
    · rw [h1] at g2; cases g2
      rw [hg.inv.find_iff] at h3
      have := g5 hx
      subst this
      exact ⟨_, g1, h3.2.symm, h3.1⟩
    · rw [hx] at g2; cases g2
    · rw [h1, eq_comm, bind_eq_ok] at g3
      obtain ⟨d, k1, k2⟩ := g3
      rw [bind_eq_ok] at k2
      obtain ⟨eg3, k3, k4⟩ := k2
      have := A.quiet_modify hA k3
      subst this
      cases k4
      obtain ⟨q1, q2⟩ := g2 d
      have hrt : ({ eg2 d with clean := false } : EGraph Op D).rt = eg.rt := funext q2.rt
      rw [q1.setClean false |>.find_iff] at h3
      refine ⟨eg.nodes.length, ?_, h3.2.symm, h3.1⟩
      rw [hrt]
      show (eg2 d).memo.get? _ = _
      rw [q2.memo, AMap.get?_insert, if_pos rfl]
  obtain ⟨hg', hex, e, h1, h2, h3⟩ := key
  rw [hg'.inv.sameNode_iff] at hnn
  have hcan := hg'.inv.canon hnn.2.1
  have hce : n'.mapChildren eg'.rt = n.mapChildren eg'.rt := cong_iff_canon.1 hnn.1
  rw [hce] at hcan
  constructor
  · simp [EGraph.add, EGraph.addUncanonical, hcan, h1, hg'.inv.find h3, hex, h2]
  · simp [EGraph.lookup, EGraph.lookupInternal, hcan, h1, hg'.inv.find h3, h2]

/-- **C05.**  On a rebuilt e-graph (with or without explanations) adding an e-node
that some class contains returns an id of that class and creates no class;
otherwise exactly one class is created. -/
theorem c05_add_rebuilt {A : UserAnalysis Op D} (hA : ∀ i, A.modify i = .done) {depth : Nat}
    {allow : Caller Op D} {U : List (UnionRec Op)} {eg0 eg eg' : EGraph Op D} {fuel k : Nat}
    (h0 : Hist (A.at depth) allow U eg0) (hr : EGraph.rebuild (A.at depth) fuel eg0 = .ok (eg, k))
    {n : ENode Op} {i : Id} (ha : EGraph.add (A.at depth) eg n = .ok (eg', i)) :
    (∀ c, Holds eg c n → SameClass eg' c i ∧ eg'.numberOfClasses = eg.numberOfClasses) ∧
    ((¬ ∃ c, Holds eg c n) → eg'.numberOfClasses = eg.numberOfClasses + 1) := by
  have h : Hist (A.at depth) allow U eg := Steps.tail (V := []) h0 (.rebuild hr)
  have hg := hist_good h
  have hn : ∀ c ∈ n.children, Valid eg c := by
    by_contra hn; rw [EGraph.add_error hg hn] at ha; cases ha
  have hn' : ∀ c ∈ n.children, c < eg.nodes.length := fun c hc => hg.valid_iff.1 (hn c hc)
  have hp := ((EGraph.rebuild_post trivial ((soundFor_true A).hookOK trivial depth) fuel
    (hist_good h0)).elim hr).2.2.1.pending
  have hgood := (EGraph.Good.add_post ((soundFor_true A).hookOK trivial depth) hg hn).elim ha
  -- with no pending work the memo knows every e-node
  have hmemo : ∀ c, Holds eg c n → ∃ e, eg.mem (n.mapChildren eg.rt) = some e ∧ eg.rt e = eg.rt c := by
    intro c hc
    rw [hg.inv.holds_iff] at hc
    obtain ⟨_, _, j, m, h1, h2, h3⟩ := hc
    obtain ⟨r, nr, h4, h5, h6, h7⟩ := hg.inv.core.cov j m h1
    rcases hg.inv.core.congr r nr h4 h5 with hin | ⟨e, h8, h9⟩
    · rw [hp] at hin; simp at hin
    · refine ⟨e, ?_, by rw [h9, h7, h2]⟩
      rw [← h8, cong_iff_canon.1 (h3.symm.trans h6)]
  unfold EGraph.add at ha
  rw [bind_eq_ok] at ha
  obtain ⟨⟨eg1, j⟩, h1, h2⟩ := ha
  rw [bind_eq_ok] at h2
  obtain ⟨r, h3, h4⟩ := h2
  cases h4
  rcases EGraph.addUncanonical_cases (A.at depth) hg.inv hn' with ⟨e, i', ni, g1, g2, g3, g4, g5, g6⟩ |
      ⟨e, x, eg2, g1, g2, g3, g4, g5, g6⟩ | ⟨g1, eg2, g2, g3⟩
  · rw [h1] at g2; cases g2
    have hlt := getElem?_lt g3
    rw [hg.inv.find_iff] at h3
    have hh : Holds eg j n := hg.inv.holds_iff.2 ⟨hlt, hn', j, ni, g3, rfl, g4⟩
    constructor
    · intro c hc
      refine ⟨?_, rfl⟩
      obtain ⟨e1, q1, q2⟩ := hmemo c hc
      obtain ⟨e2, q3, q4⟩ := hmemo _ hh
      rw [q1] at q3; cases q3
      rw [hg.inv.sameClass_iff]
      rw [← h3.2]
      refine ⟨(hg.inv.holds_iff.1 hc).1, hg.inv.core.rtLt _ hlt, ?_⟩
      rw [hg.inv.core.rtIdem, ← q2, ← q4]
    · intro hno; exact absurd ⟨_, hh⟩ hno
  · rw [h1] at g4; cases g4
    have hh : Holds eg e n := by
      obtain ⟨ne, hne, hnec, _⟩ := hg.inv.core.memo _ _ g1
      refine hg.inv.holds_iff.2 ⟨getElem?_lt hne, hn', e, ne, hne, rfl, hnec.trans ?_⟩
      exact (Cong.canon_left (fun c _ => hg.inv.core.rtIdem c)).2 (Cong.refl _)
    constructor
    · intro c hc
      refine ⟨?_, by show eg'.classes.length = _; rw [g6.classes]; rfl⟩
      obtain ⟨e1, q1, q2⟩ := hmemo c hc
      rw [q1] at g1; cases g1
      have hcl := (hg.inv.holds_iff.1 hc).1
      rw [g5.find_iff] at h3
      rw [g5.sameClass_iff]
      have hl := g6.ext.len
      refine ⟨by omega, by rw [← h3.2]; exact g5.core.rtLt _ h3.1, ?_⟩
      rw [← h3.2, g5.core.rtIdem, g6.rt, g6.rt, if_neg (by omega), if_pos rfl, q2]
    · intro hno; exact absurd ⟨_, hh⟩ hno
  · constructor
    · intro c hc
      obtain ⟨e1, q1, q2⟩ := hmemo c hc
      rw [q1] at g1; cases g1
    · intro _
      rw [h1, eq_comm, bind_eq_ok] at g3
      obtain ⟨d, k1, k2⟩ := g3
      rw [bind_eq_ok] at k2
      obtain ⟨eg3, k3, k4⟩ := k2
      have := A.quiet_modify hA k3
      subst this
      cases k4
      obtain ⟨q1, q2⟩ := g2 d
      refine EGraph.length_of_keys_succ (x := eg.nodes.length) hg.inv.clsNodup q1.clsNodup ?_ ?_
      · cases hk : eg.classes.get? eg.nodes.length with
        | none => rfl
        | some k0 =>
          have := (hg.inv.core.clsKey eg.nodes.length).1 (by simp [EGraph.sk, hk])
          omega
      · intro c
        show ((eg2 d).classes.get? c).isSome ↔ _
        rw [q2.classes]
        split
        · rename_i e; simp [e]
        · rename_i e; simp [e]

/-- **C05, limits.**  With explanations enabled and a union not yet followed by
`rebuild`, `add` and `lookup` of the same e-node can answer different classes:
`add` prefers the id recorded for exactly this e-node, `lookup` the hashcons. -/
theorem c05_explanations_before_rebuild_counterexample :
    ∃ (eg eg' : Ex.G) (n : ENode Ex.S) (U : List (UnionRec Ex.S)) (i j : Id),
      Hist (Ex.U0.at 1) .noSet U eg ∧ EGraph.add (Ex.U0.at 1) eg n = .ok (eg', i) ∧
      eg'.lookup n = .ok (some j) ∧ ¬ SameClass eg' i j := by
  refine ⟨Ex.x5, Ex.x5, Ex.app .f [1], [⟨7, 0, 1, Ex.ta, Ex.tb⟩], 3, 2, Ex.histx5 _, rfl, rfl, ?_⟩
  rintro ⟨r, h1, h2⟩; cases h1; cases h2

/-- Hypotheses of `c05_add_again`/`c05_add_rebuilt` are met: on the rebuilt
example, `f b` is found in the class of `f a`, and `f (f a)` is new. -/
example : Hist (Ex.U0.at 1) .noSet [Ex.un] Ex.e5 ∧
    EGraph.rebuild (Ex.U0.at 1) 20 Ex.e5 = .ok (Ex.e6, 1) ∧ Ex.e6.explain = none ∧
    EGraph.add (Ex.U0.at 1) Ex.e6 (Ex.app .f [1]) = .ok (Ex.e6, 2) ∧
    (∃ e, EGraph.add (Ex.U0.at 1) Ex.e6 (Ex.app .f [2]) = .ok (e, 4)) ∧
    SameNode Ex.e6 (Ex.app .f [0]) (Ex.app .f [1]) :=
  ⟨Ex.hist5 _, rfl, rfl, rfl, ⟨_, rfl⟩, rfl, .cons ⟨0, rfl, rfl⟩ .nil⟩

/-! ### C06 -/

/-- **C06.**  On a rebuilt e-graph `lookup_expr` of a well-formed expression never
fails, and answers `Some(c)` exactly when all nodes of the expression are
represented and `c` is the canonical id of a class representing its term. -/
theorem c06_lookup_expr {A : UserAnalysis Op D} {depth : Nat}
    {allow : Caller Op D} {U : List (UnionRec Op)} {eg0 eg : EGraph Op D} {fuel k : Nat}
    (h0 : Hist (A.at depth) allow U eg0) (hr : EGraph.rebuild (A.at depth) fuel eg0 = .ok (eg, k))
    {e : List (ENode Op)} (he : WFExpr e) :
    ∃ o, eg.lookupExpr e = .ok o ∧ ∀ c, o = some c ↔
      (∀ (j : Nat) t, TermOf e j t → ∃ i, Rep eg i t) ∧ ∃ t, ExprTerm e t ∧ Rep eg c t ∧ eg.find c = .ok c := by
  have h : Hist (A.at depth) allow U eg := Steps.tail (V := []) h0 (.rebuild hr)
  have hg := hist_good h
  have hp := ((EGraph.rebuild_post trivial ((soundFor_true A).hookOK trivial depth) fuel
    (hist_good h0)).elim hr).2.2.1.pending
  have hd : Dag e := he.2
  obtain ⟨o, h1, h2, h3⟩ := EGraph.lookupExprIdsGo_ok hg.inv hd e [] [] (by simp) rfl (by intro k i hi; simp at hi)
  have hne : 0 < e.length := List.length_pos_iff.2 he.1
  cases o with
  | none =>
    refine ⟨none, by simp [EGraph.lookupExpr, EGraph.lookupExprIds, h1], ?_⟩
    intro c
    constructor
    · intro hh; cases hh
    · rintro ⟨hall, _⟩
      exact absurd rfl (h3 hp hall)
  | some ids =>
    obtain ⟨g1, g2⟩ := h2 ids rfl
    obtain ⟨i, hi⟩ : ∃ i, ids[e.length - 1]? = some i := by
      rw [List.getElem?_eq_getElem (by omega)]; exact ⟨_, rfl⟩
    have hlast : ids.getLast? = some i := by rw [List.getLast?_eq_getElem?, g2, hi]
    refine ⟨some i, by simp [EGraph.lookupExpr, EGraph.lookupExprIds, h1, hlast], ?_⟩
    obtain ⟨q1, q2, q3⟩ := g1 _ _ hi
    intro c
    constructor
    · intro hh
      cases hh
      constructor
      · intro j t ht
        have hj := ht.lt
        have hj' : j < ids.length := by rw [g2]; exact hj
        exact ⟨ids[j], (g1 j _ (List.getElem?_eq_getElem hj')).2.2 t ht⟩
      · obtain ⟨t, ht⟩ := hd.exists_term (e.length - 1) (by omega)
        exact ⟨t, ⟨he.1, ht⟩, q3 t ht, hg.inv.find_iff.2 ⟨q1, q2⟩⟩
    · rintro ⟨_, t, ht, hr, hc⟩
      rw [hg.inv.find_iff] at hc
      have := EGraph.InvW.rep_unique hg.inv hp t (q3 t ht.2) hr
      rw [q2, hc.2] at this
      rw [this]

/-- Terms of live nodes are subterms, so they are represented when the whole is. -/
theorem live_rep {eg : EGraph Op D} {e : List (ENode Op)} (hd : Dag e) {c : Id} {t : Term Op} (ht : ExprTerm e t)
    (hr : Rep eg c t) {j : Nat} (hj : Live e j) : ∃ s i, TermOf e j s ∧ Rep eg i s := by
  induction hj with
  | root => exact ⟨t, c, ht.2, hr⟩
  | @child i n ch hl hn hc ih =>
    obtain ⟨s, i', hs, hri⟩ := ih
    cases s with
    | node op ts =>
      rw [termOf_iff] at hs
      obtain ⟨n', h1, h2, h3⟩ := hs
      rw [hn] at h1; cases h1
      obtain ⟨s', hs', hst⟩ := forall₂_mem_left h3 hc
      rw [EGraph.rep_iff] at hri
      obtain ⟨_, _, m, _, _, _, _, hch⟩ := hri
      obtain ⟨d, _, hd'⟩ := forall₂_mem_left (forall₂_flip hch) hs'
      exact ⟨s', d, hst, hd'⟩

/-- **C06.**  For an expression without unused nodes, `lookup_expr` answers
`Some(c)` iff `c` is the canonical id of a class representing its term. -/
theorem c06_lookup_expr_live {A : UserAnalysis Op D} {depth : Nat}
    {allow : Caller Op D} {U : List (UnionRec Op)} {eg0 eg : EGraph Op D} {fuel k : Nat}
    (h0 : Hist (A.at depth) allow U eg0) (hr : EGraph.rebuild (A.at depth) fuel eg0 = .ok (eg, k))
    {e : List (ENode Op)} (he : WFExpr e) (hlive : ∀ j, j < e.length → Live e j) :
    ∃ o, eg.lookupExpr e = .ok o ∧ ∀ c, o = some c ↔ ∃ t, ExprTerm e t ∧ Rep eg c t ∧ eg.find c = .ok c := by
  obtain ⟨o, h1, h2⟩ := c06_lookup_expr h0 hr he
  refine ⟨o, h1, ?_⟩
  intro c
  rw [h2]
  constructor
  · exact fun h => h.2
  · rintro ⟨t, ht, hrt, hc⟩
    refine ⟨?_, t, ht, hrt, hc⟩
    intro j s hs
    obtain ⟨s', i, g1, g2⟩ := live_rep he.2 ht hrt (hlive j hs.lt)
    rw [hs.unique g1]
    exact ⟨i, g2⟩

/-- The condition on unused nodes is needed: an expression with an unused,
unrepresented node is not found although its term is represented. -/
theorem c06_unused_node_counterexample :
    ∃ (e : List (ENode Ex.S)) (t : Term Ex.S), WFExpr e ∧ ExprTerm e t ∧ Rep Ex.e6 0 t ∧
      Ex.e6.lookupExpr e = .ok none := by
  refine ⟨[Ex.leaf .c, Ex.leaf .a], Ex.ta, ⟨by simp, ?_⟩, ⟨by simp, ?_⟩, Ex.rep_e6_a, rfl⟩
  · intro i n hn c hc
    match i with
    | 0 => simp [Ex.leaf] at hn; subst hn; simp at hc
    | 1 => simp [Ex.leaf] at hn; subst hn; simp at hc
    | i + 2 => simp at hn
  · exact termOf_iff.2 ⟨Ex.leaf .a, rfl, rfl, .nil⟩

/-- Hypotheses of C06 are met: `f b` is looked up in the rebuilt example. -/
example : Hist (Ex.U0.at 1) .noSet [Ex.un] Ex.e5 ∧
    EGraph.rebuild (Ex.U0.at 1) 20 Ex.e5 = .ok (Ex.e6, 1) ∧
    WFExpr [Ex.leaf .b, Ex.app .f [0]] ∧ (∀ j, j < 2 → Live [Ex.leaf .b, Ex.app .f [0]] j) ∧
    Ex.e6.lookupExpr [Ex.leaf .b, Ex.app .f [0]] = .ok (some 2) := by
  refine ⟨Ex.hist5 _, rfl, ⟨by simp, ?_⟩, ?_, rfl⟩
  · intro i n hn c hc
    match i with
    | 0 => simp [Ex.leaf] at hn; subst hn; simp at hc
    | 1 => simp [Ex.app] at hn; subst hn; simp at hc; omega
    | i + 2 => simp at hn
  · intro j hj
    match j with
    | 0 => exact .child (i := 1) (n := Ex.app .f [0]) .root rfl (by simp [Ex.app])
    | 1 => exact .root
    | j + 2 => omega

end Egg
