import Verif.Model.Classes
import Verif.Lemmas.Parents
import Verif.Lemmas.Struct
import Verif.ExamplePlay
/-
C71, C72: what the parents and the leaves of an e-class are.
-/
namespace Egg
variable {Op D : Type} [DecidableEq Op] [Lang Op]
variable {A : UserAnalysis Op D} {depth : Nat} {allow : Caller Op D} {U : List (UnionRec Op)} {eg : EGraph Op D}

theorem hist_par (h : Hist (A.at depth) allow U eg) : EGraph.Par eg := by
  unfold Hist at h
  generalize h0 : (EGraph.new : EGraph Op D) = eg0 at h
  induction h with
  | refl => subst h0; exact .new
  | tail hst hstep ih => exact EGraph.Step.par (EGraph.hookPar_at A depth) hstep (hist_good (by subst h0; exact hst)) ih

theorem child_of_cong {rt : Id → Id} {m n : ENode Op} (h : Cong rt m n) {ch : Id} (hc : ch ∈ n.children) : ∃ ch' ∈ m.children, rt ch' = rt ch := by
  have : rt ch ∈ m.children.map rt := by rw [h.2]; exact List.mem_map_of_mem hc
  obtain ⟨d, hd, e⟩ := List.mem_map.1 this
  exact ⟨d, hd, e⟩

/-- The arguments of an e-node that are in the class of `c`, counted with multiplicity. -/
def argsIn (eg : EGraph Op D) (n : ENode Op) (c : Id) : Nat := n.children.countP (fun ch => decide (eg.find ch = eg.find c))

/-- **C71.**  An id listed among the parents of a class is the id of an e-node with an argument in that class, and is
listed once for each such argument. -/
theorem c71_parents (h : Hist (A.at depth) allow U eg) {c : Id} {k : EClass Op D} (hk : eg.index c = .ok k) {p : Id} (hp : p ∈ k.parentIds) :
    ∃ n, eg.idToNode p = .ok n ∧ 0 < argsIn eg n c ∧ k.parentIds.count p = argsIn eg n c := by
  have hg := (hist_good h).inv
  obtain ⟨h1, h2⟩ := hg.index_iff.1 hk
  have hpar := (hist_par h).v
  have hps : eg.ps (eg.rt c) = some k.parents := by unfold EGraph.ps; rw [h2]; rfl
  have hlt := hpar.out _ _ p hps hp
  have hn : eg.nodes[p]? = some eg.nodes[p] := List.getElem?_eq_getElem hlt
  refine ⟨eg.nodes[p], getIdx_eq_ok.2 hn, ?_⟩
  have hcnt : k.parentIds.count p = argsIn eg eg.nodes[p] c := by
    rcases hpar.cnt p _ hn with h3 | h3
    · exact absurd hp (h3 _ _ hps)
    · rw [show k.parentIds.count p = _ from h3 _ _ hps, List.count_eq_countP, List.countP_map]
      refine List.countP_congr (fun ch hch => ?_)
      have hcl := hg.core.childLt hn hch
      simp [hg.find hcl, hg.find h1]
  exact ⟨by rw [← hcnt]; exact List.count_pos_iff.2 hp, hcnt⟩

/-- **C71.**  Every e-node with arguments in the class of `c` is found among the parents of that class: there is an id of the
same class, with the same e-node up to equality of arguments, that is listed. -/
theorem c71_all_parents (h : Hist (A.at depth) allow U eg) {c : Id} {k : EClass Op D} (hk : eg.index c = .ok k) {i : Id} {n : ENode Op}
    (hn : Holds eg i n) (hc : ∃ ch ∈ n.children, SameClass eg ch c) :
    ∃ p m, p ∈ k.parentIds ∧ eg.idToNode p = .ok m ∧ SameClass eg p i ∧ SameNode eg m n := by
  have hg := (hist_good h).inv
  obtain ⟨h1, h2⟩ := hg.index_iff.1 hk
  obtain ⟨i1, hnl, j, m, hj, hji, hmn⟩ := hg.holds_iff.1 hn
  obtain ⟨r, nr, hr, hcov, hcr, hrj⟩ := hg.core.cov j m hj
  have hrn := hcr.symm.trans hmn
  obtain ⟨ch, hch, hcc⟩ := hc
  obtain ⟨ch', hch', e⟩ := child_of_cong hrn hch
  obtain ⟨s, hs, hrs⟩ := hcov nr hr ch' hch'
  rw [e, (hg.sameClass_iff.1 hcc).2.2, EGraph.sk_eq h2] at hs
  cases hs
  exact ⟨r, nr, hrs, getIdx_eq_ok.2 hr, hg.sameClass_iff.2 ⟨getElem?_lt hr, i1, by rw [hrj, hji]⟩,
    hg.sameNode_iff.2 ⟨hrn, fun c hc => hg.core.childLt hr hc, hnl⟩⟩

/-- **C71.**  The classes of the listed parents are exactly the classes that contain an e-node with an argument in the class. -/
theorem c71_parent_classes (h : Hist (A.at depth) allow U eg) {c : Id} {k : EClass Op D} (hk : eg.index c = .ok k) (i : Id) :
    (∃ p ∈ k.parentIds, SameClass eg p i) ↔ ∃ k' n, eg.index i = .ok k' ∧ n ∈ k'.nodes ∧ ∃ ch ∈ n.children, SameClass eg ch c := by
  have hg := (hist_good h).inv
  constructor
  · rintro ⟨p, hp, hpi⟩
    obtain ⟨n, hn, hpos, _⟩ := c71_parents h hk hp
    obtain ⟨p1, i1, hpi⟩ := hg.sameClass_iff.1 hpi
    obtain ⟨s, m, hs, hm, hmn⟩ := hg.core.nodesCls p n (getIdx_eq_ok.1 hn)
    obtain ⟨k', hk', rfl⟩ := EGraph.cls_of_sk hs
    obtain ⟨ch, hch, e⟩ := List.countP_pos_iff.1 hpos
    have e := of_decide_eq_true e
    obtain ⟨ch', hch', e'⟩ := child_of_cong hmn hch
    have hcl := hg.core.childLt (getIdx_eq_ok.1 hn) hch
    have h1 := (hg.index_iff.1 hk).1
    rw [hg.find hcl, hg.find h1] at e
    refine ⟨k', m, hg.index_iff.2 ⟨i1, by rw [← hpi]; exact hk'⟩, hm, ch', hch', hg.sameClass_iff.2 ⟨hg.core.clsNodeLt hs hm ch' hch', h1, ?_⟩⟩
    rw [e']
    exact Except.ok.inj e
  · rintro ⟨k', n, hk', hn, hch⟩
    have hl := hg.core.clsNodeLt (EGraph.sk_eq (hg.index_iff.1 hk').2) hn
    obtain ⟨p, m, h1, _, h2, _⟩ := c71_all_parents h hk (i := i) ⟨k', n, hk', hn, hg.sameNode_iff.2 ⟨Cong.refl _, hl, hl⟩⟩ hch
    exact ⟨p, h1, h2⟩

/-- **C72.**  The leaves of a class are the constants it represents, at any moment. -/
theorem c72_leaves (h : Hist (A.at depth) allow U eg) {c : Id} {k : EClass Op D} (hk : eg.index c = .ok k) (n : ENode Op) :
    n ∈ k.leaves ↔ n.children = [] ∧ Rep eg c (.node n.op []) := by
  have hg := (hist_good h).inv
  obtain ⟨h1, h2⟩ := hg.index_iff.1 hk
  unfold EClass.leaves
  rw [List.mem_filter]
  constructor
  · rintro ⟨h3, h4⟩
    have h5 : n.children = [] := by simpa [ENode.isLeaf] using h4
    refine ⟨h5, hg.rep_iff.2 ⟨h1, k, n, h2, h3, rfl, by rw [h5]; exact .nil⟩⟩
  · rintro ⟨h3, h4⟩
    obtain ⟨_, k', m, h5, h6, h7, h8⟩ := hg.rep_iff.1 h4
    rw [h2] at h5
    cases h5
    have h9 : m.children = [] := by cases hm : m.children with | nil => rfl | cons a l => rw [hm] at h8; cases h8
    have : m = n := by cases m; cases n; simp_all
    exact ⟨this ▸ h6, by simp [ENode.isLeaf, h3]⟩

/-- **C72.**  `assert_unique_leaves` panics exactly when two different constants are equal. -/
theorem c72_assert (h : Hist (A.at depth) allow U eg) {c : Id} {k : EClass Op D} (hk : eg.index c = .ok k) :
    (k.assertUniqueLeaves = .ok () ∧ ∀ o o', Rep eg c (.node o []) → Rep eg c (.node o' []) → o = o') ∨
    (k.assertUniqueLeaves = .error .panic ∧ ∃ o o', Rep eg c (.node o []) ∧ Rep eg c (.node o' []) ∧ o ≠ o') := by
  have hl := c72_leaves h hk
  have hl2 : ∀ o, Rep eg c (.node o []) ↔ (⟨o, []⟩ : ENode Op) ∈ k.leaves := fun o => by rw [hl]; simp
  unfold EClass.assertUniqueLeaves
  split
  · rename_i hnil
    refine .inl ⟨rfl, fun o o' ho _ => ?_⟩
    rw [hl2, hnil] at ho
    cases ho
  · rename_i first rest hcons
    obtain ⟨f1, f2⟩ := (hl first).1 (by rw [hcons]; simp)
    split
    · rename_i hall
      have : ∀ n ∈ k.leaves, n = first := by
        intro n hn
        rw [hcons] at hn
        rcases List.mem_cons.1 hn with rfl | hn
        · rfl
        · exact of_decide_eq_true (List.all_eq_true.1 hall n hn)
      refine .inl ⟨rfl, fun o o' ho ho' => ?_⟩
      have e1 := this _ ((hl2 o).1 ho)
      have e2 := this _ ((hl2 o').1 ho')
      have := e1.trans e2.symm
      simpa using this
    · rename_i hall
      simp only [List.all_eq_true, decide_eq_true_eq, not_forall] at hall
      obtain ⟨m, hm, hne⟩ := hall
      obtain ⟨m1, m2⟩ := (hl m).1 (by rw [hcons]; simp [hm])
      refine .inr ⟨rfl, m.op, first.op, m2, f2, fun e => hne ?_⟩
      cases m; cases first; simp_all

/-! ### Examples -/

/-- `a`, `b`, `f(a, a)`, `f(a, b)`, with `a = b` asserted: the only class of arguments has the parents 2, 2, 3, 3, and both
constants as leaves. -/
def Ex.parentsScript : List Ex.Call := [.add ⟨.a, []⟩, .add ⟨.b, []⟩, .add ⟨.f, [0, 0]⟩, .add ⟨.f, [0, 1]⟩, .union 0 1 7]

example (allow) : ∃ U eg k, Hist Ex.N0 allow U eg ∧ eg.index 1 = .ok k ∧ k.parentIds = [2, 2, 3, 3] ∧ k.leaves = [⟨.a, []⟩, ⟨.b, []⟩] ∧
    k.assertUniqueLeaves = .error .panic ∧ eg.idToNode 3 = .ok ⟨.f, [0, 1]⟩ ∧ argsIn eg ⟨.f, [0, 1]⟩ 1 = 2 := by
  have h1 : (do
      let eg ← Ex.play Ex.parentsScript EGraph.new
      let k ← eg.index 1
      let n ← eg.idToNode 3
      Except.ok (k.parentIds, k.leaves, k.assertUniqueLeaves, n, argsIn eg ⟨.f, [0, 1]⟩ 1) : Res _) =
      .ok ([2, 2, 3, 3], [⟨.a, []⟩, ⟨.b, []⟩], .error .panic, ⟨.f, [0, 1]⟩, 2) := by decide +kernel
  obtain ⟨eg, he, h1⟩ := bind_eq_ok.1 h1
  obtain ⟨k, hk, h1⟩ := bind_eq_ok.1 h1
  obtain ⟨n, hn, h1⟩ := bind_eq_ok.1 h1
  simp only [Except.ok.injEq, Prod.mk.injEq] at h1
  obtain ⟨k1, k2, k3, rfl, k5⟩ := h1
  obtain ⟨U, hU⟩ := Ex.play_hist allow _ _ _ _ .refl he
  exact ⟨U, eg, k, hU, hk, k1, k2, k3, hn, k5⟩

end Egg
