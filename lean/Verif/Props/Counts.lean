import Verif.Lemmas.Count
import Verif.Props.Closure
import Verif.Props.Structure
import Verif.Props.Rebuild
/-
C51: what `union` and `rebuild` return counts the classes that disappear, and what the sizes count.
-/
namespace Egg
variable {Op D : Type} [DecidableEq Op] [Lang Op]

/-- The canonical ids of an e-graph, each once: one per class. -/
def IsClassList (eg : EGraph Op D) (l : List Id) : Prop :=
  l.Nodup ∧ (∀ c ∈ l, eg.find c = .ok c) ∧ ∀ i, Valid eg i → ∃ c ∈ l, SameClass eg i c

/-- **C51, classes.**  `number_of_classes` is the number of equivalence classes of ids. -/
theorem c51_number_of_classes {A : UserAnalysis Op D} {depth : Nat} {allow : Caller Op D}
    {U : List (UnionRec Op)} {eg : EGraph Op D} (h : Hist (A.at depth) allow U eg) :
    ∃ l, IsClassList eg l ∧ eg.numberOfClasses = l.length := by
  have hg := hist_good h
  refine ⟨AMap.keys eg.classes, ⟨hg.inv.clsNodup, ?_, ?_⟩, by simp [EGraph.numberOfClasses, AMap.keys]⟩
  · intro c hc
    have := (hg.inv.core.clsKey c).1 (by
      have := (AMap.get?_isSome_iff _ _).2 hc
      simpa [EGraph.sk] using this)
    exact hg.inv.find_iff.2 ⟨this.1, this.2⟩
  · intro i hi
    have hi' := hg.valid_iff.1 hi
    obtain ⟨k, hk⟩ := hg.inv.exists_cls hi'
    refine ⟨eg.rt i, by rw [← AMap.get?_isSome_iff, hk]; rfl, ?_⟩
    exact hg.inv.sameClass_iff.2 ⟨hi', hg.inv.core.rtLt _ hi', (hg.inv.core.rtIdem i).symm⟩

/-- Two such lists have the same length, so the number is well defined. -/
theorem IsClassList.length_eq {eg : EGraph Op D} {l l' : List Id} (h : IsClassList eg l) (h' : IsClassList eg l') :
    l.length = l'.length := by
  have key : ∀ {l l' : List Id}, IsClassList eg l → IsClassList eg l' → ∀ c ∈ l, c ∈ l' := by
    intro l l' h h' c hc
    obtain ⟨d, hd, r, h1, h2⟩ := h'.2.2 c ⟨c, h.2.1 c hc⟩
    rw [h.2.1 c hc] at h1
    rw [h'.2.1 d hd] at h2
    cases h1; cases h2
    exact hd
  exact ((List.perm_ext_iff_of_nodup h.1 h'.1).2 (fun c => ⟨key h h' c, key h' h c⟩)).length_eq

/-- **C51, union.**  If `modify` does nothing, `union` returns `true` exactly if the two ids were in
different classes, and then there is one class less; otherwise the number of classes is unchanged. -/
theorem c51_union {A : UserAnalysis Op D} (hA : ∀ i, A.modify i = .done) {depth : Nat} {allow : Caller Op D}
    {U : List (UnionRec Op)} {eg eg' : EGraph Op D} (h : Hist (A.at depth) allow U eg) {a b : Id} {caller : Symbol} {r : Bool}
    (hu : EGraph.union (A.at depth) eg a b caller = .ok (eg', r)) :
    (r = true ↔ ¬ SameClass eg a b) ∧ eg.numberOfClasses = eg'.numberOfClasses + (if r then 1 else 0) := by
  have hg := hist_good h
  have hN := (soundFor_true A).hookOK trivial depth
  have hq : EGraph.QuietMod (A.at depth) := fun eg i eg' he => UserAnalysis.quiet_modify hA he
  by_cases hv : Valid eg a ∧ Valid eg b
  · have h1 := hg.valid_iff.1 hv.1
    have h2 := hg.valid_iff.1 hv.2
    obtain ⟨s, hs⟩ := hg.inv.exists_rep h1
    obtain ⟨t, ht⟩ := hg.inv.exists_rep h2
    have hp := (EGraph.Good.union_post (caller := caller) hN hg hs ht trivial trivial).1.elim hu
    refine ⟨?_, ?_⟩
    · rw [hp.2.2.2, hg.inv.sameClass_iff]
      simp [h1, h2]
    · have hW : EGraph.InvW (EGraph.WP (eg.rt a) (eg.rt b)) _ eg := hg.inv.monoW (fun _ _ e => Or.inl e)
      unfold EGraph.union at hu
      split at hu
      · exact EGraph.performUnion_count hq hW h1 h2 (fun _ _ _ _ => trivial) (rule := some (.rule caller)) trivial hu
      · rename_i hx
        exact EGraph.performUnion_count hq hW h1 h2 (fun _ _ _ _ => trivial) (by simpa [EGraph.JustOK] using hx) hu
  · rw [(EGraph.union_error hg hv).1] at hu; cases hu

/-- **C51, rebuild.**  If `modify` does nothing, `rebuild` returns the number of classes that
disappeared. -/
theorem c51_rebuild {A : UserAnalysis Op D} (hA : ∀ i, A.modify i = .done) {depth fuel : Nat} {allow : Caller Op D}
    {U : List (UnionRec Op)} {eg eg' : EGraph Op D} (h : Hist (A.at depth) allow U eg) {n : Nat}
    (hr : EGraph.rebuild (A.at depth) fuel eg = .ok (eg', n)) : eg.numberOfClasses = eg'.numberOfClasses + n :=
  EGraph.rebuild_count ((soundFor_true A).hookOK trivial depth)
    (fun _ _ _ he => UserAnalysis.quiet_modify hA he) (hist_good h) hr

/-- **C51, empty.**  `is_empty` (and `total_size() == 0`) says that nothing has been added yet: no id is valid. -/
theorem c51_is_empty {A : UserAnalysis Op D} {depth : Nat} {allow : Caller Op D}
    {U : List (UnionRec Op)} {eg : EGraph Op D} (h : Hist (A.at depth) allow U eg) :
    (eg.isEmpty = true ↔ ¬ ∃ i, Valid eg i) ∧ (eg.totalSize = 0 ↔ ¬ ∃ i, Valid eg i) := by
  have hg := hist_good h
  have key : eg.memo = [] ↔ ¬ ∃ i, Valid eg i := by
    constructor
    · rintro e ⟨i, hi⟩
      have h3 := hg.valid_iff.1 hi
      rw [hg.inv.memoNodup.2 e, List.length_nil] at h3
      omega
    · intro hn
      cases hm : eg.memo with
      | nil => rfl
      | cons kv rest =>
        have hk : eg.mem kv.1 = some kv.2 := by
          unfold EGraph.mem
          rw [hm]
          simp [AMap.get?]
        obtain ⟨nj, h1, _⟩ := hg.inv.core.memo _ _ hk
        exact absurd ⟨kv.2, hg.valid_iff.2 (getElem?_lt h1)⟩ hn
  constructor
  · unfold EGraph.isEmpty; rw [List.isEmpty_iff, key]
  · unfold EGraph.totalSize; rw [List.length_eq_zero_iff, key]

/-- **C51, e-nodes.**  After `rebuild`, `total_number_of_nodes` is the number of e-nodes with canonical children that
`lookup` finds. -/
theorem c51_number_of_nodes {A : UserAnalysis Op D} {depth : Nat} {allow : Caller Op D}
    {U : List (UnionRec Op)} {eg0 eg : EGraph Op D} {fuel k : Nat} (h : Hist (A.at depth) allow U eg0)
    (hr : EGraph.rebuild (A.at depth) fuel eg0 = .ok (eg, k)) :
    ∃ l : List (ENode Op), l.Nodup ∧ eg.totalNumberOfNodes = l.length ∧
      ∀ n, n ∈ l ↔ (∀ ch ∈ n.children, eg.find ch = .ok ch) ∧ ∃ i, eg.lookup n = .ok (some i) := by
  obtain ⟨hg, ht⟩ := rebuilt_tidy h hr
  obtain ⟨-, hcls, hone⟩ := c11_partition h hr
  have hget : ∀ x ∈ eg.classes, eg.classes.get? x.1 = some x.2 := fun x hx => AMap.get?_of_mem hg.inv.clsNodup hx
  refine ⟨eg.classes.flatMap (fun x => x.2.nodes), ?_, by simp [EGraph.totalNumberOfNodes, List.length_flatMap], ?_⟩
  · rw [List.nodup_flatMap]
    refine ⟨fun x hx => (ht.sorted _ _ (hget x hx)).imp (fun h => h.2), ?_⟩
    have hk := hg.inv.clsNodup
    unfold AMap.keys at hk
    rw [List.Nodup, List.pairwise_map] at hk
    exact hk.imp_of_mem (fun {x y} hx hy hne n h1 h2 => hne (hone _ _ _ _ n (hget x hx) (hget y hy) h1 h2))
  · intro n
    constructor
    · intro hn
      obtain ⟨x, hx, hn⟩ := List.mem_flatMap.1 hn
      have hc := (hcls _ _ (hget x hx)).1 n hn
      obtain ⟨o, h1, -, h3⟩ := EGraph.lookup_ok hg.inv (n := n) (fun c hc' => (hg.inv.find_iff.1 (hc c hc')).1)
      refine ⟨hc, x.1, ?_⟩
      rw [h1, h3 ht.pending _ _ n (hget x hx) hn (cong_iff_canon.2 rfl)]
    · rintro ⟨hc, i, hl⟩
      obtain ⟨o, h1, h2, -⟩ := EGraph.lookup_ok hg.inv (n := n) (fun c hc' => (hg.inv.find_iff.1 (hc c hc')).1)
      rw [hl] at h1
      cases h1
      obtain ⟨-, -, k', m, h3, h4, h5⟩ := h2 i rfl
      have e : m = n := by
        have h6 := cong_iff_canon.1 h5
        rw [ht.canon _ _ h3 m h4] at h6
        rw [h6]
        have : n.children.map eg.rt = n.children :=
          (List.map_congr_left fun c hc' => (hg.inv.find_iff.1 (hc c hc')).2).trans (List.map_id _)
        simp only [ENode.mapChildren, this]
      subst e
      exact List.mem_flatMap.2 ⟨(i, k'), AMap.mem_of_get? h3, h4⟩

/-- a = b makes f(a) and f(b) equal: four classes, three after the union, two after `rebuild`, which
returns 1. -/
example : Ex.e4.numberOfClasses = 4 ∧ Ex.e5.numberOfClasses = 3 ∧ Ex.e6.numberOfClasses = 2 ∧
    EGraph.union Ex.N0 Ex.e4 0 1 7 = .ok (Ex.e5, true) ∧ EGraph.rebuild Ex.N0 20 Ex.e5 = .ok (Ex.e6, 1) ∧
    Hist (Ex.U0.at 1) .all [Ex.un] Ex.e5 :=
  ⟨rfl, rfl, rfl, rfl, rfl, Ex.hist5 _⟩

/-- The e-graph of a = b with f(a) and f(b) has three e-nodes after `rebuild` (a, b and f applied to their class), and
four entries before; a new e-graph is empty and this one is not. -/
example : Ex.e6.totalNumberOfNodes = 3 ∧ Ex.e5.totalNumberOfNodes = 4 ∧ Ex.e6.isEmpty = false ∧ Ex.e5.isEmpty = false ∧
    (EGraph.new : Ex.G).isEmpty = true ∧ Ex.e6.pending = [] ∧ Ex.e6.lookup (Ex.app .f [0]) = .ok (some 2) ∧
    EGraph.rebuild (Ex.U0.at 1) 20 Ex.e5 = .ok (Ex.e6, 1) ∧ Hist (Ex.U0.at 1) .all [Ex.un] Ex.e5 :=
  ⟨rfl, rfl, rfl, rfl, rfl, rfl, rfl, rfl, Ex.hist5 _⟩

end Egg
