import Verif.Lemmas.Dot
import Verif.Props.Extract
import Verif.Props.Rebuild
import Verif.Props.ProofText
import Verif.Lemmas.Struct
import Verif.ExamplePlay
/-
C73: the Graphviz drawing of an e-graph.
-/
namespace Egg
set_option linter.unusedSectionVars false
variable {Op D : Type} [DecidableEq Op] [Lang Op]

/-! ### Reading the drawing -/

/-- An arrow of the drawing: from the port `anchor` of the dot node `src`, to the dot node `dst` but clipped at the border of the
cluster `head` (`lhead`), with an optional number as label. -/
structure Arrow where
  src : Id × Nat
  anchor : Anchor
  label : Option Nat
  dst : Id × Nat
  head : Id
  deriving DecidableEq, Repr

/-- The arrow drawn by a line. -/
def DotLine.arrow : DotLine → Option Arrow
  | .loop c i a l => some ⟨(c, i), a, l, (c, i), c⟩
  | .edge c i a ch ld l => some ⟨(c, i), a, l, (ch, 0), ld⟩
  | _ => none

/-- The arrows of a drawing that leave the dot node `c.i`. -/
def arrowsFrom (ls : List DotLine) (c : Id) (i : Nat) : List Arrow := (ls.filterMap DotLine.arrow).filter (fun a => a.src = (c, i))

/-- The same in one pass. -/
def DotLine.arrowFrom (c : Id) (i : Nat) (x : DotLine) : Option Arrow := x.arrow.bind (fun a => if a.src = (c, i) then some a else none)

theorem arrowsFrom_eq (ls : List DotLine) (c : Id) (i : Nat) : arrowsFrom ls c i = ls.filterMap (DotLine.arrowFrom c i) := by
  unfold arrowsFrom
  induction ls with
  | nil => rfl
  | cons x ls ih =>
    rw [List.filterMap_cons, List.filterMap_cons]
    unfold DotLine.arrowFrom
    cases h : x.arrow with
    | none => simp only [Option.bind_none]; exact ih
    | some a =>
      simp only [Option.bind_some, List.filter_cons, decide_eq_true_eq]
      split
      · rw [ih]; rfl
      · rw [ih]; rfl

section
variable {T : OpText Op} {d : DotCfg} {eg : EGraph Op D} {ks : List (EClass Op D)} {A : UserAnalysis Op D} {depth : Nat} {allow : Caller Op D}
  {U : List (UnionRec Op)} {rt : Id → Id}

theorem dotArg_arrow {c i len ch a} : (dotArg d rt c i len ch a).arrow =
    some ⟨(c, i), (d.mark a len).1, (d.mark a len).2, if rt ch = c then (c, i) else (ch, 0), rt ch⟩ := by
  unfold dotArg
  split
  · rename_i h; rw [← h]; rfl
  · rfl

theorem cluster_arrows (k : EClass Op D) (c : Id) (i : Nat) : (dotCluster T k).filterMap (DotLine.arrowFrom c i) = [] := by
  rw [List.filterMap_eq_nil_iff]
  intro x hx
  unfold dotCluster at hx
  simp only [List.mem_cons, List.mem_append, List.mem_map, List.not_mem_nil, or_false] at hx
  rcases hx with rfl | rfl | ⟨p, _, rfl⟩ | rfl <;> rfl

/-- The arrows from one e-node. -/
def nodeArrows (d : DotCfg) (rt : Id → Id) (c : Id) (i : Nat) (n : ENode Op) : List Arrow :=
  n.children.zipIdx.map (fun q => ⟨(c, i), (d.mark q.2 n.children.length).1, (d.mark q.2 n.children.length).2,
    if rt q.1 = c then (c, i) else (q.1, 0), rt q.1⟩)

theorem classEdges_arrows {k : EClass Op D} {i : Nat} {n : ENode Op} (hn : k.nodes[i]? = some n) :
    (dotClassEdges d rt k).filterMap (DotLine.arrowFrom k.id i) = nodeArrows d rt k.id i n := by
  unfold dotClassEdges
  rw [filterMap_flatMap_one _ _ (n, i) _ (zipIdx_nodup _ _) (List.mem_zipIdx_iff_getElem?.2 hn)]
  · unfold nodeArrows
    rw [List.filterMap_map]
    rw [← List.filterMap_eq_map]
    congr 1
    funext q
    simp [DotLine.arrowFrom, dotArg_arrow]
  · rintro ⟨m, j⟩ hm hne
    have hji : j ≠ i := by
      rintro rfl
      have := List.mem_zipIdx_iff_getElem?.1 hm
      simp only at this
      rw [hn] at this
      exact hne (by rw [Option.some.inj this])
    rw [List.filterMap_map, List.filterMap_eq_nil_iff]
    intro q _
    simp [DotLine.arrowFrom, dotArg_arrow, hji]

theorem classEdges_other {k : EClass Op D} {c : Id} (h : k.id ≠ c) (i : Nat) : (dotClassEdges d rt k).filterMap (DotLine.arrowFrom c i) = [] := by
  unfold dotClassEdges
  rw [List.filterMap_flatMap, List.flatMap_eq_nil_iff]
  intro p _
  rw [List.filterMap_map, List.filterMap_eq_nil_iff]
  intro q _
  simp [DotLine.arrowFrom, dotArg_arrow, h]

theorem lines_arrows (hnd : (ks.map EClass.id).Nodup) {k : EClass Op D} (hk : k ∈ ks) {i : Nat} {n : ENode Op} (hn : k.nodes[i]? = some n) :
    arrowsFrom (ks.flatMap (dotCluster T) ++ ks.flatMap (dotClassEdges d rt)) k.id i = nodeArrows d rt k.id i n := by
  rw [arrowsFrom_eq, List.filterMap_append]
  have h1 : (ks.flatMap (dotCluster T)).filterMap (DotLine.arrowFrom k.id i) = [] := by
    rw [List.filterMap_flatMap, List.flatMap_eq_nil_iff]
    intro k' _
    exact cluster_arrows k' _ _
  rw [h1, List.nil_append, filterMap_flatMap_one _ _ k ks (List.Nodup.of_map _ hnd) hk, classEdges_arrows hn]
  intro y hy hne
  exact classEdges_other (fun e => hne (List.inj_on_of_nodup_map hnd hy hk e)) i

theorem classes_nodup {C : Cfg Op D} (hi : EGraph.Inv C eg) (hks : ks.Perm (eg.classes.map Prod.snd)) : (ks.map EClass.id).Nodup := by
  have h1 : (ks.map EClass.id).Perm ((eg.classes.map Prod.snd).map EClass.id) := hks.map _
  rw [h1.nodup_iff]
  have : (eg.classes.map Prod.snd).map EClass.id = AMap.keys eg.classes := by
    rw [List.map_map]
    unfold AMap.keys
    refine List.map_congr_left (fun kc hkc => ?_)
    exact (clsOK_of_get hi (AMap.get?_of_mem hi.clsNodup hkc)).2
  rw [this]
  exact hi.clsNodup


theorem mem_node_iff {ls : List DotLine} (hls : ls = ks.flatMap (dotCluster T) ++ ks.flatMap (dotClassEdges d rt)) {c : Id} {i : Nat} {l : List Char} :
    DotLine.node c i l ∈ ls ↔ ∃ k ∈ ks, k.id = c ∧ ∃ n, k.nodes[i]? = some n ∧ l = T.show_ n.op := by
  subst hls
  constructor
  · intro h
    rcases List.mem_append.1 h with h | h
    · obtain ⟨k, hk, h⟩ := List.mem_flatMap.1 h
      unfold dotCluster at h
      simp only [List.mem_cons, List.mem_append, List.mem_map, List.not_mem_nil, or_false, reduceCtorEq, false_or] at h
      obtain ⟨⟨n, j⟩, hp, e⟩ := h
      cases e
      exact ⟨k, hk, rfl, n, List.mem_zipIdx_iff_getElem?.1 hp, rfl⟩
    · obtain ⟨k, hk, h⟩ := List.mem_flatMap.1 h
      unfold dotClassEdges at h
      obtain ⟨p, _, h⟩ := List.mem_flatMap.1 h
      obtain ⟨q, _, h⟩ := List.mem_map.1 h
      unfold dotArg at h
      split at h <;> cases h
  · rintro ⟨k, hk, rfl, n, hn, rfl⟩
    refine List.mem_append_left _ (List.mem_flatMap.2 ⟨k, hk, ?_⟩)
    unfold dotCluster
    refine List.mem_cons_of_mem _ (List.mem_cons_of_mem _ (List.mem_append_left _ (List.mem_map.2 ⟨(n, i), List.mem_zipIdx_iff_getElem?.2 hn, rfl⟩)))

/-- The cluster opened by a line. -/
def DotLine.clusterId : DotLine → Option Id
  | .cluster c => some c
  | _ => none

theorem clusters_ids {ls : List DotLine} (hls : ls = ks.flatMap (dotCluster T) ++ ks.flatMap (dotClassEdges d rt)) :
    ls.filterMap DotLine.clusterId = ks.map EClass.id := by
  subst hls
  rw [List.filterMap_append]
  have h2 : (ks.flatMap (dotClassEdges d rt)).filterMap DotLine.clusterId = [] := by
    rw [List.filterMap_eq_nil_iff]
    intro x hx
    obtain ⟨k, hk, h⟩ := List.mem_flatMap.1 hx
    unfold dotClassEdges at h
    obtain ⟨p, _, h⟩ := List.mem_flatMap.1 h
    obtain ⟨q, _, rfl⟩ := List.mem_map.1 h
    unfold dotArg
    by_cases e : rt q.1 = k.id
    · rw [if_pos e]; rfl
    · rw [if_neg e]; rfl
  rw [h2, List.append_nil]
  clear h2
  induction ks with
  | nil => rfl
  | cons k ks ih =>
    rw [List.flatMap_cons, List.filterMap_append, ih, List.map_cons]
    have : (dotCluster T k).filterMap DotLine.clusterId = [k.id] := by
      unfold dotCluster
      rw [List.filterMap_cons_some (show DotLine.clusterId (.cluster k.id) = some k.id from rfl), List.filterMap_cons_none rfl, List.filterMap_append, List.filterMap_map]
      have : (k.nodes.zipIdx).filterMap (DotLine.clusterId ∘ fun (n, i) => DotLine.node k.id i (T.show_ n.op)) = [] := by
        rw [List.filterMap_eq_nil_iff]; intro p _; rfl
      rw [this]
      rfl
    rw [this]
    rfl

theorem count_cluster (ls : List DotLine) (c : Id) : ls.count (.cluster c) = (ls.filterMap DotLine.clusterId).count c := by
  induction ls with
  | nil => rfl
  | cons x ls ih =>
    rw [List.count_cons, List.filterMap_cons]
    cases x with
    | cluster c' => simp only [DotLine.clusterId, List.count_cons, ih, beq_iff_eq, DotLine.cluster.injEq]
    | _ => simpa [DotLine.clusterId] using ih

theorem mem_classes {C : Cfg Op D} (hg : EGraph.Inv C eg) (hks : ks.Perm (eg.classes.map Prod.snd)) {c : Id} {k : EClass Op D}
    (hk : eg.index c = .ok k) (hc : eg.find c = .ok c) : k ∈ ks ∧ k.id = c := by
  obtain ⟨h1, h2⟩ := hg.index_iff.1 hk
  rw [hg.find h1] at hc
  rw [Except.ok.inj hc] at h2
  obtain ⟨h3, h4⟩ := clsOK_of_get hg h2
  exact ⟨(classes_ok hg hks k).1 h3, h4⟩

theorem of_classes {C : Cfg Op D} (hg : EGraph.Inv C eg) (hks : ks.Perm (eg.classes.map Prod.snd)) {k : EClass Op D}
    (hk : k ∈ ks) : eg.find k.id = .ok k.id ∧ eg.index k.id = .ok k := by
  have h := (classes_ok hg hks k).2 hk
  refine ⟨by rw [hg.find h.root.1, h.root.2], hg.index_iff.2 ⟨h.root.1, by rw [h.root.2]; exact h.get⟩⟩

/-! ### C73 -/

theorem dot_ok (h : Hist (A.at depth) allow U eg) (hks : ks.Perm (eg.classes.map Prod.snd)) :
    dotLines T d eg ks = .ok (ks.flatMap (dotCluster T) ++ ks.flatMap (dotClassEdges d eg.rt)) := by
  have hg := (hist_good h).inv
  refine dotLines_ok (fun k hk n hn ch hch => ?_)
  exact hg.find (((classes_ok hg hks k).2 hk).child n hn ch hch)

/-- **C73.**  What is drawn, at any moment: one cluster for each class, with one dot node for each e-node, labelled with its
operator; and from each dot node one arrow for each argument of the e-node, in order, that leads to the cluster of the class of
that argument and is marked with the position of the argument.  Nothing else is drawn. -/
theorem c73_drawing (h : Hist (A.at depth) allow U eg) (hks : ks.Perm (eg.classes.map Prod.snd)) :
    ∃ ls, dotLines T d eg ks = .ok ls ∧
      (∀ c, ls.count (.cluster c) = if eg.find c = .ok c then 1 else 0) ∧
      (∀ c k, eg.find c = .ok c → eg.index c = .ok k →
        [.cluster c, .style] ++ k.nodes.zipIdx.map (fun p => .node c p.2 (T.show_ p.1.op)) ++ [.close] <:+: ls) ∧
      (∀ c i l, .node c i l ∈ ls → ∃ k n, eg.find c = .ok c ∧ eg.index c = .ok k ∧ k.nodes[i]? = some n ∧ l = T.show_ n.op) ∧
      (∀ c k i n, eg.find c = .ok c → eg.index c = .ok k → k.nodes[i]? = some n →
        n.children.mapM eg.find = .ok ((arrowsFrom ls c i).map Arrow.head) ∧
        ∀ a x, (arrowsFrom ls c i)[a]? = some x → d.edge a n.children.length = .ok (x.anchor, x.label)) ∧
      (∀ x ∈ ls.filterMap DotLine.arrow, ∃ l, .node x.src.1 x.src.2 l ∈ ls) := by
  have hg := (hist_good h).inv
  have mem_ks : ∀ {c : Id} {k : EClass Op D}, eg.index c = .ok k → eg.find c = .ok c → k ∈ ks ∧ k.id = c := fun hk hc => mem_classes hg hks hk hc
  have of_ks : ∀ {k : EClass Op D}, k ∈ ks → eg.find k.id = .ok k.id ∧ eg.index k.id = .ok k := fun hk => of_classes hg hks hk
  refine ⟨_, dot_ok h hks, ?_, ?_, ?_, ?_, ?_⟩
  · intro c
    rw [count_cluster, clusters_ids rfl]
    have hnd := classes_nodup hg hks
    rw [hnd.count]
    have : c ∈ ks.map EClass.id ↔ eg.find c = .ok c := by
      constructor
      · intro hc
        obtain ⟨k, hk, rfl⟩ := List.mem_map.1 hc
        have := ((classes_ok hg hks k).2 hk).root
        rw [hg.find this.1, this.2]
      · intro hc
        have hlt := (hg.find_iff.1 hc).1
        rw [hg.find hlt] at hc
        have := (hg.core.clsKey c).2 ⟨hlt, Except.ok.inj hc⟩
        obtain ⟨s, hs⟩ := Option.isSome_iff_exists.1 this
        obtain ⟨k, hk, rfl⟩ := EGraph.cls_of_sk hs
        obtain ⟨h1, h2⟩ := clsOK_of_get hg hk
        exact List.mem_map.2 ⟨k, (classes_ok hg hks k).1 h1, h2⟩
    simp only [this]
  · intro c k hc hk
    obtain ⟨h1, h2⟩ := mem_ks hk hc
    rw [← h2]
    have : dotCluster T k <:+: ks.flatMap (dotCluster T) := by
      obtain ⟨l1, l2, e⟩ := List.append_of_mem h1
      rw [e, List.flatMap_append, List.flatMap_cons]
      exact ⟨_, _, by rw [List.append_assoc]⟩
    exact this.trans (List.prefix_append _ _).isInfix
  · intro c i l hm
    obtain ⟨k, hk, rfl, n, hn, rfl⟩ := (mem_node_iff rfl).1 hm
    obtain ⟨h1, h2⟩ := of_ks hk
    exact ⟨k, n, h1, h2, hn, rfl⟩
  · intro c k i n hc hk hn
    obtain ⟨h1, rfl⟩ := mem_ks hk hc
    rw [lines_arrows (classes_nodup hg hks) h1 hn]
    constructor
    · have : (nodeArrows d eg.rt k.id i n).map Arrow.head = n.children.map eg.rt := by
        unfold nodeArrows
        rw [List.map_map]
        rw [show (Arrow.head ∘ fun q : Id × Nat => (⟨(k.id, i), (d.mark q.2 n.children.length).1, (d.mark q.2 n.children.length).2,
          if eg.rt q.1 = k.id then (k.id, i) else (q.1, 0), eg.rt q.1⟩ : Arrow)) = eg.rt ∘ Prod.fst from rfl, ← List.map_map, List.zipIdx_map_fst]
      rw [this]
      refine mapM_ok (fun ch hch => hg.find ?_)
      exact ((classes_ok hg hks k).2 h1).child n (List.mem_of_getElem? hn) ch hch
    · intro a x hx
      unfold nodeArrows at hx
      rw [List.getElem?_map] at hx
      obtain ⟨q, hq, rfl⟩ := Option.map_eq_some_iff.1 hx
      rw [List.getElem?_zipIdx] at hq
      obtain ⟨ch, hch, rfl⟩ := Option.map_eq_some_iff.1 hq
      have : a < n.children.length := (List.getElem?_eq_some_iff.1 hch).1
      rw [DotCfg.edge_ok this]
      simp
  · intro x hx
    obtain ⟨y, hy, e⟩ := List.mem_filterMap.1 hx
    rcases List.mem_append.1 hy with hy | hy
    · obtain ⟨k, hk, hy⟩ := List.mem_flatMap.1 hy
      have := cluster_arrows (T := T) k x.src.1 x.src.2
      rw [List.filterMap_eq_nil_iff] at this
      have := this y hy
      simp [DotLine.arrowFrom, e] at this
    · obtain ⟨k, hk, hy⟩ := List.mem_flatMap.1 hy
      unfold dotClassEdges at hy
      obtain ⟨⟨n, i⟩, hp, hy⟩ := List.mem_flatMap.1 hy
      obtain ⟨q, _, rfl⟩ := List.mem_map.1 hy
      rw [dotArg_arrow] at e
      cases e
      exact ⟨_, (mem_node_iff rfl).2 ⟨k, hk, rfl, n, List.mem_zipIdx_iff_getElem?.1 hp, rfl⟩⟩

/-- **C73.**  The mark of an arrow tells the position of the argument. -/
theorem c73_marks {a b len : Nat} {m : Anchor × Option Nat} (ha : d.edge a len = .ok m) (hb : d.edge b len = .ok m) : a = b := by
  unfold DotCfg.edge at ha hb
  split at ha
  · split at hb
    · split at ha
      · rename_i hu
        rw [if_pos hu] at hb
        cases ha; cases hb; rfl
      · rename_i hu
        rw [if_neg hu] at hb
        split at ha <;> split at hb <;> first
          | rfl
          | (cases ha; cases hb; rfl)
          | (cases ha; cases hb; omega)
          | (cases ha; cases hb)
    · cases hb
  · cases ha

/-- **C73.**  In a rebuilt e-graph, every arrow ends at a dot node of the cluster it is clipped to. -/
theorem c73_rebuilt (h : Hist (A.at depth) allow U eg) (hr : Rebuilt eg) (hks : ks.Perm (eg.classes.map Prod.snd)) {ls : List DotLine}
    (hl : dotLines T d eg ks = .ok ls) : ∀ x ∈ ls.filterMap DotLine.arrow, x.dst.1 = x.head ∧ ∃ l, .node x.dst.1 x.dst.2 l ∈ ls := by
  have hg := (hist_good h).inv
  rw [dot_ok h hks] at hl
  cases hl
  intro x hx
  obtain ⟨y, hy, e⟩ := List.mem_filterMap.1 hx
  rcases List.mem_append.1 hy with hy | hy
  · obtain ⟨k, hk, hy⟩ := List.mem_flatMap.1 hy
    have := cluster_arrows (T := T) k x.src.1 x.src.2
    rw [List.filterMap_eq_nil_iff] at this
    have := this y hy
    simp [DotLine.arrowFrom, e] at this
  · obtain ⟨k, hk, hy⟩ := List.mem_flatMap.1 hy
    unfold dotClassEdges at hy
    obtain ⟨⟨n, i⟩, hp, hy⟩ := List.mem_flatMap.1 hy
    obtain ⟨⟨ch, a⟩, hq, rfl⟩ := List.mem_map.1 hy
    rw [dotArg_arrow] at e
    cases e
    have hn := List.mem_zipIdx_iff_getElem?.1 hp
    have hok := (classes_ok hg hks k).2 hk
    have hch := List.mem_of_getElem? (List.mem_zipIdx_iff_getElem?.1 hq)
    have hlt := hok.child n (List.mem_of_getElem? hn) ch hch
    have hcan := hr.canon k.id k hok.get n (List.mem_of_getElem? hn) ch hch
    rw [hg.find hlt] at hcan
    have hcan := Except.ok.inj hcan
    dsimp only at hn hch hlt hcan ⊢
    split
    · rename_i e
      exact ⟨e.symm, _, (mem_node_iff rfl).2 ⟨k, hk, rfl, n, hn, rfl⟩⟩
    · refine ⟨hcan.symm, ?_⟩
      obtain ⟨s, hs⟩ := Option.isSome_iff_exists.1 ((hg.core.clsKey ch).2 ⟨hlt, hcan⟩)
      obtain ⟨k', hk', rfl⟩ := EGraph.cls_of_sk hs
      obtain ⟨h1, h2⟩ := clsOK_of_get hg hk'
      obtain ⟨m, hm⟩ := List.exists_mem_of_ne_nil _ h1.ne
      obtain ⟨m0, ms, e0⟩ := List.exists_cons_of_ne_nil h1.ne
      exact ⟨_, (mem_node_iff rfl).2 ⟨k', (classes_ok hg hks k').1 h1, h2, m0, by rw [e0]; rfl, rfl⟩⟩

/-- The label of a dot node of the cluster `c`. -/
def DotLine.labelIn (c : Id) : DotLine → Option (List Char)
  | .node c' _ l => if c' = c then some l else none
  | _ => none

theorem lines_labels (hnd : (ks.map EClass.id).Nodup) {k : EClass Op D} (hk : k ∈ ks) :
    (ks.flatMap (dotCluster T) ++ ks.flatMap (dotClassEdges d rt)).filterMap (DotLine.labelIn k.id) = k.nodes.map (fun n => T.show_ n.op) := by
  rw [List.filterMap_append]
  have h2 : (ks.flatMap (dotClassEdges d rt)).filterMap (DotLine.labelIn k.id) = [] := by
    rw [List.filterMap_eq_nil_iff]
    intro x hx
    obtain ⟨k', _, h⟩ := List.mem_flatMap.1 hx
    unfold dotClassEdges at h
    obtain ⟨p, _, h⟩ := List.mem_flatMap.1 h
    obtain ⟨q, _, rfl⟩ := List.mem_map.1 h
    unfold dotArg
    by_cases e : rt q.1 = k'.id
    · rw [if_pos e]; rfl
    · rw [if_neg e]; rfl
  have one : ∀ k' : EClass Op D, (dotCluster T k').filterMap (DotLine.labelIn k.id) = if k'.id = k.id then k'.nodes.map (fun n => T.show_ n.op) else [] := by
    intro k'
    unfold dotCluster
    rw [List.filterMap_cons_none rfl, List.filterMap_cons_none rfl, List.filterMap_append, List.filterMap_map]
    have e1 : [DotLine.close].filterMap (DotLine.labelIn k.id) = [] := rfl
    rw [e1, List.append_nil]
    split
    · rename_i e
      have : ((DotLine.labelIn k.id) ∘ fun (p : ENode Op × Nat) => match p with | (n, i) => DotLine.node k'.id i (T.show_ n.op)) =
          some ∘ fun p => T.show_ p.1.op := by
        funext p; simp [DotLine.labelIn, e]
      rw [this, List.filterMap_eq_map (f := fun p : ENode Op × Nat => T.show_ p.1.op),
        show (fun p : ENode Op × Nat => T.show_ p.1.op) = (fun n : ENode Op => T.show_ n.op) ∘ Prod.fst from rfl, ← List.map_map, List.zipIdx_map_fst]
    · rename_i e
      rw [List.filterMap_eq_nil_iff]
      intro p _
      simp [DotLine.labelIn, e]
  rw [h2, List.append_nil, filterMap_flatMap_one _ _ k ks (List.Nodup.of_map _ hnd) hk, one, if_pos rfl]
  intro y hy hne
  rw [one, if_neg (fun e => hne (List.inj_on_of_nodup_map hnd hy hk e))]

theorem dotText_lines {ks' : List (EClass Op D')} {eg' : EGraph Op D'} {ls ls' : List DotLine} {s : List Char} (hT : ∀ o, '\n' ∉ T.show_ o)
    (h1 : dotLines T d eg ks = .ok ls) (h2 : dotLines T d eg' ks' = .ok ls') (h3 : dotText T d eg ks = .ok s) (h4 : dotText T d eg' ks' = .ok s)
    (hl : ∀ c i l, .node c i l ∈ ls → ∃ o, l = T.show_ o) (hl' : ∀ c i l, .node c i l ∈ ls' → ∃ o, l = T.show_ o) : ls = ls' := by
  unfold dotText at h3 h4
  rw [h1, ok_bind] at h3
  rw [h2, ok_bind] at h4
  have e := Except.ok.inj (h3.trans h4.symm)
  have e := List.append_cancel_left (List.append_cancel_right e)
  have nn : ∀ {ls : List DotLine}, (∀ c i l, .node c i l ∈ ls → ∃ o, l = T.show_ o) → ∀ l ∈ ls.map DotLine.text, '\n' ∉ l := by
    intro ls hl t ht
    obtain ⟨x, hx, rfl⟩ := List.mem_map.1 ht
    refine DotLine.noNewline (fun c i l e => ?_)
    obtain ⟨o, rfl⟩ := hl c i l (e ▸ hx)
    exact hT o
  exact List.map_injective_iff.2 (fun _ _ => DotLine.text_inj) (writeLines_inj (nn hl) (nn hl') e)

/-- **C73.**  The text determines the e-graph: if different operators are printed differently and on one line, two rebuilt
e-graphs with the same Graphviz text have the same classes with the same e-nodes. -/
theorem c73_faithful {D' : Type} {A' : UserAnalysis Op D'} {depth' : Nat} {allow' : Caller Op D'} {U' : List (UnionRec Op)} {eg' : EGraph Op D'}
    {ks' : List (EClass Op D')} (hT : ∀ o, '\n' ∉ T.show_ o) (hinj : Function.Injective T.show_)
    (h : Hist (A.at depth) allow U eg) (hr : Rebuilt eg) (hks : ks.Perm (eg.classes.map Prod.snd))
    (h' : Hist (A'.at depth') allow' U' eg') (hr' : Rebuilt eg') (hks' : ks'.Perm (eg'.classes.map Prod.snd))
    {s : List Char} (hs : dotText T d eg ks = .ok s) (hs' : dotText T d eg' ks' = .ok s) (c : Id) :
    (eg.find c = .ok c ↔ eg'.find c = .ok c) ∧
    (eg.find c = .ok c → ∃ k k', eg.index c = .ok k ∧ eg'.index c = .ok k' ∧ k.nodes = k'.nodes) := by
  have hg := (hist_good h).inv
  have hg' := (hist_good h').inv
  have e := dotText_lines hT (dot_ok h hks) (dot_ok h' hks') hs hs'
    (fun c i l hm => by obtain ⟨k, _, _, n, _, rfl⟩ := (mem_node_iff rfl).1 hm; exact ⟨_, rfl⟩)
    (fun c i l hm => by obtain ⟨k, _, _, n, _, rfl⟩ := (mem_node_iff rfl).1 hm; exact ⟨_, rfl⟩)
  have hids : ks.map EClass.id = ks'.map EClass.id := by
    rw [← clusters_ids (T := T) (d := d) (rt := eg.rt) rfl, e, clusters_ids rfl]
  have mem_iff : ∀ {D : Type} {eg : EGraph Op D} {ks : List (EClass Op D)} {C : Cfg Op D}, EGraph.Inv C eg → ks.Perm (eg.classes.map Prod.snd) →
      (eg.find c = .ok c ↔ ∃ k ∈ ks, k.id = c ∧ eg.index c = .ok k) := by
    intro D eg ks C hg hks
    constructor
    · intro hc
      have hlt := (hg.find_iff.1 hc).1
      have hrt := hc
      rw [hg.find hlt] at hrt
      obtain ⟨s, hs⟩ := Option.isSome_iff_exists.1 ((hg.core.clsKey c).2 ⟨hlt, Except.ok.inj hrt⟩)
      obtain ⟨k, hk, rfl⟩ := EGraph.cls_of_sk hs
      have hi := hg.index_iff.2 ⟨hlt, by rw [Except.ok.inj hrt]; exact hk⟩
      obtain ⟨h1, h2⟩ := mem_classes hg hks hi hc
      exact ⟨k, h1, h2, hi⟩
    · rintro ⟨k, hk, rfl, _⟩
      exact (of_classes hg hks hk).1
  have tr : eg.find c = .ok c → ∃ k k', k ∈ ks ∧ k' ∈ ks' ∧ k.id = c ∧ k'.id = c ∧ eg.index c = .ok k ∧ eg'.index c = .ok k' := by
    intro hc
    obtain ⟨k, hk, e1, e2⟩ := (mem_iff hg hks).1 hc
    have : c ∈ ks'.map EClass.id := by rw [← hids, ← e1]; exact List.mem_map_of_mem hk
    obtain ⟨k', hk', e3⟩ := List.mem_map.1 this
    exact ⟨k, k', hk, hk', e1, e3, e2, by rw [← e3]; exact (of_classes hg' hks' hk').2⟩
  refine ⟨⟨fun hc => ?_, fun hc => ?_⟩, fun hc => ?_⟩
  · obtain ⟨_, k', _, hk', _, e3, _⟩ := tr hc
    rw [← e3]; exact (of_classes hg' hks' hk').1
  · obtain ⟨k', hk', e1, _⟩ := (mem_iff hg' hks').1 hc
    have : c ∈ ks.map EClass.id := by rw [hids, ← e1]; exact List.mem_map_of_mem hk'
    obtain ⟨k, hk, rfl⟩ := List.mem_map.1 this
    exact (of_classes hg hks hk).1
  · obtain ⟨k, k', hk, hk', e1, e1', e2, e2'⟩ := tr hc
    refine ⟨k, k', e2, e2', ?_⟩
    have hlab : k.nodes.map (fun n => T.show_ n.op) = k'.nodes.map (fun n => T.show_ n.op) := by
      rw [← lines_labels (d := d) (rt := eg.rt) (classes_nodup hg hks) hk, e, e1, ← e1', lines_labels (classes_nodup hg' hks') hk']
    have canon : ∀ {D : Type} {eg : EGraph Op D} {ks : List (EClass Op D)} {C : Cfg Op D}, EGraph.Inv C eg → Rebuilt eg → ks.Perm (eg.classes.map Prod.snd) →
        ∀ {k : EClass Op D}, k ∈ ks → ∀ n ∈ k.nodes, ∀ i, (nodeArrows d eg.rt k.id i n).map Arrow.head = n.children := by
      intro D eg ks C hg hr hks k hk n hn i
      have hok := (classes_ok hg hks k).2 hk
      have h1 : (nodeArrows d eg.rt k.id i n).map Arrow.head = n.children.map eg.rt := by
        unfold nodeArrows
        rw [List.map_map]
        rw [show (Arrow.head ∘ fun q : Id × Nat => (⟨(k.id, i), (d.mark q.2 n.children.length).1, (d.mark q.2 n.children.length).2,
          if eg.rt q.1 = k.id then (k.id, i) else (q.1, 0), eg.rt q.1⟩ : Arrow)) = eg.rt ∘ Prod.fst from rfl, ← List.map_map, List.zipIdx_map_fst]
      rw [h1]
      conv_rhs => rw [← List.map_id n.children]
      refine List.map_congr_left (fun ch hch => ?_)
      have := hr.canon k.id k hok.get n hn ch hch
      rw [hg.find (hok.child n hn ch hch)] at this
      exact Except.ok.inj this
    refine List.ext_getElem? (fun i => ?_)
    have hi := congrArg (·[i]?) hlab
    simp only [List.getElem?_map] at hi
    cases hn : k.nodes[i]? with
    | none =>
      rw [hn] at hi
      cases hn' : k'.nodes[i]? with
      | none => rfl
      | some n' => rw [hn'] at hi; cases hi
    | some n =>
      rw [hn] at hi
      cases hn' : k'.nodes[i]? with
      | none => rw [hn'] at hi; cases hi
      | some n' =>
        rw [hn'] at hi
        have ho : n.op = n'.op := hinj (Option.some.inj hi)
        have hc1 := canon hg hr hks hk n (List.mem_of_getElem? hn) i
        have hc2 := canon hg' hr' hks' hk' n' (List.mem_of_getElem? hn') i
        rw [← lines_arrows (T := T) (classes_nodup hg hks) hk hn, e, e1, ← e1', lines_arrows (classes_nodup hg' hks') hk' hn', hc2] at hc1
        cases n; cases n'
        simp_all

theorem dotArgs_congr {d' : DotCfg} (he : ∀ i len, d.edge i len = d'.edge i len) {c : Id} {i len : Nat} :
    ∀ {chs : List Id} {a : Nat}, dotArgs d eg c i len a chs = dotArgs d' eg c i len a chs
  | [], _ => rfl
  | _ :: _, _ => by simp only [dotArgs, he, dotArgs_congr he]

theorem dotEdges_congr {d' : DotCfg} (he : ∀ i len, d.edge i len = d'.edge i len) {c : Id} :
    ∀ {ns : List (ENode Op)} {i : Nat}, dotEdges d eg c i ns = dotEdges d' eg c i ns
  | [], _ => rfl
  | _ :: _, _ => by simp only [dotEdges, dotArgs_congr he, dotEdges_congr he]

theorem dotAllEdges_congr {d' : DotCfg} (he : ∀ i len, d.edge i len = d'.edge i len) :
    ∀ {ks : List (EClass Op D)}, dotAllEdges d eg ks = dotAllEdges d' eg ks
  | [] => rfl
  | _ :: _ => by simp only [dotAllEdges, dotEdges_congr he, dotAllEdges_congr he]

theorem withConfigLines (lines : List (List Char)) (d : DotCfg) :
    lines.foldl DotCfg.withConfigLine d = ⟨d.config ++ lines, d.useAnchors⟩ := by
  induction lines generalizing d with
  | nil => simp
  | cons l ls ih => rw [List.foldl_cons, ih]; simp [DotCfg.withConfigLine]

/-- **C73.**  Lines added with `with_config_line` stand, indented and in the order of the calls, after the three lines of the
head; the rest of the text does not depend on them. -/
theorem c73_config (h : Hist (A.at depth) allow U eg) (hks : ks.Perm (eg.classes.map Prod.snd)) (anchors : Bool) :
    ∃ body, ∀ lines : List (List Char),
      dotText T (lines.foldl DotCfg.withConfigLine (DotCfg.default.withAnchors anchors)) eg ks =
        .ok ("digraph egraph {\n  compound=true\n  clusterrank=local\n".toList ++
          lines.flatMap (fun l => [' ', ' '] ++ l ++ ['\n']) ++ (body ++ ['}'])) := by
  refine ⟨writeLines ((ks.flatMap (dotCluster T) ++ ks.flatMap (dotClassEdges (DotCfg.default.withAnchors anchors) eg.rt)).map DotLine.text),
    fun lines => ?_⟩
  have e : dotLines T (lines.foldl DotCfg.withConfigLine (DotCfg.default.withAnchors anchors)) eg ks =
      dotLines T (DotCfg.default.withAnchors anchors) eg ks := by
    unfold dotLines
    rw [dotAllEdges_congr (d' := DotCfg.default.withAnchors anchors)]
    intro i len
    rw [withConfigLines]
    rfl
  unfold dotText
  rw [e, dot_ok h hks, ok_bind, withConfigLines]
  simp only [pure, Except.pure, DotCfg.withAnchors, DotCfg.default, List.nil_append]
  have e1 : writeLines ["digraph egraph {".toList, "  compound=true".toList, "  clusterrank=local".toList] =
      "digraph egraph {\n  compound=true\n  clusterrank=local\n".toList := by decide +kernel
  have e2 : "}".toList = ['}'] := by decide +kernel
  have e3 : writeLines (lines.map ("  ".toList ++ ·)) = lines.flatMap (fun l => [' ', ' '] ++ l ++ ['\n']) := by
    unfold writeLines
    rw [List.flatMap_map]
    rfl
  rw [e1, e2, e3]
  simp only [List.append_assoc]

end

/-! ### Examples and limits -/

/-- Builds an e-graph by a script, rebuilds it, prints it and counts its e-nodes. -/
def Ex.draw (T : OpText Ex.S) (cs : List Ex.Call) : Res (List Char × Nat) := do
  let eg0 ← Ex.play cs EGraph.new
  let (eg, _) ← EGraph.rebuild Ex.N0 20 eg0
  let s ← dotText T DotCfg.default eg (eg.classes.map Prod.snd)
  pure (s, eg.totalNumberOfNodes)

theorem Ex.draw_hist (allow) {T : OpText Ex.S} {cs : List Ex.Call} {s : List Char} {n : Nat} (h : Ex.draw T cs = .ok (s, n)) :
    ∃ U eg, (Hist Ex.N0 allow U eg ∧ Rebuilt eg ∧ dotText T DotCfg.default eg (eg.classes.map Prod.snd) = .ok s) ∧ eg.totalNumberOfNodes = n := by
  obtain ⟨eg0, h1, h⟩ := bind_eq_ok.1 h
  obtain ⟨⟨eg, k⟩, h2, h⟩ := bind_eq_ok.1 h
  obtain ⟨s', h5, h⟩ := bind_eq_ok.1 h
  cases h
  obtain ⟨U, h3⟩ := Ex.play_hist allow _ _ _ _ .refl h1
  have h4 := rebuilt_tidy (A := Ex.U0) (depth := 1) h3 h2
  exact ⟨U, eg, ⟨Steps.tail (V := []) h3 (.rebuild h2), h4.2.tidyP.rebuilt h4.1.inv, h5⟩, rfl⟩

/-- Two histories, with `f(0, 1)` and with `f(0, 0)`, whose rebuilt e-graphs have the same text. -/
example (allow) : (∀ o, '\n' ∉ Ex.text.show_ o) ∧ Function.Injective Ex.text.show_ ∧
    ∃ U eg U' eg' s, (Hist Ex.N0 allow U eg ∧ Rebuilt eg ∧ dotText Ex.text DotCfg.default eg (eg.classes.map Prod.snd) = .ok s) ∧
      (Hist Ex.N0 allow U' eg' ∧ Rebuilt eg' ∧ dotText Ex.text DotCfg.default eg' (eg'.classes.map Prod.snd) = .ok s) ∧
      s = "digraph egraph {\n  compound=true\n  clusterrank=local\n  subgraph cluster_0 {\n    style=dotted\n    0.0[label = \"a\"]\n    0.1[label = \"b\"]\n  }\n  subgraph cluster_2 {\n    style=dotted\n    2.0[label = \"f\"]\n  }\n  2.0:sw -> 0.0 [lhead = cluster_0, ]\n  2.0:se -> 0.0 [lhead = cluster_0, ]\n}".toList := by
  refine ⟨by intro o; cases o <;> decide, by intro o o' h; cases o <;> cases o' <;> first | rfl | (simp [Ex.text] at h), ?_⟩
  have h1 : Ex.draw Ex.text [.add ⟨.a, []⟩, .add ⟨.b, []⟩, .add ⟨.f, [0, 1]⟩, .union 0 1 7] = .ok ("digraph egraph {\n  compound=true\n  clusterrank=local\n  subgraph cluster_0 {\n    style=dotted\n    0.0[label = \"a\"]\n    0.1[label = \"b\"]\n  }\n  subgraph cluster_2 {\n    style=dotted\n    2.0[label = \"f\"]\n  }\n  2.0:sw -> 0.0 [lhead = cluster_0, ]\n  2.0:se -> 0.0 [lhead = cluster_0, ]\n}".toList, 3) := by
    decide +kernel
  have h2 : Ex.draw Ex.text [.add ⟨.a, []⟩, .add ⟨.b, []⟩, .add ⟨.f, [0, 0]⟩, .union 0 1 7] = .ok ("digraph egraph {\n  compound=true\n  clusterrank=local\n  subgraph cluster_0 {\n    style=dotted\n    0.0[label = \"a\"]\n    0.1[label = \"b\"]\n  }\n  subgraph cluster_2 {\n    style=dotted\n    2.0[label = \"f\"]\n  }\n  2.0:sw -> 0.0 [lhead = cluster_0, ]\n  2.0:se -> 0.0 [lhead = cluster_0, ]\n}".toList, 3) := by
    decide +kernel
  obtain ⟨U, eg, g1, _⟩ := Ex.draw_hist allow h1
  obtain ⟨U', eg', g2, _⟩ := Ex.draw_hist allow h2
  exact ⟨U, eg, U', eg', _, g1, g2, rfl⟩

/-- **C73, limit.**  Without a rebuild an arrow can end at a dot node that is not in the drawing: the argument is printed as it was given
(`dot` then draws an extra node). -/
theorem c73_dangling (allow) : ∃ U eg ls x, Hist Ex.N0 allow U eg ∧ dotLines Ex.text DotCfg.default eg (eg.classes.map Prod.snd) = .ok ls ∧
    x ∈ ls.filterMap DotLine.arrow ∧ ∀ l, .node x.dst.1 x.dst.2 l ∉ ls := by
  have h1 : (do
      let eg ← Ex.play [.add ⟨.a, []⟩, .add ⟨.b, []⟩, .add ⟨.f, [0, 1]⟩, .union 0 1 7] EGraph.new
      dotLines Ex.text DotCfg.default eg (eg.classes.map Prod.snd) : Res _) =
      .ok [.cluster 0, .style, .node 0 0 ['a'], .node 0 1 ['b'], .close, .cluster 2, .style, .node 2 0 ['f'], .close,
        .edge 2 0 .sw 0 0 none, .edge 2 0 .se 1 0 none] := by decide +kernel
  obtain ⟨eg, he, h1⟩ := bind_eq_ok.1 h1
  obtain ⟨U, hU⟩ := Ex.play_hist allow _ _ _ _ .refl he
  exact ⟨U, eg, _, ⟨(2, 0), .se, none, (1, 0), 0⟩, hU, h1, by decide, by simp⟩

/-- Operator names that contain a quotation mark and a newline. -/
def Ex.badText : OpText Ex.S where
  show_ := fun o => match o with
    | .a => "x\"]\n    0.1[label = \"y".toList | .b => ['x'] | .c => ['y'] | .f => ['f'] | .g => ['g']
  fromOp := fun _ _ => none

/-- **C73, limit.**  Labels are not escaped: if an operator's name contains quotation marks and newlines, different rebuilt e-graphs can
have the same text, although different operators have different names. -/
theorem c73_not_escaped (allow) : Function.Injective Ex.badText.show_ ∧
    ∃ U eg U' eg' s, (Hist Ex.N0 allow U eg ∧ Rebuilt eg ∧ dotText Ex.badText DotCfg.default eg (eg.classes.map Prod.snd) = .ok s) ∧
      (Hist Ex.N0 allow U' eg' ∧ Rebuilt eg' ∧ dotText Ex.badText DotCfg.default eg' (eg'.classes.map Prod.snd) = .ok s) ∧
      eg.totalNumberOfNodes = 1 ∧ eg'.totalNumberOfNodes = 2 := by
  refine ⟨by intro o o' h; cases o <;> cases o' <;> first | rfl | (simp [Ex.badText] at h), ?_⟩
  have h1 : Ex.draw Ex.badText [.add ⟨.a, []⟩] = .ok ("digraph egraph {\n  compound=true\n  clusterrank=local\n  subgraph cluster_0 {\n    style=dotted\n    0.0[label = \"x\"]\n    0.1[label = \"y\"]\n  }\n}".toList, 1) := by
    decide +kernel
  have h2 : Ex.draw Ex.badText [.add ⟨.b, []⟩, .add ⟨.c, []⟩, .union 0 1 7] = .ok ("digraph egraph {\n  compound=true\n  clusterrank=local\n  subgraph cluster_0 {\n    style=dotted\n    0.0[label = \"x\"]\n    0.1[label = \"y\"]\n  }\n}".toList, 2) := by
    decide +kernel
  obtain ⟨U, eg, g1, n1⟩ := Ex.draw_hist allow h1
  obtain ⟨U', eg', g2, n2⟩ := Ex.draw_hist allow h2
  exact ⟨U, eg, U', eg', _, g1, g2, n1, n2⟩

/-- Two configuration lines in the drawing of an e-graph. -/
example : ∃ body, dotText Ex.text ((DotCfg.default.withConfigLine "rankdir=LR".toList).withConfigLine "ranksep=2".toList) Ex.e6
      (Ex.e6.classes.map Prod.snd) =
    .ok ("digraph egraph {\n  compound=true\n  clusterrank=local\n".toList ++ "  rankdir=LR\n  ranksep=2\n".toList ++ (body ++ ['}'])) := by
  obtain ⟨body, h⟩ := c73_config (T := Ex.text) (Ex.hist6 .all) (List.Perm.refl _) true
  refine ⟨body, (h ["rankdir=LR".toList, "ranksep=2".toList]).trans ?_⟩
  have e : ["rankdir=LR".toList, "ranksep=2".toList].flatMap (fun l => [' ', ' '] ++ l ++ ['\n']) = "  rankdir=LR\n  ranksep=2\n".toList := by
    decide +kernel
  rw [e]

end Egg
