import Verif.Lemmas.Below
import Verif.Props.Counts
/-
E-graphs that represent the same terms are the same up to the names of classes.
-/
namespace Egg
variable {Op D D' : Type} [DecidableEq Op] [Lang Op]

theorem Full.of_hist {A : UserAnalysis Op D} {depth : Nat} {allow : Caller Op D} {U : List (UnionRec Op)} {eg : EGraph Op D}
    (h : Hist (A.at depth) allow U eg) (hc : eg.clean = true) : Full eg :=
  ⟨hist_good h, (c47_clean_means_rebuilt h hc).pending⟩

section
variable {eg : EGraph Op D} {M : EGraph Op D'}

/-- The class of `M` with the terms of the class `c` of `eg`. -/
theorem exists_same (h : Full eg) (hM : Full M) (h1 : Within eg M) (h2 : Within M eg) {c : Id} (hc : eg.find c = .ok c) :
    ∃ d, M.find d = .ok d ∧ ∀ t, Rep eg c t ↔ Rep M d t := by
  have hcl := (h.good.inv.find_iff.1 hc).1
  obtain ⟨t0, ht0⟩ := h.good.inv.exists_rep hcl
  obtain ⟨d0, hd0, -⟩ := h1 c t0 t0 ht0 ht0
  have hdl := hM.good.inv.rep_lt hd0
  have hrl := hM.good.inv.core.rtLt d0 hdl
  have hid := hM.good.inv.core.rtIdem d0
  have hd : Rep M (M.rt d0) t0 := hM.good.inv.rep_congr hrl hid.symm hd0
  refine ⟨M.rt d0, hM.good.inv.find_iff.2 ⟨hrl, hid⟩, fun t => ⟨fun ht => ?_, fun ht => ?_⟩⟩
  · obtain ⟨d', a1, a2⟩ := h1 c t0 t ht0 ht
    exact (hM.rel a1 a2 _).1 hd
  · obtain ⟨c', a1, a2⟩ := h2 _ t0 t hd ht
    exact (h.rel a1 a2 _).1 ht0

theorem same_unique (hM : Full M) {d d' : Id} {t : Term Op} (hd : M.find d = .ok d) (hd' : M.find d' = .ok d') (h : Rep M d t) (h' : Rep M d' t) : d = d' := by
  have := EGraph.InvW.rep_unique hM.good.inv hM.pending t h h'
  rw [(hM.good.inv.find_iff.1 hd).2, (hM.good.inv.find_iff.1 hd').2] at this
  exact this

open Classical in
/-- The renamed. -/
noncomputable def renamed (eg : EGraph Op D) (M : EGraph Op D') (c : Id) : Id :=
  if h : ∃ d, M.find d = .ok d ∧ ∀ t, Rep eg c t ↔ Rep M d t then h.choose else c

theorem renaming_spec (h : Full eg) (hM : Full M) (h1 : Within eg M) (h2 : Within M eg) {c : Id} (hc : eg.find c = .ok c) :
    M.find (renamed eg M c) = .ok (renamed eg M c) ∧ ∀ t, Rep eg c t ↔ Rep M (renamed eg M c) t := by
  have he := exists_same h hM h1 h2 hc
  unfold renamed
  rw [dif_pos he]
  exact he.choose_spec

theorem renaming_inv (h : Full eg) (hM : Full M) (h1 : Within eg M) (h2 : Within M eg) {c : Id} (hc : eg.find c = .ok c) :
    renamed M eg (renamed eg M c) = c := by
  obtain ⟨a1, a2⟩ := renaming_spec h hM h1 h2 hc
  obtain ⟨b1, b2⟩ := renaming_spec hM h h2 h1 a1
  obtain ⟨t, ht⟩ := h.good.inv.exists_rep (h.good.inv.find_iff.1 hc).1
  exact same_unique h b1 hc ((b2 t).1 ((a2 t).1 ht)) ht

theorem forall₂_exists_rep (h : Full eg) : ∀ {l : List Id}, (∀ c ∈ l, c < eg.nodes.length) → ∃ ts, List.Forall₂ (Rep eg) l ts := by
  intro l
  induction l with
  | nil => intro _; exact ⟨[], .nil⟩
  | cons c l ih =>
    intro hl
    obtain ⟨t, ht⟩ := h.good.inv.exists_rep (hl c (by simp))
    obtain ⟨ts, hts⟩ := ih (fun c hc => hl c (by simp [hc]))
    exact ⟨t :: ts, .cons ht hts⟩

theorem renaming_node (h : Full eg) (hM : Full M) (hr : Rebuilt eg) (hrM : Rebuilt M) (h1 : Within eg M) (h2 : Within M eg) {c : Id} (hc : eg.find c = .ok c)
    {k : EClass Op D} {l : EClass Op D'} (hk : eg.classes.get? c = some k) (hl : M.classes.get? (renamed eg M c) = some l) {n : ENode Op} (hn : n ∈ k.nodes) :
    n.mapChildren (renamed eg M) ∈ l.nodes := by
  have hcan : ∀ ch ∈ n.children, eg.find ch = .ok ch := hr.canon c k hk n hn
  obtain ⟨ts, hts⟩ := forall₂_exists_rep h (fun ch hch => (h.good.inv.find_iff.1 (hcan ch hch)).1)
  have hrep : Rep eg c (.node n.op ts) := EGraph.rep_iff.2 ⟨c, k, n, hc, hk, hn, rfl, hts⟩
  obtain ⟨a1, a2⟩ := renaming_spec h hM h1 h2 hc
  have hrep' := (a2 _).1 hrep
  rw [EGraph.rep_iff] at hrep'
  obtain ⟨r, k', m, q1, q2, q3, q4, q5⟩ := hrep'
  rw [a1] at q1
  cases q1
  rw [hl] at q2
  cases q2
  have hcan' : ∀ ch ∈ m.children, M.find ch = .ok ch := hrM.canon _ _ hl m q3
  have hm : m.children = n.children.map (renamed eg M) := by
    have h3 : List.Forall₂ (fun a b => a = renamed eg M b) m.children n.children :=
      forall₂_comp q5 (forall₂_flip hts) (fun a t b ha _ hb hat hbt => by
        obtain ⟨b1, b2⟩ := renaming_spec h hM h1 h2 (hcan b hb)
        exact same_unique hM (hcan' a ha) b1 hat ((b2 t).1 hbt))
    have : List.Forall₂ (fun a b => id a = renamed eg M b) m.children n.children := h3
    rw [forall₂_map_eq, List.map_id] at this
    exact this
  have : n.mapChildren (renamed eg M) = m := by
    unfold ENode.mapChildren
    rw [← hm]
    cases m
    cases q4
    rfl
  rw [this]
  exact q3

theorem sameUpTo (h : Full eg) (hM : Full M) (hr : Rebuilt eg) (hrM : Rebuilt M) (h1 : Within eg M) (h2 : Within M eg) :
    SameUpTo (renamed eg M) eg M where
  into := fun c hc => (renaming_spec h hM h1 h2 hc).1
  inj := fun c d hc hd e => by
    rw [← renaming_inv h hM h1 h2 hc, ← renaming_inv h hM h1 h2 hd, e]
  onto := fun d hd => ⟨renamed M eg d, (renaming_spec hM h h2 h1 hd).1, renaming_inv hM h h2 h1 hd⟩
  terms := fun c hc => (renaming_spec h hM h1 h2 hc).2
  nodes := fun c hc => by
    have a1 := (renaming_spec h hM h1 h2 hc).1
    have hcl := h.good.inv.find_iff.1 hc
    have hdl := hM.good.inv.find_iff.1 a1
    obtain ⟨k, hk⟩ := h.good.inv.exists_cls hcl.1
    obtain ⟨l, hl⟩ := hM.good.inv.exists_cls hdl.1
    rw [hcl.2] at hk
    rw [hdl.2] at hl
    refine ⟨k, l, h.good.inv.index_iff.2 ⟨hcl.1, by rw [hcl.2]; exact hk⟩, hM.good.inv.index_iff.2 ⟨hdl.1, by rw [hdl.2]; exact hl⟩, ?_⟩
    have nd : k.nodes.Nodup := (hr.sorted c k hk).imp (fun h => h.2)
    have nd' : l.nodes.Nodup := (hrM.sorted _ l hl).imp (fun h => h.2)
    have hcan := hr.canon c k hk
    have hcan' := hrM.canon _ l hl
    have back : ∀ n ∈ k.nodes, (n.mapChildren (renamed eg M)).mapChildren (renamed M eg) = n := by
      intro n hn
      cases n with
      | mk op ch =>
        have : ch.map (renamed M eg ∘ renamed eg M) = ch := by
          conv_rhs => rw [← List.map_id ch]
          exact List.map_congr_left (fun x hx => renaming_inv h hM h1 h2 (hcan _ hn x hx))
        simp only [ENode.mapChildren, List.map_map, this]
    have back' : ∀ n ∈ l.nodes, (n.mapChildren (renamed M eg)).mapChildren (renamed eg M) = n := by
      intro n hn
      cases n with
      | mk op ch =>
        have : ch.map (renamed eg M ∘ renamed M eg) = ch := by
          conv_rhs => rw [← List.map_id ch]
          exact List.map_congr_left (fun x hx => renaming_inv hM h h2 h1 (hcan' _ hn x hx))
        simp only [ENode.mapChildren, List.map_map, this]
    refine (List.perm_ext_iff_of_nodup ?_ nd').2 (fun m => ?_)
    · refine (List.nodup_map_iff_inj_on nd).2 (fun x hx y hy e => ?_)
      rw [← back x hx, ← back y hy, e]
    · rw [List.mem_map]
      constructor
      · rintro ⟨n, hn, rfl⟩
        exact renaming_node h hM hr hrM h1 h2 hc hk hl hn
      · intro hm
        have hk' : eg.classes.get? (renamed M eg (renamed eg M c)) = some k := by rw [renaming_inv h hM h1 h2 hc]; exact hk
        exact ⟨m.mapChildren (renamed M eg), renaming_node hM h hrM hr h2 h1 a1 hl hk' hm, back' m hm⟩

end

/-! ### Counts -/

section
variable {eg : EGraph Op D} {M : EGraph Op D'} {φ : Id → Id}

theorem mem_keys_iff (h : Full eg) {c : Id} : c ∈ AMap.keys eg.classes ↔ eg.find c = .ok c := by
  rw [← AMap.get?_isSome_iff, h.good.inv.find_iff]
  have := h.good.inv.core.clsKey c
  simp only [EGraph.sk, Option.isSome_map] at this
  exact this

theorem SameUpTo.keys (hs : SameUpTo φ eg M) (h : Full eg) (hM : Full M) :
    ((AMap.keys eg.classes).map φ).Perm (AMap.keys M.classes) := by
  refine (List.perm_ext_iff_of_nodup ?_ hM.good.inv.clsNodup).2 (fun d => ?_)
  · refine (List.nodup_map_iff_inj_on h.good.inv.clsNodup).2 (fun x hx y hy e => ?_)
    exact hs.inj x y ((mem_keys_iff h).1 hx) ((mem_keys_iff h).1 hy) e
  · rw [List.mem_map, mem_keys_iff hM]
    constructor
    · rintro ⟨c, hc, rfl⟩; exact hs.into c ((mem_keys_iff h).1 hc)
    · intro hd
      obtain ⟨c, h1, h2⟩ := hs.onto d hd
      exact ⟨c, (mem_keys_iff h).2 h1, h2⟩

theorem SameUpTo.numberOfClasses (hs : SameUpTo φ eg M) (h : Full eg) (hM : Full M) : eg.numberOfClasses = M.numberOfClasses := by
  have := (hs.keys h hM).length_eq
  simpa [AMap.keys, EGraph.numberOfClasses] using this

/-- The number of e-nodes of the class `c`. -/
def sizeAt (eg : EGraph Op D) (c : Id) : Nat := ((eg.classes.get? c).map (fun k => k.nodes.length)).getD 0

theorem total_keys (h : Full eg) : eg.totalNumberOfNodes = ((AMap.keys eg.classes).map (sizeAt eg)).sum := by
  unfold EGraph.totalNumberOfNodes AMap.keys
  rw [List.map_map]
  congr 1
  refine List.map_congr_left (fun kc hkc => ?_)
  have : eg.classes.get? kc.1 = some kc.2 := (AMap.mem_iff_get? h.good.inv.clsNodup).1 hkc
  simp [sizeAt, this]

theorem SameUpTo.total (hs : SameUpTo φ eg M) (h : Full eg) (hM : Full M) : eg.totalNumberOfNodes = M.totalNumberOfNodes := by
  rw [total_keys h, total_keys hM]
  have e1 : (AMap.keys eg.classes).map (sizeAt eg) = ((AMap.keys eg.classes).map φ).map (sizeAt M) := by
    rw [List.map_map]
    refine List.map_congr_left (fun c hc => ?_)
    have hc := (mem_keys_iff h).1 hc
    obtain ⟨k, l, h1, h2, h3⟩ := hs.nodes c hc
    rw [h.good.inv.index_iff, (h.good.inv.find_iff.1 hc).2] at h1
    rw [hM.good.inv.index_iff, (hM.good.inv.find_iff.1 (hs.into c hc)).2] at h2
    have := h3.length_eq
    rw [List.length_map] at this
    simp [sizeAt, h1.2, h2.2, this]
  rw [e1]
  exact ((hs.keys h hM).map _).sum_eq

end
end Egg
