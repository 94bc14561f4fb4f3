import Verif.Lemmas.Explain
import Verif.Model.EGraph
/-
The core invariant of the e-graph, stated over the root function, the node
table, the memo and the class skeletons, and its preservation by the abstract
state changes.
-/
namespace Egg

variable {Op : Type} [DecidableEq Op]

/-- A class without its analysis datum. -/
structure Skel (Op : Type) where
  id : Id
  nodes : List (ENode Op)
  parents : List Id

/-- Same operator, children pairwise in the same class. -/
def Cong (rt : Id → Id) (n m : ENode Op) : Prop :=
  n.op = m.op ∧ n.children.map rt = m.children.map rt

theorem Cong.refl {rt : Id → Id} (n : ENode Op) : Cong rt n n := ⟨rfl, rfl⟩
theorem Cong.symm {rt : Id → Id} {n m : ENode Op} (h : Cong rt n m) : Cong rt m n :=
  ⟨h.1.symm, h.2.symm⟩
theorem Cong.trans {rt : Id → Id} {n m k : ENode Op} (h : Cong rt n m) (h' : Cong rt m k) :
    Cong rt n k := ⟨h.1.trans h'.1, h.2.trans h'.2⟩

theorem Cong.coarse {rt rt' : Id → Id} {n m : ENode Op} {f : Id → Id}
    (hf : ∀ i, rt' i = f (rt i)) (h : Cong rt n m) : Cong rt' n m := by
  refine ⟨h.1, ?_⟩
  have e : rt' = f ∘ rt := funext hf
  rw [e, ← List.map_map, ← List.map_map, h.2]

theorem cong_iff_canon {rt : Id → Id} {n m : ENode Op} :
    Cong rt n m ↔ n.mapChildren rt = m.mapChildren rt := by
  cases n; cases m; simp [Cong, ENode.mapChildren]

theorem Cong.canon_left {rt : Id → Id} {n m : ENode Op} (hid : ∀ c ∈ n.children, rt (rt c) = rt c) :
    Cong rt (n.mapChildren rt) m ↔ Cong rt n m := by
  have : (n.mapChildren rt).children.map rt = n.children.map rt := by
    simp only [ENode.mapChildren, List.map_map]
    exact List.map_congr_left hid
  simp only [Cong, this]
  rfl

/-- `i` occurs in the parent list of the class of each of its children. -/
def Cov (rt : Id → Id) (nodes : List (ENode Op)) (sk : Id → Option (Skel Op)) (i : Id) : Prop :=
  ∀ n, nodes[i]? = some n → ∀ ch ∈ n.children, ∃ s, sk (rt ch) = some s ∧ i ∈ s.parents

structure Core (W : Id → Id → Prop) (rt : Id → Id) (nodes : List (ENode Op))
    (mem : ENode Op → Option Id) (pend ap : List Id) (sk : Id → Option (Skel Op)) : Prop where
  rtLt : ∀ i, i < nodes.length → rt i < nodes.length
  rtIdem : ∀ i, rt (rt i) = rt i
  rtOut : ∀ i, nodes.length ≤ i → rt i = i
  dag : Dag nodes
  clsKey : ∀ c, (sk c).isSome ↔ c < nodes.length ∧ rt c = c
  clsId : ∀ c s, sk c = some s → s.id = c
  clsNodes : ∀ c s, sk c = some s → ∀ n ∈ s.nodes, ∃ (i : Id) (m : ENode Op),
    nodes[i]? = some m ∧ rt i = c ∧ Cong rt n m
  nodesCls : ∀ (i : Id) m, nodes[i]? = some m → ∃ s n, sk (rt i) = some s ∧ n ∈ s.nodes ∧ Cong rt n m
  memo : ∀ m (j : Id), mem m = some j → ∃ nj : ENode Op, nodes[j]? = some nj ∧ Cong rt nj m ∧
    Cov rt nodes sk j
  cov : ∀ (i : Id) n, nodes[i]? = some n → ∃ (r : Id) (nr : ENode Op),
    nodes[r]? = some nr ∧ Cov rt nodes sk r ∧ Cong rt n nr ∧ rt r = rt i
  parents : ∀ c s, sk c = some s → ∀ p ∈ s.parents, p < nodes.length ∧ Cov rt nodes sk p
  pendOk : ∀ p ∈ pend, p < nodes.length ∧ Cov rt nodes sk p
  apOk : ∀ p ∈ ap, p < nodes.length ∧ Cov rt nodes sk p
  congr : ∀ (i : Id) n, nodes[i]? = some n → Cov rt nodes sk i →
    i ∈ pend ∨ ∃ j, mem (n.mapChildren rt) = some j ∧ W (rt j) (rt i)

namespace Core
variable {W : Id → Id → Prop} {rt : Id → Id} {nodes : List (ENode Op)}
  {mem : ENode Op → Option Id} {pend ap : List Id} {sk : Id → Option (Skel Op)}

theorem ltOfRt (h : Core W rt nodes mem pend ap sk) {i : Id} (hi : rt i < nodes.length) :
    i < nodes.length := by
  by_contra hc
  rw [h.rtOut i (by omega)] at hi
  omega

theorem childLt (h : Core W rt nodes mem pend ap sk) {i : Id} {n : ENode Op}
    (hn : nodes[i]? = some n) {c : Id} (hc : c ∈ n.children) : c < nodes.length :=
  lt_trans (h.dag i n hn c hc) (getElem?_lt hn)

theorem congLt (h : Core W rt nodes mem pend ap sk) {i : Id} {n m : ENode Op}
    (hm : nodes[i]? = some m) (hc : Cong rt n m) : ∀ c ∈ n.children, c < nodes.length := by
  intro c hcm
  have : rt c ∈ m.children.map rt := by rw [← hc.2]; exact List.mem_map_of_mem hcm
  obtain ⟨d, hd, he⟩ := List.mem_map.1 this
  apply h.ltOfRt
  rw [← he]
  exact h.rtLt _ (h.childLt hm hd)

theorem clsNodeLt (h : Core W rt nodes mem pend ap sk) {c : Id} {s : Skel Op}
    (hs : sk c = some s) {n : ENode Op} (hn : n ∈ s.nodes) : ∀ c ∈ n.children, c < nodes.length := by
  obtain ⟨i, m, h1, _, h3⟩ := h.clsNodes c s hs n hn
  exact h.congLt h1 h3

theorem exists_cls (h : Core W rt nodes mem pend ap sk) {i : Id} (hi : i < nodes.length) :
    ∃ s, sk (rt i) = some s := by
  have := (h.clsKey (rt i)).2 ⟨h.rtLt i hi, h.rtIdem i⟩
  exact Option.isSome_iff_exists.1 this

theorem memLt (h : Core W rt nodes mem pend ap sk) {m : ENode Op} {j : Id} (hj : mem m = some j) :
    j < nodes.length := by
  obtain ⟨nj, h1, _⟩ := h.memo m j hj
  exact getElem?_lt h1

theorem canonIdem (h : Core W rt nodes mem pend ap sk) (n : ENode Op) :
    (n.mapChildren rt).mapChildren rt = n.mapChildren rt := by
  simp only [ENode.mapChildren, List.map_map]
  congr 1
  apply List.map_congr_left
  intro c _
  exact h.rtIdem c

theorem monoAp (h : Core W rt nodes mem pend ap sk) {ap' : List Id}
    (hap : ∀ p ∈ ap', p < nodes.length ∧ Cov rt nodes sk p) : Core W rt nodes mem pend ap' sk :=
  { h with apOk := hap }

theorem monoW (h : Core W rt nodes mem pend ap sk) {W' : Id → Id → Prop}
    (hW : ∀ x y, W x y → W' x y) : Core W' rt nodes mem pend ap sk := by
  refine { h with congr := ?_ }
  intro i n hn hc
  rcases h.congr i n hn hc with hp | ⟨j, h1, h2⟩
  · exact Or.inl hp
  · exact Or.inr ⟨j, h1, hW _ _ h2⟩

/-- Merging class `b` into class `a`. -/
theorem union (h : Core W rt nodes mem pend ap sk) {a b : Id} {sa sb : Skel Op}
    (hra : rt a = a) (hrb : rt b = b) (hab : a ≠ b) (ha : sk a = some sa) (hb : sk b = some sb)
    (hW : ∀ x y, W x y → (if x = b then a else x) = (if y = b then a else y))
    {pend' ap' : List Id} {sk' : Id → Option (Skel Op)} {ns' : List (ENode Op)} {ps' : List Id}
    (hns : ∀ n, n ∈ ns' ↔ n ∈ sa.nodes ∨ n ∈ sb.nodes)
    (hps : ∀ p, p ∈ ps' ↔ p ∈ sa.parents ∨ p ∈ sb.parents)
    (hsk : ∀ c, sk' c = if c = a then some ⟨a, ns', ps'⟩ else if c = b then none else sk c)
    (hpend : ∀ p, p ∈ pend' ↔ p ∈ sb.parents ∨ p ∈ pend)
    (hap : ∀ p ∈ ap', p ∈ ap ∨ p ∈ sa.parents ∨ p ∈ sb.parents) :
    Core Eq (fun i => if rt i = b then a else rt i) nodes mem pend' ap' sk' := by
  have haL : a < nodes.length := ((h.clsKey a).1 (by simp [ha])).1
  have hbL : b < nodes.length := ((h.clsKey b).1 (by simp [hb])).1
  generalize hrt' : (fun i => if rt i = b then a else rt i) = rt'
  have hf : ∀ i, rt' i = (fun x => if x = b then a else x) (rt i) := by subst hrt'; simp
  have hcong : ∀ {n m : ENode Op}, Cong rt n m → Cong rt' n m := fun hc => hc.coarse (f := fun x => if x = b then a else x) hf
  have hcov : ∀ {i}, Cov rt nodes sk i → Cov rt' nodes sk' i := by
    intro i hi n hn ch hch
    obtain ⟨s, hs, hp⟩ := hi n hn ch hch
    rw [hf, hsk]
    by_cases e : rt ch = b
    · refine ⟨⟨a, ns', ps'⟩, by simp [e], ?_⟩
      rw [e, hb] at hs; cases hs
      exact (hps i).2 (Or.inr hp)
    · by_cases e2 : rt ch = a
      · refine ⟨⟨a, ns', ps'⟩, by simp [e2, hab], ?_⟩
        rw [e2, ha] at hs; cases hs
        exact (hps i).2 (Or.inl hp)
      · exact ⟨s, by simp [e, e2, hs], hp⟩
  have hcov' : ∀ {i}, Cov rt' nodes sk' i → Cov rt nodes sk i := by
    intro i hi n hn
    cases hch : n.children with
    | nil => intro ch h; simp at h
    | cons c0 cs =>
      obtain ⟨s, hs, hp⟩ := hi n hn c0 (by simp [hch])
      rw [hsk] at hs
      have : Cov rt nodes sk i := by
        split at hs
        · cases hs
          rcases (hps i).1 hp with hp | hp
          · exact (h.parents a sa ha i hp).2
          · exact (h.parents b sb hb i hp).2
        · split at hs
          · cases hs
          · exact (h.parents _ s hs i hp).2
      rw [← hch]
      exact this n hn
  have hpar : ∀ p ∈ ps', p < nodes.length ∧ Cov rt' nodes sk' p := by
    intro p hp
    rcases (hps p).1 hp with hp | hp
    · exact ⟨(h.parents a sa ha p hp).1, hcov (h.parents a sa ha p hp).2⟩
    · exact ⟨(h.parents b sb hb p hp).1, hcov (h.parents b sb hb p hp).2⟩
  refine ⟨?_, ?_, ?_, h.dag, ?_, ?_, ?_, ?_, ?_, ?_, ?_, ?_, ?_, ?_⟩
  · intro i hi
    rw [hf]
    show (if rt i = b then a else rt i) < _
    split
    · exact haL
    · exact h.rtLt i hi
  · intro i
    subst hrt'
    simp only
    by_cases e : rt i = b
    · simp only [e, if_true, hra]
      rw [if_neg hab]
    · simp only [e, if_false, h.rtIdem]
  · intro i hi
    rw [hf, h.rtOut i hi]
    show (if i = b then a else i) = i
    rw [if_neg (by omega)]
  · intro c
    rw [hsk, hf]
    show _ ↔ c < nodes.length ∧ (if rt c = b then a else rt c) = c
    by_cases e : c = a
    · subst e
      simp [haL, hra, hab]
    · rw [if_neg e]
      by_cases e2 : c = b
      · subst e2
        simp [hrb, hab]
      · rw [if_neg e2, h.clsKey]
        constructor
        · rintro ⟨h1, h2⟩
          exact ⟨h1, by rw [h2, if_neg e2]⟩
        · rintro ⟨h1, h2⟩
          refine ⟨h1, ?_⟩
          split at h2
          · exact absurd h2.symm e
          · exact h2
  · intro c s hs
    rw [hsk] at hs
    split at hs
    · cases hs; simp_all
    · split at hs
      · cases hs
      · exact h.clsId c s hs
  · intro c s hs n hn
    rw [hsk] at hs
    split at hs
    · rename_i e; subst e
      cases hs
      rcases (hns n).1 hn with hn | hn
      · obtain ⟨i, m, h1, h2, h3⟩ := h.clsNodes _ _ ha n hn
        exact ⟨i, m, h1, by rw [hf, h2]; simp [hab], hcong h3⟩
      · obtain ⟨i, m, h1, h2, h3⟩ := h.clsNodes _ _ hb n hn
        exact ⟨i, m, h1, by rw [hf, h2]; simp, hcong h3⟩
    · split at hs
      · cases hs
      · rename_i e1 e2
        obtain ⟨i, m, h1, h2, h3⟩ := h.clsNodes _ _ hs n hn
        exact ⟨i, m, h1, by rw [hf, h2]; simp [e2], hcong h3⟩
  · intro i m hm
    obtain ⟨s, n, h1, h2, h3⟩ := h.nodesCls i m hm
    rw [hf, hsk]
    by_cases e : rt i = b
    · rw [e, hb] at h1; cases h1
      exact ⟨⟨a, ns', ps'⟩, n, by simp [e], (hns n).2 (Or.inr h2), hcong h3⟩
    · by_cases e2 : rt i = a
      · rw [e2, ha] at h1; cases h1
        exact ⟨⟨a, ns', ps'⟩, n, by simp [e2, hab], (hns n).2 (Or.inl h2), hcong h3⟩
      · exact ⟨s, n, by simp [e, e2, h1], h2, hcong h3⟩
  · intro m j hj
    obtain ⟨nj, h1, h2, h3⟩ := h.memo m j hj
    exact ⟨nj, h1, hcong h2, hcov h3⟩
  · intro i n hn
    obtain ⟨r, nr, h1, h2, h3, h4⟩ := h.cov i n hn
    exact ⟨r, nr, h1, hcov h2, hcong h3, by rw [hf, hf, h4]⟩
  · intro c s hs p hp
    rw [hsk] at hs
    split at hs
    · cases hs
      exact hpar p hp
    · split at hs
      · cases hs
      · exact ⟨(h.parents _ s hs p hp).1, hcov (h.parents _ s hs p hp).2⟩
  · intro p hp
    rcases (hpend p).1 hp with hp | hp
    · exact hpar p ((hps p).2 (Or.inr hp))
    · exact ⟨(h.pendOk p hp).1, hcov (h.pendOk p hp).2⟩
  · intro p hp
    rcases hap p hp with hp | hp
    · exact ⟨(h.apOk p hp).1, hcov (h.apOk p hp).2⟩
    · exact hpar p ((hps p).2 hp)
  · intro i n hn hc
    have hc0 := hcov' hc
    by_cases hex : ∃ ch ∈ n.children, rt ch = b
    · obtain ⟨ch, hch, e⟩ := hex
      obtain ⟨s, hs, hp⟩ := hc0 n hn ch hch
      rw [e, hb] at hs; cases hs
      exact Or.inl ((hpend i).2 (Or.inl hp))
    · rcases h.congr i n hn hc0 with hp | ⟨j, h1, h2⟩
      · exact Or.inl ((hpend i).2 (Or.inr hp))
      · refine Or.inr ⟨j, ?_, ?_⟩
        · have : n.mapChildren rt' = n.mapChildren rt := by
            simp only [ENode.mapChildren]
            congr 1
            apply List.map_congr_left
            intro ch hch
            rw [hf]
            show (if rt ch = b then a else rt ch) = _
            rw [if_neg]
            intro e; exact hex ⟨ch, hch, e⟩
          rw [this]; exact h1
        · rw [hf, hf]; exact hW _ _ h2

/-- Adding a fresh class for an e-node that is not in the memo. -/
theorem addNew (h : Core Eq rt nodes mem pend ap sk) {orig : ENode Op}
    (hch : ∀ c ∈ orig.children, c < nodes.length)
    (hnew : mem (orig.mapChildren rt) = none)
    {sk' : Id → Option (Skel Op)} {mem' : ENode Op → Option Id}
    (hsk : ∀ c, sk' c = if c = nodes.length then some ⟨nodes.length, [orig.mapChildren rt], []⟩
      else (sk c).map (fun s => { s with
        parents := s.parents ++ List.replicate ((orig.children.map rt).count c) nodes.length }))
    (hmem : ∀ m, mem' m = if orig.mapChildren rt = m then some nodes.length else mem m) :
    Core Eq rt (nodes ++ [orig]) mem' (nodes.length :: pend) ap sk' := by
  have hrtL : rt nodes.length = nodes.length := h.rtOut _ (le_refl _)
  have hnget : ∀ {i : Id} {n : ENode Op}, (nodes ++ [orig])[i]? = some n →
      nodes[i]? = some n ∨ (i = nodes.length ∧ n = orig) := by
    intro i n hn
    rw [List.getElem?_append] at hn
    split at hn
    · exact Or.inl hn
    · rw [List.getElem?_singleton] at hn
      split at hn
      · right; exact ⟨by omega, by simpa using hn.symm⟩
      · simp at hn
  have hget : ∀ {i : Id} {n : ENode Op}, nodes[i]? = some n → (nodes ++ [orig])[i]? = some n := by
    intro i n hn
    rw [List.getElem?_append_left (getElem?_lt hn), hn]
  have hskold : ∀ {c s}, sk c = some s → ∃ s', sk' c = some s' ∧ s'.nodes = s.nodes ∧ s'.id = s.id ∧
      (∀ p, p ∈ s'.parents ↔ p ∈ s.parents ∨ (p = nodes.length ∧ c ∈ orig.children.map rt)) := by
    intro c s hs
    have hc : c ≠ nodes.length := by
      have := ((h.clsKey c).1 (by simp [hs])).1
      omega
    have e := hsk c
    rw [if_neg hc, hs, Option.map_some] at e
    refine ⟨_, e, rfl, rfl, ?_⟩
    intro p
    simp only [List.mem_append, List.mem_replicate, ne_eq]
    rw [List.count_eq_zero, not_not]
    tauto
  have hsknew : ∀ {c s'}, sk' c = some s' → (c = nodes.length ∧ s' = ⟨nodes.length, [orig.mapChildren rt], []⟩) ∨
      ∃ s, sk c = some s ∧ s'.nodes = s.nodes ∧ s'.id = s.id ∧
        (∀ p, p ∈ s'.parents ↔ p ∈ s.parents ∨ (p = nodes.length ∧ c ∈ orig.children.map rt)) := by
    intro c s' hs
    by_cases hc : c = nodes.length
    · rw [hsk, if_pos hc] at hs
      exact Or.inl ⟨hc, by simpa using hs.symm⟩
    · have hs0 := hs
      rw [hsk, if_neg hc] at hs
      cases hsc : sk c with
      | none => rw [hsc] at hs; simp at hs
      | some s =>
        obtain ⟨s'', h1, h2, h3, h4⟩ := hskold hsc
        rw [h1] at hs0; cases hs0
        exact Or.inr ⟨s, rfl, h2, h3, h4⟩
  have hcov : ∀ {i}, i < nodes.length → Cov rt nodes sk i → Cov rt (nodes ++ [orig]) sk' i := by
    intro i hi hc n hn ch hchn
    rcases hnget hn with hn | ⟨e, _⟩
    · obtain ⟨s, h1, h2⟩ := hc n hn ch hchn
      obtain ⟨s', h3, _, _, h4⟩ := hskold h1
      exact ⟨s', h3, (h4 i).2 (Or.inl h2)⟩
    · omega
  have hcovNew : Cov rt (nodes ++ [orig]) sk' nodes.length := by
    intro n hn ch hchn
    rcases hnget hn with hn | ⟨_, e⟩
    · have := getElem?_lt hn; omega
    · subst e
      obtain ⟨s, hs⟩ := h.exists_cls (hch ch hchn)
      obtain ⟨s', h3, _, _, h4⟩ := hskold hs
      exact ⟨s', h3, (h4 _).2 (Or.inr ⟨rfl, List.mem_map_of_mem hchn⟩)⟩
  have hcov' : ∀ {i n}, nodes[i]? = some n → Cov rt (nodes ++ [orig]) sk' i → Cov rt nodes sk i := by
    intro i n hn hc n' hn' ch hchn
    have hi := getElem?_lt hn
    obtain ⟨s', h1, h2⟩ := hc n' (hget hn') ch hchn
    have hchl : rt ch < nodes.length := h.rtLt _ (h.childLt hn' hchn)
    rcases hsknew h1 with ⟨e, _⟩ | ⟨s, h3, _, _, h4⟩
    · omega
    · refine ⟨s, h3, ?_⟩
      rcases (h4 i).1 h2 with h5 | ⟨e, _⟩
      · exact h5
      · omega
  have hcanon : Cong rt (orig.mapChildren rt) orig :=
    (Cong.canon_left (fun c _ => h.rtIdem c)).2 (Cong.refl _)
  have hlen : (nodes ++ [orig]).length = nodes.length + 1 := by simp
  refine ⟨?_, h.rtIdem, ?_, ?_, ?_, ?_, ?_, ?_, ?_, ?_, ?_, ?_, ?_, ?_⟩
  · intro i hi
    rw [hlen] at hi ⊢
    by_cases e : i = nodes.length
    · subst e; rw [hrtL]; omega
    · have := h.rtLt i (by omega); omega
  · intro i hi
    exact h.rtOut i (by rw [hlen] at hi; omega)
  · intro i n hn c hc
    rcases hnget hn with hn | ⟨e, e2⟩
    · exact h.dag i n hn c hc
    · subst e e2; exact hch c hc
  · intro c
    rw [hsk, hlen]
    by_cases e : c = nodes.length
    · subst e; simp [hrtL]
    · rw [if_neg e]
      simp only [Option.isSome_map, h.clsKey]
      constructor
      · rintro ⟨h1, h2⟩; exact ⟨by omega, h2⟩
      · rintro ⟨h1, h2⟩; exact ⟨by omega, h2⟩
  · intro c s' hs
    rcases hsknew hs with ⟨e1, e2⟩ | ⟨s, h1, _, h3, _⟩
    · subst e1 e2; rfl
    · rw [h3]; exact h.clsId c s h1
  · intro c s' hs n hn
    rcases hsknew hs with ⟨e1, e2⟩ | ⟨s, h1, h2, _, _⟩
    · subst e1 e2
      simp only [List.mem_singleton] at hn
      subst hn
      exact ⟨nodes.length, orig, by simp, hrtL, hcanon⟩
    · rw [h2] at hn
      obtain ⟨i, m, h5, h6, h7⟩ := h.clsNodes c s h1 n hn
      exact ⟨i, m, hget h5, h6, h7⟩
  · intro i m hm
    rcases hnget hm with hm | ⟨e, e2⟩
    · obtain ⟨s, n, h1, h2, h3⟩ := h.nodesCls i m hm
      obtain ⟨s', h4, h5, _, _⟩ := hskold h1
      exact ⟨s', n, h4, by rw [h5]; exact h2, h3⟩
    · subst e e2
      exact ⟨_, m.mapChildren rt, by rw [hrtL, hsk, if_pos rfl], by simp, hcanon⟩
  · intro m j hj
    rw [hmem] at hj
    split at hj
    · rename_i e
      cases hj
      exact ⟨orig, by simp, by rw [← e]; exact hcanon.symm, hcovNew⟩
    · obtain ⟨nj, h1, h2, h3⟩ := h.memo m j hj
      exact ⟨nj, hget h1, h2, hcov (getElem?_lt h1) h3⟩
  · intro i n hn
    rcases hnget hn with hn | ⟨e, e2⟩
    · obtain ⟨r, nr, h1, h2, h3, h4⟩ := h.cov i n hn
      exact ⟨r, nr, hget h1, hcov (getElem?_lt h1) h2, h3, h4⟩
    · subst e e2
      exact ⟨nodes.length, n, by simp, hcovNew, Cong.refl _, rfl⟩
  · intro c s' hs p hp
    rcases hsknew hs with ⟨e1, e2⟩ | ⟨s, h1, _, _, h4⟩
    · subst e2; simp at hp
    · rcases (h4 p).1 hp with hp | ⟨e, _⟩
      · have := h.parents c s h1 p hp
        exact ⟨by rw [hlen]; omega, hcov this.1 this.2⟩
      · subst e; exact ⟨by rw [hlen]; omega, hcovNew⟩
  · intro p hp
    simp only [List.mem_cons] at hp
    rcases hp with e | hp
    · subst e; exact ⟨by rw [hlen]; omega, hcovNew⟩
    · have := h.pendOk p hp
      exact ⟨by rw [hlen]; omega, hcov this.1 this.2⟩
  · intro p hp
    have := h.apOk p hp
    exact ⟨by rw [hlen]; omega, hcov this.1 this.2⟩
  · intro i n hn hc
    rcases hnget hn with hn | ⟨e, e2⟩
    · rcases h.congr i n hn (hcov' hn hc) with hp | ⟨j, h1, h2⟩
      · exact Or.inl (by simp [hp])
      · refine Or.inr ⟨j, ?_, h2⟩
        rw [hmem, if_neg]
        · exact h1
        · intro e; rw [← e, hnew] at h1; cases h1
    · left; simp [e]

/-- Recording a second, differently written copy of a memoised e-node (only
with explanations). -/
theorem addDup (h : Core Eq rt nodes mem pend ap sk) {orig : ENode Op} {e : Id}
    (hch : ∀ c ∈ orig.children, c < nodes.length)
    (hex : mem (orig.mapChildren rt) = some e) :
    Core Eq (fun i => if i = nodes.length then rt e else rt i) (nodes ++ [orig]) mem pend ap sk := by
  have heL : e < nodes.length := h.memLt hex
  have hreL : rt e < nodes.length := h.rtLt e heL
  generalize hrt' : (fun i => if i = nodes.length then rt e else rt i) = rt'
  have hold : ∀ {i}, i < nodes.length → rt' i = rt i := by
    intro i hi; subst hrt'; simp only; rw [if_neg (by omega)]
  have hnewr : rt' nodes.length = rt e := by subst hrt'; simp
  have hnget : ∀ {i : Id} {n : ENode Op}, (nodes ++ [orig])[i]? = some n →
      nodes[i]? = some n ∨ (i = nodes.length ∧ n = orig) := by
    intro i n hn
    rw [List.getElem?_append] at hn
    split at hn
    · exact Or.inl hn
    · rw [List.getElem?_singleton] at hn
      split at hn
      · right; exact ⟨by omega, by simpa using hn.symm⟩
      · simp at hn
  have hget : ∀ {i : Id} {n : ENode Op}, nodes[i]? = some n → (nodes ++ [orig])[i]? = some n := by
    intro i n hn
    rw [List.getElem?_append_left (getElem?_lt hn), hn]
  have hmapeq : ∀ {l : List Id}, (∀ c ∈ l, c < nodes.length) → l.map rt' = l.map rt := by
    intro l hl
    apply List.map_congr_left
    intro c hc; exact hold (hl c hc)
  have hcong : ∀ {n m : ENode Op}, (∀ c ∈ n.children, c < nodes.length) →
      (∀ c ∈ m.children, c < nodes.length) → Cong rt n m → Cong rt' n m := by
    intro n m h1 h2 hc
    exact ⟨hc.1, by rw [hmapeq h1, hmapeq h2, hc.2]⟩
  have hcov : ∀ {i}, i < nodes.length → Cov rt nodes sk i → Cov rt' (nodes ++ [orig]) sk i := by
    intro i hi hc n hn ch hchn
    rcases hnget hn with hn | ⟨e', _⟩
    · rw [hold (h.childLt hn hchn)]
      exact hc n hn ch hchn
    · omega
  have hcov' : ∀ {i n}, nodes[i]? = some n → Cov rt' (nodes ++ [orig]) sk i → Cov rt nodes sk i := by
    intro i n hn hc n' hn' ch hchn
    have := hc n' (hget hn') ch hchn
    rw [hold (h.childLt hn' hchn)] at this
    exact this
  have hcanon : Cong rt (orig.mapChildren rt) orig :=
    (Cong.canon_left (fun c _ => h.rtIdem c)).2 (Cong.refl _)
  obtain ⟨ne, hne, hnec, hnecov⟩ := h.memo _ _ hex
  have hne_orig : Cong rt ne orig := hnec.trans hcanon
  have hlen : (nodes ++ [orig]).length = nodes.length + 1 := by simp
  have hchl : ∀ {i : Id} {n : ENode Op}, nodes[i]? = some n → ∀ c ∈ n.children, c < nodes.length :=
    fun hn c hc => h.childLt hn hc
  refine ⟨?_, ?_, ?_, ?_, ?_, h.clsId, ?_, ?_, ?_, ?_, ?_, ?_, ?_, ?_⟩
  · intro i hi
    rw [hlen] at hi ⊢
    by_cases e' : i = nodes.length
    · subst e'; rw [hnewr]; omega
    · rw [hold (by omega)]
      have := h.rtLt i (by omega); omega
  · intro i
    by_cases e' : i = nodes.length
    · subst e'; rw [hnewr, hold hreL, h.rtIdem]
    · by_cases hi : i < nodes.length
      · rw [hold hi, hold (h.rtLt i hi), h.rtIdem]
      · have : rt' i = i := by
          subst hrt'; simp only [if_neg e']; exact h.rtOut i (by omega)
        rw [this, this]
  · intro i hi
    rw [hlen] at hi
    subst hrt'
    simp only
    rw [if_neg (by omega)]
    exact h.rtOut i (by omega)
  · intro i n hn c hc
    rcases hnget hn with hn | ⟨e', e2⟩
    · exact h.dag i n hn c hc
    · subst e' e2; exact hch c hc
  · intro c
    rw [h.clsKey, hlen]
    by_cases e' : c = nodes.length
    · subst e'; rw [hnewr]
      constructor
      · rintro ⟨h1, _⟩; omega
      · rintro ⟨_, h2⟩; omega
    · constructor
      · rintro ⟨h1, h2⟩; exact ⟨by omega, by rw [hold h1, h2]⟩
      · rintro ⟨h1, h2⟩
        have : c < nodes.length := by omega
        rw [hold this] at h2; exact ⟨this, h2⟩
  · intro c s hs n hn
    obtain ⟨i, m, h1, h2, h3⟩ := h.clsNodes c s hs n hn
    exact ⟨i, m, hget h1, by rw [hold (getElem?_lt h1), h2],
      hcong (h.clsNodeLt hs hn) (hchl h1) h3⟩
  · intro i m hm
    rcases hnget hm with hm | ⟨e', e2⟩
    · obtain ⟨s, n, h1, h2, h3⟩ := h.nodesCls i m hm
      exact ⟨s, n, by rw [hold (getElem?_lt hm), h1], h2, hcong (h.clsNodeLt h1 h2) (hchl hm) h3⟩
    · subst e' e2
      obtain ⟨s, n, h1, h2, h3⟩ := h.nodesCls _ _ hne
      exact ⟨s, n, by rw [hnewr, h1], h2, hcong (h.clsNodeLt h1 h2) hch (h3.trans hne_orig)⟩
  · intro m j hj
    obtain ⟨nj, h1, h2, h3⟩ := h.memo m j hj
    exact ⟨nj, hget h1, hcong (hchl h1) (h.congLt h1 h2.symm) h2, hcov (getElem?_lt h1) h3⟩
  · intro i n hn
    rcases hnget hn with hn | ⟨e', e2⟩
    · obtain ⟨r, nr, h1, h2, h3, h4⟩ := h.cov i n hn
      exact ⟨r, nr, hget h1, hcov (getElem?_lt h1) h2, hcong (hchl hn) (hchl h1) h3,
        by rw [hold (getElem?_lt h1), hold (getElem?_lt hn), h4]⟩
    · subst e' e2
      exact ⟨e, ne, hget hne, hcov heL hnecov, hcong hch (hchl hne) hne_orig.symm,
        by rw [hnewr, hold heL]⟩
  · intro c s hs p hp
    have := h.parents c s hs p hp
    exact ⟨by rw [hlen]; omega, hcov this.1 this.2⟩
  · intro p hp
    have := h.pendOk p hp
    exact ⟨by rw [hlen]; omega, hcov this.1 this.2⟩
  · intro p hp
    have := h.apOk p hp
    exact ⟨by rw [hlen]; omega, hcov this.1 this.2⟩
  · intro i n hn hc
    rcases hnget hn with hn | ⟨e', e2⟩
    · rcases h.congr i n hn (hcov' hn hc) with hp | ⟨j, h1, h2⟩
      · exact Or.inl hp
      · refine Or.inr ⟨j, ?_, by rw [hold (h.memLt h1), hold (getElem?_lt hn), h2]⟩
        have : n.mapChildren rt' = n.mapChildren rt := by
          simp only [ENode.mapChildren, hmapeq (hchl hn)]
        rw [this]; exact h1
    · subst e' e2
      refine Or.inr ⟨e, ?_, by rw [hnewr, hold heL]⟩
      have : n.mapChildren rt' = n.mapChildren rt := by
        simp only [ENode.mapChildren, hmapeq hch]
      rw [this]; exact hex

/-- Re-inserting a popped pending id into the memo. -/
theorem setMem {cls : Id} {node : ENode Op} (h : Core Eq rt nodes mem (cls :: pend) ap sk)
    (hn : nodes[cls]? = some node) {mem' : ENode Op → Option Id}
    (hmem : ∀ m, mem' m = if node.mapChildren rt = m then some cls else mem m)
    {W' : Id → Id → Prop} (hrefl : ∀ x, W' x x)
    (hW : ∀ m, mem (node.mapChildren rt) = some m → W' (rt cls) (rt m)) :
    Core W' rt nodes mem' pend ap sk := by
  have hcanon : Cong rt (node.mapChildren rt) node :=
    (Cong.canon_left (fun c _ => h.rtIdem c)).2 (Cong.refl _)
  refine { h with memo := ?_, pendOk := ?_, congr := ?_ }
  · intro m j hj
    rw [hmem] at hj
    split at hj
    · rename_i e
      cases hj
      exact ⟨node, hn, by rw [← e]; exact hcanon.symm, (h.pendOk _ (by simp)).2⟩
    · exact h.memo m j hj
  · intro p hp; exact h.pendOk p (by simp [hp])
  · intro i n hi hc
    rw [hmem]
    by_cases e : node.mapChildren rt = n.mapChildren rt
    · rw [if_pos e]
      rcases h.congr i n hi hc with hp | ⟨j, h1, h2⟩
      · simp only [List.mem_cons] at hp
        rcases hp with e' | hp
        · subst e'; exact Or.inr ⟨_, rfl, hrefl _⟩
        · exact Or.inl hp
      · rw [← e] at h1
        refine Or.inr ⟨_, rfl, ?_⟩
        rw [← h2]
        exact hW j h1
    · rw [if_neg e]
      rcases h.congr i n hi hc with hp | ⟨j, h1, h2⟩
      · simp only [List.mem_cons] at hp
        rcases hp with e' | hp
        · subst e'
          rw [hi] at hn; cases hn
          exact absurd rfl e
        · exact Or.inl hp
      · exact Or.inr ⟨j, h1, by rw [h2]; exact hrefl _⟩

/-- Replacing the node lists of the classes by equivalent ones. -/
theorem reNodes (h : Core W rt nodes mem pend ap sk) {sk' : Id → Option (Skel Op)}
    (hsk : ∀ c, match sk c, sk' c with
      | none, none => True
      | some s, some s' => s'.id = s.id ∧ s'.parents = s.parents ∧
          (∀ n ∈ s'.nodes, ∃ m ∈ s.nodes, Cong rt n m) ∧ (∀ n ∈ s.nodes, ∃ m ∈ s'.nodes, Cong rt m n)
      | _, _ => False) :
    Core W rt nodes mem pend ap sk' := by
  have hfw : ∀ {c s}, sk c = some s → ∃ s', sk' c = some s' ∧ s'.id = s.id ∧ s'.parents = s.parents ∧
      (∀ n ∈ s'.nodes, ∃ m ∈ s.nodes, Cong rt n m) ∧ (∀ n ∈ s.nodes, ∃ m ∈ s'.nodes, Cong rt m n) := by
    intro c s hs
    have := hsk c
    rw [hs] at this
    cases hc : sk' c with
    | none => rw [hc] at this; exact this.elim
    | some s' => rw [hc] at this; exact ⟨s', rfl, this⟩
  have hbw : ∀ {c s'}, sk' c = some s' → ∃ s, sk c = some s ∧ s'.id = s.id ∧ s'.parents = s.parents ∧
      (∀ n ∈ s'.nodes, ∃ m ∈ s.nodes, Cong rt n m) ∧ (∀ n ∈ s.nodes, ∃ m ∈ s'.nodes, Cong rt m n) := by
    intro c s' hs
    have := hsk c
    rw [hs] at this
    cases hc : sk c with
    | none => rw [hc] at this; exact this.elim
    | some s => rw [hc] at this; exact ⟨s, rfl, this⟩
  have hcov : ∀ {i}, Cov rt nodes sk i ↔ Cov rt nodes sk' i := by
    intro i
    constructor
    · intro hi n hn ch hch
      obtain ⟨s, h1, h2⟩ := hi n hn ch hch
      obtain ⟨s', h3, _, h4, _⟩ := hfw h1
      exact ⟨s', h3, by rw [h4]; exact h2⟩
    · intro hi n hn ch hch
      obtain ⟨s', h1, h2⟩ := hi n hn ch hch
      obtain ⟨s, h3, _, h4, _⟩ := hbw h1
      exact ⟨s, h3, by rw [← h4]; exact h2⟩
  refine { h with clsKey := ?_, clsId := ?_, clsNodes := ?_, nodesCls := ?_, memo := ?_, cov := ?_,
                  parents := ?_, pendOk := ?_, apOk := ?_, congr := ?_ }
  · intro c
    rw [← h.clsKey]
    have := hsk c
    cases h1 : sk c <;> cases h2 : sk' c <;> simp_all
  · intro c s' hs
    obtain ⟨s, h1, h2, _⟩ := hbw hs
    rw [h2]; exact h.clsId c s h1
  · intro c s' hs n hn
    obtain ⟨s, h1, _, _, h2, _⟩ := hbw hs
    obtain ⟨m, hm, hc⟩ := h2 n hn
    obtain ⟨i, m', h3, h4, h5⟩ := h.clsNodes c s h1 m hm
    exact ⟨i, m', h3, h4, hc.trans h5⟩
  · intro i m hm
    obtain ⟨s, n, h1, h2, h3⟩ := h.nodesCls i m hm
    obtain ⟨s', h4, _, _, _, h5⟩ := hfw h1
    obtain ⟨n', hn', hc⟩ := h5 n h2
    exact ⟨s', n', h4, hn', hc.trans h3⟩
  · intro m j hj
    obtain ⟨nj, h1, h2, h3⟩ := h.memo m j hj
    exact ⟨nj, h1, h2, hcov.1 h3⟩
  · intro i n hn
    obtain ⟨r, nr, h1, h2, h3⟩ := h.cov i n hn
    exact ⟨r, nr, h1, hcov.1 h2, h3⟩
  · intro c s' hs p hp
    obtain ⟨s, h1, _, h2, _⟩ := hbw hs
    rw [h2] at hp
    have := h.parents c s h1 p hp
    exact ⟨this.1, hcov.1 this.2⟩
  · intro p hp; have := h.pendOk p hp; exact ⟨this.1, hcov.1 this.2⟩
  · intro p hp; have := h.apOk p hp; exact ⟨this.1, hcov.1 this.2⟩
  · intro i n hn hc
    exact h.congr i n hn (hcov.2 hc)

end Core
end Egg
