import Verif.Lemmas.Add
/-
Preservation of the invariant by `rebuild`, and the state it establishes.
-/
namespace Egg
namespace EGraph
variable {Op D : Type} [DecidableEq Op] [Lang Op]
variable {W : Id → Id → Prop} {C : Cfg Op D} {eg : EGraph Op D}

/-! ### the congruence loop -/

theorem pendingStep_eq (N : Analysis Op D) {cls : Id} {rest : List Id} (h : Inv C eg)
    (hp : eg.pending = cls :: rest) :
    ∃ node uf, eg.nodes[cls]? = some node ∧ UF.Same eg.uf uf ∧
      pendingStep N { eg with pending := rest } cls =
        (match eg.mem (node.mapChildren eg.rt) with
        | none => .ok ({ eg with pending := rest, uf := uf, memo := eg.memo.insert (node.mapChildren eg.rt) cls }, false)
        | some m => performUnion N { eg with pending := rest, uf := uf, memo := eg.memo.insert (node.mapChildren eg.rt) cls } m cls (some .congruence)) ∧
      (match eg.mem (node.mapChildren eg.rt) with
        | none => Inv C { eg with pending := rest, uf := uf, memo := eg.memo.insert (node.mapChildren eg.rt) cls }
        | some m => InvW (WP (eg.rt m) (eg.rt cls)) C { eg with pending := rest, uf := uf, memo := eg.memo.insert (node.mapChildren eg.rt) cls }) := by
  have hcls : cls < eg.nodes.length := (h.core.pendOk cls (by rw [hp]; simp)).1
  obtain ⟨node, hn⟩ : ∃ n, eg.nodes[cls]? = some n := ⟨_, List.getElem?_eq_getElem hcls⟩
  have hch : ∀ c ∈ node.children, c < eg.uf.length := by
    intro c hc
    rw [← h.len]
    exact h.core.childLt hn hc
  obtain ⟨uf, h1, h2⟩ := UF.findMutList_ok h.wf hch
  have hcan : ({ node with children := node.children.map (UF.root eg.uf) } : ENode Op) = node.mapChildren eg.rt := rfl
  have hcore := h.core
  rw [hp] at hcore
  have hmem : ∀ m, (AMap.get? (eg.memo.insert (node.mapChildren eg.rt) cls) m) =
      if node.mapChildren eg.rt = m then some cls else eg.mem m := by
    intro m; rw [AMap.get?_insert]; rfl
  have hrt : ∀ (g : EGraph Op D), g.uf = uf → g.rt = eg.rt := by
    intro g hg; funext i; show UF.root g.uf i = _; rw [hg]; exact h2.root i
  have hmk : ∀ W', Core W' eg.rt eg.nodes (fun m => AMap.get? (eg.memo.insert (node.mapChildren eg.rt) cls) m)
        rest eg.apending.queue eg.sk →
      InvW W' C { eg with pending := rest, uf := uf, memo := eg.memo.insert (node.mapChildren eg.rt) cls } := by
    intro W' hc
    have hg : ({ eg with pending := rest, uf := uf, memo := eg.memo.insert (node.mapChildren eg.rt) cls } : EGraph Op D).rt = eg.rt :=
      hrt _ rfl
    refine ⟨h2.wf, by show eg.nodes.length = uf.length; rw [h2.len, h.len], ⟨AMap.nodup_insert h.memoNodup.1 _ _,
      fun e => absurd e (AMap.insert_ne_nil _ _ _)⟩,
      h.clsNodup, ?_, h.apq, ?_, ?_⟩
    · rw [hg]; exact hc
    · rw [hg]; exact h.sound
    · intro x hx; rw [hg]; exact h.expl x hx
  refine ⟨node, uf, hn, h2, ?_, ?_⟩
  · unfold pendingStep
    rw [getIdx_eq_ok.2 (show ({ eg with pending := rest } : EGraph Op D).nodes[cls]? = some node from hn)]
    simp only [ok_bind, h1, hcan]
    have : ({ eg with pending := rest } : EGraph Op D).memo.get? (node.mapChildren eg.rt) = eg.mem (node.mapChildren eg.rt) := rfl
    cases hm : eg.mem (node.mapChildren eg.rt) with
    | none =>
      have hm' : eg.memo.get? (node.mapChildren eg.rt) = none := hm
      simp [hm']
    | some m =>
      have hm' : eg.memo.get? (node.mapChildren eg.rt) = some m := hm
      simp [hm']
  · cases hm : eg.mem (node.mapChildren eg.rt) with
    | none =>
      exact hmk _ (hcore.setMem hn hmem (fun _ => rfl) (by intro m hm'; rw [hm] at hm'; cases hm'))
    | some m =>
      refine hmk _ (hcore.setMem hn hmem (fun _ => Or.inl rfl) ?_)
      intro m' hm'
      rw [hm] at hm'; cases hm'
      exact Or.inr ⟨rfl, rfl⟩

/-- The precondition of the union done by the congruence loop. -/
theorem pending_union_pre {cls m : Id} {node : ENode Op} {uf : UF} {rest : List Id} {mm : AMap (ENode Op) Id}
    (h : Inv C eg) (hn : eg.nodes[cls]? = some node) (hs : UF.Same eg.uf uf)
    (hm : eg.mem (node.mapChildren eg.rt) = some m) :
    m < eg.nodes.length ∧ cls < eg.nodes.length ∧
    (∀ s t, TermOf eg.nodes m s → TermOf eg.nodes cls t → C.R s t) ∧
    JustOK C { eg with pending := rest, uf := uf, memo := mm } m cls (some .congruence) := by
  obtain ⟨nm, h1, h2, _⟩ := h.core.memo _ _ hm
  have hcanon : Cong eg.rt (node.mapChildren eg.rt) node :=
    (Cong.canon_left (fun c _ => h.core.rtIdem c)).2 (Cong.refl _)
  have hc := h2.trans hcanon
  refine ⟨getElem?_lt h1, getElem?_lt hn, ?_, nm, node, h1, hn, ?_⟩
  · intro s t hs ht
    cases s with
    | node o ss =>
      cases t with
      | node o' ts =>
        rw [termOf_iff] at hs ht
        obtain ⟨n1, a1, a2, a3⟩ := hs
        obtain ⟨n2, b1, b2, b3⟩ := ht
        rw [h1] at a1; cases a1
        rw [hn] at b1; cases b1
        rw [← a2, ← b2, hc.1]
        exact h.sound.cong C.isCong (n := { nm with op := node.op }) (m := node) rfl hc.2 a3 b3
  · show Cong (fun i => UF.root uf i) nm node
    have : (fun i => UF.root uf i) = eg.rt := by funext i; exact hs.root i
    rw [this]; exact hc

/-! ### the analysis loop -/

/-- Changing the data of one class and growing the analysis queue with parents. -/
theorem InvW.setData (h : InvW W C eg) {uf : UF} (hs : UF.Same eg.uf uf) {c : Id} {k : EClass Op D}
    (hk : eg.classes.get? c = some k) (d : D) {ap : UniqueQueue Id} (hap : ap.Inv)
    (hapm : ∀ p ∈ ap.queue, p ∈ eg.apending.queue ∨ p ∈ k.parents) :
    InvW W C { eg with uf := uf, classes := eg.classes.insert c { k with data := d }, apending := ap } := by
  have hrt : ∀ (g : EGraph Op D), g.uf = uf → g.rt = eg.rt := by
    intro g hg; funext i; show UF.root g.uf i = _; rw [hg]; exact hs.root i
  have hsk : ({ eg with uf := uf, classes := eg.classes.insert c { k with data := d }, apending := ap } : EGraph Op D).sk = eg.sk := by
    funext c'
    simp only [sk, AMap.get?_insert]
    by_cases e : c = c'
    · subst e; simp [hk]
    · simp [e]
  refine ⟨hs.wf, by show eg.nodes.length = uf.length; rw [hs.len, h.len], h.memoNodup,
      AMap.nodup_insert h.clsNodup _ _, ?_, hap, ?_, ?_⟩
  · rw [hrt _ rfl, hsk]
    refine h.core.monoAp ?_
    intro p hp
    rcases hapm p hp with hp | hp
    · exact h.core.apOk p hp
    · exact h.core.parents c _ (sk_eq hk) p hp
  · rw [hrt _ rfl]; exact h.sound
  · intro x hx; rw [hrt _ rfl]; exact h.expl x hx

/-- Dropping the head of the analysis queue. -/
theorem InvW.popAp (h : InvW W C eg) {c : Id} {q : UniqueQueue Id} (hp : eg.apending.pop = some (c, q)) :
    InvW W C { eg with apending := q } := by
  obtain ⟨h1, h2⟩ := UniqueQueue.pop_some h.apq hp
  refine ⟨h.wf, h.len, h.memoNodup, h.clsNodup, ?_, h1, h.sound, h.expl⟩
  refine h.core.monoAp ?_
  intro p hp
  apply h.core.apOk
  rw [h2]; simp [show p ∈ q.queue from hp]

/-! ### sorting -/

theorem mem_insertSorted {α : Type} {le : α → α → Bool} {a x : α} {l : List α} :
    x ∈ insertSorted le a l ↔ x = a ∨ x ∈ l := by
  induction l with
  | nil => simp [insertSorted]
  | cons b l ih =>
    unfold insertSorted
    split
    · simp
    · simp [ih]; tauto

theorem mem_sortBy {α : Type} {le : α → α → Bool} {x : α} {l : List α} :
    x ∈ sortBy le l ↔ x ∈ l := by
  induction l with
  | nil => simp [sortBy]
  | cons b l ih => simp [sortBy, mem_insertSorted, ih]

theorem sorted_insertSorted {α : Type} {le : α → α → Bool}
    (tot : ∀ a b, le a b = true ∨ le b a = true)
    (tr : ∀ a b c, le a b = true → le b c = true → le a c = true) {a : α} {l : List α}
    (h : l.Pairwise (fun x y => le x y = true)) :
    (insertSorted le a l).Pairwise (fun x y => le x y = true) := by
  induction l with
  | nil => simp [insertSorted]
  | cons b l ih =>
    unfold insertSorted
    rw [List.pairwise_cons] at h
    split
    · rename_i hab
      rw [List.pairwise_cons, List.pairwise_cons]
      refine ⟨?_, h⟩
      intro x hx
      rcases List.mem_cons.1 hx with rfl | hx
      · exact hab
      · exact tr _ _ _ hab (h.1 x hx)
    · rename_i hab
      rw [List.pairwise_cons]
      refine ⟨?_, ih h.2⟩
      intro x hx
      rcases mem_insertSorted.1 hx with rfl | hx
      · rcases tot x b with e | e
        · exact absurd e hab
        · exact e
      · exact h.1 x hx

theorem sorted_sortBy {α : Type} {le : α → α → Bool}
    (tot : ∀ a b, le a b = true ∨ le b a = true)
    (tr : ∀ a b c, le a b = true → le b c = true → le a c = true) (l : List α) :
    (sortBy le l).Pairwise (fun x y => le x y = true) := by
  induction l with
  | nil => simp [sortBy]
  | cons b l ih => exact sorted_insertSorted tot tr ih

theorem mem_dedupAdj {α : Type} [DecidableEq α] {x : α} : ∀ {l : List α},
    x ∈ dedupAdj l ↔ x ∈ l
  | [] => by simp [dedupAdj]
  | [a] => by simp [dedupAdj]
  | a :: b :: l => by
    unfold dedupAdj
    split
    · rename_i e
      rw [mem_dedupAdj (l := b :: l), e]; simp
    · rw [List.mem_cons, mem_dedupAdj (l := b :: l)]; simp

theorem sorted_dedupAdj {α : Type} [DecidableEq α] {le : α → α → Bool}
    (anti : ∀ a b, le a b = true → le b a = true → a = b) : ∀ {l : List α},
    l.Pairwise (fun x y => le x y = true) →
      (dedupAdj l).Pairwise (fun x y => le x y = true ∧ x ≠ y)
  | [], _ => by simp [dedupAdj]
  | [a], _ => by simp [dedupAdj]
  | a :: b :: l, h => by
    rw [List.pairwise_cons] at h
    unfold dedupAdj
    split
    · exact sorted_dedupAdj anti h.2
    · rename_i hne
      rw [List.pairwise_cons]
      refine ⟨?_, sorted_dedupAdj anti h.2⟩
      intro x hx
      rw [mem_dedupAdj] at hx
      refine ⟨h.1 x hx, ?_⟩
      rintro rfl
      rcases List.mem_cons.1 hx with e | hx
      · exact hne e
      · exact hne (anti _ _ (h.1 b (by simp)) ((List.pairwise_cons.1 h.2).1 _ hx))

/-! ### `rebuild_classes` -/

/-- The e-nodes of a class as `rebuild_classes` leaves them. -/
def tidy (rt : Id → Id) (ns : List (ENode Op)) : List (ENode Op) :=
  dedupAdj (sortBy Lang.le (ns.map (fun n => n.mapChildren rt)))

def tidyCls (rt : Id → Id) (k : EClass Op D) : EClass Op D := { k with nodes := tidy rt k.nodes }

theorem mem_tidy {rt : Id → Id} {ns : List (ENode Op)} {n : ENode Op} :
    n ∈ tidy rt ns ↔ ∃ m ∈ ns, n = m.mapChildren rt := by
  simp only [tidy, mem_dedupAdj, mem_sortBy, List.mem_map]
  constructor <;> rintro ⟨m, h1, h2⟩ <;> exact ⟨m, h1, h2.symm⟩

theorem sorted_tidy (rt : Id → Id) (ns : List (ENode Op)) :
    (tidy rt ns).Pairwise (fun x y => Lang.le x y = true ∧ x ≠ y) :=
  sorted_dedupAdj Lang.le_antisymm (sorted_sortBy Lang.le_total Lang.le_trans _)

theorem canonNodes_ok : ∀ (ns : List (ENode Op)) (uf : UF), UF.WF uf →
    (∀ n ∈ ns, ∀ c ∈ n.children, c < uf.length) →
    ∃ uf', canonNodes uf ns = .ok (uf', ns.map (fun n => n.mapChildren (UF.root uf))) ∧ UF.Same uf uf' := by
  intro ns
  induction ns with
  | nil => intro uf h _; exact ⟨uf, rfl, UF.Same.refl h⟩
  | cons n ns ih =>
    intro uf h hc
    obtain ⟨uf1, h1, h2⟩ := UF.findMutList_ok h (hc n (by simp))
    obtain ⟨uf2, h3, h4⟩ := ih uf1 h2.wf (by
      intro m hm c hcm; rw [h2.len]; exact hc m (by simp [hm]) c hcm)
    refine ⟨uf2, ?_, h2.trans h4⟩
    have : UF.root uf1 = UF.root uf := by funext i; exact h2.root i
    simp only [canonNodes, h1, ok_bind, h3, this, List.map_cons, pure_eq_ok]
    rfl

theorem mem_setInsert {l : List Id} {a x : Id} : x ∈ setInsert l a ↔ x ∈ l ∨ x = a := by
  unfold setInsert
  split
  · rename_i h
    constructor
    · exact Or.inl
    · rintro (h' | rfl)
      · exact h'
      · exact h
  · simp

theorem nodup_setInsert {l : List Id} {a : Id} (h : l.Nodup) : (setInsert l a).Nodup := by
  unfold setInsert
  split
  · exact h
  · rename_i ha
    rw [List.nodup_append]
    refine ⟨h, by simp, ?_⟩
    intro x hx y hy e
    simp at hy
    subst hy; subst e
    exact ha hx

/-- Members of an index entry. -/
def ixMem (b : AMap (Lang.Disc Op) (List Id)) (d : Lang.Disc Op) (x : Id) : Prop :=
  ∃ l, b.get? d = some l ∧ x ∈ l

def ixNodup (b : AMap (Lang.Disc Op) (List Id)) : Prop := ∀ d l, b.get? d = some l → l.Nodup

theorem ixMem_addByOp {b : AMap (Lang.Disc Op) (List Id)} {n : ENode Op} {id x : Id} {d : Lang.Disc Op} :
    ixMem (addByOp b n id) d x ↔ ixMem b d x ∨ (x = id ∧ Lang.disc n.op = d) := by
  unfold ixMem addByOp
  simp only [AMap.get?_insert]
  by_cases e : Lang.disc n.op = d
  · subst e
    simp only [if_true, Option.some.injEq, exists_eq_left', mem_setInsert, and_true]
    cases b.get? (Lang.disc n.op) <;> simp
  · simp [e]

theorem ixNodup_addByOp {b : AMap (Lang.Disc Op) (List Id)} (h : ixNodup b) (n : ENode Op) (id : Id) :
    ixNodup (addByOp b n id) := by
  intro d l hl
  unfold addByOp at hl
  simp only [AMap.get?_insert] at hl
  split at hl
  · cases hl
    apply nodup_setInsert
    cases hb : b.get? (Lang.disc n.op) with
    | none => simp
    | some l => exact h _ _ hb
  · exact h d l hl

theorem ix_indexRest {id : Id} : ∀ (ns : List (ENode Op)) (b : AMap (Lang.Disc Op) (List Id)) (prev : ENode Op),
    ixNodup b → ixMem b (Lang.disc prev.op) id →
    ixNodup (indexRest id b prev ns) ∧
    ∀ d x, ixMem (indexRest id b prev ns) d x ↔ ixMem b d x ∨ (x = id ∧ ∃ n ∈ ns, Lang.disc n.op = d) := by
  intro ns
  induction ns with
  | nil => intro b prev h _; exact ⟨h, by simp [indexRest]⟩
  | cons n ns ih =>
    intro b prev h hp
    unfold indexRest
    split
    · rename_i hm
      have hop : prev.op = n.op := by
        simp only [ENode.matches, Bool.and_eq_true, decide_eq_true_eq] at hm
        exact hm.1
      obtain ⟨h1, h2⟩ := ih b prev h hp
      refine ⟨h1, fun d x => ?_⟩
      rw [h2]
      constructor
      · rintro (h' | ⟨rfl, m, hm, hd⟩)
        · exact Or.inl h'
        · exact Or.inr ⟨rfl, m, by simp [hm], hd⟩
      · rintro (h' | ⟨rfl, m, hm, hd⟩)
        · exact Or.inl h'
        · rcases List.mem_cons.1 hm with rfl | hm
          · left; rw [← hd, ← hop]; exact hp
          · exact Or.inr ⟨rfl, m, hm, hd⟩
    · obtain ⟨h1, h2⟩ := ih (addByOp b n id) n (ixNodup_addByOp h n id)
        (ixMem_addByOp.2 (Or.inr ⟨rfl, rfl⟩))
      refine ⟨h1, fun d x => ?_⟩
      rw [h2, ixMem_addByOp]
      simp only [List.mem_cons]
      constructor
      · rintro ((h' | ⟨rfl, hd⟩) | ⟨rfl, m, hm, hd⟩)
        · exact Or.inl h'
        · exact Or.inr ⟨rfl, n, Or.inl rfl, hd⟩
        · exact Or.inr ⟨rfl, m, Or.inr hm, hd⟩
      · rintro (h' | ⟨rfl, m, rfl | hm, hd⟩)
        · exact Or.inl (Or.inl h')
        · exact Or.inl (Or.inr ⟨rfl, hd⟩)
        · exact Or.inr ⟨rfl, m, hm, hd⟩

theorem ix_indexClass {id : Id} {ns : List (ENode Op)} {b : AMap (Lang.Disc Op) (List Id)} (h : ixNodup b) :
    ixNodup (indexClass id b ns) ∧
    ∀ d x, ixMem (indexClass id b ns) d x ↔ ixMem b d x ∨ (x = id ∧ ∃ n ∈ ns, Lang.disc n.op = d) := by
  unfold indexClass
  cases ns with
  | nil => exact ⟨h, by simp⟩
  | cons n ns =>
    obtain ⟨h1, h2⟩ := ix_indexRest (id := id) ns (addByOp b n id) n (ixNodup_addByOp h n id)
        (ixMem_addByOp.2 (Or.inr ⟨rfl, rfl⟩))
    refine ⟨h1, fun d x => ?_⟩
    rw [h2, ixMem_addByOp]
    simp only [List.mem_cons]
    constructor
    · rintro ((h' | ⟨rfl, hd⟩) | ⟨rfl, m, hm, hd⟩)
      · exact Or.inl h'
      · exact Or.inr ⟨rfl, n, Or.inl rfl, hd⟩
      · exact Or.inr ⟨rfl, m, Or.inr hm, hd⟩
    · rintro (h' | ⟨rfl, m, rfl | hm, hd⟩)
      · exact Or.inl (Or.inl h')
      · exact Or.inl (Or.inr ⟨rfl, hd⟩)
      · exact Or.inr ⟨rfl, m, hm, hd⟩

theorem rebuildClassesGo_ok : ∀ (cl : AMap Id (EClass Op D)) (uf : UF) (b : AMap (Lang.Disc Op) (List Id))
    (t : Nat), UF.WF uf → ixNodup b →
    (∀ kc ∈ cl, ∀ n ∈ kc.2.nodes, ∀ c ∈ n.children, c < uf.length) →
    ∃ uf' b' t', rebuildClassesGo uf b cl t =
        .ok (uf', b', cl.map (fun kc => (kc.1, tidyCls (UF.root uf) kc.2)), t') ∧
      UF.Same uf uf' ∧ ixNodup b' ∧
      ∀ d x, ixMem b' d x ↔ ixMem b d x ∨
        ∃ kc ∈ cl, x = kc.2.id ∧ ∃ n ∈ kc.2.nodes, Lang.disc n.op = d := by
  intro cl
  induction cl with
  | nil => intro uf b t h hb _; exact ⟨uf, b, t, rfl, UF.Same.refl h, hb, by simp⟩
  | cons kc cl ih =>
    obtain ⟨key, c⟩ := kc
    intro uf b t h hb hc
    obtain ⟨uf1, h1, h2⟩ := canonNodes_ok c.nodes uf h (hc (key, c) (by simp))
    have hr : UF.root uf1 = UF.root uf := by funext i; exact h2.root i
    obtain ⟨i1, i2⟩ := ix_indexClass (id := c.id) (ns := tidy (UF.root uf) c.nodes) hb
    obtain ⟨uf2, b2, t2, h3, h4, h5, h6⟩ := ih uf1 (indexClass c.id b (tidy (UF.root uf) c.nodes))
      (t + (c.nodes.length - (tidy (UF.root uf) c.nodes).length)) h2.wf i1 (by
        intro kc hkc n hn ch hch; rw [h2.len]; exact hc kc (by simp [hkc]) n hn ch hch)
    refine ⟨uf2, b2, t2, ?_, h2.trans h4, h5, ?_⟩
    · simp only [rebuildClassesGo, h1, ok_bind]
      have : dedupAdj (sortBy Lang.le (c.nodes.map (fun n => n.mapChildren (UF.root uf)))) = tidy (UF.root uf) c.nodes := rfl
      rw [this]
      simp only [h3, ok_bind, hr]
      rfl
    · intro d x
      have hd : (∃ n ∈ tidy (UF.root uf) c.nodes, Lang.disc n.op = d) ↔ ∃ n ∈ c.nodes, Lang.disc n.op = d := by
        constructor
        · rintro ⟨n, hn, e⟩
          obtain ⟨m, hm, rfl⟩ := mem_tidy.1 hn
          exact ⟨m, hm, e⟩
        · rintro ⟨m, hm, e⟩
          exact ⟨_, mem_tidy.2 ⟨m, hm, rfl⟩, e⟩
      rw [h6, i2, hd]
      simp only [List.mem_cons]
      constructor
      · rintro ((h' | h') | ⟨kc, hkc, h'⟩)
        · exact Or.inl h'
        · exact Or.inr ⟨(key, c), Or.inl rfl, h'⟩
        · exact Or.inr ⟨kc, Or.inr hkc, h'⟩
      · rintro (h' | ⟨kc, rfl | hkc, h'⟩)
        · exact Or.inl (Or.inl h')
        · exact Or.inl (Or.inr h')
        · exact Or.inr ⟨kc, hkc, h'⟩

theorem AMap.get?_mapVal {K V V' : Type} [DecidableEq K] (m : AMap K V) (f : V → V') (k : K) :
    AMap.get? (m.map (fun kv => (kv.1, f kv.2))) k = (AMap.get? m k).map f := by
  induction m with
  | nil => rfl
  | cons kv m ih =>
    obtain ⟨k', v⟩ := kv
    simp only [List.map_cons, AMap.get?]
    split
    · simp
    · exact ih

theorem AMap.keys_mapVal {K V V' : Type} (m : AMap K V) (f : V → V') :
    AMap.keys (m.map (fun kv => (kv.1, f kv.2))) = AMap.keys m := by
  simp [AMap.keys, Function.comp_def]

/-- What `rebuild` establishes besides the invariant. -/
structure Tidy (eg : EGraph Op D) : Prop where
  pending : eg.pending = []
  apending : eg.apending.queue = []
  canon : ∀ c k, eg.classes.get? c = some k → ∀ n ∈ k.nodes, n.mapChildren eg.rt = n
  sorted : ∀ c k, eg.classes.get? c = some k →
    k.nodes.Pairwise (fun x y => Lang.le x y = true ∧ x ≠ y)
  ixNodup : ixNodup eg.byOp
  index : ∀ d x, ixMem eg.byOp d x ↔ ∃ k, eg.classes.get? x = some k ∧ ∃ n ∈ k.nodes, Lang.disc n.op = d

theorem rebuildClasses_ok (h : InvW W C eg) :
    ∃ uf b t, rebuildClasses eg = .ok ({ eg with
        uf := uf
        byOp := b
        classes := eg.classes.map (fun kc => (kc.1, tidyCls eg.rt kc.2)) }, t) ∧
      UF.Same eg.uf uf ∧ Egg.EGraph.ixNodup b ∧
      ∀ d x, ixMem b d x ↔ ∃ k, eg.classes.get? x = some k ∧ ∃ n ∈ k.nodes, Lang.disc n.op = d := by
  have hempty : ∀ d l, AMap.get? (eg.byOp.map (fun kv => (kv.1, ([] : List Id)))) d = some l → l = [] := by
    intro d l hl
    rw [AMap.get?_mapVal (f := fun _ => [])] at hl
    cases hb : AMap.get? eg.byOp d <;> simp_all
  obtain ⟨uf, b, t, h1, h2, h3, h4⟩ := rebuildClassesGo_ok eg.classes eg.uf
    (eg.byOp.map (fun kv => (kv.1, []))) 0 h.wf (by
      intro d l hl; rw [hempty d l hl]; simp) (by
      rintro ⟨c, k⟩ hkc n hn ch hch
      have := AMap.get?_of_mem h.clsNodup hkc
      rw [← h.len]
      exact h.core.clsNodeLt (sk_eq this) hn ch hch)
  refine ⟨uf, b, t, ?_, h2, h3, ?_⟩
  · simp only [rebuildClasses, h1, ok_bind]
    rfl
  · intro d x
    rw [h4]
    constructor
    · rintro (⟨l, hl, hx⟩ | ⟨⟨c, k⟩, hkc, rfl, hn⟩)
      · rw [hempty d l hl] at hx; simp at hx
      · have := AMap.get?_of_mem h.clsNodup hkc
        have hid := h.core.clsId c _ (sk_eq this)
        simp only at hid
        exact ⟨k, by simp only [hid]; exact this, hn⟩
    · rintro ⟨k, hk, hn⟩
      right
      refine ⟨(x, k), AMap.mem_of_get? hk, ?_, hn⟩
      exact (h.core.clsId x _ (sk_eq hk)).symm

theorem rebuildClasses_post (h : InvW W C eg) (hp : eg.pending = []) (hap : eg.apending.queue = []) :
    ∃ eg' t, rebuildClasses eg = .ok (eg', t) ∧ InvW W C eg' ∧ Ext eg eg' ∧ Tidy eg' ∧
      (∀ i, eg'.rt i = eg.rt i) ∧ eg'.nodes = eg.nodes ∧ eg'.memo = eg.memo ∧ eg'.explain = eg.explain ∧
      (∀ c, eg'.classes.get? c = (eg.classes.get? c).map (tidyCls eg.rt)) := by
  obtain ⟨uf, b, t, h1, h2, h3, h4⟩ := rebuildClasses_ok h
  have hrt : ∀ (g : EGraph Op D), g.uf = uf → g.rt = eg.rt := by
    intro g hg; funext i; show UF.root g.uf i = _; rw [hg]; exact h2.root i
  have hget : ∀ c, AMap.get? (eg.classes.map (fun kc => (kc.1, tidyCls eg.rt kc.2))) c =
      (eg.classes.get? c).map (tidyCls eg.rt) :=
    fun c => AMap.get?_mapVal eg.classes (tidyCls eg.rt) c
  have hcanonCong : ∀ m : ENode Op, Cong eg.rt (m.mapChildren eg.rt) m := fun m =>
    (Cong.canon_left (fun c _ => h.core.rtIdem c)).2 (Cong.refl _)
  have hg : ({ eg with
        uf := uf
        byOp := b
        classes := eg.classes.map (fun kc => (kc.1, tidyCls eg.rt kc.2)) } : EGraph Op D).rt = eg.rt := hrt _ rfl
  refine ⟨_, t, h1, ?_, ?_, ?_, ?_, rfl, rfl, rfl, hget⟩
  · refine ⟨h2.wf, by show eg.nodes.length = uf.length; rw [h2.len, h.len], h.memoNodup, ?_, ?_, h.apq, ?_, ?_⟩
    · show (AMap.keys (eg.classes.map _)).Nodup
      rw [AMap.keys_mapVal eg.classes (tidyCls eg.rt)]
      exact h.clsNodup
    · rw [hg]
      refine h.core.reNodes ?_
      intro c
      simp only [sk, hget]
      cases eg.classes.get? c with
      | none => simp
      | some k =>
        simp only [Option.map_some]
        refine ⟨rfl, rfl, ?_, ?_⟩
        · intro n hn
          obtain ⟨m, hm, rfl⟩ := mem_tidy.1 hn
          exact ⟨m, hm, hcanonCong m⟩
        · intro m hm
          exact ⟨_, mem_tidy.2 ⟨m, hm, rfl⟩, hcanonCong m⟩
    · rw [hg]; exact h.sound
    · intro x hx; rw [hg]; exact h.expl x hx
  · exact .same rfl (fun i => by rw [hg]) rfl fun _ h => h
  · refine ⟨hp, hap, ?_, ?_, h3, ?_⟩
    · intro c k hk n hn
      rw [hg]
      have hk : AMap.get? (eg.classes.map (fun kc => (kc.1, tidyCls eg.rt kc.2))) c = some k := hk
      rw [hget] at hk
      cases hc : eg.classes.get? c with
      | none => rw [hc] at hk; simp at hk
      | some k' =>
        rw [hc] at hk; simp at hk; subst hk
        obtain ⟨m, _, rfl⟩ := mem_tidy.1 hn
        simp [ENode.mapChildren, h.core.rtIdem]
    · intro c k hk
      have hk : AMap.get? (eg.classes.map (fun kc => (kc.1, tidyCls eg.rt kc.2))) c = some k := hk
      rw [hget] at hk
      cases hc : eg.classes.get? c with
      | none => rw [hc] at hk; simp at hk
      | some k' =>
        rw [hc] at hk; simp at hk; subst hk
        exact sorted_tidy _ _
    · intro d x
      show ixMem b d x ↔ ∃ k, AMap.get? (eg.classes.map (fun kc => (kc.1, tidyCls eg.rt kc.2))) x = some k ∧ _
      rw [h4, hget]
      cases eg.classes.get? x with
      | none => simp
      | some k =>
        simp only [Option.some.injEq, exists_eq_left', Option.map_some]
        constructor
        · rintro ⟨n, hn, e⟩
          exact ⟨_, mem_tidy.2 ⟨n, hn, rfl⟩, e⟩
        · rintro ⟨n, hn, e⟩
          obtain ⟨m, hm, rfl⟩ := mem_tidy.1 hn
          exact ⟨m, hm, e⟩
  · intro i; rw [hg]

end EGraph
end Egg
