import Verif.Spec.LpExtract
import Verif.Lemmas.Basic
import Verif.Lemmas.Struct
/-
The cycle finder of `lp_extract.rs`.
-/
namespace Egg
namespace Lp
variable {Op D : Type} [DecidableEq Op] [Lang Op]
open Relation

/-- What the cycle finder needs of the e-graph. -/
structure GraphOK (eg : EGraph Op D) : Prop where
  index : ∀ c cl, eg.classes.get? c = some cl → eg.index c = .ok cl
  find : ∀ c cl, eg.classes.get? c = some cl → eg.find c = .ok c
  child : ∀ c d, Edge eg c d → ∃ cl, eg.classes.get? d = some cl

/-- The topmost class that is being visited. -/
def owner : Stack → Option Id
  | [] => none
  | (true, _) :: s => owner s
  | (false, c) :: _ => some c

/-- The stack is a path. -/
def StackOK (eg : EGraph Op D) : Stack → Prop
  | [] => True
  | (e, c) :: s => (∀ y, owner s = some y → Edge eg y c) ∧ (false, c) ∉ s ∧ StackOK eg s

theorem StackOK.reach {eg : EGraph Op D} : ∀ {s : Stack}, StackOK eg s → ∀ {x y}, owner s = some y → (false, x) ∈ s →
    ReflTransGen (Edge eg) x y
  | (true, c) :: s, h, x, y, ho, hx => by
    rcases List.mem_cons.1 hx with h' | h'
    · cases h'
    · exact StackOK.reach h.2.2 ho h'
  | (false, c) :: s, h, x, y, ho, hx => by
    simp only [owner, Option.some.injEq] at ho
    subst ho
    rcases List.mem_cons.1 hx with h' | h'
    · cases h'; exact .refl
    · cases hs : owner s with
      | none =>
        exfalso
        clear h hx
        revert hs
        induction s with
        | nil => cases h'
        | cons p s ih =>
          intro hs
          obtain ⟨e, z⟩ := p
          cases e with
          | true => rcases List.mem_cons.1 h' with h'' | h''
                    · cases h''
                    · exact ih h'' hs
          | false => cases hs
      | some z => exact (StackOK.reach h.2.2 hs h').tail (h.1 z hs)

/-- The weight of a class. -/
def degree (eg : EGraph Op D) (c : Id) : Nat :=
  match eg.classes.get? c with
  | some cl => (cl.nodes.map (fun n => n.children.length)).sum
  | none => 0

def weight (s : Stack) : Nat := (s.map (fun p => if p.1 then 2 else 1)).sum

/-- `B` lists the classes that have been left, the latest first: allowed nodes only lead to earlier classes. -/
def Ordered (eg : EGraph Op D) (F : List (Id × Nat)) : List Id → Prop
  | [] => True
  | c :: B => (∀ d, Allowed eg F c d → d ∈ B) ∧ c ∉ B ∧ Ordered eg F B

theorem Ordered.mono {eg : EGraph Op D} {F F' : List (Id × Nat)} (h : ∀ p ∈ F, p ∈ F') : ∀ {B}, Ordered eg F B → Ordered eg F' B
  | [], _ => trivial
  | _ :: _, ⟨h1, h2, h3⟩ => ⟨fun d ⟨i, n, g1, g2, g3⟩ => h1 d ⟨i, n, g1, fun hm => g2 (h _ hm), g3⟩, h2, h3.mono h⟩

/-- The invariant of the cycle finder. -/
structure CInv (eg : EGraph Op D) (col : AMap Id Color) (s : Stack) (F : List (Id × Nat)) (B : List Id) : Prop where
  keys : ∀ c, (∃ cl, eg.classes.get? c = some cl) ↔ (col.get? c).isSome
  stack : StackOK eg s
  cls : ∀ p ∈ s, ∃ cl, eg.classes.get? p.2 = some cl
  gray : ∀ c, col.get? c = some .gray ↔ (false, c) ∈ s
  black : ∀ c, col.get? c = some .black → c ∈ B
  white : ∀ c, col.get? c = some .white → c ∉ B ∧ (true, c) ∈ s
  leftOK : ∀ c ∈ B, ∀ d, Edge eg c d → col.get? d ≠ some .white
  order : Ordered eg F B
  /-- a class that is being visited for the first time -/
  visit : ∀ above c below, s = above ++ (false, c) :: below → c ∉ B →
    (∀ d, Allowed eg F c d → d ∈ B ∨ ∃ e, (e, d) ∈ above) ∧
    (∀ d, Edge eg c d → col.get? d ≠ some .white ∨ (true, d) ∈ above)
  found : ∀ c i, (c, i) ∈ F → OnCycle eg c i

/-- What scanning the children of a node, or the nodes of a class, does. -/
structure Scanned (col : AMap Id Color) (ps : List (Nat × Id)) (id : Id) (s s' : Stack) (F F' : List (Id × Nat)) : Prop where
  push : ∃ pushed, s' = pushed ++ s ∧ pushed.length ≤ ps.length ∧
    (∀ p ∈ pushed, p.1 = true ∧ col.get? p.2 = some .white ∧ ∃ i, (i, p.2) ∈ ps) ∧
    (∀ i d, (i, d) ∈ ps → col.get? d = some .white → (true, d) ∈ pushed)
  mono : ∀ p ∈ F, p ∈ F'
  new : ∀ p ∈ F', p ∈ F ∨ ∃ i d, p = (id, i) ∧ (i, d) ∈ ps ∧ col.get? d = some .gray
  gray : ∀ i d, (i, d) ∈ ps → col.get? d = some .gray → (id, i) ∈ F'

theorem Scanned.nil {col : AMap Id Color} {id : Id} {s : Stack} {F : List (Id × Nat)} : Scanned col [] id s s F F :=
  ⟨⟨[], rfl, by simp, by simp, by simp⟩, fun _ h => h, fun _ h => .inl h, by simp⟩

theorem Scanned.append {col : AMap Id Color} {ps qs : List (Nat × Id)} {id : Id} {s s1 s2 : Stack} {F F1 F2 : List (Id × Nat)}
    (h1 : Scanned col ps id s s1 F F1) (h2 : Scanned col qs id s1 s2 F1 F2) : Scanned col (ps ++ qs) id s s2 F F2 := by
  obtain ⟨p1, a1, a2, a3, a4⟩ := h1.push
  obtain ⟨p2, b1, b2, b3, b4⟩ := h2.push
  refine ⟨⟨p2 ++ p1, by rw [b1, a1, List.append_assoc], by simp; omega, ?_, ?_⟩, fun p h => h2.mono _ (h1.mono _ h), ?_, ?_⟩
  · intro p hp
    rcases List.mem_append.1 hp with hp | hp
    · obtain ⟨g1, g2, i, g3⟩ := b3 p hp; exact ⟨g1, g2, i, by simp [g3]⟩
    · obtain ⟨g1, g2, i, g3⟩ := a3 p hp; exact ⟨g1, g2, i, by simp [g3]⟩
  · intro i d hd hw
    rcases List.mem_append.1 hd with hd | hd
    · exact List.mem_append.2 (.inr (a4 i d hd hw))
    · exact List.mem_append.2 (.inl (b4 i d hd hw))
  · intro p hp
    rcases h2.new p hp with hp | ⟨i, d, g1, g2, g3⟩
    · rcases h1.new p hp with hp | ⟨i, d, g1, g2, g3⟩
      · exact .inl hp
      · exact .inr ⟨i, d, g1, by simp [g2], g3⟩
    · exact .inr ⟨i, d, g1, by simp [g2], g3⟩
  · intro i d hd hg
    rcases List.mem_append.1 hd with hd | hd
    · exact h2.mono _ (h1.gray i d hd hg)
    · exact h2.gray i d hd hg

theorem mem_setInsert {α : Type} [DecidableEq α] {l : List α} {a b : α} : b ∈ setInsert l a ↔ b ∈ l ∨ b = a := by
  unfold setInsert
  split
  · constructor
    · exact .inl
    · rintro (h | rfl) <;> assumption
  · simp

theorem scanChildren_spec {col : AMap Id Color} {id : Id} {i : Nat} : ∀ {cs : List Id} {s : Stack} {F : List (Id × Nat)},
    (∀ c ∈ cs, (col.get? c).isSome) → ∃ s' F', scanChildren col id i cs s F = .ok (s', F') ∧ Scanned col (cs.map (fun c => (i, c))) id s s' F F'
  | [], s, F, _ => ⟨s, F, rfl, .nil⟩
  | c :: cs, s, F, h => by
    obtain ⟨x, hx⟩ := Option.isSome_iff_exists.1 (h c (by simp))
    have hcs : ∀ c ∈ cs, (col.get? c).isSome := fun d hd => h d (by simp [hd])
    have one : ∃ s1 F1, (scanChildren col id i (c :: cs) s F = scanChildren col id i cs s1 F1) ∧ Scanned col [(i, c)] id s s1 F F1 := by
      rw [scanChildren, hx]
      cases x with
      | white =>
        refine ⟨_, _, rfl, ⟨[(true, c)], rfl, by simp, ?_, ?_⟩, fun _ h => h, fun _ h => .inl h, ?_⟩
        · simp [hx]
        · rintro j d hd _; simp at hd; simp [hd.2]
        · rintro j d hd hg; simp at hd; rw [hd.2, hx] at hg; cases hg
      | gray =>
        refine ⟨_, _, rfl, ⟨[], rfl, by simp, by simp, ?_⟩, fun _ h => mem_setInsert.2 (.inl h), ?_, ?_⟩
        · rintro j d hd hg; simp at hd; rw [hd.2, hx] at hg; cases hg
        · intro p hp
          rcases mem_setInsert.1 hp with hp | rfl
          · exact .inl hp
          · exact .inr ⟨i, c, rfl, by simp, hx⟩
        · rintro j d hd _; simp at hd; rw [hd.1]; exact mem_setInsert.2 (.inr rfl)
      | black =>
        refine ⟨_, _, rfl, ⟨[], rfl, by simp, by simp, ?_⟩, fun _ h => h, fun _ h => .inl h, ?_⟩
        · rintro j d hd hg; simp at hd; rw [hd.2, hx] at hg; cases hg
        · rintro j d hd hg; simp at hd; rw [hd.2, hx] at hg; cases hg
    obtain ⟨s1, F1, h1, h2⟩ := one
    obtain ⟨s2, F2, h3, h4⟩ := scanChildren_spec (s := s1) (F := F1) hcs
    exact ⟨s2, F2, by rw [h1, h3], h2.append h4⟩

/-- The children of the nodes of a class, with the index of the node. -/
def kids : Nat → List (ENode Op) → List (Nat × Id)
  | _, [] => []
  | i, n :: ns => n.children.map (fun c => (i, c)) ++ kids (i + 1) ns

theorem mem_kids : ∀ {ns : List (ENode Op)} {k j : Nat} {d : Id}, (j, d) ∈ kids k ns ↔ ∃ n, k ≤ j ∧ ns[j - k]? = some n ∧ d ∈ n.children
  | [], k, j, d => by simp [kids]
  | n :: ns, k, j, d => by
    rw [kids, List.mem_append, mem_kids]
    constructor
    · rintro (h | ⟨m, h1, h2, h3⟩)
      · obtain ⟨c, hc, he⟩ := List.mem_map.1 h
        cases he
        exact ⟨n, le_refl _, by simp, hc⟩
      · refine ⟨m, by omega, ?_, h3⟩
        obtain ⟨e, rfl⟩ : ∃ e, j = k + 1 + e := ⟨j - (k + 1), by omega⟩
        rw [show k + 1 + e - k = e + 1 by omega]
        rw [show k + 1 + e - (k + 1) = e by omega] at h2
        simpa using h2
    · rintro ⟨m, h1, h2, h3⟩
      rcases Nat.eq_or_lt_of_le h1 with rfl | h1
      · left
        simp at h2
        subst h2
        exact List.mem_map.2 ⟨d, h3, rfl⟩
      · right
        refine ⟨m, by omega, ?_, h3⟩
        obtain ⟨e, rfl⟩ : ∃ e, j = k + 1 + e := ⟨j - (k + 1), by omega⟩
        rw [show k + 1 + e - k = e + 1 by omega] at h2
        rw [show k + 1 + e - (k + 1) = e by omega]
        simpa using h2

theorem kids_length : ∀ (ns : List (ENode Op)) (k : Nat), (kids k ns).length = (ns.map (fun n => n.children.length)).sum
  | [], k => rfl
  | n :: ns, k => by simp [kids, kids_length ns]

theorem scanNodes_spec {col : AMap Id Color} {id : Id} : ∀ {ns : List (ENode Op)} {k : Nat} {s : Stack} {F : List (Id × Nat)},
    (∀ n ∈ ns, ∀ c ∈ n.children, (col.get? c).isSome) → ∃ s' F', scanNodes col id k ns s F = .ok (s', F') ∧ Scanned col (kids k ns) id s s' F F'
  | [], k, s, F, _ => ⟨s, F, rfl, .nil⟩
  | n :: ns, k, s, F, h => by
    obtain ⟨s1, F1, h1, h2⟩ := scanChildren_spec (id := id) (i := k) (s := s) (F := F) (h n (by simp))
    obtain ⟨s2, F2, h3, h4⟩ := scanNodes_spec (ns := ns) (id := id) (k := k + 1) (s := s1) (F := F1) (fun m hm => h m (by simp [hm]))
    refine ⟨s2, F2, ?_, h2.append h4⟩
    rw [scanNodes, h1]
    simpa using h3

theorem edge_iff {eg : EGraph Op D} {c d : Id} {cl : EClass Op D} (h : eg.classes.get? c = some cl) :
    Edge eg c d ↔ ∃ i, (i, d) ∈ kids 0 cl.nodes := by
  constructor
  · rintro ⟨i, n, ⟨cl', h1, h2⟩, h3⟩
    rw [h] at h1; cases h1
    exact ⟨i, mem_kids.2 ⟨n, by omega, by simpa using h2, h3⟩⟩
  · rintro ⟨i, hi⟩
    obtain ⟨n, _, h2, h3⟩ := mem_kids.1 hi
    exact ⟨i, n, ⟨cl, h, by simpa using h2⟩, h3⟩

theorem stackOK_push {eg : EGraph Op D} {id : Id} {s : Stack} (h : StackOK eg ((false, id) :: s)) : ∀ {pushed : Stack},
    (∀ p ∈ pushed, p.1 = true ∧ Edge eg id p.2 ∧ (false, p.2) ∉ (false, id) :: s) → StackOK eg (pushed ++ (false, id) :: s)
  | [], _ => h
  | (e, c) :: pushed, hp => by
    obtain ⟨h1, h2, h3⟩ := hp (e, c) (by simp)
    simp only at h1
    subst h1
    have ih := stackOK_push h (pushed := pushed) (fun p hp' => hp p (by simp [hp']))
    have ho : owner (pushed ++ (false, id) :: s) = some id := by
      clear ih h2 h3
      induction pushed with
      | nil => rfl
      | cons q pushed ih =>
        obtain ⟨e, z⟩ := q
        have := (hp (e, z) (by simp)).1
        simp only at this
        subst this
        refine ih (fun p hp' => hp p ?_)
        rcases List.mem_cons.1 hp' with rfl | h'
        · simp
        · simp [h']
    refine ⟨fun y hy => ?_, ?_, ih⟩
    · have hy : owner (pushed ++ (false, id) :: s) = some y := hy
      rw [ho] at hy; cases hy; exact h2
    · intro hm
      rcases List.mem_append.1 hm with hm | hm
      · have := (hp (false, c) (by simp [hm])).1
        cases this
      · exact h3 hm

/-- The classes not yet visited, weighted. -/
def whites (eg : EGraph Op D) (col : AMap Id Color) (l : List Id) : Nat :=
  (l.map (fun c => if col.get? c = some .white then 2 * degree eg c else 0)).sum

theorem whites_insert_le {eg : EGraph Op D} {col : AMap Id Color} {l : List Id} {id : Id} {x : Color} (hx : x ≠ .white) :
    whites eg (col.insert id x) l ≤ whites eg col l := by
  unfold whites
  induction l with
  | nil => simp
  | cons a l ih =>
    simp only [List.map_cons, List.sum_cons, AMap.get?_insert]
    have : (if (if id = a then some x else col.get? a) = some Color.white then 2 * degree eg a else 0) ≤
        (if col.get? a = some Color.white then 2 * degree eg a else 0) := by
      by_cases h : id = a
      · simp [h, hx]
      · simp [h]
    simp only [AMap.get?_insert] at ih
    omega

theorem whites_insert_lt {eg : EGraph Op D} {col : AMap Id Color} {l : List Id} {id : Id} {x : Color} (hx : x ≠ .white)
    (hm : id ∈ l) (hw : col.get? id = some .white) :
    whites eg (col.insert id x) l + 2 * degree eg id ≤ whites eg col l := by
  induction l with
  | nil => cases hm
  | cons a l ih =>
    have hle := whites_insert_le (eg := eg) (col := col) (l := l) (id := id) hx
    unfold whites at *
    simp only [List.map_cons, List.sum_cons, AMap.get?_insert] at *
    rcases List.mem_cons.1 hm with rfl | hm
    · simp only [if_true, hw, Option.some.injEq, hx, if_false]
      omega
    · have := ih hm
      have : (if (if id = a then some x else col.get? a) = some Color.white then 2 * degree eg a else 0) ≤
          (if col.get? a = some Color.white then 2 * degree eg a else 0) := by
        by_cases h : id = a
        · simp [h, hx]
        · simp [h]
      omega

theorem weight_push : ∀ (pushed s : Stack), (∀ p ∈ pushed, p.1 = true) → weight (pushed ++ s) = 2 * pushed.length + weight s
  | [], s, _ => by simp
  | (e, c) :: pushed, s, h => by
    have h1 := h (e, c) (by simp)
    simp only at h1
    subst h1
    have := weight_push pushed s (fun p hp => h p (by simp [hp]))
    simp only [weight, List.cons_append, List.map_cons, List.sum_cons, List.length_cons, if_true] at *
    omega

theorem split_push {id c : Id} {s below : Stack} : ∀ {pushed above : Stack}, (∀ p ∈ pushed, p.1 = true) →
    pushed ++ (false, id) :: s = above ++ (false, c) :: below →
    (above = pushed ∧ c = id ∧ below = s) ∨ ∃ ab, above = pushed ++ (false, id) :: ab ∧ s = ab ++ (false, c) :: below
  | [], above, _, h => by
    cases above with
    | nil => simp at h; exact .inl ⟨rfl, h.1.symm, h.2.symm⟩
    | cons p above =>
      simp only [List.nil_append, List.cons_append, List.cons.injEq] at h
      exact .inr ⟨above, by simp [h.1], h.2⟩
  | p :: pushed, above, hp, h => by
    cases above with
    | nil =>
      simp only [List.cons_append, List.nil_append, List.cons.injEq] at h
      have := hp p (by simp)
      rw [h.1] at this; cases this
    | cons q above =>
      simp only [List.cons_append, List.cons.injEq] at h
      rcases split_push (fun p h => hp p (by simp [h])) h.2 with ⟨h1, h2, h3⟩ | ⟨ab, h1, h2⟩
      · exact .inl ⟨by rw [h1, h.1], h2, h3⟩
      · exact .inr ⟨ab, by rw [h1, h.1]; rfl, h2⟩

theorem isSome_insert {col : AMap Id Color} {id c : Id} {x : Color} (h : (col.get? id).isSome) :
    ((col.insert id x).get? c).isSome ↔ (col.get? c).isSome := by
  rw [AMap.get?_insert]
  by_cases hc : id = c
  · subst hc; simp [h]
  · simp [hc]

theorem CInv.leave {eg : EGraph Op D} {col : AMap Id Color} {id : Id} {s : Stack} {F : List (Id × Nat)} {B : List Id}
    (h : CInv eg col ((false, id) :: s) F B) : ∃ B', CInv eg (col.insert id .black) s F B' := by
  have hgr : col.get? id = some .gray := (h.gray id).2 (by simp)
  have hsome : (col.get? id).isSome := by rw [hgr]; rfl
  have hst := h.stack
  have hwh : ∀ {d}, col.get? d ≠ some .white → (col.insert id .black).get? d ≠ some .white := by
    intro d hd
    rw [AMap.get?_insert]
    by_cases hc : id = d
    · simp [hc]
    · simpa [hc] using hd
  obtain ⟨B', hB1, hB2, hB3⟩ : ∃ B', (∀ c, c ∈ B' ↔ c ∈ B ∨ c = id) ∧ Ordered eg F B' ∧ True := by
    by_cases hid : id ∈ B
    · exact ⟨B, fun c => ⟨.inl, by rintro (h | rfl) <;> assumption⟩, h.order, trivial⟩
    · refine ⟨id :: B, fun c => by simp [or_comm], ⟨fun d hd => ?_, hid, h.order⟩, trivial⟩
      rcases (h.visit [] id s rfl hid).1 d hd with h1 | ⟨e, h1⟩
      · exact h1
      · cases h1
  refine ⟨B', ⟨fun c => ?_, hst.2.2, fun p hp => h.cls p (by simp [hp]), fun c => ?_, fun c hc => ?_, fun c hc => ?_, fun c hc d hd => ?_, hB2, ?_, h.found⟩⟩
  · rw [isSome_insert hsome]; exact h.keys c
  · rw [AMap.get?_insert]
    by_cases hc : id = c
    · subst hc; simp [hst.2.1]
    · rw [if_neg hc, h.gray c]; simp [Ne.symm hc]
  · rw [AMap.get?_insert] at hc
    by_cases hcc : id = c
    · exact (hB1 c).2 (.inr hcc.symm)
    · rw [if_neg hcc] at hc; exact (hB1 c).2 (.inl (h.black c hc))
  · rw [AMap.get?_insert] at hc
    by_cases hcc : id = c
    · simp [hcc] at hc
    · rw [if_neg hcc] at hc
      obtain ⟨h1, h2⟩ := h.white c hc
      refine ⟨fun hm => ?_, by simpa using h2⟩
      rcases (hB1 c).1 hm with h3 | h3
      · exact h1 h3
      · exact hcc h3.symm
  · refine hwh ?_
    by_cases hcB : c ∈ B
    · exact h.leftOK c hcB d hd
    · rcases (hB1 c).1 hc with h1 | rfl
      · exact absurd h1 hcB
      · rcases (h.visit [] c s rfl hcB).2 d hd with h1 | h1
        · exact h1
        · cases h1
  · intro above c below hs hcB
    have hcB' : c ∉ B := fun hm => hcB ((hB1 c).2 (.inl hm))
    obtain ⟨h1, h2⟩ := h.visit ((false, id) :: above) c below (by rw [hs]; rfl) hcB'
    refine ⟨fun d hd => ?_, fun d hd => ?_⟩
    · rcases h1 d hd with h3 | ⟨e, h3⟩
      · exact .inl ((hB1 d).2 (.inl h3))
      · rcases List.mem_cons.1 h3 with h4 | h4
        · cases h4; exact .inl ((hB1 _).2 (.inr rfl))
        · exact .inr ⟨e, h4⟩
    · rcases h2 d hd with h3 | h3
      · exact .inl (hwh h3)
      · rcases List.mem_cons.1 h3 with h4 | h4
        · cases h4
        · exact .inr h4

theorem CInv.enter {eg : EGraph Op D} {col : AMap Id Color} {id : Id} {s : Stack} {F : List (Id × Nat)} {B : List Id}
    (hG : GraphOK eg) (h : CInv eg col ((true, id) :: s) F B) (l : List Id) (hl : ∀ c cl, eg.classes.get? c = some cl → c ∈ l) :
    ∃ cl s' F', eg.index id = .ok cl ∧ scanNodes (col.insert id .gray) id 0 cl.nodes ((false, id) :: s) F = .ok (s', F') ∧
      CInv eg (col.insert id .gray) s' F' B ∧
      whites eg (col.insert id .gray) l + weight s' < whites eg col l + weight ((true, id) :: s) := by
  obtain ⟨cl, hcl⟩ := h.cls (true, id) (by simp)
  simp only at hcl
  have hsome : (col.get? id).isSome := (h.keys id).1 ⟨cl, hcl⟩
  have hst := h.stack
  have hns : (false, id) ∉ s := hst.2.1
  have hcol : ∀ d, (col.insert id .gray).get? d = if id = d then some .gray else col.get? d := fun d => AMap.get?_insert ..
  have hch : ∀ n ∈ cl.nodes, ∀ c ∈ n.children, ((col.insert id .gray).get? c).isSome := by
    intro n hn c hc
    rw [isSome_insert hsome, ← h.keys]
    obtain ⟨i, hi⟩ := List.getElem?_of_mem hn
    exact hG.child id c ⟨i, n, ⟨cl, hcl, hi⟩, hc⟩
  obtain ⟨s', F', hs1, hs2⟩ := scanNodes_spec (id := id) (k := 0) (s := (false, id) :: s) (F := F) hch
  obtain ⟨pushed, p1, p2, p3, p4⟩ := hs2.push
  have hgray : ∀ c, (col.insert id .gray).get? c = some .gray ↔ (false, c) ∈ (false, id) :: s := by
    intro c
    rw [hcol]
    by_cases hc : id = c
    · subst hc; simp
    · rw [if_neg hc, h.gray c]; simp [Ne.symm hc]
  have hbase : StackOK eg ((false, id) :: s) := ⟨hst.1, hns, hst.2.2⟩
  have hpe : ∀ p ∈ pushed, p.1 = true ∧ Edge eg id p.2 ∧ (false, p.2) ∉ (false, id) :: s := by
    intro p hp
    obtain ⟨g1, g2, i, g3⟩ := p3 p hp
    refine ⟨g1, (edge_iff hcl).2 ⟨i, g3⟩, fun hm => ?_⟩
    rw [(hgray _).2 hm] at g2; cases g2
  have hbl : ∀ d, (col.insert id .gray).get? d = some .black → d ∈ B := by
    intro d hd
    rw [hcol] at hd
    by_cases hc : id = d
    · simp [hc] at hd
    · rw [if_neg hc] at hd; exact h.black d hd
  have hwh : ∀ {d}, col.get? d ≠ some .white → (col.insert id .gray).get? d ≠ some .white := by
    intro d hd
    rw [hcol]
    by_cases hc : id = d
    · simp [hc]
    · simpa [hc] using hd
  have hnotgray : col.get? id ≠ some .gray := by
    intro hg
    have := (h.gray id).1 hg
    simp [hns] at this
  refine ⟨cl, s', F', hG.index id cl hcl, hs1, ⟨fun c => ?_, ?_, fun p hp => ?_, fun c => ?_, hbl, fun c hc => ?_, fun c hc d hd => hwh (h.leftOK c hc d hd),
    h.order.mono hs2.mono, ?_, ?_⟩, ?_⟩
  · rw [isSome_insert hsome]; exact h.keys c
  · rw [p1]; exact stackOK_push hbase hpe
  · rw [p1] at hp
    rcases List.mem_append.1 hp with hp | hp
    · exact hG.child id _ (hpe p hp).2.1
    · rcases List.mem_cons.1 hp with rfl | hp
      · exact ⟨cl, hcl⟩
      · exact h.cls p (by simp [hp])
  · rw [hgray c, p1, List.mem_append]
    constructor
    · exact .inr
    · rintro (hm | hm)
      · have := (hpe _ hm).1; cases this
      · exact hm
  · rw [hcol] at hc
    by_cases hcc : id = c
    · simp [hcc] at hc
    · rw [if_neg hcc] at hc
      obtain ⟨h1, h2⟩ := h.white c hc
      refine ⟨h1, ?_⟩
      rw [p1]
      rcases List.mem_cons.1 h2 with h3 | h3
      · cases h3; exact absurd rfl hcc
      · simp [h3]
  · intro above c below hs hcB
    rw [p1] at hs
    rcases split_push (fun p hp => (hpe p hp).1) hs with ⟨rfl, rfl, rfl⟩ | ⟨ab, rfl, hs'⟩
    · have hk : ∀ i d, (i, d) ∈ kids 0 cl.nodes → (c, i) ∉ F' → d ∈ B ∨ (true, d) ∈ above := by
        intro i d hm hF
        have hsm : ((col.insert c .gray).get? d).isSome := by
          obtain ⟨n, _, g2, g3⟩ := mem_kids.1 hm
          exact hch n (List.mem_of_getElem? g2) d g3
        obtain ⟨x, hx⟩ := Option.isSome_iff_exists.1 hsm
        cases x with
        | white => exact .inr (p4 i d hm hx)
        | gray => exact absurd (hs2.gray i d hm hx) hF
        | black => exact .inl (hbl d hx)
      refine ⟨?_, ?_⟩
      · rintro d ⟨i, n, ⟨cl', g1, g2⟩, g3, g4⟩
        rw [hcl] at g1; cases g1
        rcases hk i d (mem_kids.2 ⟨n, by omega, by simpa using g2, g4⟩) g3 with h1 | h1
        · exact .inl h1
        · exact .inr ⟨true, h1⟩
      · intro d hd
        obtain ⟨i, hi⟩ := (edge_iff hcl).1 hd
        by_cases hw : (col.insert c .gray).get? d = some .white
        · exact .inr (p4 i d hi hw)
        · exact .inl hw
    · obtain ⟨h1, h2⟩ := h.visit ((true, id) :: ab) c below (by rw [hs']; rfl) hcB
      refine ⟨?_, ?_⟩
      · rintro d ⟨i, n, g1, g2, g3⟩
        rcases h1 d ⟨i, n, g1, fun hm => g2 (hs2.mono _ hm), g3⟩ with h3 | ⟨e, h3⟩
        · exact .inl h3
        · rcases List.mem_cons.1 h3 with h4 | h4
          · cases h4; exact .inr ⟨false, by simp⟩
          · exact .inr ⟨e, by simp [h4]⟩
      · intro d hd
        rcases h2 d hd with h3 | h3
        · exact .inl (hwh h3)
        · rcases List.mem_cons.1 h3 with h4 | h4
          · cases h4; left; rw [hcol]; simp
          · exact .inr (by simp [h4])
  · intro c i hm
    rcases hs2.new _ hm with h1 | ⟨j, d, h1, h2, h3⟩
    · exact h.found c i h1
    · cases h1
      obtain ⟨n, _, g2, g3⟩ := mem_kids.1 h2
      exact ⟨n, d, ⟨cl, hcl, by simpa using g2⟩, g3, hbase.reach rfl ((hgray d).1 h3)⟩
  · have hw' : weight s' = 2 * pushed.length + weight ((false, id) :: s) := by
      rw [p1]; exact weight_push _ _ (fun p hp => (hpe p hp).1)
    have e1 : weight ((false, id) :: s) = 1 + weight s := by simp [weight]
    have e2 : weight ((true, id) :: s) = 2 + weight s := by simp [weight]
    obtain ⟨x, hx⟩ := Option.isSome_iff_exists.1 hsome
    cases x with
    | gray => exact absurd hx hnotgray
    | white =>
      have h1 := whites_insert_lt (eg := eg) (x := .gray) (by simp) (hl id cl hcl) hx
      have h2 : degree eg id = (kids 0 cl.nodes).length := by
        rw [kids_length]; unfold degree; rw [hcl]
      omega
    | black =>
      have h1 := whites_insert_le (eg := eg) (col := col) (l := l) (id := id) (x := .gray) (by simp)
      have h2 : pushed = [] := by
        cases pushed with
        | nil => rfl
        | cons p pushed =>
          obtain ⟨g1, g2, i, g3⟩ := p3 p (by simp)
          exact absurd g2 (hwh (h.leftOK id (h.black id hx) _ ((edge_iff hcl).2 ⟨i, g3⟩)))
      rw [h2] at hw'
      simp at hw'
      omega

theorem findCyclesLoop_spec {eg : EGraph Op D} (hG : GraphOK eg) {l : List Id} (hl : ∀ c cl, eg.classes.get? c = some cl → c ∈ l) :
    ∀ (f : Nat) (col : AMap Id Color) (s : Stack) (F : List (Id × Nat)) (B : List Id), CInv eg col s F B →
      whites eg col l + weight s < f →
      ∃ F' B', findCyclesLoop eg f col s F = .ok F' ∧ (∀ c i, (c, i) ∈ F' → OnCycle eg c i) ∧ Ordered eg F' B' ∧
        ∀ c cl, eg.classes.get? c = some cl → c ∈ B'
  | 0, _, _, _, _, _, hf => absurd hf (by omega)
  | f + 1, col, [], F, B, h, _ => by
    refine ⟨F, B, rfl, h.found, h.order, fun c cl hc => ?_⟩
    obtain ⟨x, hx⟩ := Option.isSome_iff_exists.1 ((h.keys c).1 ⟨cl, hc⟩)
    cases x with
    | white => cases (h.white c hx).2
    | gray => cases (h.gray c).1 hx
    | black => exact h.black c hx
  | f + 1, col, (true, id) :: s, F, B, h, hf => by
    obtain ⟨cl, s', F1, h1, h2, h3, h4⟩ := h.enter hG l hl
    obtain ⟨F', B', h5, h6⟩ := findCyclesLoop_spec hG hl f _ _ _ _ h3 (by omega)
    refine ⟨F', B', ?_, h6⟩
    obtain ⟨x, hx⟩ := Option.isSome_iff_exists.1 ((h.keys id).1 (h.cls (true, id) (by simp)))
    rw [findCyclesLoop, hx]
    simp only [unwrap, ok_bind, if_true, h1, h2, h5]
  | f + 1, col, (false, id) :: s, F, B, h, hf => by
    obtain ⟨B1, h1⟩ := h.leave
    have h2 := whites_insert_le (eg := eg) (col := col) (l := l) (id := id) (x := .black) (by simp)
    have e1 : weight ((false, id) :: s) = 1 + weight s := by simp [weight]
    obtain ⟨F', B', h5, h6⟩ := findCyclesLoop_spec hG hl f _ _ _ _ h1 (by omega)
    refine ⟨F', B', ?_, h6⟩
    obtain ⟨x, hx⟩ := Option.isSome_iff_exists.1 ((h.keys id).1 (h.cls (false, id) (by simp)))
    rw [findCyclesLoop, hx]
    simp only [unwrap, ok_bind, Bool.false_eq_true, if_false, h5]

theorem findCyclesLoop_mono {eg : EGraph Op D} : ∀ {f f' : Nat} {col : AMap Id Color} {s : Stack} {F F' : List (Id × Nat)},
    findCyclesLoop eg f col s F = .ok F' → f ≤ f' → findCyclesLoop eg f' col s F = .ok F'
  | 0, _, _, _, _, _, h, _ => by simp [findCyclesLoop] at h
  | f + 1, 0, _, _, _, _, _, hf => absurd hf (by omega)
  | f + 1, f' + 1, col, [], F, F', h, _ => h
  | f + 1, f' + 1, col, (e, id) :: s, F, F', h, hf => by
    rw [findCyclesLoop] at h ⊢
    obtain ⟨x, h1, h⟩ := bind_eq_ok.1 h
    rw [h1, ok_bind]
    cases e with
    | true =>
      simp only [if_true] at h ⊢
      obtain ⟨cl, h2, h⟩ := bind_eq_ok.1 h
      obtain ⟨⟨s', F1⟩, h3, h⟩ := bind_eq_ok.1 h
      rw [h2, ok_bind, h3, ok_bind]
      exact findCyclesLoop_mono h (by omega)
    | false =>
      simp only [Bool.false_eq_true, if_false] at h ⊢
      exact findCyclesLoop_mono h (by omega)

/-- The number of classes left before and including `c`. -/
def rank : List Id → Id → Nat
  | [], _ => 0
  | b :: B, c => if c = b then B.length + 1 else rank B c

theorem rank_le : ∀ {B : List Id} {c : Id}, rank B c ≤ B.length
  | [], _ => le_refl _
  | b :: B, c => by
    unfold rank
    split
    · simp
    · have := rank_le (B := B) (c := c); simp; omega

theorem Ordered.rank_lt {eg : EGraph Op D} {F : List (Id × Nat)} : ∀ {B : List Id}, Ordered eg F B → ∀ {c d}, c ∈ B → Allowed eg F c d →
    d ∈ B ∧ rank B d < rank B c
  | b :: B, ⟨h1, h2, h3⟩, c, d, hc, hd => by
    by_cases hcb : c = b
    · subst hcb
      have hdB := h1 d hd
      have hne : d ≠ c := fun h => h2 (h ▸ hdB)
      refine ⟨by simp [hdB], ?_⟩
      rw [rank, rank, if_neg hne, if_pos rfl]
      have := rank_le (B := B) (c := d)
      omega
    · have hcB : c ∈ B := by
        rcases List.mem_cons.1 hc with h | h
        · exact absurd h hcb
        · exact h
      obtain ⟨g1, g2⟩ := h3.rank_lt hcB hd
      have hne : d ≠ b := fun h => h2 (h ▸ g1)
      refine ⟨by simp [g1], ?_⟩
      rw [rank, rank, if_neg hne, if_neg hcb]
      exact g2

end Lp
end Egg
