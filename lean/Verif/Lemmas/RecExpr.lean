import Verif.Lemmas.AddExpr
import Verif.Model.RecExpr
import Verif.Spec.Expr
/-
Lemmas about expression building: `compact`, `build_recexpr`, `extract`.
-/
namespace Egg
variable {Op : Type}

theorem unfolds_iff {g : Id → Option (ENode Op)} {i : Id} {op : Op} {ts : List (Term Op)} :
    Unfolds g i (.node op ts) ↔ ∃ n, g i = some n ∧ n.op = op ∧ List.Forall₂ (Unfolds g) n.children ts := by
  constructor
  · intro h
    cases h with
    | mk h1 h2 h3 => exact ⟨_, h1, rfl, forall₂_iff_get?.2 ⟨h2, h3⟩⟩
  · rintro ⟨n, h1, rfl, h2⟩
    exact .mk h1 h2.length_eq (forall₂_iff_get?.1 h2).2

theorem unfolds_table {e : List (ENode Op)} : ∀ (t : Term Op) {i : Id},
    Unfolds (fun i => e[i]?) i t ↔ TermOf e i t := by
  intro t
  induction t using Term.ind with
  | h op ts ih =>
    intro i
    rw [unfolds_iff, termOf_iff]
    constructor
    · rintro ⟨n, h1, h2, h3⟩
      exact ⟨n, h1, h2, forall₂_mono_mem h3 (fun c _ t ht h => (ih t ht).1 h)⟩
    · rintro ⟨n, h1, h2, h3⟩
      exact ⟨n, h1, h2, forall₂_mono_mem h3 (fun c _ t ht h => (ih t ht).2 h)⟩

theorem Unfolds.unique {g : Id → Option (ENode Op)} : ∀ {s : Term Op} {i : Id} {t : Term Op},
    Unfolds g i s → Unfolds g i t → s = t := by
  intro s
  induction s using Term.ind with
  | h op ss ih =>
    intro i t hs ht
    cases t with
    | node op' ts =>
      rw [unfolds_iff] at hs ht
      obtain ⟨n, h1, rfl, h3⟩ := hs
      obtain ⟨n', g1, rfl, g3⟩ := ht
      rw [h1] at g1; cases g1
      congr 1
      have := forall₂_comp (T := fun a b => a = b) (forall₂_flip h3) g3
        (fun a b c ha _ _ h1 h2 => ih a ha h1 h2)
      have := (forall₂_map_eq (f := id) (g := id)).1 this
      simpa using this

/-! ### `IndexSet::insert_full` -/

section
variable {α : Type} [DecidableEq α]

theorem insertFull_get (s : List α) (a : α) : (insertFull s a).1[(insertFull s a).2]? = some a := by
  unfold insertFull
  split
  · next i h =>
    rw [List.findIdx?_eq_some_iff_getElem] at h
    obtain ⟨h1, h2, _⟩ := h
    rw [List.getElem?_eq_getElem h1]
    simpa using h2
  · simp

theorem insertFull_prefix (s : List α) (a : α) : ∃ l, (insertFull s a).1 = s ++ l := by
  unfold insertFull
  split
  · exact ⟨[], by simp⟩
  · exact ⟨[a], rfl⟩

theorem insertFull_cases (s : List α) (a : α) :
    ((insertFull s a).1 = s ∧ a ∈ s) ∨ ((insertFull s a).1 = s ++ [a] ∧ (insertFull s a).2 = s.length ∧ a ∉ s) := by
  unfold insertFull
  split
  · next i h =>
    left
    rw [List.findIdx?_eq_some_iff_getElem] at h
    obtain ⟨h1, h2, _⟩ := h
    refine ⟨rfl, ?_⟩
    have : s[i] = a := by simpa using h2
    rw [← this]
    exact List.getElem_mem h1
  · next h =>
    right
    refine ⟨rfl, rfl, ?_⟩
    rw [List.findIdx?_eq_none_iff] at h
    intro hm
    simpa using h a hm

theorem insertFull_nodup {s : List α} (h : s.Nodup) (a : α) : (insertFull s a).1.Nodup := by
  rcases insertFull_cases s a with ⟨h1, _⟩ | ⟨h1, _, h2⟩
  · rw [h1]; exact h
  · rw [h1]
    exact List.nodup_append.2 ⟨h, by simp, by
      intro x hx y hy; simp at hy; subst hy; intro e; exact h2 (e ▸ hx)⟩

end

theorem getElem?_prefix {α : Type} {s l : List α} {i : Nat} {a : α} (h : s[i]? = some a) :
    (s ++ l)[i]? = some a := by
  rw [List.getElem?_append_left (getElem?_lt h)]; exact h

theorem Dag.append_node {s : List (ENode Op)} (h : Dag s) {n : ENode Op} (hn : ∀ c ∈ n.children, c < s.length) :
    Dag (s ++ [n]) := by
  intro i m hm c hc
  by_cases hi : i < s.length
  · rw [List.getElem?_append_left hi] at hm
    exact h i m hm c hc
  · have := getElem?_lt hm
    simp at this
    have hi' : i = s.length := by omega
    subst hi'
    simp at hm
    subst hm
    exact hn c hc

theorem Dag.insertFull [DecidableEq Op] {s : List (ENode Op)} (h : Dag s) {n : ENode Op}
    (hn : ∀ c ∈ n.children, c < s.length) : Dag (insertFull s n).1 := by
  rcases insertFull_cases s n with ⟨h1, _⟩ | ⟨h1, _, h2⟩
  · rw [h1]; exact h
  · rw [h1]; exact h.append_node hn

/-! ### compact -/

namespace RecExpr
variable [DecidableEq Op]

/-- Invariant of the loop of `compact` after the nodes `done` of `e`. -/
structure CInv (e : List (ENode Op)) (k : Nat) (set : List (ENode Op)) (ids : List Id) : Prop where
  len : ids.length = k
  dag : Dag set
  nodup : set.Nodup
  term : ∀ (j : Nat) (i : Id), ids[j]? = some i → i < set.length ∧ ∀ t, TermOf e j t → TermOf set i t
  onto : ∀ (i : Id), i < set.length → ∃ j : Nat, ids[j]? = some i
  /-- new ids are given in order: an entry equal to the last new id is its own. -/
  first : ∀ (i : Id), i < set.length → ∃ j : Nat, ids[j]? = some i ∧ ∀ (j' : Nat) (i' : Id), j' < j → ids[j']? = some i' → i' < i

theorem compactGo_spec {e : List (ENode Op)} (hd : Dag e) : ∀ (rest done set : List (ENode Op)) (ids : List Id),
    e = done ++ rest → CInv e done.length set ids →
    ∃ set' ids', compactGo rest set ids = .ok set' ∧ CInv e e.length set' ids' := by
  intro rest
  induction rest with
  | nil =>
    intro done set ids he h
    refine ⟨set, ids, rfl, ?_⟩
    have : e.length = done.length := by rw [he]; simp
    rw [this]; exact h
  | cons n rest ih =>
    intro done set ids he h
    have hn : e[done.length]? = some n := by rw [he]; simp
    obtain ⟨m, hm⟩ := mapChildrenM_getIdx_total (n := n) (ids := ids) (by
      intro c hc; rw [h.len]; exact hd _ _ hn c hc)
    have hm' := mapChildrenM_getIdx.1 hm
    have hlt : ∀ c ∈ m.children, c < set.length := by
      intro c hc
      obtain ⟨d, _, hd'⟩ := forall₂_mem_left (forall₂_flip hm'.2) hc
      exact (h.term d c hd').1
    have hstep : compactGo (n :: rest) set ids = compactGo rest (insertFull set m).1 (ids ++ [(insertFull set m).2]) := by
      simp [compactGo, hm]
    rw [hstep]
    obtain ⟨l, hl⟩ := insertFull_prefix set m
    have hget := insertFull_get set m
    refine ih (done ++ [n]) _ _ (by rw [he]; simp) ?_
    refine ⟨by simp [h.len], h.dag.insertFull hlt, insertFull_nodup h.nodup m, ?_, ?_, ?_⟩
    · intro j i hj
      by_cases hjk : j < ids.length
      · rw [List.getElem?_append_left hjk] at hj
        obtain ⟨g1, g2⟩ := h.term j i hj
        refine ⟨by rw [hl]; simp; omega, fun t ht => ?_⟩
        rw [hl]; exact (g2 t ht).append
      · have := getElem?_lt hj
        simp at this
        have hjl : j = ids.length := by omega
        subst hjl
        simp at hj
        subst hj
        refine ⟨getElem?_lt hget, ?_⟩
        intro t ht
        cases t with
        | node op ts =>
          rw [h.len] at ht
          rw [termOf_iff] at ht ⊢
          obtain ⟨n', q1, q2, q3⟩ := ht
          rw [hn] at q1; cases q1
          refine ⟨m, hget, by rw [hm'.1, q2], ?_⟩
          refine forall₂_comp (forall₂_flip hm'.2) q3 (fun a b c _ _ _ h1 h2 => ?_)
          rw [hl]
          exact ((h.term b a h1).2 c h2).append
    · intro i hi
      rcases insertFull_cases set m with ⟨h1, _⟩ | ⟨h1, h2, _⟩
      · rw [h1] at hi
        obtain ⟨j, hj⟩ := h.onto i hi
        exact ⟨j, getElem?_prefix hj⟩
      · rw [h1] at hi
        simp at hi
        by_cases hi' : i < set.length
        · obtain ⟨j, hj⟩ := h.onto i hi'
          exact ⟨j, getElem?_prefix hj⟩
        · exact ⟨ids.length, by simp [h2]; omega⟩
    · intro i hi
      have old : i < set.length → ∃ j : Nat, (ids ++ [(insertFull set m).2])[j]? = some i ∧
          ∀ (j' : Nat) (i' : Id), j' < j → (ids ++ [(insertFull set m).2])[j']? = some i' → i' < i := by
        intro hi'
        obtain ⟨j, hj, hj2⟩ := h.first i hi'
        refine ⟨j, getElem?_prefix hj, ?_⟩
        intro j' i' hlt' hg
        rw [List.getElem?_append_left (by have := getElem?_lt hj; omega)] at hg
        exact hj2 j' i' hlt' hg
      rcases insertFull_cases set m with ⟨h1, _⟩ | ⟨h1, h2, _⟩
      · rw [h1] at hi; exact old hi
      · rw [h1] at hi
        simp at hi
        by_cases hi' : i < set.length
        · exact old hi'
        · refine ⟨ids.length, by simp [h2]; omega, ?_⟩
          intro j' i' hlt' hg
          rw [List.getElem?_append_left hlt'] at hg
          have := (h.term j' i' hg).1
          omega

theorem cinv_nil (e : List (ENode Op)) : CInv e 0 [] [] :=
  ⟨rfl, by intro i n h; simp at h, by simp, by intro j i h; simp at h, by intro i h; simp at h,
    by intro i h; simp at h⟩

theorem compact_spec {e : List (ENode Op)} (hd : Dag e) :
    ∃ e' ids, compact e = .ok e' ∧ CInv e e.length e' ids :=
  compactGo_spec hd e [] [] [] rfl (cinv_nil e)

/-! ### build_recexpr -/

/-- Ids reachable from the children of `n` through the nodes chosen by `g`. -/
inductive GReach (g : Id → Option (ENode Op)) (n : ENode Op) : Id → Prop where
  | base {c} : c ∈ n.children → GReach g n c
  | step {i m c} : GReach g n i → g i = some m → c ∈ m.children → GReach g n c

/-- Invariant of the loop of `try_build_recexpr`. -/
structure BInv (g : Id → Option (ENode Op)) (n : ENode Op) (b : Build Op) : Prop where
  dag : Dag b.set
  nodup : b.set.Nodup
  node : ∀ i k, b.ids.get? i = some k → ∃ m cs, g i = some m ∧ b.set[k]? = some ⟨m.op, cs⟩ ∧
    List.Forall₂ (fun c d => b.ids.get? c = some d) m.children cs
  onto : ∀ k, k < b.set.length → ∃ i, b.ids.get? i = some k ∧ GReach g n i
  keys : ∀ i k, b.ids.get? i = some k → GReach g n i
  todo : ∀ i ∈ b.todo, GReach g n i

/-- Growing tables. -/
def BExt (b b' : Build Op) : Prop :=
  (∃ l, b'.set = b.set ++ l) ∧ ∀ i k, b.ids.get? i = some k → b'.ids.get? i = some k

theorem BExt.rfl' (b : Build Op) : BExt b b := ⟨⟨[], by simp⟩, fun _ _ h => h⟩

theorem BExt.trans {a b c : Build Op} (h : BExt a b) (h' : BExt b c) : BExt a c := by
  obtain ⟨⟨l, hl⟩, h2⟩ := h
  obtain ⟨⟨l', hl'⟩, h2'⟩ := h'
  exact ⟨⟨l ++ l', by rw [hl', hl]; simp⟩, fun i k hk => h2' i k (h2 i k hk)⟩

/-- The loop gets from `b` to `b'`. -/
def BReach (gn : Id → Res (ENode Op)) (b b' : Build Op) : Prop :=
  ∃ k, ∀ f, buildLoop gn (f + k) b = buildLoop gn f b'

theorem BReach.rfl' (gn : Id → Res (ENode Op)) (b : Build Op) : BReach gn b b := ⟨0, fun _ => rfl⟩

theorem BReach.trans {gn : Id → Res (ENode Op)} {a b c : Build Op} (h : BReach gn a b) (h' : BReach gn b c) :
    BReach gn a c := by
  obtain ⟨k, hk⟩ := h
  obtain ⟨k', hk'⟩ := h'
  refine ⟨k' + k, fun f => ?_⟩
  rw [← Nat.add_assoc, hk, hk']

theorem BReach.step {gn : Id → Res (ENode Op)} {b b' : Build Op} {id : Id} {rest : List Id}
    (ht : b.todo = id :: rest) (h : buildStep gn b id rest = .ok b') : BReach gn b b' := by
  refine ⟨1, fun f => ?_⟩
  simp only [buildLoop, ht, h, ok_bind]

/-- Processing a list of ids one after the other. -/
theorem build_list {gn : Id → Res (ENode Op)} {g : Id → Option (ENode Op)} {n : ENode Op} : ∀ (l : List Id)
    (_ : ∀ i ∈ l, ∀ (b : Build Op) (rest : List Id), b.todo = i :: rest → BInv g n b →
      ∃ b', BReach gn b b' ∧ b'.todo = rest ∧ BExt b b' ∧ BInv g n b' ∧ (b'.ids.get? i).isSome)
    (b : Build Op) (rest : List Id), b.todo = l ++ rest → BInv g n b →
    ∃ b', BReach gn b b' ∧ b'.todo = rest ∧ BExt b b' ∧ BInv g n b' ∧ ∀ i ∈ l, (b'.ids.get? i).isSome := by
  intro l
  induction l with
  | nil => intro _ b rest ht hb; exact ⟨b, .rfl' _ _, ht, .rfl' _, hb, by simp⟩
  | cons i l ih =>
    intro hl b rest ht hb
    obtain ⟨b1, h1, h2, h3, h4, h5⟩ := hl i (by simp) b (l ++ rest) ht hb
    obtain ⟨b2, g1, g2, g3, g4, g5⟩ := ih (fun j hj => hl j (by simp [hj])) b1 rest h2 h4
    refine ⟨b2, h1.trans g1, g2, h3.trans g3, g4, ?_⟩
    intro j hj
    rcases List.mem_cons.1 hj with rfl | hj
    · obtain ⟨k, hk⟩ := Option.isSome_iff_exists.1 h5
      rw [g3.2 _ _ hk]; rfl
    · exact g5 j hj

/-- When all children of the top id are done, the node is entered. -/
theorem build_finish {gn : Id → Res (ENode Op)} {g : Id → Option (ENode Op)} {n : ENode Op}
    (hg : ∀ i m, g i = some m → gn i = .ok m) {b : Build Op} {i : Id} {m : ENode Op} {rest : List Id}
    (ht : b.todo = i :: rest) (hb : BInv g n b) (hm : g i = some m) (hi : b.ids.get? i = none)
    (hc : ∀ c ∈ m.children, (b.ids.get? c).isSome) :
    ∃ b', BReach gn b b' ∧ b'.todo = rest ∧ BExt b b' ∧ BInv g n b' ∧ (b'.ids.get? i).isSome := by
  obtain ⟨cs, hcs⟩ := forall₂_exists (R := fun c d => b.ids.get? c = some d) (as := m.children)
    (fun c h => Option.isSome_iff_exists.1 (hc c h))
  have hmap : m.mapChildrenM (fun c => unwrap (b.ids.get? c)) = .ok ⟨m.op, cs⟩ := by
    unfold ENode.mapChildrenM
    rw [bind_eq_ok]
    refine ⟨cs, ?_, rfl⟩
    rw [mapM_eq_ok]
    exact forall₂_mono_mem hcs (fun c _ d _ h => unwrap_eq_ok.2 h)
  have hlt : ∀ c ∈ (⟨m.op, cs⟩ : ENode Op).children, c < b.set.length := by
    intro c h
    obtain ⟨d, _, hd⟩ := forall₂_mem_left (forall₂_flip hcs) h
    obtain ⟨_, _, _, h2, _⟩ := hb.node _ _ hd
    exact getElem?_lt h2
  have hfil : (m.children.filter (fun c => (b.ids.get? c).isNone)) = [] := by
    rw [List.filter_eq_nil_iff]
    intro c h
    have := hc c h
    rw [Option.isSome_iff_exists] at this
    obtain ⟨x, hx⟩ := this
    simp [hx]
  obtain ⟨l, hl⟩ := insertFull_prefix b.set (⟨m.op, cs⟩ : ENode Op)
  have hget := insertFull_get b.set (⟨m.op, cs⟩ : ENode Op)
  have hr : GReach g n i := hb.todo i (by rw [ht]; simp)
  have hne : ∀ j k, b.ids.get? j = some k → i ≠ j := by
    intro j k hk e; subst e; rw [hi] at hk; cases hk
  refine ⟨{ set := (insertFull b.set (⟨m.op, cs⟩ : ENode Op)).1
            ids := b.ids.insert i (insertFull b.set (⟨m.op, cs⟩ : ENode Op)).2
            todo := rest }, ?_, rfl, ⟨⟨l, hl⟩, ?_⟩, ?_, ?_⟩
  · refine .step ht ?_
    simp [buildStep, hi, hg i m hm, hmap]
    intro a ha e
    have := hc a ha
    rw [e] at this; cases this
  · intro j k hk
    rw [AMap.get?_insert, if_neg (hne j k hk)]; exact hk
  · refine ⟨hb.dag.insertFull hlt, insertFull_nodup hb.nodup _, ?_, ?_, ?_, ?_⟩
    · intro j k hk
      simp only at hk ⊢
      rw [AMap.get?_insert] at hk
      split at hk
      · next e =>
        subst e
        cases hk
        refine ⟨m, cs, hm, hget, ?_⟩
        exact forall₂_mono_mem hcs (fun c _ d _ h => by rw [AMap.get?_insert, if_neg (hne c d h)]; exact h)
      · obtain ⟨m', cs', h1, h2, h3⟩ := hb.node j k hk
        refine ⟨m', cs', h1, by rw [hl]; exact getElem?_prefix h2, ?_⟩
        exact forall₂_mono_mem h3 (fun c _ d _ h => by rw [AMap.get?_insert, if_neg (hne c d h)]; exact h)
    · intro k hk
      have old : k < b.set.length → ∃ j, AMap.get? (b.ids.insert i (insertFull b.set (⟨m.op, cs⟩ : ENode Op)).2) j =
          some k ∧ GReach g n j := by
        intro hk'
        obtain ⟨j, h1, h2⟩ := hb.onto k hk'
        exact ⟨j, by rw [AMap.get?_insert, if_neg (hne j k h1)]; exact h1, h2⟩
      rcases insertFull_cases b.set (⟨m.op, cs⟩ : ENode Op) with ⟨h1, _⟩ | ⟨h1, h2, _⟩
      · simp only at hk; rw [h1] at hk; exact old hk
      · simp only at hk; rw [h1] at hk
        simp at hk
        by_cases hk' : k < b.set.length
        · exact old hk'
        · have : k = b.set.length := by omega
          exact ⟨i, by rw [AMap.get?_insert, if_pos rfl, h2, this], hr⟩
    · intro j k hk
      simp only at hk
      rw [AMap.get?_insert] at hk
      split at hk
      · next e => subst e; exact hr
      · exact hb.keys j k hk
    · intro j hj
      exact hb.todo j (by rw [ht]; simp [show j ∈ rest from hj])
  · simp [AMap.get?_insert]

/-- Processing one id that unfolds to a finite term. -/
theorem build_id {gn : Id → Res (ENode Op)} {g : Id → Option (ENode Op)} {n : ENode Op}
    (hg : ∀ i m, g i = some m → gn i = .ok m) : ∀ (t : Term Op) (i : Id), Unfolds g i t →
    ∀ (b : Build Op) (rest : List Id), b.todo = i :: rest → BInv g n b →
    ∃ b', BReach gn b b' ∧ b'.todo = rest ∧ BExt b b' ∧ BInv g n b' ∧ (b'.ids.get? i).isSome := by
  intro t
  induction t using Term.ind with
  | h op ts ih =>
    intro i hu b rest ht hb
    rw [unfolds_iff] at hu
    obtain ⟨m, h1, h2, h3⟩ := hu
    cases hi : b.ids.get? i with
    | some k =>
      refine ⟨{ b with todo := rest }, .step ht (by simp [buildStep, hi]), rfl,
        ⟨⟨[], by simp⟩, fun _ _ h => h⟩, ?_, by simp [hi]⟩
      exact ⟨hb.dag, hb.nodup, hb.node, hb.onto, hb.keys, fun j hj => hb.todo j (by
        rw [ht]; simp [show j ∈ rest from hj])⟩
    | none =>
      by_cases hm : (m.children.filter (fun c => (b.ids.get? c).isNone)) = []
      · refine build_finish hg ht hb h1 hi ?_
        intro c hc
        rw [List.filter_eq_nil_iff] at hm
        have := hm c hc
        cases hx : b.ids.get? c with
        | none => simp [hx] at this
        | some x => rfl
      · have hr : GReach g n i := hb.todo i (by rw [ht]; simp)
        have hb1 : BInv g n { b with todo := (m.children.filter (fun c => (b.ids.get? c).isNone)).reverse ++ i :: rest } := by
          refine ⟨hb.dag, hb.nodup, hb.node, hb.onto, hb.keys, ?_⟩
          intro j hj
          simp only [List.mem_append, List.mem_reverse, List.mem_filter, List.mem_cons] at hj
          rcases hj with ⟨hj, _⟩ | rfl | hj
          · exact .step hr h1 hj
          · exact hr
          · exact hb.todo j (by rw [ht]; simp [hj])
        have s1 : BReach gn b { b with todo := (m.children.filter (fun c => (b.ids.get? c).isNone)).reverse ++ i :: rest } := by
          refine .step ht ?_
          simp [buildStep, hi, hg i m h1]
          intro hh
          exact absurd (List.filter_eq_nil_iff.2 (fun a ha => by simpa using hh a ha)) hm
        obtain ⟨b2, q1, q2, q3, q4, q5⟩ := build_list (gn := gn) (g := g) (n := n)
          (m.children.filter (fun c => (b.ids.get? c).isNone)).reverse (by
            intro c hc
            simp only [List.mem_reverse, List.mem_filter] at hc
            obtain ⟨s, hs, hcs⟩ := forall₂_mem_left h3 hc.1
            exact ih s hs c hcs) _ (i :: rest) rfl hb1
        have hall : ∀ c ∈ m.children, (b2.ids.get? c).isSome := by
          intro c hc
          cases hx : b.ids.get? c with
          | some x => rw [q3.2 c x hx]; rfl
          | none => exact q5 c (by simp [List.mem_filter, hc, hx])
        cases hi2 : b2.ids.get? i with
        | none =>
          obtain ⟨b3, z1, z2, z3, z4, z5⟩ := build_finish hg q2 q4 h1 hi2 hall
          exact ⟨b3, s1.trans (q1.trans z1), z2,
            (show BExt b b2 from q3).trans z3, z4, z5⟩
        | some k =>
          refine ⟨{ b2 with todo := rest }, s1.trans (q1.trans (.step q2 (by simp [buildStep, hi2]))), rfl,
            q3, ?_, by simp [hi2]⟩
          exact ⟨q4.dag, q4.nodup, q4.node, q4.onto, q4.keys, fun j hj => q4.todo j (by
            rw [q2]; simp [show j ∈ rest from hj])⟩

theorem BInv.term {g : Id → Option (ENode Op)} {n : ENode Op} {b : Build Op} (hb : BInv g n b) :
    ∀ (t : Term Op) (i : Id) (k : Nat), Unfolds g i t → b.ids.get? i = some k → TermOf b.set k t := by
  intro t
  induction t using Term.ind with
  | h op ts ih =>
    intro i k hu hk
    rw [unfolds_iff] at hu
    obtain ⟨m, h1, h2, h3⟩ := hu
    obtain ⟨m', cs, g1, g2, g3⟩ := hb.node i k hk
    rw [h1] at g1; cases g1
    rw [termOf_iff]
    refine ⟨_, g2, h2, ?_⟩
    exact forall₂_comp (forall₂_flip g3) h3 (fun a c t _ _ ht h h' => ih t ht c a h' h)

theorem buildLoop_mono {gn : Id → Res (ENode Op)} : ∀ (f f' : Nat) (b b' : Build Op), buildLoop gn f b = .ok b' →
    f ≤ f' → buildLoop gn f' b = .ok b' := by
  intro f
  induction f with
  | zero => intro f' b b' h; cases h
  | succ f ih =>
    intro f' b b' h hle
    obtain ⟨f'', rfl⟩ : ∃ f'', f' = f'' + 1 := ⟨f' - 1, by omega⟩
    cases ht : b.todo with
    | nil =>
      simp only [buildLoop, ht] at h ⊢
      exact h
    | cons i rest =>
      simp only [buildLoop, ht] at h ⊢
      rw [bind_eq_ok] at h ⊢
      obtain ⟨b1, h1, h2⟩ := h
      exact ⟨b1, h1, ih f'' b1 b' h2 (by omega)⟩

theorem build_mono {gn : Id → Res (ENode Op)} {f f' : Nat} {n : ENode Op} {e : List (ENode Op)}
    (h : build gn f n = .ok e) (hle : f ≤ f') : build gn f' n = .ok e := by
  unfold build at h ⊢
  rw [bind_eq_ok] at h ⊢
  obtain ⟨b, h1, h2⟩ := h
  exact ⟨b, buildLoop_mono f f' _ b h1 hle, h2⟩

/-- `build_recexpr` succeeds when the chosen nodes unfold to a finite term; it
yields a well-formed expression of that term without unused nodes. -/
theorem build_spec {gn : Id → Res (ENode Op)} {g : Id → Option (ENode Op)} {n : ENode Op}
    (hg : ∀ i m, g i = some m → gn i = .ok m) {ts : List (Term Op)}
    (hn : List.Forall₂ (Unfolds g) n.children ts) :
    ∃ f0 e, (∀ f, f0 ≤ f → build gn f n = .ok e) ∧ Dag e ∧ ExprTerm e (.node n.op ts) ∧
      (∀ j, j < e.length → Live e j) ∧ e.dropLast.Nodup ∧
      (∀ (j : Nat) (m : ENode Op), e[j]? = some m → m.op = n.op ∨ ∃ i k, GReach g n i ∧ g i = some k ∧ m.op = k.op) := by
  have h0 : BInv g n { set := [], ids := [], todo := n.children.reverse } :=
    ⟨by intro i m h; simp at h, by simp, by intro i k h; simp [AMap.get?] at h, by intro k h; simp at h,
      by intro i k h; simp [AMap.get?] at h, by intro i h; simp at h; exact .base h⟩
  obtain ⟨b, ⟨k, hk⟩, h2, h3, h4, h5⟩ := build_list (gn := gn) n.children.reverse (by
    intro i hi
    simp at hi
    obtain ⟨t, _, ht⟩ := forall₂_mem_left hn hi
    exact build_id hg t i ht) _ [] (by simp) h0
  obtain ⟨cs, hcs⟩ := forall₂_exists (R := fun c d => b.ids.get? c = some d) (as := n.children)
    (fun c h => Option.isSome_iff_exists.1 (h5 c (by simpa using h)))
  have hmap : n.mapChildrenM (fun c => unwrap (b.ids.get? c)) = .ok ⟨n.op, cs⟩ := by
    unfold ENode.mapChildrenM
    rw [bind_eq_ok]
    refine ⟨cs, ?_, rfl⟩
    rw [mapM_eq_ok]
    exact forall₂_mono_mem hcs (fun c _ d _ h => unwrap_eq_ok.2 h)
  have hlt : ∀ c ∈ (⟨n.op, cs⟩ : ENode Op).children, c < b.set.length := by
    intro c h
    obtain ⟨d, _, hd⟩ := forall₂_mem_left (forall₂_flip hcs) h
    obtain ⟨_, _, _, h2, _⟩ := h4.node _ _ hd
    exact getElem?_lt h2
  refine ⟨1 + k, b.set ++ [⟨n.op, cs⟩], ?_, h4.dag.append_node hlt, ⟨by simp, ?_⟩, ?_, by simpa using h4.nodup, ?_⟩
  · intro f hf
    refine build_mono (f := 1 + k) ?_ hf
    unfold build
    rw [hk 1]
    simp [buildLoop, h2, hmap]
  · rw [termOf_iff]
    refine ⟨⟨n.op, cs⟩, by simp, rfl, ?_⟩
    exact forall₂_comp (forall₂_flip hcs) hn (fun a c t _ _ _ h h' => (h4.term t c a h' h).append)
  · have hroot : Live (b.set ++ [(⟨n.op, cs⟩ : ENode Op)]) b.set.length := by
      have : b.set.length = (b.set ++ [(⟨n.op, cs⟩ : ENode Op)]).length - 1 := by simp
      rw [this]; exact .root
    have hreach : ∀ i, GReach g n i → ∃ q, b.ids.get? i = some q ∧ Live (b.set ++ [(⟨n.op, cs⟩ : ENode Op)]) q := by
      intro i hi
      induction hi with
      | @base c hc =>
        obtain ⟨d, hd, hdc⟩ := forall₂_mem_left hcs hc
        exact ⟨d, hdc, .child (n := ⟨n.op, cs⟩) hroot (by simp) hd⟩
      | @step i m c _ hm hc ih =>
        obtain ⟨q, hq, hl⟩ := ih
        obtain ⟨m', cs', g1, g2, g3⟩ := h4.node i q hq
        rw [hm] at g1; cases g1
        obtain ⟨d, hd, hdc⟩ := forall₂_mem_left g3 hc
        exact ⟨d, hdc, .child hl (getElem?_prefix g2) hd⟩
    intro j hj
    simp at hj
    by_cases hj' : j < b.set.length
    · obtain ⟨i, h1, h2⟩ := h4.onto j hj'
      obtain ⟨q, hq, hl⟩ := hreach i h2
      rw [h1] at hq; cases hq
      exact hl
    · have : j = b.set.length := by omega
      rw [this]; exact hroot
  · intro j m hm
    by_cases hj : j < b.set.length
    · rw [List.getElem?_append_left hj] at hm
      obtain ⟨i, h1, h2⟩ := h4.onto j hj
      obtain ⟨m', cs', g1, g2, g3⟩ := h4.node i j h1
      rw [hm] at g2; cases g2
      exact .inr ⟨i, m', h2, g1, rfl⟩
    · left
      have := getElem?_lt hm
      simp at this
      have : j = b.set.length := by omega
      subst this
      simp at hm
      subst hm
      rfl

/-- `extract` yields the sub-expression at the given node. -/
theorem extract_spec {e : List (ENode Op)} {i : Id} {t : Term Op} (ht : TermOf e i t) :
    ∃ f0 e', (∀ f, f0 ≤ f → extract f e i = .ok e') ∧ Dag e' ∧ ExprTerm e' t ∧ ∀ j, j < e'.length → Live e' j := by
  cases t with
  | node op ts =>
    rw [termOf_iff] at ht
    obtain ⟨n, h1, rfl, h3⟩ := ht
    obtain ⟨f0, e', q1, q2, q3, q4, _⟩ := build_spec (gn := getIdx e) (g := fun i => e[i]?) (n := n)
      (fun i m h => getIdx_eq_ok.2 h) (ts := ts) (forall₂_mono_mem h3 (fun c _ t _ h => (unfolds_table t).2 h))
    refine ⟨f0, e', fun f hf => ?_, q2, q3, q4⟩
    simp [extract, getIdx_eq_ok.2 h1, q1 f hf]

theorem extract_mono {f f' : Nat} {e e' : List (ENode Op)} {i : Id}
    (h : extract f e i = .ok e') (hle : f ≤ f') : extract f' e i = .ok e' := by
  unfold extract at h ⊢
  rw [bind_eq_ok] at h ⊢
  obtain ⟨n, h1, h2⟩ := h
  exact ⟨n, h1, build_mono h2 hle⟩

end RecExpr
end Egg
