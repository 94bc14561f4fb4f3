import Verif.Lemmas.ExplainTerm
import Mathlib.Data.Nat.Find
/-
Depths and distances in the proof forest.
-/
namespace Egg
variable {Op : Type} [DecidableEq Op]

namespace Explain
variable {x : Explain Op} {nodes : List (ENode Op)} {conn : Id → Id → Prop} {L : Log}

open Classical in
/-- Depth of `i` in its tree. -/
noncomputable def dep (x : Explain Op) (i : Id) : Nat :=
  if h : ∃ n, up x ((up x)^[n] i) = (up x)^[n] i then Nat.find h else 0

theorem exists_fix (hw : UF.WF (ptab x.find)) {i : Id} (hi : i < x.find.length) : ∃ n, up x ((up x)^[n] i) = (up x)^[n] i := by
  obtain ⟨n, hn⟩ := iter_root (UF.rootOf_root hw (i := i) (by simpa using hi))
  refine ⟨n, ?_⟩
  rw [← Function.iterate_succ_apply' (f := up x), hn n (le_refl _), hn (n + 1) (by omega)]

theorem dep_spec (hw : UF.WF (ptab x.find)) {i : Id} (hi : i < x.find.length) :
    up x ((up x)^[dep x i] i) = (up x)^[dep x i] i ∧ ∀ m, m < dep x i → up x ((up x)^[m] i) ≠ (up x)^[m] i := by
  classical
  have h := exists_fix hw hi
  have e : dep x i = Nat.find h := by rw [dep, dif_pos h]
  rw [e]
  exact ⟨Nat.find_spec h, fun m hm => Nat.find_min h hm⟩

theorem dep_eq (hw : UF.WF (ptab x.find)) {i : Id} (hi : i < x.find.length) {n : Nat} (h1 : up x ((up x)^[n] i) = (up x)^[n] i)
    (h2 : ∀ m, m < n → up x ((up x)^[m] i) ≠ (up x)^[m] i) : dep x i = n := by
  obtain ⟨g1, g2⟩ := dep_spec hw hi
  rcases Nat.lt_trichotomy (dep x i) n with h | h | h
  · exact absurd g1 (h2 _ h)
  · exact h
  · exact absurd h1 (g2 _ h)

theorem dep_zero (hw : UF.WF (ptab x.find)) {i : Id} (hi : i < x.find.length) : dep x i = 0 ↔ up x i = i := by
  constructor
  · intro h
    have := (dep_spec hw hi).1
    rw [h] at this
    exact this
  · intro h
    exact dep_eq hw hi (n := 0) h (by intro m hm; omega)

theorem dep_up (hw : UF.WF (ptab x.find)) {i : Id} (hi : i < x.find.length) (hne : up x i ≠ i) : dep x i = dep x (up x i) + 1 := by
  obtain ⟨g1, g2⟩ := dep_spec hw (up_lt hw hi)
  refine dep_eq hw hi ?_ ?_
  · rw [Function.iterate_succ_apply]; exact g1
  · intro m hm
    cases m with
    | zero => exact hne
    | succ m => rw [Function.iterate_succ_apply]; exact g2 m (by omega)

theorem dep_iter (hw : UF.WF (ptab x.find)) : ∀ (n : Nat) {i : Id}, i < x.find.length → n ≤ dep x i →
    dep x ((up x)^[n] i) = dep x i - n := by
  intro n
  induction n with
  | zero => intro i hi _; rfl
  | succ n ih =>
    intro i hi hn
    have hne : up x i ≠ i := by intro h; have := (dep_zero hw hi).2 h; omega
    have := dep_up hw hi hne
    rw [Function.iterate_succ_apply, ih (up_lt hw hi) (by omega)]
    omega

theorem iter_eq_inj (hw : UF.WF (ptab x.find)) {i : Id} (hi : i < x.find.length) {n m : Nat} (hn : n ≤ dep x i) (hm : m ≤ dep x i)
    (e : (up x)^[n] i = (up x)^[m] i) : n = m := by
  have h1 := dep_iter hw n hi hn
  have h2 := dep_iter hw m hi hm
  rw [e] at h1
  omega

theorem iter_root_iff (hw : UF.WF (ptab x.find)) {i : Id} (hi : i < x.find.length) {n : Nat} (hn : n ≤ dep x i) :
    up x ((up x)^[n] i) = (up x)^[n] i ↔ n = dep x i := by
  rw [← dep_zero hw (iter_lt hw hi n), dep_iter hw n hi hn]
  omega

theorem iter_min (hw : UF.WF (ptab x.find)) {i : Id} (hi : i < x.find.length) (n : Nat) :
    (up x)^[n] i = (up x)^[min n (dep x i)] i := by
  by_cases h : n ≤ dep x i
  · rw [Nat.min_eq_left h]
  · rw [Nat.min_eq_right (by omega)]
    obtain ⟨k, rfl⟩ : ∃ k, n = k + dep x i := ⟨n - dep x i, by omega⟩
    rw [Function.iterate_add_apply]
    exact Function.iterate_fixed (dep_spec hw hi).1 k

/-- Cost of the edge from `i` to its parent. -/
noncomputable def W (x : Explain Op) (nodes : List (ENode Op)) (L : Log) (i : Id) : Nat :=
  match x.find[i]? with
  | some e => if e.parent.next = i then 0 else cw nodes L e.parent
  | none => 0

/-- Cost of the first `n` edges on the way up. -/
noncomputable def S (x : Explain Op) (nodes : List (ENode Op)) (L : Log) : Id → Nat → Nat
  | _, 0 => 0
  | i, n + 1 => W x nodes L i + S x nodes L (up x i) n

theorem S_add (i : Id) (a b : Nat) : S x nodes L i (a + b) = S x nodes L i a + S x nodes L ((up x)^[a] i) b := by
  induction a generalizing i with
  | zero => simp [S]
  | succ a ih =>
    rw [Nat.add_right_comm, S, S, ih, Function.iterate_succ_apply]
    omega

theorem S_one (i : Id) : S x nodes L i 1 = W x nodes L i := by simp [S]

theorem idx_congr (hx : XInv nodes conn x L) {c : Connection} {k : Nat} (h : IdxOf L c k) (hj : c.justification = .congruence) :
    (∃ na nb, nodes[c.current]? = some na ∧ nodes[c.next]? = some nb ∧ na.op = nb.op ∧
      List.Forall₂ (Conn (L.take k)) na.children nb.children) ∧ cw nodes L c = wt nodes L k := by
  have hfr : Fresh L := hx.logFresh
  have hlc : LogCongr nodes L := hx.logCongr
  obtain ⟨⟨a, b, q, g1, g2⟩, a', b', g3⟩ := h
  rw [g1] at g3
  cases g3
  rw [hj] at g1
  obtain ⟨na, nb, e1, e2, e3, e4⟩ := hlc k a b g1
  have e4' : List.Forall₂ (Conn L) na.children nb.children := e4.imp (fun _ _ h => conn_of_take h)
  have hw := wt_congr hfr hlc g1 e1 e2
  rcases g2 with ⟨g2, g3⟩ | ⟨g2, g3⟩
  · refine ⟨⟨na, nb, by rw [g2]; exact e1, by rw [g3]; exact e2, e3, e4⟩, ?_⟩
    simp [cw, hj, g2, g3, e1, e2, hw]
  · refine ⟨⟨nb, na, by rw [g2]; exact e2, by rw [g3]; exact e1, e3.symm, (forall₂_flip e4).imp (fun _ _ h => Conn.symm h)⟩, ?_⟩
    simp [cw, hj, g2, g3, e1, e2, hw, childD_symm hfr e4']

theorem idx_cw (hx : XInv nodes conn x L) {c : Connection} {k : Nat} (h : IdxOf L c k) : cw nodes L c = wt nodes L k := by
  cases hj : c.justification with
  | congruence => exact (idx_congr hx h hj).2
  | rule s =>
    obtain ⟨_, a, b, g⟩ := h
    rw [hj] at g
    rw [wt_rule g]
    simp [cw, hj]

/-- The nodes on the way up, without the last one. -/
def ups (x : Explain Op) : Id → Nat → List Id
  | _, 0 => []
  | i, n + 1 => i :: ups x (up x i) n

theorem mem_ups {i j : Id} : ∀ {n : Nat}, j ∈ ups x i n ↔ ∃ m, m < n ∧ (up x)^[m] i = j := by
  intro n
  induction n generalizing i with
  | zero => simp [ups]
  | succ n ih =>
    rw [ups, List.mem_cons, ih]
    constructor
    · rintro (rfl | ⟨m, h1, h2⟩)
      · exact ⟨0, by omega, rfl⟩
      · exact ⟨m + 1, by omega, h2⟩
    · rintro ⟨m, h1, h2⟩
      cases m with
      | zero => exact .inl h2.symm
      | succ m => exact .inr ⟨m, by omega, h2⟩

theorem nodup_ups (hw : UF.WF (ptab x.find)) : ∀ {n : Nat} {i : Id}, i < x.find.length → n ≤ dep x i → (ups x i n).Nodup := by
  intro n
  induction n with
  | zero => intro i _ _; simp [ups]
  | succ n ih =>
    intro i hi hn
    have hne : up x i ≠ i := by intro h; have := (dep_zero hw hi).2 h; omega
    have := dep_up hw hi hne
    rw [ups]
    refine List.nodup_cons.2 ⟨?_, ih (up_lt hw hi) (by omega)⟩
    rw [mem_ups]
    rintro ⟨m, h1, h2⟩
    have := iter_eq_inj hw hi (n := m + 1) (m := 0) (by omega) (by omega) h2
    omega

/-- Edge `k` of the log is the parent edge of `i`. -/
def EdgeAt (x : Explain Op) (L : Log) (i : Id) (k : Nat) : Prop :=
  ∃ e : ExplainNode, x.find[i]? = some e ∧ e.parent.next ≠ i ∧ e.parent.current = i ∧ IdxOf L e.parent k

theorem EdgeAt.inj (hx : XInv nodes conn x L) {i j : Id} {k : Nat} (h : EdgeAt x L i k) (h' : EdgeAt x L j k) : i = j := by
  obtain ⟨e, z1, z2, z3, z4⟩ := h
  obtain ⟨e', y1, y2, y3, y4⟩ := h'
  exact parent_idx_inj hx z1 y1 z2 y2 z3 y3 z4 y4

theorem EdgeAt.W (hx : XInv nodes conn x L) {i : Id} {k : Nat} (h : EdgeAt x L i k) : W x nodes L i = wt nodes L k := by
  obtain ⟨e, z1, z2, z3, z4⟩ := h
  rw [Explain.W, z1]
  simp only [if_neg z2]
  exact idx_cw hx z4

theorem EdgeAt.joins {i : Id} {k : Nat} (h : EdgeAt x L i k) : Joins L k i (up x i) := by
  obtain ⟨e, z1, z2, z3, z4⟩ := h
  rw [up_of_get z1]
  have := z4.1
  rwa [z3] at this

theorem exists_edge (hx : XInv nodes conn x L) {i : Id} (hi : i < x.find.length) (hne : up x i ≠ i) : ∃ k, EdgeAt x L i k := by
  have he := List.getElem?_eq_getElem hi
  rw [up_of_get he] at hne
  obtain ⟨k, h1, h2⟩ := exists_idx hx he hne
  exact ⟨k, _, he, hne, h2, h1⟩

/-- The way up as a trail. -/
theorem ups_trail (hx : XInv nodes conn x L) : ∀ {n : Nat} {i : Id}, i < x.find.length → n ≤ dep x i →
    ∃ ks, Trail L i ks ((up x)^[n] i) ∧ List.Forall₂ (EdgeAt x L) (ups x i n) ks ∧ (ks.map (wt nodes L)).sum = S x nodes L i n := by
  intro n
  induction n with
  | zero => intro i _ _; exact ⟨[], .nil, .nil, rfl⟩
  | succ n ih =>
    intro i hi hn
    have hne : up x i ≠ i := by intro h; have := (dep_zero hx.wf hi).2 h; omega
    have := dep_up hx.wf hi hne
    obtain ⟨ks, h1, h2, h3⟩ := ih (up_lt hx.wf hi) (by omega)
    obtain ⟨k, hk⟩ := exists_edge hx hi hne
    refine ⟨k :: ks, .cons hk.joins h1, .cons hk h2, ?_⟩
    rw [List.map_cons, List.sum_cons, S, hk.W hx, h3]

/-- `anc` is the lowest common ancestor of `l` and `r`, `a` and `b` steps up. -/
def Lca (x : Explain Op) (l r anc : Id) (a b : Nat) : Prop := a ≤ dep x l ∧ b ≤ dep x r ∧ (up x)^[a] l = anc ∧ (up x)^[b] r = anc ∧
  ∀ a' b', a' < a → b' < b → (up x)^[a'] l ≠ (up x)^[b'] r

theorem lca_of (hw : UF.WF (ptab x.find)) {l r anc : Id} (hl : l < x.find.length) (hr : r < x.find.length) {a b : Nat}
    (h1 : (up x)^[a] l = anc) (h2 : (up x)^[b] r = anc) (h3 : ∀ a' b', a' < a → b' < b → (up x)^[a'] l ≠ (up x)^[b'] r) :
    ∃ a b, Lca x l r anc a b := by
  refine ⟨min a (dep x l), min b (dep x r), Nat.min_le_right _ _, Nat.min_le_right _ _, ?_, ?_, ?_⟩
  · rw [← iter_min hw hl]; exact h1
  · rw [← iter_min hw hr]; exact h2
  · intro a' b' ha hb
    exact h3 a' b' (by omega) (by omega)

theorem Lca.symm {l r anc : Id} {a b : Nat} (h : Lca x l r anc a b) : Lca x r l anc b a :=
  ⟨h.2.1, h.1, h.2.2.2.1, h.2.2.1, fun a' b' ha hb e => h.2.2.2.2 b' a' hb ha e.symm⟩

/-- The path over the lowest common ancestor is the trail of the log. -/
theorem Lca.trail (hx : XInv nodes conn x L) {l r anc : Id} (hl : l < x.find.length) (hr : r < x.find.length) {a b : Nat}
    (h : Lca x l r anc a b) : D nodes L l r = S x nodes L l a + S x nodes L r b ∧
      ∀ m, Conn (L.take m) l r → (∀ i ∈ ups x l a, ∃ k, k < m ∧ EdgeAt x L i k) ∧ ∀ i ∈ ups x r b, ∃ k, k < m ∧ EdgeAt x L i k := by
  obtain ⟨ha, hb, h1, h2, h3⟩ := h
  obtain ⟨ks, k1, k2, k3⟩ := ups_trail hx hl ha
  obtain ⟨ms, m1, m2, m3⟩ := ups_trail hx hr hb
  rw [h1] at k1
  rw [h2] at m1
  have ht := k1.append m1.reverse
  have hn : (ups x l a ++ ups x r b).Nodup := by
    refine List.nodup_append.2 ⟨nodup_ups hx.wf hl ha, nodup_ups hx.wf hr hb, ?_⟩
    intro i hi j hj e
    subst e
    obtain ⟨a', g1, g2⟩ := mem_ups.1 hi
    obtain ⟨b', g3, g4⟩ := mem_ups.1 hj
    exact h3 a' b' g1 g3 (by rw [g2, g4])
  have hnd : (ks ++ ms.reverse).Nodup := by
    have := nodup_of_inj (List.rel_append k2 m2) (fun i j k h h' => EdgeAt.inj hx h h') hn
    rw [List.nodup_append] at this ⊢
    exact ⟨this.1, List.nodup_reverse.2 this.2.1, fun k hk m hm => this.2.2 k hk m (List.mem_reverse.1 hm)⟩
  refine ⟨?_, fun m hm => ?_⟩
  · rw [D_trail hx.logFresh ht hnd, ← k3, ← m3]
    simp
  · have hlt := ht.lt hx.logFresh hnd hm
    constructor
    · intro i hi
      obtain ⟨k, hk, he⟩ := forall₂_mem_left k2 hi
      exact ⟨k, hlt k (by simp [hk]), he⟩
    · intro i hi
      obtain ⟨k, hk, he⟩ := forall₂_mem_left m2 hi
      exact ⟨k, hlt k (by simp [hk]), he⟩

end Explain
end Egg
