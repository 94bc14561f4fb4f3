import Verif.Lemmas.Struct
import Verif.Lemmas.RecExpr
import Verif.Spec.Match
import Mathlib.Data.List.TakeWhile
/-
Lemmas about the matching relation.
-/
namespace Egg
variable {Op D : Type} [DecidableEq Op] [Lang Op]

theorem pmatch_node_iff {eg : EGraph Op D} {σ : Var → Option Id} {c : Id} {o : Op} {ps : List (Term (PatOp Op))} :
    PMatch eg σ c (.node (.op o) ps) ↔ ∃ k n, eg.index c = .ok k ∧ n ∈ k.nodes ∧ n.op = o ∧
      List.Forall₂ (PMatch eg σ) n.children ps := by
  constructor
  · intro h
    cases h with
    | node h1 h2 h3 h4 => exact ⟨_, _, h1, h2, rfl, forall₂_iff_get?.2 ⟨h3, h4⟩⟩
  · rintro ⟨k, n, h1, h2, rfl, h4⟩
    rw [forall₂_iff_get?] at h4
    exact .node h1 h2 h4.1 h4.2

theorem pmatch_var_iff {eg : EGraph Op D} {σ : Var → Option Id} {c : Id} {v : Var} {ps : List (Term (PatOp Op))} :
    PMatch eg σ c (.node (.var v) ps) ↔ ps = [] ∧ ∃ x, σ v = some x ∧ SameClass eg x c := by
  constructor
  · intro h
    cases h with
    | var h1 h2 => exact ⟨rfl, _, h1, h2⟩
  · rintro ⟨rfl, x, h1, h2⟩
    exact .var h1 h2

theorem inst_node_iff {τ : Var → Term Op} {o : Op} {ps : List (Term (PatOp Op))} {t : Term Op} :
    Inst τ (.node (.op o) ps) t ↔ ∃ ts, t = .node o ts ∧ List.Forall₂ (Inst τ) ps ts := by
  constructor
  · intro h
    cases h with
    | node h1 h2 => exact ⟨_, rfl, forall₂_iff_get?.2 ⟨h1, h2⟩⟩
  · rintro ⟨ts, rfl, h⟩
    rw [forall₂_iff_get?] at h
    exact .node h.1 h.2

theorem inst_var_iff {τ : Var → Term Op} {v : Var} {ps : List (Term (PatOp Op))} {t : Term Op} :
    Inst τ (.node (.var v) ps) t ↔ ps = [] ∧ t = τ v := by
  constructor
  · intro h
    cases h with
    | var => exact ⟨rfl, rfl⟩
  · rintro ⟨rfl, rfl⟩
    exact .var

theorem Inst.unique {τ : Var → Term Op} : ∀ {p : Term (PatOp Op)} {s t : Term Op}, Inst τ p s → Inst τ p t → s = t := by
  intro p
  induction p using Term.ind with
  | h op ps ih =>
    intro s t hs ht
    cases op with
    | var v => rw [inst_var_iff] at hs ht; rw [hs.2, ht.2]
    | op o =>
      rw [inst_node_iff] at hs ht
      obtain ⟨ss, rfl, h1⟩ := hs
      obtain ⟨ts, rfl, h2⟩ := ht
      congr 1
      have := forall₂_comp (T := fun a b => a = b) (forall₂_flip h1) h2
        (fun a b c _ hb _ h1 h2 => ih b hb h1 h2)
      simpa using (forall₂_map_eq (f := id) (g := id)).1 this

/-- Two assignments that agree on the variables of the pattern. -/
theorem PMatch.mono {eg : EGraph Op D} {σ σ' : Var → Option Id} : ∀ {p : Term (PatOp Op)} {c : Id},
    (∀ v x, Occurs v p → σ v = some x → ∃ y, σ' v = some y ∧ ∀ z, SameClass eg x z → SameClass eg y z) →
    PMatch eg σ c p → PMatch eg σ' c p := by
  intro p
  induction p using Term.ind with
  | h op ps ih =>
    intro c hσ h
    cases op with
    | var v =>
      rw [pmatch_var_iff] at h ⊢
      obtain ⟨rfl, x, h1, h2⟩ := h
      obtain ⟨y, h3, h4⟩ := hσ v x .refl h1
      exact ⟨rfl, y, h3, h4 _ h2⟩
    | op o =>
      rw [pmatch_node_iff] at h ⊢
      obtain ⟨k, n, h1, h2, h3, h4⟩ := h
      refine ⟨k, n, h1, h2, h3, forall₂_mono_mem h4 (fun d _ q hq hd => ih q hq ?_ hd)⟩
      intro v x hv hx
      exact hσ v x (.arg hq hv) hx

namespace EGraph
variable {W : Id → Id → Prop} {C : Cfg Op D} {eg : EGraph Op D} {σ : Var → Option Id}

theorem InvW.index_congr (h : InvW W C eg) {c d : Id} (hc : SameClass eg c d) {k : EClass Op D} :
    eg.index c = .ok k → eg.index d = .ok k := by
  rw [h.sameClass_iff] at hc
  rw [h.index_iff, h.index_iff, hc.2.2]
  exact fun h => ⟨hc.2.1, h.2⟩

theorem InvW.sameClass_symm (h : InvW W C eg) {a b : Id} (hab : SameClass eg a b) : SameClass eg b a := by
  obtain ⟨r, h1, h2⟩ := hab
  exact ⟨r, h2, h1⟩

theorem InvW.sameClass_trans (_h : InvW W C eg) {a b c : Id} (hab : SameClass eg a b) (hbc : SameClass eg b c) :
    SameClass eg a c := by
  obtain ⟨r, h1, h2⟩ := hab
  obtain ⟨r', h3, h4⟩ := hbc
  rw [h2] at h3
  cases h3
  exact ⟨r, h1, h4⟩

theorem InvW.pmatch_congr (h : InvW W C eg) {c d : Id} {p : Term (PatOp Op)} (hc : SameClass eg c d)
    (hp : PMatch eg σ c p) : PMatch eg σ d p := by
  cases hp with
  | var h1 h2 => exact .var h1 (h.sameClass_trans h2 hc)
  | node h1 h2 h3 h4 => exact .node (h.index_congr hc h1) h2 h3 h4

theorem InvW.pmatch_lt (h : InvW W C eg) {c : Id} {p : Term (PatOp Op)}
    (hp : PMatch eg σ c p) : c < eg.nodes.length := by
  cases hp with
  | var h1 h2 => exact (h.sameClass_iff.1 h2).2.1
  | node h1 h2 h3 h4 => exact (h.index_iff.1 h1).1

theorem InvW.index_node_lt (h : InvW W C eg) {c : Id} {k : EClass Op D} (hk : eg.index c = .ok k) {n : ENode Op}
    (hn : n ∈ k.nodes) : ∀ d ∈ n.children, d < eg.nodes.length := by
  rw [h.index_iff] at hk
  exact h.core.clsNodeLt (sk_eq hk.2) hn

/-- Congruent e-nodes of an e-graph without pending work are in one class. -/
theorem InvW.holds_unique (h : Inv C eg) (hp : eg.pending = []) {c d : Id} {k l : EClass Op D} {n m : ENode Op}
    (hk : eg.index c = .ok k) (hl : eg.index d = .ok l) (hn : n ∈ k.nodes) (hm : m ∈ l.nodes)
    (hop : n.op = m.op) (hch : List.Forall₂ (SameClass eg) n.children m.children) : SameClass eg c d := by
  rw [h.index_iff] at hk hl
  obtain ⟨i, n', h1, h2, h3⟩ := h.core.clsNodes _ _ (sk_eq hk.2) n hn
  obtain ⟨j, m', g1, g2, g3⟩ := h.core.clsNodes _ _ (sk_eq hl.2) m hm
  have hc : Cong eg.rt n m := (h.sameNode_iff.1 ⟨hop, hch⟩).1
  have := h.congruent_eq hp h1 g1 (h3.symm.trans (hc.trans g3))
  rw [h.sameClass_iff]
  exact ⟨hk.1, hl.1, by rw [← h2, ← g2, this]⟩

/-- Under a fixed assignment a pattern matches one class at most. -/
theorem InvW.pmatch_det (h : Inv C eg) (hp : eg.pending = []) : ∀ (p : Term (PatOp Op)) {c d : Id},
    PMatch eg σ c p → PMatch eg σ d p → SameClass eg c d := by
  intro p
  induction p using Term.ind with
  | h op ps ih =>
    intro c d hc hd
    cases op with
    | var v =>
      rw [pmatch_var_iff] at hc hd
      obtain ⟨_, x, h1, h2⟩ := hc
      obtain ⟨_, y, h3, h4⟩ := hd
      rw [h1] at h3; cases h3
      exact h.sameClass_trans (h.sameClass_symm h2) h4
    | op o =>
      rw [pmatch_node_iff] at hc hd
      obtain ⟨k, n, h1, h2, h3, h4⟩ := hc
      obtain ⟨l, m, g1, g2, g3, g4⟩ := hd
      refine InvW.holds_unique h hp h1 g1 h2 g2 (h3.trans g3.symm) ?_
      exact forall₂_comp h4 (forall₂_flip g4) (fun a q b _ hq _ ha hb => ih q hq ha hb)

/-- A match of a pattern contains the corresponding instance of the pattern. -/
theorem InvW.pmatch_rep (h : InvW W C eg) {τ : Var → Term Op} : ∀ (p : Term (PatOp Op)) {c : Id} {t : Term Op},
    PMatch eg σ c p → (∀ v x, Occurs v p → σ v = some x → Rep eg x (τ v)) → Inst τ p t → Rep eg c t := by
  intro p
  induction p using Term.ind with
  | h op ps ih =>
    intro c t hp hτ hi
    cases op with
    | var v =>
      rw [pmatch_var_iff] at hp
      obtain ⟨rfl, x, h1, h2⟩ := hp
      rw [inst_var_iff] at hi
      rw [hi.2]
      have h2 := h.sameClass_iff.1 h2
      exact h.rep_congr h2.2.1 h2.2.2 (hτ v x .refl h1)
    | op o =>
      rw [pmatch_node_iff] at hp
      obtain ⟨k, n, h1, h2, rfl, h4⟩ := hp
      rw [inst_node_iff] at hi
      obtain ⟨ts, rfl, h5⟩ := hi
      rw [h.index_iff] at h1
      rw [h.rep_iff]
      refine ⟨h1.1, k, n, h1.2, h2, rfl, ?_⟩
      exact forall₂_comp h4 h5 (fun a q t _ hq _ ha ht =>
        ih q hq ha (fun v x hv => hτ v x (.arg hq hv)) ht)

/-- Conversely every instance of a pattern in a class is a match. -/
theorem InvW.rep_pmatch (h : Inv C eg) (hp : eg.pending = []) {τ : Var → Term Op}
    (hσ : ∀ v x, σ v = some x → Rep eg x (τ v)) : ∀ (p : Term (PatOp Op)) {c : Id} {t : Term Op},
    Rep eg c t → Inst τ p t → (∀ v, Occurs v p → (σ v).isSome) → PMatch eg σ c p := by
  intro p
  induction p using Term.ind with
  | h op ps ih =>
    intro c t hr hi hv
    cases op with
    | var v =>
      rw [inst_var_iff] at hi
      obtain ⟨rfl, rfl⟩ := hi
      obtain ⟨x, hx⟩ := Option.isSome_iff_exists.1 (hv v .refl)
      have := InvW.rep_unique h hp _ (hσ v x hx) hr
      exact .var hx (h.sameClass_iff.2 ⟨h.rep_lt (hσ v x hx), h.rep_lt hr, this⟩)
    | op o =>
      rw [inst_node_iff] at hi
      obtain ⟨ts, rfl, h5⟩ := hi
      rw [h.rep_iff] at hr
      obtain ⟨h1, k, n, h2, h3, h4, h6⟩ := hr
      rw [pmatch_node_iff]
      refine ⟨k, n, h.index_iff.2 ⟨h1, h2⟩, h3, h4, ?_⟩
      exact forall₂_comp h6 (forall₂_flip h5) (fun a t q _ _ hq ha ht =>
        ih q hq ha ht (fun v hv' => hv v (.arg hq hv')))

/-- Every variable of a matched pattern is assigned a valid id. -/
theorem InvW.pmatch_bound (h : InvW W C eg) : ∀ (p : Term (PatOp Op)) {c : Id}, PMatch eg σ c p →
    ∀ v, Occurs v p → ∃ x, σ v = some x ∧ x < eg.nodes.length := by
  intro p
  induction p using Term.ind with
  | h op ps ih =>
    intro c hp v hv
    cases op with
    | var w =>
      rw [pmatch_var_iff] at hp
      obtain ⟨rfl, x, h1, h2⟩ := hp
      cases hv with
      | refl => exact ⟨x, h1, (h.sameClass_iff.1 h2).1⟩
      | arg hm _ => simp at hm
    | op o =>
      rw [pmatch_node_iff] at hp
      obtain ⟨k, n, h1, h2, rfl, h4⟩ := hp
      cases hv with
      | arg hm hv' =>
        obtain ⟨d, _, hd⟩ := forall₂_mem_left (forall₂_flip h4) hm
        exact ih _ hm hd v hv'

end EGraph

/-! ### `for_each_matching_node` -/

section
variable {nodes : List (ENode Op)}

theorem walkBack_le (d : Lang.Disc Op) : ∀ s, walkBack nodes d s ≤ s
  | 0 => Nat.le_refl 0
  | s + 1 => by
    unfold walkBack
    split
    · split
      · exact Nat.le_succ_of_le (walkBack_le d s)
      · exact Nat.le_refl _
    · exact Nat.le_refl _

/-- Between the end and the start of the walk all e-nodes have the discriminant. -/
theorem walkBack_disc (d : Lang.Disc Op) : ∀ s (j : Nat) (n : ENode Op), walkBack nodes d s ≤ j → j < s →
    nodes[j]? = some n → Lang.disc n.op = d
  | 0, j, n, _, hj, _ => by omega
  | s + 1, j, n, h1, h2, h3 => by
    unfold walkBack at h1
    split at h1
    · next m hm =>
      split at h1
      · next hd =>
        by_cases hj : j = s
        · subst hj; rw [h3] at hm; cases hm; exact hd
        · exact walkBack_disc d s j n h1 (by omega) h3
      · omega
    · omega

/-- The walk stops at the beginning or after an e-node with another discriminant. -/
theorem walkBack_stop (d : Lang.Disc Op) : ∀ s, s ≤ nodes.length → walkBack nodes d s = 0 ∨
    ∃ n, nodes[walkBack nodes d s - 1]? = some n ∧ Lang.disc n.op ≠ d
  | 0, _ => .inl rfl
  | s + 1, hs => by
    have hn : nodes[s]? = some nodes[s] := List.getElem?_eq_getElem (by omega)
    unfold walkBack
    rw [hn]
    simp only
    split
    · exact walkBack_stop d s (by omega)
    · next hd => right; exact ⟨nodes[s], by simpa using hn, hd⟩

theorem takeWhile_all {α : Type} {p : α → Bool} : ∀ {l : List α}, (∀ x ∈ l, p x = true) → l.takeWhile p = l
  | [], _ => rfl
  | a :: l, h => by
    simp only [List.takeWhile]
    rw [h a (by simp)]
    simp only
    rw [takeWhile_all (fun x hx => h x (by simp [hx]))]

/-- **Fast path = slow path**: on a strictly sorted class the bisection visits
exactly the e-nodes found by the linear scan, in the same order. -/
theorem matchingNodes_eq (hc : DiscContiguous Op)
    (hs : nodes.Pairwise (fun x y => Lang.le x y = true ∧ x ≠ y)) (node : ENode Op) :
    matchingNodes nodes node = nodes.filter (fun n => node.matches n) := by
  unfold matchingNodes
  split
  · rfl
  · simp only
    set d := Lang.disc node.op with hd
    set s0 := searchStart nodes node with hs0
    set s := walkBack nodes d s0 with hsd
    have hget : ∀ {i j : Nat} {x y : ENode Op}, i < j → nodes[i]? = some x → nodes[j]? = some y →
        Lang.le x y = true := by
      intro i j x y hij hx hy
      have h1 := getElem?_lt hx
      have h2 := getElem?_lt hy
      rw [List.getElem?_eq_getElem h1] at hx
      rw [List.getElem?_eq_getElem h2] at hy
      cases hx; cases hy
      exact (List.pairwise_iff_getElem.1 hs i j h1 h2 hij).1
    have hs0len : s0 ≤ nodes.length := by
      rw [hs0]; unfold searchStart
      exact (List.takeWhile_sublist _).length_le
    -- elements before `s0` are smaller than `node`
    have hbefore : ∀ (j : Nat) (x : ENode Op), j < s0 → nodes[j]? = some x → Lang.le x node = true := by
      intro j x hj hx
      have hpre := List.takeWhile_prefix (l := nodes) (fun n => Lang.le n node && decide (n ≠ node))
      obtain ⟨t, ht⟩ := hpre
      have hx' : (nodes.takeWhile (fun n => Lang.le n node && decide (n ≠ node)))[j]? = some x := by
        rw [← ht] at hx
        rw [List.getElem?_append_left hj] at hx
        exact hx
      have := List.mem_takeWhile_imp (List.mem_of_getElem? hx')
      simp at this
      exact this.1
    -- the element at `s0` is not smaller
    have hat : ∀ x, nodes[s0]? = some x → Lang.le node x = true := by
      intro x hx
      have hlt := getElem?_lt hx
      have := List.dropWhile_get_zero_not (fun n => Lang.le n node && decide (n ≠ node)) nodes (by
        have := congrArg List.length (List.takeWhile_append_dropWhile (p := fun n => Lang.le n node && decide (n ≠ node)) (l := nodes))
        simp only [List.length_append] at this
        rw [hs0] at hlt
        unfold searchStart at hlt
        omega)
      have hx' : (nodes.dropWhile (fun n => Lang.le n node && decide (n ≠ node)))[0]? = some x := by
        rw [← List.takeWhile_append_dropWhile (p := fun n => Lang.le n node && decide (n ≠ node)) (l := nodes)] at hx
        rw [List.getElem?_append_right (by rw [hs0]; exact Nat.le_refl _)] at hx
        simpa [hs0, searchStart] using hx
      have hx'' := (List.getElem?_eq_some_iff.1 hx').2
      rw [List.get_eq_getElem] at this
      simp only at this
      rw [hx''] at this
      rcases Lang.le_total node x with h | h
      · exact h
      · simp [h] at this
        rw [this]
        rcases Lang.le_total node node with h | h <;> exact h
    have hafter : ∀ (j : Nat) (x : ENode Op), s0 ≤ j → nodes[j]? = some x → Lang.le node x = true := by
      intro j x hj hx
      have hl := getElem?_lt hx
      have h0 : nodes[s0]? = some nodes[s0] := List.getElem?_eq_getElem (by omega)
      rcases Nat.lt_or_eq_of_le hj with h | h
      · exact Lang.le_trans _ _ _ (hat _ h0) (hget h h0 hx)
      · subst h; exact hat x hx
    -- nodes with the discriminant form the block that is visited
    have hblock1 : ∀ (j : Nat) (x : ENode Op), j < s → nodes[j]? = some x → Lang.disc x.op ≠ d := by
      intro j x hj hx hxd
      rcases walkBack_stop (nodes := nodes) d s0 hs0len with h0 | ⟨y, hy, hyd⟩
      · omega
      · have hsl : s ≤ s0 := walkBack_le d s0
        have hle1 : Lang.le x y = true := by
          rcases Nat.lt_or_eq_of_le (show j ≤ s - 1 by omega) with h | h
          · exact hget h hx hy
          · subst h; rw [hx] at hy; cases hy; exact absurd hxd hyd
        have hle2 : Lang.le y node = true := hbefore _ y (show s - 1 < s0 by omega) hy
        exact hyd (by rw [hc x y node hle1 hle2 (by rw [hxd]), hxd])
    have hblock2 : ∀ (i j : Nat) (x y : ENode Op), s ≤ i → i < j → nodes[i]? = some x → nodes[j]? = some y →
        Lang.disc y.op = d → Lang.disc x.op = d := by
      intro i j x y hi hij hx hy hyd
      by_cases his : i < s0
      · exact walkBack_disc d s0 i x hi his hx
      · have h1 := hafter i x (by omega) hx
        have h2 := hget hij hx hy
        exact hc node x y h1 h2 (by rw [hyd])
    have hfil : ∀ {n : ENode Op}, node.matches n = true → Lang.disc n.op = d := by
      intro n hn
      unfold ENode.matches at hn
      simp at hn
      rw [hd, hn.1]
    have hsplit : nodes = nodes.take s ++ nodes.drop s := (List.take_append_drop s nodes).symm
    have e1 : (nodes.take s).filter (fun n => node.matches n) = [] := by
      rw [List.filter_eq_nil_iff]
      intro n hn hm
      obtain ⟨j, hj⟩ := List.mem_iff_getElem?.1 hn
      have hjs : j < s := by have := getElem?_lt hj; simp at this; omega
      rw [List.getElem?_take_of_lt hjs] at hj
      exact hblock1 j n hjs hj (hfil hm)
    have hdw : ((nodes.drop s).dropWhile (fun n => decide (Lang.disc n.op = d))).filter (fun n => node.matches n) = [] := by
      rw [List.filter_eq_nil_iff]
      intro n hn hm
      have hdd := List.takeWhile_append_dropWhile (p := fun n : ENode Op => decide (Lang.disc n.op = d)) (l := nodes.drop s)
      set tw := (nodes.drop s).takeWhile (fun n => decide (Lang.disc n.op = d)) with htw
      set dw := (nodes.drop s).dropWhile (fun n => decide (Lang.disc n.op = d)) with hdwd
      obtain ⟨j, hj⟩ := List.mem_iff_getElem?.1 hn
      have hlen : 0 < dw.length := by have := getElem?_lt hj; omega
      have h0 := List.dropWhile_get_zero_not (fun n : ENode Op => decide (Lang.disc n.op = d)) (nodes.drop s) hlen
      have g0 : dw[0]? = some dw[0] := List.getElem?_eq_getElem hlen
      have up : ∀ (i : Nat) (x : ENode Op), dw[i]? = some x → nodes[s + (tw.length + i)]? = some x := by
        intro i x hx
        have : (nodes.drop s)[tw.length + i]? = some x := by
          rw [← hdd, List.getElem?_append_right (by omega)]
          simpa using hx
        rwa [List.getElem?_drop] at this
      have hne : Lang.disc dw[0].op ≠ d := by
        simpa [List.get_eq_getElem] using h0
      rcases Nat.eq_zero_or_pos j with hj0 | hj0
      · subst hj0
        rw [g0] at hj; cases hj
        exact hne (hfil hm)
      · exact hne (hblock2 _ _ _ _ (by omega) (by omega) (up 0 _ g0) (up j n hj) (hfil hm))
    have e2 : (nodes.drop s).filter (fun n => node.matches n) =
        ((nodes.drop s).takeWhile (fun n => decide (Lang.disc n.op = d))).filter (fun n => node.matches n) := by
      conv_lhs => rw [← List.takeWhile_append_dropWhile (p := fun n : ENode Op => decide (Lang.disc n.op = d)) (l := nodes.drop s)]
      rw [List.filter_append, hdw, List.append_nil]
    conv_rhs => rw [hsplit]
    rw [List.filter_append, e1, List.nil_append, e2]

theorem mem_matchingNodes (hc : DiscContiguous Op)
    (hs : nodes.Pairwise (fun x y => Lang.le x y = true ∧ x ≠ y)) {node n : ENode Op} :
    n ∈ matchingNodes nodes node ↔ n ∈ nodes ∧ n.op = node.op ∧ n.children.length = node.children.length := by
  rw [matchingNodes_eq hc hs, List.mem_filter]
  unfold ENode.matches
  simp only [Bool.and_eq_true, decide_eq_true_eq, beq_iff_eq]
  constructor
  · rintro ⟨h1, h2, h3⟩; exact ⟨h1, h2.symm, h3.symm⟩
  · rintro ⟨h1, h2, h3⟩; exact ⟨h1, h2.symm, h3.symm⟩

theorem matchingNodes_nodup (hc : DiscContiguous Op)
    (hs : nodes.Pairwise (fun x y => Lang.le x y = true ∧ x ≠ y)) (node : ENode Op) :
    (matchingNodes nodes node).Nodup := by
  rw [matchingNodes_eq hc hs]
  exact List.Nodup.filter _ (hs.imp (fun h => h.2))

end
end Egg
