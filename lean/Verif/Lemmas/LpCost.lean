import Verif.Lemmas.LpSolution
/-
The objective of the linear program and the cost of a selection.
-/
namespace Egg
namespace Lp
variable {Op D : Type} [DecidableEq Op] [Lang Op]

theorem sum_filter {α : Type} (P : α → Bool) (w : α → ℚ) : ∀ l : List α, (l.map (fun a => w a * if P a then 1 else 0)).sum = ((l.filter P).map w).sum
  | [] => rfl
  | a :: l => by
    rw [List.map_cons, List.sum_cons, sum_filter P w l, List.filter_cons]
    cases P a <;> simp

theorem sum_perm {l l' : List ℚ} (h : l.Perm l') : l.sum = l'.sum := by
  induction h with
  | nil => rfl
  | cons a _ ih => rw [List.sum_cons, List.sum_cons, ih]
  | swap a b l => simp only [List.sum_cons]; ring
  | trans _ _ h1 h2 => exact h1.trans h2

theorem zip_of_mem {α β : Type} {R : α → β → Prop} {as : List α} {bs : List β} (h : List.Forall₂ R as bs) {a : α} (ha : a ∈ as) :
    ∃ b, (a, b) ∈ as.zip bs ∧ R a b := by
  induction h with
  | nil => cases ha
  | cons h1 _ ih =>
    rcases List.mem_cons.1 ha with rfl | ha
    · exact ⟨_, by simp, h1⟩
    · obtain ⟨b, h2, h3⟩ := ih ha
      exact ⟨b, by simp [h2], h3⟩

theorem zip_rel {α β : Type} {R : α → β → Prop} {as : List α} {bs : List β} (h : List.Forall₂ R as bs) {a : α} {b : β}
    (hm : (a, b) ∈ as.zip bs) : R a b := by
  induction h with
  | nil => cases hm
  | cons h1 _ ih =>
    rw [List.zip_cons_cons] at hm
    rcases List.mem_cons.1 hm with he | hm
    · cases he; exact h1
    · exact ih hm

theorem sum_le {α : Type} {f g : α → ℚ} : ∀ {l : List α}, (∀ a ∈ l, f a ≤ g a) → (l.map f).sum ≤ (l.map g).sum
  | [], _ => le_refl _
  | a :: l, h => by
    rw [List.map_cons, List.sum_cons, List.map_cons, List.sum_cons]
    have := sum_le (l := l) (fun a ha => h a (by simp [ha]))
    have := h a (by simp)
    linarith

theorem mem_objective {eg : EGraph Op D} {ks : List (EClass Op D)} (hk : Listed eg ks) {cost : Id → ENode Op → ℚ} {w : ℚ} {v : Var} :
    (w, v) ∈ objective ks cost ↔ ∃ c i n, NodeAt eg c i n ∧ v = .node c i ∧ w = cost c n := by
  unfold objective
  simp only [List.mem_flatMap, List.mem_map, Prod.mk.injEq, Prod.exists, List.mem_zipIdx_iff_getElem?]
  constructor
  · rintro ⟨k, h1, n, i, h2, rfl, rfl⟩
    exact ⟨k.id, i, n, ⟨k, (hk.mem _ _).2 ⟨h1, rfl⟩, h2⟩, rfl, rfl⟩
  · rintro ⟨c, i, n, ⟨k, h1, h2⟩, rfl, rfl⟩
    obtain ⟨h3, rfl⟩ := (hk.mem _ _).1 h1
    exact ⟨k, h3, n, i, h2, rfl, rfl⟩

theorem nodup_objective (cost : Id → ENode Op → ℚ) : ∀ {ks : List (EClass Op D)}, (ks.map EClass.id).Nodup → ((objective ks cost).map Prod.snd).Nodup
  | [], _ => .nil
  | k :: ks, h => by
    rw [List.map_cons, List.nodup_cons] at h
    have ih := nodup_objective cost h.2
    unfold objective at ih ⊢
    rw [List.flatMap_cons, List.map_append, List.nodup_append]
    refine ⟨?_, ih, ?_⟩
    · rw [List.map_map]
      have : (Prod.snd ∘ fun p : ENode Op × Nat => (cost k.id p.1, Var.node k.id p.2)) = (Var.node k.id) ∘ Prod.snd := rfl
      rw [this, ← List.map_map, List.zipIdx_map_snd]
      exact List.Nodup.map (fun a b h => by cases h; rfl) (List.nodup_range')
    · intro a ha b hb he
      subst he
      simp only [List.mem_map, List.mem_flatMap, Prod.exists] at ha hb
      obtain ⟨w, v, ⟨n, i, _, h2⟩, rfl⟩ := ha
      obtain ⟨w', v', ⟨k', h3, n', i', _, h4⟩, h5⟩ := hb
      injection h2 with _ h2
      injection h4 with _ h4
      rw [← h2, ← h4] at h5
      injection h5 with h5 _
      exact h.1 (List.mem_map.2 ⟨k', h3, h5⟩)

/-- The part of the objective on the variables of a selection is the cost of the selection. -/
theorem objective_sel {eg : EGraph Op D} {ks : List (EClass Op D)} (hk : Listed eg ks) {cost : Id → ENode Op → ℚ} {sel : List (Id × Nat)}
    (hn : (sel.map Prod.fst).Nodup) {total : ℚ} (ht : Total eg cost sel total) :
    ((objective ks cost).map (fun t => t.1 * if decide (∃ p ∈ sel, t.2 = Var.node p.1 p.2) then 1 else 0)).sum = total := by
  obtain ⟨ns, h1, rfl⟩ := ht
  rw [sum_filter (fun t : ℚ × Var => decide (∃ p ∈ sel, t.2 = Var.node p.1 p.2)) Prod.fst]
  have hno := nodup_objective cost hk.nodup
  have hperm : ((objective ks cost).filter (fun t => decide (∃ p ∈ sel, t.2 = Var.node p.1 p.2))).Perm
      ((sel.zip ns).map (fun q => (cost q.1.1 q.2, Var.node q.1.1 q.1.2))) := by
    rw [List.perm_ext_iff_of_nodup]
    · rintro ⟨w, v⟩
      rw [List.mem_filter, mem_objective hk]
      simp only [decide_eq_true_eq, List.mem_map, Prod.exists, Prod.mk.injEq]
      constructor
      · rintro ⟨⟨c, i, n, h2, rfl, rfl⟩, c', i', h3, h4⟩
        cases h4
        obtain ⟨n', h5, h6⟩ := zip_of_mem h1 h3
        obtain ⟨cl, a, b⟩ := h2
        obtain ⟨cl', a', b'⟩ := h6
        rw [a] at a'; cases a'
        rw [b] at b'; cases b'
        exact ⟨c, i, n, h5, rfl, rfl⟩
      · rintro ⟨c, i, n, h2, rfl, rfl⟩
        have h3 := List.of_mem_zip h2
        have h4 : NodeAt eg c i n := zip_rel h1 h2
        exact ⟨⟨c, i, n, h4, rfl, rfl⟩, c, i, h3.1, rfl⟩
    · exact (List.Nodup.of_map _ hno).filter _
    · refine List.Nodup.of_map Prod.snd ?_
      rw [List.map_map]
      have hlen := List.Forall₂.length_eq h1
      have : (Prod.snd ∘ fun q : (Id × Nat) × ENode Op => (cost q.1.1 q.2, Var.node q.1.1 q.1.2)) = (fun p : Id × Nat => Var.node p.1 p.2) ∘ Prod.fst := rfl
      rw [this, ← List.map_map, List.map_fst_zip (by omega)]
      refine List.Nodup.map (fun a b h => ?_) (List.Nodup.of_map _ hn)
      injection h with h1 h2
      exact Prod.ext h1 h2
  rw [sum_perm (hperm.map Prod.fst), List.map_map]
  rfl

/-- The assignment that belongs to a selection. -/
def selSol (sel : List (Id × Nat)) : Var → ℚ
  | .active c => if c ∈ sel.map Prod.fst then 1 else 0
  | .node c i => if (c, i) ∈ sel then 1 else 0

theorem sum_one {c : Id} {i : Nat} {sel : List (Id × Nat)} (hn : (sel.map Prod.fst).Nodup) (hi : (c, i) ∈ sel) : ∀ {l : List Nat}, l.Nodup →
    i ∈ l → (l.map (fun j => selSol sel (.node c j))).sum = 1 := by
  have huniq : ∀ j, (c, j) ∈ sel → j = i := by
    intro j hj
    obtain ⟨a, ha⟩ := List.getElem?_of_mem hi
    obtain ⟨b, hb⟩ := List.getElem?_of_mem hj
    have h1 : (sel.map Prod.fst)[a]? = some c := by rw [List.getElem?_map, ha]; rfl
    have h2 : (sel.map Prod.fst)[b]? = some c := by rw [List.getElem?_map, hb]; rfl
    have := (List.getElem?_inj (List.getElem?_eq_some_iff.1 h1).1 hn).1 (h1.trans h2.symm)
    subst this
    rw [ha] at hb; cases hb; rfl
  intro l
  induction l with
  | nil => intro _ h; cases h
  | cons a l ih =>
    intro hl hm
    rw [List.nodup_cons] at hl
    rw [List.map_cons, List.sum_cons]
    by_cases ha : a = i
    · subst ha
      rw [sum_zero]
      · simp [selSol, hi]
      · intro x hx
        obtain ⟨j, hj, rfl⟩ := List.mem_map.1 hx
        simp only [selSol]
        rw [if_neg]
        intro hm
        exact hl.1 (huniq j hm ▸ hj)
    · rw [ih hl.2 (by rcases List.mem_cons.1 hm with h | h; exact absurd h.symm ha; exact h)]
      simp only [selSol]
      rw [if_neg (fun hm => ha (huniq a hm))]
      norm_num

theorem answer_of_selection {eg : EGraph Op D} {cyc : List (Id × Nat)} {roots : List Id} {sel : List (Id × Nat)} (hs : Selection eg roots sel)
    (ha : ∀ p ∈ sel, p ∉ cyc) : Answer eg cyc roots (selSol sel) := by
  refine ⟨fun c cl _ => ?_, fun c i n _ => ?_, fun c i n _ hc => ?_, fun c cl hc => ?_, fun c i n d hn hc hd => ?_, fun r c hr hc => ?_⟩
  · simp only [selSol]; split <;> simp
  · simp only [selSol]; split <;> simp
  · simp only [selSol]; rw [if_neg (fun h => ha _ h hc)]
  · by_cases hm : c ∈ sel.map Prod.fst
    · obtain ⟨⟨c', i⟩, h1, rfl⟩ := List.mem_map.1 hm
      obtain ⟨n, h2, _⟩ := hs.nodes _ _ h1
      have h3 := (nodeAt_lt hc).1 ⟨n, h2⟩
      rw [sum_one hs.nodup h1 List.nodup_range (List.mem_range.2 h3)]
      simp only [selSol]; rw [if_pos hm]
    · rw [sum_zero]
      · simp only [selSol]; rw [if_neg hm]
      · intro x hx
        obtain ⟨i, _, rfl⟩ := List.mem_map.1 hx
        simp only [selSol]
        rw [if_neg (fun h => hm (List.mem_map.2 ⟨_, h, rfl⟩))]
  · simp only [selSol]
    by_cases h1 : (c, i) ∈ sel
    · obtain ⟨n', h2, h3⟩ := hs.nodes _ _ h1
      obtain ⟨cl, a, b⟩ := hn
      obtain ⟨cl', a', b'⟩ := h2
      rw [a] at a'; cases a'
      rw [b] at b'; cases b'
      obtain ⟨j, hj⟩ := h3 d hd
      rw [if_pos h1, if_pos (List.mem_map.2 ⟨_, hj, rfl⟩)]
    · rw [if_neg h1]
      split <;> norm_num
  · obtain ⟨c', j, h1, h2⟩ := hs.roots r hr
    rw [hc] at h1; cases h1
    simp only [selSol]
    rw [if_pos (List.mem_map.2 ⟨_, h2, rfl⟩)]

theorem value_selSol {eg : EGraph Op D} {ks : List (EClass Op D)} (hk : Listed eg ks) {cost : Id → ENode Op → ℚ} {sel : List (Id × Nat)}
    (hn : (sel.map Prod.fst).Nodup) {total : ℚ} (ht : Total eg cost sel total) : value (selSol sel) (objective ks cost) = total := by
  rw [← objective_sel hk hn ht]
  unfold value
  congr 1
  refine List.map_congr_left (fun t htm => ?_)
  obtain ⟨w, v⟩ := t
  obtain ⟨c, i, n, _, rfl, rfl⟩ := (mem_objective hk).1 htm
  simp only [selSol]
  congr 1
  by_cases hm : (c, i) ∈ sel
  · rw [if_pos hm, if_pos (decide_eq_true ⟨_, hm, rfl⟩)]
  · rw [if_neg hm, if_neg]
    simp only [decide_eq_true_eq]
    rintro ⟨⟨c', i'⟩, h1, h2⟩
    cases h2
    exact hm h1

theorem total_le_value {eg : EGraph Op D} {ks : List (EClass Op D)} (hk : Listed eg ks) {cost : Id → ENode Op → ℚ} {cyc : List (Id × Nat)}
    {roots : List Id} {sol : Var → ℚ} (ha : Answer eg cyc roots sol) (hc : ∀ c n, 0 ≤ cost c n) {sel : List (Id × Nat)}
    (hn : (sel.map Prod.fst).Nodup) (hp : ∀ c i, (c, i) ∈ sel → sol (.node c i) = 1) {total : ℚ} (ht : Total eg cost sel total) :
    total ≤ value sol (objective ks cost) := by
  rw [← objective_sel hk hn ht]
  unfold value
  refine sum_le (fun t htm => ?_)
  obtain ⟨w, v⟩ := t
  obtain ⟨c, i, n, hnode, rfl, rfl⟩ := (mem_objective hk).1 htm
  refine mul_le_mul_of_nonneg_left ?_ (hc c n)
  split
  · rename_i hm
    simp only [decide_eq_true_eq] at hm
    obtain ⟨⟨c', i'⟩, h1, h2⟩ := hm
    cases h2
    rw [hp _ _ h1]
  · rcases ha.node c i n hnode with h | h <;> rw [h] <;> norm_num

theorem exists_total {eg : EGraph Op D} (cost : Id → ENode Op → ℚ) {sel : List (Id × Nat)} (h : ∀ c i, (c, i) ∈ sel → ∃ n, NodeAt eg c i n) :
    ∃ total, Total eg cost sel total := by
  obtain ⟨ns, hns⟩ := forall₂_exists (R := fun (p : Id × Nat) n => NodeAt eg p.1 p.2 n) (as := sel) (fun p hp => h p.1 p.2 hp)
  exact ⟨_, ns, hns, rfl⟩

end Lp
end Egg
