import Verif.Lemmas.LpCycles
import Mathlib.Tactic.Linarith
import Mathlib.Tactic.Ring
/-
The linear program of `lp_extract.rs`, described.
-/
namespace Egg
namespace Lp
variable {Op D : Type} [DecidableEq Op] [Lang Op]

/-- `ks` lists the classes of the e-graph. -/
structure Listed (eg : EGraph Op D) (ks : List (EClass Op D)) : Prop where
  mem : ∀ c k, eg.classes.get? c = some k ↔ k ∈ ks ∧ k.id = c
  nodup : (ks.map EClass.id).Nodup

theorem fold_insert_other {V : Type} (f : EClass Op D → V) (c : Id) : ∀ (ks : List (EClass Op D)) (m : AMap Id V),
    (∀ k ∈ ks, k.id ≠ c) → (ks.foldl (fun m k => m.insert k.id (f k)) m).get? c = m.get? c
  | [], _, _ => rfl
  | k :: ks, m, h => by
    rw [List.foldl_cons, fold_insert_other f c ks _ (fun k hk => h k (by simp [hk])), AMap.get?_insert, if_neg (h k (by simp))]

theorem fold_insert_mem {V : Type} (f : EClass Op D → V) (k : EClass Op D) : ∀ (ks : List (EClass Op D)) (m : AMap Id V),
    (ks.map EClass.id).Nodup → k ∈ ks → (ks.foldl (fun m k => m.insert k.id (f k)) m).get? k.id = some (f k)
  | k' :: ks, m, hn, h => by
    rw [List.map_cons, List.nodup_cons] at hn
    rw [List.foldl_cons]
    rcases List.mem_cons.1 h with rfl | h
    · rw [fold_insert_other, AMap.get?_insert, if_pos rfl]
      intro k1 h1 he
      exact hn.1 (he ▸ List.mem_map.2 ⟨k1, h1, rfl⟩)
    · exact fold_insert_mem f k ks _ hn.2 h

theorem fold_insert_nodup {V : Type} (f : EClass Op D → V) : ∀ (ks : List (EClass Op D)) (m : AMap Id V), (AMap.keys m).Nodup →
    (AMap.keys (ks.foldl (fun m k => m.insert k.id (f k)) m)).Nodup
  | [], _, h => h
  | _ :: ks, _, h => fold_insert_nodup f ks _ (AMap.nodup_insert h _ _)

theorem Listed.fold {eg : EGraph Op D} {ks : List (EClass Op D)} (h : Listed eg ks) {V : Type} (f : EClass Op D → V) (c : Id) (v : V) :
    (ks.foldl (fun (m : AMap Id V) k => m.insert k.id (f k)) []).get? c = some v ↔ ∃ k, eg.classes.get? c = some k ∧ f k = v := by
  by_cases hc : ∃ k ∈ ks, k.id = c
  · obtain ⟨k, hk, rfl⟩ := hc
    have hk' := (h.mem k.id k).2 ⟨hk, rfl⟩
    rw [fold_insert_mem f k ks _ h.nodup hk, hk']
    simp
  · rw [fold_insert_other f c ks _ (fun k hk he => hc ⟨k, hk, he⟩)]
    constructor
    · intro h; simp [AMap.get?] at h
    · rintro ⟨k, h1, _⟩
      exact absurd ⟨k, (h.mem c k).1 h1⟩ hc

theorem Listed.classVars {eg : EGraph Op D} {ks : List (EClass Op D)} (h : Listed eg ks) (c : Id) (m : Nat) :
    (classVars ks).get? c = some m ↔ ∃ k, eg.classes.get? c = some k ∧ k.nodes.length = m := h.fold _ c m

/-- The constraints of the program. -/
inductive IsCon (eg : EGraph Op D) (cyc : List (Id × Nat)) (roots : List Id) : Con → Prop where
  | cls {c : Id} {cl : EClass Op D} (h : eg.classes.get? c = some cl) :
    IsCon eg cyc roots ⟨(List.range cl.nodes.length).map (fun i => (1, .node c i)) ++ [(-1, .active c)], .eq, 0⟩
  | child {c : Id} {i : Nat} {n : ENode Op} {d : Id} (h : NodeAt eg c i n) (hc : (c, i) ∉ cyc) (hd : d ∈ n.children) :
    IsCon eg cyc roots ⟨[(1, .node c i), (-1, .active d)], .le, 0⟩
  | root {r c : Id} (h : r ∈ roots) (hf : eg.find r = .ok c) : IsCon eg cyc roots ⟨[(1, .active c)], .ge, 1⟩

theorem childCons_spec {cv : AMap Id Nat} {id : Id} {i : Nat} : ∀ {cs : List Id}, (∀ d ∈ cs, (cv.get? d).isSome) →
    ∃ l, childCons cv id i cs = .ok l ∧ ∀ con, con ∈ l ↔ ∃ d ∈ cs, con = ⟨[(1, .node id i), (-1, .active d)], .le, 0⟩
  | [], _ => ⟨[], rfl, by simp⟩
  | d :: cs, h => by
    obtain ⟨l, h1, h2⟩ := childCons_spec (cv := cv) (id := id) (i := i) (cs := cs) (fun d hd => h d (by simp [hd]))
    obtain ⟨m, hm⟩ := Option.isSome_iff_exists.1 (h d (by simp))
    refine ⟨_, by rw [childCons, hm]; simp only [unwrap, ok_bind, h1]; rfl, fun con => ?_⟩
    rw [List.mem_cons, h2]
    simp

theorem nodeCons_spec {cv : AMap Id Nat} {cyc : List (Id × Nat)} {id : Id} {cnt : Nat} : ∀ {ns : List (ENode Op)} {i : Nat},
    i + ns.length ≤ cnt → (∀ n ∈ ns, ∀ d ∈ n.children, (cv.get? d).isSome) →
    ∃ l, nodeCons cv cyc id cnt i ns = .ok l ∧ ∀ con, con ∈ l ↔ ∃ j n d, ns[j]? = some n ∧ (id, i + j) ∉ cyc ∧ d ∈ n.children ∧
      con = ⟨[(1, .node id (i + j)), (-1, .active d)], .le, 0⟩
  | [], i, _, _ => ⟨[], rfl, by simp⟩
  | n :: ns, i, hl, h => by
    rw [List.length_cons] at hl
    obtain ⟨l, h1, h2⟩ := nodeCons_spec (cv := cv) (cyc := cyc) (id := id) (cnt := cnt) (ns := ns) (i := i + 1) (by omega)
      (fun n hn => h n (by simp [hn]))
    obtain ⟨l0, g1, g2⟩ := childCons_spec (cv := cv) (id := id) (i := i) (cs := n.children) (h n (by simp))
    have hk : ∃ l1, (if (id, i) ∈ cyc then .ok [] else childCons cv id i n.children : Res (List Con)) = .ok l1 ∧
        ∀ con, con ∈ l1 ↔ (id, i) ∉ cyc ∧ ∃ d ∈ n.children, con = ⟨[(1, .node id i), (-1, .active d)], .le, 0⟩ := by
      by_cases hc : (id, i) ∈ cyc
      · exact ⟨[], by rw [if_pos hc], by simp [hc]⟩
      · exact ⟨l0, by rw [if_neg hc, g1], by simp [hc, g2]⟩
    obtain ⟨l1, k1, k2⟩ := hk
    refine ⟨l1 ++ l, by rw [nodeCons, if_pos (by omega), k1, ok_bind, h1]; rfl, fun con => ?_⟩
    rw [List.mem_append, k2, h2]
    constructor
    · rintro (⟨a, d, b, c⟩ | ⟨j, m, d, a, b, c, e⟩)
      · exact ⟨0, n, d, rfl, a, b, c⟩
      · refine ⟨j + 1, m, d, by simpa using a, ?_, c, ?_⟩
        · rwa [show i + (j + 1) = i + 1 + j by omega]
        · rwa [show i + (j + 1) = i + 1 + j by omega]
    · rintro ⟨j, m, d, a, b, c, e⟩
      cases j with
      | zero => simp at a; subst a; exact .inl ⟨b, d, c, e⟩
      | succ j =>
        refine .inr ⟨j, m, d, by simpa using a, ?_, c, ?_⟩
        · rwa [show i + 1 + j = i + (j + 1) by omega]
        · rwa [show i + 1 + j = i + (j + 1) by omega]

theorem classCons_spec {eg : EGraph Op D} (hG : GraphOK eg) {cv : AMap Id Nat} {cyc : List (Id × Nat)} (roots : List Id)
    (hcv : ∀ c cl, eg.classes.get? c = some cl → (cv.get? c).isSome) :
    ∀ {l : List (Id × Nat)}, (∀ c m, (c, m) ∈ l → ∃ cl, eg.classes.get? c = some cl ∧ cl.nodes.length = m) →
    ∃ cs, classCons eg cv cyc l = .ok cs ∧ (∀ con ∈ cs, IsCon eg cyc roots con) ∧ ∀ c m, (c, m) ∈ l → ∀ cl, eg.classes.get? c = some cl →
      ⟨(List.range cl.nodes.length).map (fun i => (1, .node c i)) ++ [(-1, .active c)], .eq, 0⟩ ∈ cs ∧
      ∀ i n d, NodeAt eg c i n → (c, i) ∉ cyc → d ∈ n.children → ⟨[(1, .node c i), (-1, .active d)], .le, 0⟩ ∈ cs
  | [], _ => ⟨[], rfl, by simp, by simp⟩
  | (c, m) :: l, h => by
    obtain ⟨cs, h1, h2, h3⟩ := classCons_spec hG roots hcv (l := l) (cyc := cyc) (fun c m hm => h c m (by simp [hm]))
    obtain ⟨cl, hcl, rfl⟩ := h c m (by simp)
    obtain ⟨l1, g1, g2⟩ := nodeCons_spec (cv := cv) (cyc := cyc) (id := c) (cnt := cl.nodes.length) (ns := cl.nodes) (i := 0) (by omega)
      (fun n hn d hd => by
        obtain ⟨i, hi⟩ := List.getElem?_of_mem hn
        obtain ⟨cl', hd'⟩ := hG.child c d ⟨i, n, ⟨cl, hcl, hi⟩, hd⟩
        exact hcv d cl' hd')
    refine ⟨_, by rw [classCons, hG.index c cl hcl, ok_bind, g1, ok_bind, h1]; rfl, ?_, ?_⟩
    · intro con hcon
      rcases List.mem_append.1 hcon with hcon | hcon
      · rcases List.mem_cons.1 hcon with rfl | hcon
        · exact .cls hcl
        · obtain ⟨j, n, d, a, b, e, rfl⟩ := (g2 con).1 hcon
          rw [Nat.zero_add] at b ⊢
          exact .child ⟨cl, hcl, a⟩ b e
      · exact h2 con hcon
    · intro c' m' hm cl' hcl'
      rcases List.mem_cons.1 hm with he | hm
      · cases he
        rw [hcl] at hcl'; cases hcl'
        refine ⟨by simp, ?_⟩
        rintro i n d ⟨cl', a1, a2⟩ b e
        rw [hcl] at a1; cases a1
        refine List.mem_append.2 (.inl (List.mem_cons_of_mem _ ((g2 _).2 ⟨i, n, d, a2, ?_, e, ?_⟩)))
        · rwa [Nat.zero_add]
        · rw [Nat.zero_add]
      · obtain ⟨a, b⟩ := h3 c' m' hm cl' hcl'
        exact ⟨List.mem_append_right _ a, fun i n d x y z => List.mem_append_right _ (b i n d x y z)⟩

theorem rootCons_spec {eg : EGraph Op D} {cv : AMap Id Nat} : ∀ {roots : List Id},
    (∀ r ∈ roots, ∃ c, eg.find r = .ok c ∧ (cv.get? c).isSome) →
    ∃ cs, rootCons eg cv roots = .ok cs ∧ ∀ con, con ∈ cs ↔ ∃ r c, r ∈ roots ∧ eg.find r = .ok c ∧ con = ⟨[(1, .active c)], .ge, 1⟩
  | [], _ => ⟨[], rfl, by simp⟩
  | r :: roots, h => by
    obtain ⟨cs, h1, h2⟩ := rootCons_spec (cv := cv) (roots := roots) (fun r hr => h r (by simp [hr]))
    obtain ⟨c, h3, h4⟩ := h r (by simp)
    obtain ⟨m, hm⟩ := Option.isSome_iff_exists.1 h4
    refine ⟨_, by rw [rootCons, h3, ok_bind, hm]; simp only [unwrap, ok_bind, h1]; rfl, fun con => ?_⟩
    rw [List.mem_cons, h2]
    constructor
    · rintro (rfl | ⟨r', c', a, b, e⟩)
      · exact ⟨r, c, by simp, h3, rfl⟩
      · exact ⟨r', c', by simp [a], b, e⟩
    · rintro ⟨r', c', a, b, e⟩
      rcases List.mem_cons.1 a with rfl | a
      · rw [h3] at b; cases b; exact .inl e
      · exact .inr ⟨r', c', a, b, e⟩

/-- Every root has a class. -/
def RootsOK (eg : EGraph Op D) (roots : List Id) : Prop := ∀ r ∈ roots, ∃ c cl, eg.find r = .ok c ∧ eg.classes.get? c = some cl

theorem program_spec {eg : EGraph Op D} (hG : GraphOK eg) {ks : List (EClass Op D)} (hk : Listed eg ks) {roots : List Id}
    (hr : RootsOK eg roots) (cost : Id → ENode Op → ℚ) (cyc : List (Id × Nat)) :
    ∃ cons, program eg ks cost cyc roots = .ok ⟨buildVars ks cyc, objective ks cost, cons⟩ ∧ ∀ con, con ∈ cons ↔ IsCon eg cyc roots con := by
  have hn : (AMap.keys (classVars ks)).Nodup := fold_insert_nodup _ ks [] (by simp [AMap.keys])
  have hsome : ∀ c cl, eg.classes.get? c = some cl → ((classVars ks).get? c).isSome := by
    intro c cl h
    rw [(hk.classVars c cl.nodes.length).2 ⟨cl, h, rfl⟩]; rfl
  obtain ⟨cs, h1, h2, h3⟩ := classCons_spec hG roots hsome (cyc := cyc) (l := classVars ks)
    (fun c m hm => (hk.classVars c m).1 (AMap.get?_of_mem hn hm))
  obtain ⟨rs, g1, g2⟩ := rootCons_spec (eg := eg) (cv := classVars ks) (roots := roots) (fun r hr' => by
    obtain ⟨c, cl, a, b⟩ := hr r hr'
    exact ⟨c, a, hsome c cl b⟩)
  have hmem : ∀ c cl, eg.classes.get? c = some cl → (c, cl.nodes.length) ∈ classVars ks := fun c cl h =>
    AMap.mem_of_get? ((hk.classVars c cl.nodes.length).2 ⟨cl, h, rfl⟩)
  refine ⟨cs ++ rs, ?_, fun con => ⟨fun h => ?_, fun h => ?_⟩⟩
  · simp only [program, h1, g1, ok_bind]; rfl
  · rcases List.mem_append.1 h with h | h
    · exact h2 con h
    · obtain ⟨r, c, a, b, rfl⟩ := (g2 con).1 h
      exact .root a b
  · cases h with
    | cls h => exact List.mem_append_left _ (h3 _ _ (hmem _ _ h) _ h).1
    | child h hc hd =>
      obtain ⟨cl, a, b⟩ := h
      exact List.mem_append_left _ ((h3 _ _ (hmem _ _ a) _ a).2 _ _ _ ⟨cl, a, b⟩ hc hd)
    | root h hf => exact List.mem_append_right _ ((g2 _).2 ⟨_, _, h, hf, rfl⟩)

/-! ### Solutions -/

/-- What an answer of the solver says about the e-graph. -/
structure Answer (eg : EGraph Op D) (cyc : List (Id × Nat)) (roots : List Id) (sol : Var → ℚ) : Prop where
  active : ∀ c cl, eg.classes.get? c = some cl → sol (.active c) = 0 ∨ sol (.active c) = 1
  node : ∀ c i n, NodeAt eg c i n → sol (.node c i) = 0 ∨ sol (.node c i) = 1
  off : ∀ c i n, NodeAt eg c i n → (c, i) ∈ cyc → sol (.node c i) = 0
  sum : ∀ c cl, eg.classes.get? c = some cl → ((List.range cl.nodes.length).map (fun i => sol (.node c i))).sum = sol (.active c)
  child : ∀ c i n d, NodeAt eg c i n → (c, i) ∉ cyc → d ∈ n.children → sol (.node c i) ≤ sol (.active d)
  root : ∀ r c, r ∈ roots → eg.find r = .ok c → 1 ≤ sol (.active c)

theorem mem_buildVars {ks : List (EClass Op D)} {cyc : List (Id × Nat)} {v : Var} {m : ℚ} : (v, m) ∈ buildVars ks cyc ↔
    ∃ k ∈ ks, (v = .active k.id ∧ m = 1) ∨ ∃ i, i < k.nodes.length ∧ v = .node k.id i ∧ m = if (k.id, i) ∈ cyc then 0 else 1 := by
  unfold buildVars
  simp only [List.mem_flatMap, List.mem_cons, Prod.mk.injEq, List.mem_map, List.mem_range]
  constructor
  · rintro ⟨k, h1, h2 | ⟨i, h2, h3, h4⟩⟩
    · exact ⟨k, h1, .inl h2⟩
    · exact ⟨k, h1, .inr ⟨i, h2, h3.symm, h4.symm⟩⟩
  · rintro ⟨k, h1, h2 | ⟨i, h2, h3, h4⟩⟩
    · exact ⟨k, h1, .inl h2⟩
    · exact ⟨k, h1, .inr ⟨i, h2, h3.symm, h4.symm⟩⟩

theorem nodeAt_lt {eg : EGraph Op D} {c : Id} {i : Nat} {cl : EClass Op D} (h : eg.classes.get? c = some cl) :
    (∃ n, NodeAt eg c i n) ↔ i < cl.nodes.length := by
  constructor
  · rintro ⟨n, cl', h1, h2⟩
    rw [h] at h1; cases h1
    exact (List.getElem?_eq_some_iff.1 h2).1
  · intro hi
    exact ⟨_, cl, h, List.getElem?_eq_getElem hi⟩

theorem value_cls (sol : Var → ℚ) (c : Id) (m : Nat) :
    value sol ((List.range m).map (fun i => (1, Var.node c i)) ++ [(-1, Var.active c)]) =
      ((List.range m).map (fun i => sol (.node c i))).sum - sol (.active c) := by
  simp only [value, List.map_append, List.map_map, List.sum_append, List.map_cons, List.map_nil, List.sum_cons, List.sum_nil]
  have : ((fun t : ℚ × Var => t.1 * sol t.2) ∘ fun i => (1, Var.node c i)) = fun i => sol (.node c i) := by
    funext i; simp
  rw [this]
  ring

theorem feasible_iff {eg : EGraph Op D} (hG : GraphOK eg) {ks : List (EClass Op D)} (hk : Listed eg ks) {roots : List Id}
    (hr : RootsOK eg roots) {cost : Id → ENode Op → ℚ} {cyc : List (Id × Nat)} {p : Program}
    (hp : program eg ks cost cyc roots = .ok p) (sol : Var → ℚ) : Feasible p sol ↔ Answer eg cyc roots sol := by
  obtain ⟨cons, h1, h2⟩ := program_spec hG hk hr cost cyc
  rw [hp] at h1; cases h1
  constructor
  · intro hf
    have hv : ∀ c i n, NodeAt eg c i n → (Var.node c i, if (c, i) ∈ cyc then 0 else 1) ∈ buildVars ks cyc := by
      rintro c i n ⟨cl, a, b⟩
      obtain ⟨c1, c2⟩ := (hk.mem c cl).1 a
      refine mem_buildVars.2 ⟨cl, c1, .inr ⟨i, (List.getElem?_eq_some_iff.1 b).1, by rw [c2], by rw [c2]⟩⟩
    refine ⟨fun c cl h => ?_, fun c i n h => (hf.binary _ _ (hv c i n h)).1, fun c i n h hc => ?_, fun c cl h => ?_, fun c i n d h hc hd => ?_, fun r c h hc => ?_⟩
    · obtain ⟨c1, c2⟩ := (hk.mem c cl).1 h
      exact (hf.binary (.active c) 1 (mem_buildVars.2 ⟨cl, c1, .inl ⟨by rw [c2], rfl⟩⟩)).1
    · obtain ⟨a, b⟩ := hf.binary _ _ (hv c i n h)
      rw [if_pos hc] at b
      rcases a with a | a
      · exact a
      · rw [a] at b; linarith
    · have := hf.cons _ ((h2 _).2 (.cls h))
      simp only [Con.Sat, value_cls] at this
      linarith
    · have := hf.cons _ ((h2 _).2 (.child h hc hd))
      simp only [Con.Sat, value, List.map_cons, List.map_nil, List.sum_cons, List.sum_nil] at this
      linarith
    · have := hf.cons _ ((h2 _).2 (.root h hc))
      simp only [Con.Sat, value, List.map_cons, List.map_nil, List.sum_cons, List.sum_nil] at this
      linarith
  · intro ha
    refine ⟨fun v m h => ?_, fun con h => ?_⟩
    · obtain ⟨k, h1, ⟨rfl, rfl⟩ | ⟨i, h3, rfl, rfl⟩⟩ := mem_buildVars.1 h
      · have := ha.active k.id k ((hk.mem _ _).2 ⟨h1, rfl⟩)
        exact ⟨this, by rcases this with h | h <;> rw [h] <;> norm_num⟩
      · obtain ⟨n, hn⟩ := (nodeAt_lt ((hk.mem _ _).2 ⟨h1, rfl⟩)).2 h3
        have := ha.node _ _ _ hn
        refine ⟨this, ?_⟩
        split
        · rw [ha.off _ _ _ hn (by assumption)]
        · rcases this with h | h <;> rw [h] <;> norm_num
    · have h' := (h2 con).1 h
      clear h
      cases h' with
      | cls h =>
        simp only [Con.Sat, value_cls]
        rw [ha.sum _ _ h]; ring
      | child h hc hd =>
        have := ha.child _ _ _ _ h hc hd
        simp only [Con.Sat, value, List.map_cons, List.map_nil, List.sum_cons, List.sum_nil]
        linarith
      | root h hc =>
        have := ha.root _ _ h hc
        simp only [Con.Sat, value, List.map_cons, List.map_nil, List.sum_cons, List.sum_nil]
        linarith

theorem sum_zero : ∀ {l : List ℚ}, (∀ x ∈ l, x = 0) → l.sum = 0
  | [], _ => rfl
  | a :: l, h => by rw [List.sum_cons, h a (by simp), sum_zero (fun x hx => h x (by simp [hx]))]; norm_num

/-- In a class that is active the first e-node with a positive variable. -/
theorem Answer.pick {eg : EGraph Op D} {cyc : List (Id × Nat)} {roots : List Id} {sol : Var → ℚ} (h : Answer eg cyc roots sol)
    {c : Id} {cl : EClass Op D} (hc : eg.classes.get? c = some cl) (ha : sol (.active c) > 0) :
    ∃ i n, (List.range cl.nodes.length).find? (fun i => decide (sol (.node c i) > 0)) = some i ∧ cl.nodes[i]? = some n ∧
      sol (.node c i) = 1 ∧ (c, i) ∉ cyc ∧ ∀ d ∈ n.children, sol (.active d) > 0 := by
  cases hf : (List.range cl.nodes.length).find? (fun i => decide (sol (.node c i) > 0)) with
  | none =>
    rw [List.find?_eq_none] at hf
    have hz : ∀ x ∈ (List.range cl.nodes.length).map (fun i => sol (.node c i)), x = 0 := by
      intro x hx
      obtain ⟨i, hi, rfl⟩ := List.mem_map.1 hx
      have h1 := hf i hi
      obtain ⟨n, hn⟩ := (nodeAt_lt hc).2 (List.mem_range.1 hi)
      rcases h.node c i n hn with h2 | h2
      · exact h2
      · rw [h2] at h1; simp at h1
    have hs := h.sum c cl hc
    rw [sum_zero hz] at hs
    rw [← hs] at ha
    exact absurd ha (by norm_num)
  | some i =>
    have h1 := List.find?_some hf
    have h2 := List.mem_range.1 (List.mem_of_find?_eq_some hf)
    simp only [decide_eq_true_eq] at h1
    have hn : NodeAt eg c i cl.nodes[i] := ⟨cl, hc, List.getElem?_eq_getElem h2⟩
    have h3 : sol (.node c i) = 1 := by
      rcases h.node _ _ _ hn with h | h
      · rw [h] at h1; exact absurd h1 (by norm_num)
      · exact h
    have h4 : (c, i) ∉ cyc := by
      intro hm
      rw [h.off _ _ _ hn hm] at h1
      exact absurd h1 (by norm_num)
    refine ⟨i, cl.nodes[i], rfl, List.getElem?_eq_getElem h2, h3, h4, fun d hd => ?_⟩
    exact lt_of_lt_of_le h1 (h.child _ _ _ _ hn h4 hd)

end Lp
end Egg
