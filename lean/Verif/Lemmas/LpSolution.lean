import Verif.Lemmas.LpProgram
import Verif.Lemmas.RecExpr
import Verif.ExampleTools
import Verif.Lemmas.Rep
/-
Reading the answer of the solver, `extract_solution` in `lp_extract.rs`.
-/
namespace Egg
namespace Lp
variable {Op D : Type} [DecidableEq Op] [Lang Op]

/-- The invariant of the loop: `ps` lists the e-nodes taken so far. -/
structure XInv (eg : EGraph Op D) (cyc : List (Id × Nat)) (sol : Var → ℚ) (ps : List (Id × Nat)) (e : List (ENode Op)) (ids : AMap Id Id) : Prop where
  dag : Dag e
  uses : Uses eg ps e
  nodup : (ps.map Prod.fst).Nodup
  entry : ∀ c j, ids.get? c = some j ↔ ∃ i, ps[j]? = some (c, i)
  picked : ∀ c i, (c, i) ∈ ps → sol (.node c i) = 1 ∧ (c, i) ∉ cyc
  rep : ∀ c j, ids.get? c = some j → ∃ t, TermOf e j t ∧ Rep eg c t

theorem XInv.nil {eg : EGraph Op D} {cyc : List (Id × Nat)} {sol : Var → ℚ} : XInv eg cyc sol [] [] [] :=
  ⟨by intro i n h; simp at h, .nil, .nil, fun c j => by simp [AMap.get?], by simp, fun c j h => by simp [AMap.get?] at h⟩

theorem XInv.add {eg : EGraph Op D} (hG : GraphOK eg) {cyc : List (Id × Nat)} {sol : Var → ℚ} {ps : List (Id × Nat)} {e : List (ENode Op)} {ids : AMap Id Id}
    (h : XInv eg cyc sol ps e ids) {c : Id} {i : Nat} {cl : EClass Op D} {n : ENode Op} (hc : eg.classes.get? c = some cl)
    (hn : cl.nodes[i]? = some n) (hs : sol (.node c i) = 1) (hcyc : (c, i) ∉ cyc) (hnew : ids.get? c = none)
    (hch : ∀ d ∈ n.children, (ids.get? d).isSome) :
    ∃ m, n.mapChildrenM (fun c => do let r ← eg.find c; unwrap (ids.get? r)) = .ok m ∧
      XInv eg cyc sol (ps ++ [(c, i)]) (e ++ [m]) (ids.insert c e.length) := by
  have hlen : ps.length = e.length := List.Forall₂.length_eq h.uses
  obtain ⟨js, hjs⟩ := forall₂_exists (R := fun (d : Id) (j : Id) => ids.get? d = some j)
    (fun d hd => Option.isSome_iff_exists.1 (hch d hd))
  have hm : n.mapChildrenM (fun c => do let r ← eg.find c; unwrap (ids.get? r)) = .ok { n with children := js } := by
    have : n.children.mapM (fun c => do let r ← eg.find c; unwrap (ids.get? r)) = .ok js := by
      rw [mapM_eq_ok]
      refine forall₂_mono_mem hjs (fun d hd j _ hj => ?_)
      obtain ⟨cl', hd'⟩ := hG.child c d ⟨i, n, ⟨cl, hc, hn⟩, hd⟩
      rw [hG.find d cl' hd', ok_bind, hj]; rfl
    simp only [ENode.mapChildrenM, this, ok_bind]; rfl
  refine ⟨_, hm, ?_⟩
  have hjlt : ∀ d j, ids.get? d = some j → j < e.length := by
    intro d j hj
    obtain ⟨i, hi⟩ := (h.entry d j).1 hj
    rw [← hlen]; exact (List.getElem?_eq_some_iff.1 hi).1
  have hnot : c ∉ ps.map Prod.fst := by
    intro hm
    obtain ⟨⟨c', i'⟩, h1, rfl⟩ := List.mem_map.1 hm
    obtain ⟨j, hj⟩ := List.getElem?_of_mem h1
    rw [(h.entry c' j).2 ⟨i', hj⟩] at hnew
    cases hnew
  have hdag : Dag (e ++ [{ n with children := js }]) := by
    intro k m hk x hx
    by_cases hlt : k < e.length
    · rw [List.getElem?_append_left hlt] at hk
      exact h.dag k m hk x hx
    · rw [List.getElem?_append_right (by omega)] at hk
      obtain ⟨h1, h2⟩ := List.getElem?_eq_some_iff.1 hk
      simp at h1
      simp at h2
      subst h2
      obtain ⟨d, hd1, hd2⟩ := forall₂_mem_left (forall₂_flip hjs) hx
      have := hjlt d x hd2
      omega
  refine ⟨hdag, ?_, ?_, fun d j => ?_, ?_, fun d j hj => ?_⟩
  · have hmono : ∀ (j : Nat) (d : Id), (∃ i, ps[j]? = some (d, i)) → ∃ i', (ps ++ [(c, i)])[j]? = some (d, i') := by
      rintro j d ⟨i', hi⟩
      exact ⟨i', by rw [List.getElem?_append_left (List.getElem?_eq_some_iff.1 hi).1]; exact hi⟩
    unfold Uses
    refine List.rel_append ?_ ?_
    · refine forall₂_mono_mem h.uses (fun p _ m _ hx => ?_)
      obtain ⟨n', a, b, x⟩ := hx
      exact ⟨n', a, b, forall₂_mono_mem x (fun j _ d _ hj => hmono j d hj)⟩
    · refine .cons ⟨n, ⟨cl, hc, hn⟩, rfl, ?_⟩ .nil
      exact forall₂_mono_mem (forall₂_flip hjs) (fun j _ d _ hj => hmono j d ((h.entry d j).1 hj))
  · rw [List.map_append, List.nodup_append]
    refine ⟨h.nodup, by simp, ?_⟩
    intro x hx y hy he
    simp at hy
    subst hy he
    exact hnot hx
  · rw [AMap.get?_insert]
    by_cases hdc : c = d
    · subst hdc
      rw [if_pos rfl]
      constructor
      · intro hj
        cases hj
        exact ⟨i, by rw [← hlen]; simp⟩
      · rintro ⟨i', hi⟩
        by_cases hlt : j < ps.length
        · rw [List.getElem?_append_left hlt] at hi
          exact absurd (List.mem_map.2 ⟨_, List.mem_of_getElem? hi, rfl⟩) hnot
        · have := (List.getElem?_eq_some_iff.1 hi).1
          simp at this
          rw [show j = e.length by omega]
    · rw [if_neg hdc, h.entry]
      constructor
      · rintro ⟨i', hi⟩
        exact ⟨i', by rw [List.getElem?_append_left (List.getElem?_eq_some_iff.1 hi).1]; exact hi⟩
      · rintro ⟨i', hi⟩
        by_cases hlt : j < ps.length
        · rw [List.getElem?_append_left hlt] at hi
          exact ⟨i', hi⟩
        · rw [List.getElem?_append_right (by omega)] at hi
          have := List.mem_of_getElem? hi
          simp at this
          exact absurd this.1.symm hdc
  · intro d k hm
    rcases List.mem_append.1 hm with hm | hm
    · exact h.picked d k hm
    · simp at hm
      obtain ⟨rfl, rfl⟩ := hm
      exact ⟨hs, hcyc⟩
  · rw [AMap.get?_insert] at hj
    by_cases hdc : c = d
    · subst hdc
      rw [if_pos rfl] at hj
      cases hj
      obtain ⟨ts, hts⟩ := forall₂_exists (R := fun (d : Id) t => ∃ j, ids.get? d = some j ∧ TermOf e j t ∧ Rep eg d t)
        (as := n.children) (fun d hd => by
          obtain ⟨j, hj⟩ := Option.isSome_iff_exists.1 (hch d hd)
          obtain ⟨t, h1, h2⟩ := h.rep d j hj
          exact ⟨t, j, hj, h1, h2⟩)
      refine ⟨.node n.op ts, ?_, ?_⟩
      · rw [termOf_iff]
        refine ⟨{ n with children := js }, by simp, rfl, ?_⟩
        refine forall₂_comp (forall₂_flip hjs) hts (fun j d t _ _ _ h1 h2 => ?_)
        obtain ⟨j', h3, h4, _⟩ := h2
        rw [h1] at h3; cases h3
        exact h4.append
      · rw [EGraph.rep_iff]
        refine ⟨c, cl, n, hG.find c cl hc, hc, List.mem_of_getElem? hn, rfl, ?_⟩
        exact forall₂_mono_mem hts (fun d _ t _ h2 => by obtain ⟨_, _, _, h⟩ := h2; exact h)
    · rw [if_neg hdc] at hj
      obtain ⟨t, h1, h2⟩ := h.rep d j hj
      exact ⟨t, h1.append, h2⟩

section
variable {eg : EGraph Op D} {cyc : List (Id × Nat)} {roots : List Id} {sol : Var → ℚ} {cv : AMap Id Nat}

/-- Processing the classes `cs` on top of the stack. -/
def Runs (eg : EGraph Op D) (cyc : List (Id × Nat)) (sol : Var → ℚ) (cv : AMap Id Nat) (cs : List Id) : Prop :=
  ∀ ps e ids, XInv eg cyc sol ps e ids → ∃ k ps' e' ids', XInv eg cyc sol ps' e' ids' ∧
    (∀ c ∈ cs, (ids'.get? c).isSome) ∧ (∀ d j, ids.get? d = some j → ids'.get? d = some j) ∧
    ∀ f todo, extractLoop eg cv sol (f + k) (cs ++ todo) e ids = extractLoop eg cv sol f todo e' ids'

theorem Runs.nil : Runs eg cyc sol cv [] := fun ps e ids h => ⟨0, ps, e, ids, h, by simp, fun _ _ h => h, fun f todo => rfl⟩

theorem Runs.cons {c : Id} {cs : List Id} (h1 : Runs eg cyc sol cv [c]) (h2 : Runs eg cyc sol cv cs) : Runs eg cyc sol cv (c :: cs) := by
  intro ps e ids hx
  obtain ⟨k1, ps1, e1, ids1, a1, a2, a3, a4⟩ := h1 ps e ids hx
  obtain ⟨k2, ps2, e2, ids2, b1, b2, b3, b4⟩ := h2 ps1 e1 ids1 a1
  refine ⟨k2 + k1, ps2, e2, ids2, b1, ?_, fun d j h => b3 d j (a3 d j h), fun f todo => ?_⟩
  · intro d hd
    rcases List.mem_cons.1 hd with rfl | hd
    · obtain ⟨j, hj⟩ := Option.isSome_iff_exists.1 (a2 d (by simp))
      rw [b3 d j hj]; rfl
    · exact b2 d hd
  · rw [← Nat.add_assoc]
    exact (a4 (f + k2) (cs ++ todo)).trans (b4 f todo)

theorem Runs.list : ∀ {cs : List Id}, (∀ c ∈ cs, Runs eg cyc sol cv [c]) → Runs eg cyc sol cv cs
  | [], _ => .nil
  | c :: cs, h => .cons (h c (by simp)) (Runs.list (fun c hc => h c (by simp [hc])))

theorem runs_one (hG : GraphOK eg) (hcv : ∀ c cl, eg.classes.get? c = some cl → cv.get? c = some cl.nodes.length) {B : List Id}
    (ho : Ordered eg cyc B) (hB : ∀ c cl, eg.classes.get? c = some cl → c ∈ B) (ha : Answer eg cyc roots sol) :
    ∀ (r : Nat) (c : Id) (cl : EClass Op D), rank B c < r → eg.classes.get? c = some cl → sol (.active c) > 0 → Runs eg cyc sol cv [c]
  | 0, _, _, hr, _, _ => absurd hr (by omega)
  | r + 1, c, cl, hr, hc, hp => by
    intro ps e ids hx
    cases hid : ids.get? c with
    | some j =>
      refine ⟨1, ps, e, ids, hx, by simp [hid], fun _ _ h => h, fun f todo => ?_⟩
      show extractLoop eg cv sol (f + 1) (c :: todo) e ids = _
      rw [extractLoop, hid]; rfl
    | none =>
      obtain ⟨i, n, h1, h2, h3, h4, h5⟩ := ha.pick hc hp
      have hstep : ∀ (e : List (ENode Op)) (ids : AMap Id Id) f todo, ids.get? c = none → extractLoop eg cv sol (f + 1) (c :: todo) e ids =
          if allIn ids n.children then do
            let n ← n.mapChildrenM (fun c => do
              let r ← eg.find c
              unwrap (ids.get? r))
            extractLoop eg cv sol f todo (e ++ [n]) (ids.insert c e.length)
          else extractLoop eg cv sol f (n.children.reverse ++ c :: todo) e ids := by
        intro e ids f todo hid
        rw [extractLoop, hid]
        simp only [Option.isSome_none, Bool.false_eq_true, if_false, hcv c cl hc, unwrap, ok_bind, if_pos hp, h1, hG.index c cl hc,
          getIdx_eq_ok.2 h2]
      have hfin : ∀ ps e ids, XInv eg cyc sol ps e ids → ids.get? c = none → allIn ids n.children = true →
          ∃ m, XInv eg cyc sol (ps ++ [(c, i)]) (e ++ [m]) (ids.insert c e.length) ∧
          ∀ f todo, extractLoop eg cv sol (f + 1) (c :: todo) e ids = extractLoop eg cv sol f todo (e ++ [m]) (ids.insert c e.length) := by
        intro ps e ids hx hid hall
        have hall' : ∀ d ∈ n.children, (ids.get? d).isSome := by
          simpa [allIn] using hall
        obtain ⟨m, g1, g2⟩ := hx.add hG hc h2 h3 h4 hid hall'
        refine ⟨m, g2, fun f todo => ?_⟩
        rw [hstep e ids f todo hid, if_pos hall, g1, ok_bind]
      have hins : ∀ (e : List (ENode Op)) (ids : AMap Id Id), ids.get? c = none → ∀ d j, ids.get? d = some j → (ids.insert c e.length).get? d = some j := by
        intro e ids hid d j hj
        rw [AMap.get?_insert]
        have : c ≠ d := by rintro rfl; rw [hid] at hj; cases hj
        rw [if_neg this]; exact hj
      by_cases hall : allIn ids n.children = true
      · obtain ⟨m, g1, g2⟩ := hfin ps e ids hx hid hall
        exact ⟨1, _, _, _, g1, by simp [AMap.get?_insert], hins e ids hid, g2⟩
      · have hkids : Runs eg cyc sol cv n.children.reverse := by
          refine Runs.list (fun d hd => ?_)
          rw [List.mem_reverse] at hd
          obtain ⟨cl', hd'⟩ := hG.child c d ⟨i, n, ⟨cl, hc, h2⟩, hd⟩
          have := (ho.rank_lt (hB c cl hc) ⟨i, n, ⟨cl, hc, h2⟩, h4, hd⟩).2
          exact runs_one hG hcv ho hB ha r d cl' (by omega) hd' (h5 d hd)
        obtain ⟨k, ps1, e1, ids1, a1, a2, a3, a4⟩ := hkids ps e ids hx
        have hall1 : allIn ids1 n.children = true := by
          simp only [allIn, List.all_eq_true]
          intro d hd
          exact a2 d (by simp [hd])
        have hgo : ∀ f todo, extractLoop eg cv sol (f + (1 + k + 1)) (c :: todo) e ids = extractLoop eg cv sol (f + 1) (c :: todo) e1 ids1 := by
          intro f todo
          rw [show f + (1 + k + 1) = (f + 1 + k) + 1 by omega, hstep e ids _ todo hid, if_neg hall, a4]
        cases hid1 : ids1.get? c with
        | some j =>
          refine ⟨1 + k + 1, ps1, e1, ids1, a1, by simp [hid1], a3, fun f todo => ?_⟩
          refine (hgo f todo).trans ?_
          rw [extractLoop, hid1]; rfl
        | none =>
          obtain ⟨m, g1, g2⟩ := hfin ps1 e1 ids1 a1 hid1 hall1
          exact ⟨1 + k + 1, _, _, _, g1, by simp [AMap.get?_insert], fun d j hj => hins e1 ids1 hid1 d j (a3 d j hj),
            fun f todo => (hgo f todo).trans (g2 f todo)⟩

/-- What extraction returns. -/
theorem extractSolution_spec (hG : GraphOK eg) (hcv : ∀ c cl, eg.classes.get? c = some cl → cv.get? c = some cl.nodes.length) {B : List Id}
    (ho : Ordered eg cyc B) (hB : ∀ c cl, eg.classes.get? c = some cl → c ∈ B) (ha : Answer eg cyc roots sol) (hr : RootsOK eg roots) :
    ∃ f0 e rs ps ids, (∀ fuel, f0 ≤ fuel → extractSolution eg cv sol fuel roots = .ok (e, rs)) ∧ XInv eg cyc sol ps e ids ∧
      List.Forall₂ (fun r j => ∃ c, eg.find r = .ok c ∧ ids.get? c = some j) roots rs := by
  obtain ⟨cs, hcs⟩ := forall₂_exists (R := fun (r : Id) (c : Id) => eg.find r = .ok c ∧ ∃ cl, eg.classes.get? c = some cl)
    (as := roots) (fun r h => by obtain ⟨c, cl, a, b⟩ := hr r h; exact ⟨c, a, cl, b⟩)
  have hm : roots.mapM eg.find = .ok cs := mapM_eq_ok.2 (forall₂_mono_mem hcs (fun r _ c _ h => h.1))
  have hrun : Runs eg cyc sol cv cs.reverse := by
    refine Runs.list (fun c hc => ?_)
    rw [List.mem_reverse] at hc
    obtain ⟨r, h1, h2, cl, h3⟩ := forall₂_mem_left (forall₂_flip hcs) hc
    exact runs_one hG hcv ho hB ha (rank B c + 1) c cl (by omega) h3 (lt_of_lt_of_le one_pos (ha.root r c h1 h2))
  obtain ⟨k, ps, e, ids, h1, h2, h3, h4⟩ := hrun [] [] [] XInv.nil
  obtain ⟨rs, hrs⟩ := forall₂_exists (R := fun (r : Id) (j : Id) => ∃ c, eg.find r = .ok c ∧ ids.get? c = some j) (as := roots)
    (fun r hr => by
      obtain ⟨c, hc1, hc2, _⟩ := forall₂_mem_left hcs hr
      obtain ⟨j, hj⟩ := Option.isSome_iff_exists.1 (h2 c (by simpa using hc1))
      exact ⟨j, c, hc2, hj⟩)
  refine ⟨k + 1, e, rs, ps, ids, fun fuel hf => ?_, h1, hrs⟩
  have hloop : extractLoop eg cv sol fuel cs.reverse [] [] = .ok (e, ids) := by
    have := h4 (fuel - k) []
    rw [List.append_nil, show fuel - k + k = fuel by omega] at this
    rw [this, show fuel - k = (fuel - k - 1) + 1 by omega]
    rfl
  have hrm : roots.mapM (fun i => do let r ← eg.find i; unwrap (ids.get? r)) = .ok rs := by
    rw [mapM_eq_ok]
    refine forall₂_mono_mem hrs (fun r _ j _ h => ?_)
    obtain ⟨c, a, b⟩ := h
    rw [a, ok_bind, b]; rfl
  have hd : RecExpr.isDag e = true := RecExpr.isDag_iff.2 h1.dag
  simp only [extractSolution, hm, ok_bind, hloop, hrm, hd, if_true]
  rfl

end
end Lp
end Egg
