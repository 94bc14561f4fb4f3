import Verif.Lemmas.DistMemo
import Verif.Lemmas.ShortFrame
/-
The tables the optimizer of explanation lengths builds: e-nodes of a class, depths, lowest common
ancestors, congruent neighbors.
-/
namespace Egg
variable {Op : Type} [DecidableEq Op]

theorem sum_change {l : List Nat} (hn : l.Nodup) {c : Nat} (hc : c ∈ l) {g g' : Nat → Nat} (h : ∀ i ∈ l, i ≠ c → g' i = g i) :
    (l.map g').sum + g c = (l.map g).sum + g' c := by
  induction l with
  | nil => simp at hc
  | cons a l ih =>
    rw [List.nodup_cons] at hn
    simp only [List.map_cons, List.sum_cons]
    rcases List.mem_cons.1 hc with rfl | hc'
    · have : l.map g' = l.map g := List.map_congr_left (fun i hi => h i (by simp [hi]) (by rintro rfl; exact hn.1 hi))
      rw [this]; omega
    · have := ih hn.2 hc' (fun i hi => h i (by simp [hi]))
      rw [h a (by simp) (by rintro rfl; exact hn.1 hc')]
      omega

namespace Explain
variable {x : Explain Op} {nodes : List (ENode Op)} {conn : Id → Id → Prop} {L : Log}

/-- What the optimizer relies on. -/
structure Fo (nodes : List (ENode Op)) (conn : Id → Id → Prop) (L : Log) (x : Explain Op) : Prop where
  dag : Dag nodes
  inv : XInv nodes conn x L
  nb : ∀ (i : Id) (e : ExplainNode), x.find[i]? = some e → ∀ c ∈ e.neighbors, c.current = i ∧ c.next < nodes.length ∧ Conn L i c.next
  logNb : ∀ a b j, (a, b, j) ∈ L → (∃ e : ExplainNode, x.find[a]? = some e ∧ (⟨b, a, j, true⟩ : Connection) ∈ e.neighbors) ∧
    ∃ e : ExplainNode, x.find[b]? = some e ∧ (⟨a, b, j, false⟩ : Connection) ∈ e.neighbors

namespace Fo

theorem len (h : Fo nodes conn L x) : x.find.length = nodes.length := h.inv.len

theorem wf (h : Fo nodes conn L x) : UF.WF (ptab x.find) := h.inv.wf

theorem up_lt (h : Fo nodes conn L x) {i : Id} (hi : i < nodes.length) : up x i < nodes.length := by
  have := Explain.up_lt h.wf (i := i) (by rw [h.len]; exact hi)
  rwa [h.len] at this

theorem iter_lt (h : Fo nodes conn L x) {i : Id} (hi : i < nodes.length) (n : Nat) : (up x)^[n] i < nodes.length := by
  have := Explain.iter_lt h.wf (i := i) (by rw [h.len]; exact hi) n
  rwa [h.len] at this

theorem up_conn (h : Fo nodes conn L x) {i : Id} (hi : i < nodes.length) : Conn L i (up x i) := by
  by_cases hne : up x i = i
  · rw [hne]; exact .refl _
  · obtain ⟨k, hk⟩ := exists_edge h.inv (by rw [h.len]; exact hi) hne
    exact conn_of_take (hk.joins.conn (Nat.lt_succ_self k))

theorem iter_conn (h : Fo nodes conn L x) {i : Id} (hi : i < nodes.length) (n : Nat) : Conn L i ((up x)^[n] i) := by
  induction n with
  | zero => exact .refl _
  | succ n ih => rw [Function.iterate_succ_apply']; exact ih.trans (h.up_conn (h.iter_lt hi n))

/-- The parent is a neighbor, with the same justification. -/
theorem up_nb (h : Fo nodes conn L x) {i : Id} {e : ExplainNode} (he : x.find[i]? = some e) (hne : up x i ≠ i) :
    (∃ c ∈ e.neighbors, c.next = up x i ∧ c.justification = e.parent.justification) ∧
    ∃ e', x.find[up x i]? = some e' ∧ ∃ c ∈ e'.neighbors, c.next = i ∧ c.justification = e.parent.justification := by
  obtain ⟨k, e1, h1, h2, h3, h4, a, b, h5⟩ := exists_edge h.inv (getElem?_lt he) hne
  rw [he] at h1; cases h1
  have hup := up_of_get he
  obtain ⟨a', b', j', g1, g2⟩ := h4
  rw [h5] at g1; cases g1
  obtain ⟨⟨ea, q1, q2⟩, eb, q3, q4⟩ := h.logNb _ _ _ (List.mem_of_getElem? h5)
  rw [h3, ← hup] at g2
  rcases g2 with ⟨ei, eu⟩ | ⟨ei, eu⟩
  · rw [← ei, he] at q1; cases q1
    rw [← eu] at q3
    exact ⟨⟨_, q2, eu.symm, rfl⟩, eb, q3, _, q4, ei.symm, rfl⟩
  · rw [← ei, he] at q3; cases q3
    rw [← eu] at q1
    exact ⟨⟨_, q4, eu.symm, rfl⟩, ea, q1, _, q2, ei.symm, rfl⟩

end Fo

/-- Number of neighbors. -/
def deg (x : Explain Op) (i : Id) : Nat := match x.find[i]? with
  | some e => e.neighbors.length
  | none => 0

/-- What `find_all_enodes` returns. -/
def ClassOf (x : Explain Op) (nodes : List (ENode Op)) (L : Log) (start : Id) (s : List Id) : Prop :=
  s.Nodup ∧ start ∈ s ∧ ∀ i ∈ s, i < nodes.length ∧ Conn L start i ∧ up x i ∈ s

theorem findAllEnodes_ok (h : Fo nodes conn L x) {start : Id} (hs : start < nodes.length) :
    Returns (fun f => x.findAllEnodes f start) (ClassOf x nodes L start) := by
  have key : ∀ (m : Nat) (todo enodes : List Id),
      todo.length + ((List.range nodes.length).map (fun i => if i ∈ enodes then 0 else deg x i)).sum = m →
      enodes.Nodup → (start ∈ enodes ∨ start ∈ todo) → (∀ i, i ∈ enodes ∨ i ∈ todo → i < nodes.length ∧ Conn L start i) →
      (∀ i ∈ enodes, ∀ e, x.find[i]? = some e → ∀ c ∈ e.neighbors, c.next ∈ enodes ∨ c.next ∈ todo) →
      Returns (fun f => findAllEnodesLoop x f todo enodes) (ClassOf x nodes L start) := by
    intro m
    induction m using Nat.strongRecOn with
    | ind m ih =>
      intro todo enodes hm hn hst hall hcl
      refine Returns.succ' ?_
      cases todo with
      | nil =>
        simp only [findAllEnodesLoop]
        refine Returns.ret ⟨hn, by simpa using hst, fun i hi => ⟨(hall i (.inl hi)).1, (hall i (.inl hi)).2, ?_⟩⟩
        by_cases hne : up x i = i
        · rw [hne]; exact hi
        · have hil := (hall i (.inl hi)).1
          have he := List.getElem?_eq_getElem (l := x.find) (i := i) (by rw [h.len]; exact hil)
          obtain ⟨⟨c, hc, e, _⟩, _⟩ := h.up_nb he hne
          rw [← e]
          simpa using hcl i hi _ he c hc
      | cons current todo =>
        simp only [findAllEnodesLoop]
        simp only [List.length_cons] at hm
        split
        · rename_i hmem
          refine ih _ (by omega) todo enodes rfl hn ?_ (fun i hi => hall i (by rcases hi with hi | hi <;> simp [hi])) ?_
          · rcases hst with hst | hst
            · exact .inl hst
            · rcases List.mem_cons.1 hst with rfl | hst
              · exact .inl hmem
              · exact .inr hst
          · intro i hi e he c hc
            rcases hcl i hi e he c hc with h1 | h1
            · exact .inl h1
            · rcases List.mem_cons.1 h1 with h1 | h1
              · rw [h1]; exact .inl hmem
              · exact .inr h1
        · rename_i hmem
          obtain ⟨hcl1, hcc⟩ := hall current (.inr (by simp))
          have hcf : current < x.find.length := by rw [h.len]; exact hcl1
          have he := List.getElem?_eq_getElem hcf
          simp only [getIdx_eq_ok.2 he, ok_bind]
          have hsum := sum_change (l := List.range nodes.length) List.nodup_range (c := current) (by simp [hcl1])
            (g := fun i => if i ∈ enodes then 0 else deg x i) (g' := fun i => if i ∈ current :: enodes then 0 else deg x i) (by
              intro i _ hi
              simp [hi])
          simp only [hmem, if_false, List.mem_cons, true_or, if_true] at hsum
          have hdeg : deg x current = x.find[current].neighbors.length := by simp [deg, he]
          refine ih _ ?_ _ (current :: enodes) rfl (List.nodup_cons.2 ⟨hmem, hn⟩) ?_ ?_ ?_
          · simp only [List.length_append, List.length_reverse, List.length_map, List.mem_cons]
            omega
          · rcases hst with hst | hst
            · exact .inl (by simp [hst])
            · rcases List.mem_cons.1 hst with rfl | hst
              · exact .inl (by simp)
              · exact .inr (by simp [hst])
          · intro i hi
            have : (i ∈ enodes ∨ i ∈ current :: todo) ∨ ∃ c ∈ x.find[current].neighbors, c.next = i := by
              simp only [List.mem_cons, List.mem_append, List.mem_reverse, List.mem_map] at hi ⊢
              tauto
            rcases this with h1 | ⟨c, h1, rfl⟩
            · exact hall i h1
            · obtain ⟨_, g2, g3⟩ := h.nb current _ he c h1
              exact ⟨g2, hcc.trans g3⟩
          · intro i hi e hie c hc
            rcases List.mem_cons.1 hi with rfl | hi
            · rw [he] at hie; cases hie
              refine .inr ?_
              simp only [List.mem_append, List.mem_reverse, List.mem_map]
              exact .inl ⟨c, hc, rfl⟩
            · rcases hcl i hi e hie c hc with h1 | h1
              · exact .inl (by simp [h1])
              · rcases List.mem_cons.1 h1 with h1 | h1
                · exact .inl (by simp [h1])
                · exact .inr (by simp [h1])
  refine key _ [start] [] rfl (by simp) (by simp) ?_ (by simp)
  intro i hi
  simp at hi
  subst hi
  exact ⟨hs, .refl _⟩

/-- A table of depths. -/
def DepthsOK (x : Explain Op) (depths : AMap Id Nat) : Prop := ∀ i d, i < x.find.length → depths.get? i = some d → d = dep x i

theorem addTreeDepths_ok (hw : UF.WF (ptab x.find)) : ∀ (m : Nat) (i : Id) (depths : AMap Id Nat), dep x i = m → i < x.find.length →
    DepthsOK x depths → Returns (fun f => x.addTreeDepths f i depths) (fun q => q.1 = dep x i ∧ DepthsOK x q.2 ∧
      (q.2.get? i).isSome ∧ ∀ j, (depths.get? j).isSome → (q.2.get? j).isSome) := by
  intro m
  induction m with
  | zero =>
    intro i depths hm hi hd
    refine Returns.succ' ?_
    simp only [addTreeDepths]
    cases hg : depths.get? i with
    | some d => exact Returns.ret ⟨hd i d hi hg, hd, by simp [hg], fun _ h => h⟩
    | none =>
      have hup := (dep_zero hw hi).1 hm
      simp only [parentOf_ok hi, ok_bind, hup, if_true]
      refine Returns.ret ⟨hm.symm, ?_, by simp [AMap.get?_insert], fun j hj => ?_⟩
      · intro j d hj h
        simp only [AMap.get?_insert] at h
        split at h
        · rename_i e; cases h; rw [← e]; exact hm.symm
        · exact hd j d hj h
      · simp only [AMap.get?_insert]
        split
        · rfl
        · exact hj
  | succ m ih =>
    intro i depths hm hi hd
    refine Returns.succ' ?_
    simp only [addTreeDepths]
    cases hg : depths.get? i with
    | some d => exact Returns.ret ⟨hd i d hi hg, hd, by simp [hg], fun _ h => h⟩
    | none =>
      have hup : up x i ≠ i := fun h => by have := (dep_zero hw hi).2 h; omega
      have hdu := dep_up hw hi hup
      simp only [parentOf_ok hi, ok_bind, if_neg hup]
      refine Returns.bind (Returns.bind (ih (up x i) depths (by omega) (up_lt hw hi) hd) ?_ (Q := fun q => q.1 = dep x i ∧ DepthsOK x q.2 ∧
        ∀ j, (depths.get? j).isSome → (q.2.get? j).isSome)) ?_
      · rintro ⟨d, dp⟩ ⟨h1, h2, h3, h4⟩
        have h1' : d = _ := h1
        exact Returns.ret ⟨by show d + 1 = _; rw [h1', hdu], h2, h4⟩
      · rintro ⟨d, dp⟩ ⟨h1, h2, h4⟩
        have h1' : d = _ := h1
        refine Returns.ret ⟨h1, ?_, by simp [AMap.get?_insert], fun j hj => ?_⟩
        · intro j d' hj h
          simp only [AMap.get?_insert] at h
          split at h
          · rename_i e; cases h; rw [← e]; exact h1'
          · exact h2 j d' hj h
        · simp only [AMap.get?_insert]
          split
          · rfl
          · exact h4 j hj

theorem calculateTreeDepths_ok (hw : UF.WF (ptab x.find)) : Returns (fun f => x.calculateTreeDepths f)
    (fun td => ∀ i, i < x.find.length → td.get? i = some (dep x i)) := by
  unfold calculateTreeDepths
  refine (Returns.foldlM (I := fun (l : List Id) (td : AMap Id Nat) => DepthsOK x td ∧ ∀ i ∈ l, (td.get? i).isSome) (List.range x.find.length) [] []
    ⟨by intro i d _ h; simp [AMap.get?] at h, by simp⟩ ?_).mono ?_
  · rintro pre i post td e ⟨h1, h2⟩
    have hi : i < x.find.length := by
      have : i ∈ List.range x.find.length := by rw [show List.range x.find.length = pre ++ i :: post from e]; simp
      simpa using this
    refine Returns.bind (addTreeDepths_ok hw _ i td rfl hi h1) ?_
    rintro ⟨_, td'⟩ ⟨_, h3, h4, h5⟩
    refine Returns.ret ⟨h3, fun j hj => ?_⟩
    rcases List.mem_append.1 hj with hj | hj
    · exact h5 j (h2 j hj)
    · rw [List.mem_singleton] at hj; subst hj; exact h4
  · rintro td ⟨h1, h2⟩ i hi
    obtain ⟨d, hd⟩ := Option.isSome_iff_exists.1 (h2 i (by simp [hi]))
    rw [hd, h1 i d hi hd]

theorem rootLoop_ok (hw : UF.WF (ptab x.find)) : ∀ (m : Nat) (i : Id), dep x i = m → i < x.find.length →
    Returns (fun f => x.rootLoop f i) (fun r => r = (up x)^[dep x i] i) := by
  intro m
  induction m with
  | zero =>
    intro i hm hi
    refine Returns.succ' ?_
    simp only [rootLoop, parentOf_ok hi, ok_bind, (dep_zero hw hi).1 hm, if_true]
    exact Returns.ret (by rw [hm]; rfl)
  | succ m ih =>
    intro i hm hi
    have hup : up x i ≠ i := fun h => by have := (dep_zero hw hi).2 h; omega
    have hdu := dep_up hw hi hup
    refine Returns.succ' ?_
    simp only [rootLoop, parentOf_ok hi, ok_bind, if_neg hup]
    refine (ih (up x i) (by omega) (up_lt hw hi)).mono ?_
    rintro r rfl
    rw [hdu, Function.iterate_succ_apply]

/-- The table of children of one class. -/
def ChildTable (x : Explain Op) (s : List Id) (children : AMap Id (List Id)) : Prop := ∀ i ∈ s, ∃ cs, children.get? i = some cs ∧ cs.Nodup ∧
  ∀ c ∈ cs, c ∈ s ∧ up x c = i ∧ c ≠ i

theorem treeChildren_ok {s : List Id} (hn : s.Nodup) (hlt : ∀ i ∈ s, i < x.find.length) (hup : ∀ i ∈ s, up x i ∈ s) :
    ∃ m, x.treeChildren s = .ok m ∧ ChildTable x s m := by
  have key : Returns (fun _ : Nat => x.treeChildren s) (ChildTable x s) := by
    unfold treeChildren
    refine (Returns.foldlM (I := fun (l : List Id) (m : AMap Id (List Id)) => ∀ i ∈ s, ∃ cs, m.get? i = some cs ∧ cs.Nodup ∧
      ∀ c ∈ cs, c ∈ l ∧ up x c = i ∧ c ≠ i) s [] (s.foldl (fun m i => AMap.insert m i []) []) ?_ ?_).mono (fun m h i hi => h i hi)
    · have h0 : ∀ (l : List Id) (m : AMap Id (List Id)), (∀ i cs, m.get? i = some cs → cs = []) → ∀ i, (i ∈ l ∨ m.get? i = some []) →
          (l.foldl (fun m i => AMap.insert m i []) m).get? i = some [] := by
        intro l
        induction l with
        | nil => intro m _ i hi; simpa using hi
        | cons a l ih =>
          intro m hm i hi
          rw [List.foldl_cons]
          refine ih _ ?_ i ?_
          · intro j cs h
            simp only [AMap.get?_insert] at h
            split at h
            · cases h; rfl
            · exact hm j cs h
          · simp only [AMap.get?_insert]
            by_cases e : a = i
            · right; simp [e]
            · rcases hi with hi | hi
              · rcases List.mem_cons.1 hi with hi | hi
                · exact absurd hi.symm e
                · exact .inl hi
              · right; simp [e, hi]
      intro i hi
      exact ⟨[], h0 s [] (by intro i cs h; simp [AMap.get?] at h) i (.inl hi), by simp, by simp⟩
    · intro pre i post m e hI
      have e : s = pre ++ i :: post := e
      have his : i ∈ s := by rw [e]; simp
      simp only [parentOf_ok (hlt i his), ok_bind]
      split
      · refine Returns.ret (fun k hk => ?_)
        obtain ⟨cs, h1, h2, h3⟩ := hI k hk
        exact ⟨cs, h1, h2, fun c hc => ⟨by simp [(h3 c hc).1], (h3 c hc).2⟩⟩
      · rename_i hne
        obtain ⟨cs, h1, h2, h3⟩ := hI _ (hup i his)
        simp only [unwrap_eq_ok.2 h1, ok_bind]
        refine Returns.ret (fun k hk => ?_)
        simp only [AMap.get?_insert]
        split
        · rename_i ek
          refine ⟨cs ++ [i], rfl, ?_, ?_⟩
          · refine List.nodup_append.2 ⟨h2, by simp, ?_⟩
            intro c hc c' hc' ecc
            rw [List.mem_singleton] at hc'
            subst hc' ecc
            have := (h3 c hc).1
            rw [e, List.nodup_append] at hn
            exact hn.2.2 c this c (by simp) rfl
          · intro c hc
            rcases List.mem_append.1 hc with hc | hc
            · obtain ⟨g1, g2, g3⟩ := h3 c hc
              exact ⟨by simp [g1], by rw [g2]; exact ek, by rw [← ek]; exact g3⟩
            · rw [List.mem_singleton] at hc
              subst hc
              exact ⟨by simp, ek, by rw [← ek]; exact fun h => hne h.symm⟩
        · obtain ⟨cs', g1, g2, g3⟩ := hI k hk
          exact ⟨cs', g1, g2, fun c hc => ⟨by simp [(g3 c hc).1], (g3 c hc).2⟩⟩
  obtain ⟨f0, m, h1, h2⟩ := key
  exact ⟨m, h2 f0 (le_refl _), h1⟩

end Explain
end Egg
