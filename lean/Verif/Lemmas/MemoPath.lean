import Verif.Lemmas.Dijkstra
/-
The memo of short paths.
-/
namespace Egg
variable {Op : Type} [DecidableEq Op]

namespace Explain
variable {x x' : Explain Op} {nodes : List (ENode Op)} {conn : Id → Id → Prop} {L : Log} {cn : List (List Id)}

/-! ### Only the forest matters -/

theorem up_same (h : SameTree x x') : up x' = up x := by
  funext i; rw [up, up, h.find]

theorem dep_same (h : SameTree x x') : dep x' = dep x := by
  funext i; rw [dep, dep, up_same h]

theorem S_same (h : SameTree x x') : S x' nodes L = S x nodes L := by
  funext i n
  induction n generalizing i with
  | zero => rfl
  | succ n ih => rw [S, S, ih, up_same h, W, W, h.find]

theorem DmAt.same (h : SameTree x x') {dm : DistanceMemo} {n : Id → Nat} (hd : DmAt x nodes L dm n) : DmAt x' nodes L dm n := by
  refine ⟨by rw [h.find]; exact hd.len, by rw [h.find, dep_same h]; exact hd.le, by rw [h.find, up_same h, S_same h]; exact hd.val,
    by rw [h.find, up_same h]; exact hd.pos, ?_, by rw [h.find, dep_same h]; exact hd.depth⟩
  have := hd.lca
  unfold Lca at this ⊢
  rw [h.find, dep_same h, up_same h]
  exact this

theorem DmAt.setMemo {dm : DistanceMemo} {n : Id → Nat} (hd : DmAt x nodes L dm n) (m : AMap (Id × Id) (Nat × Id)) :
    DmAt { x with shortMemo := m } nodes L dm n := DmAt.same (x := x) (x' := { x with shortMemo := m }) ⟨rfl, rfl, rfl⟩ hd

theorem Fo.same (h : SameTree x x') (hf : Fo nodes conn L x) : Fo nodes conn L x' := by
  obtain ⟨h1, h2, h3, h4⟩ := hf
  refine ⟨h1, ?_, by rw [h.find]; exact h3, by rw [h.find]; exact h4⟩
  exact ⟨by rw [h.find]; exact h2.len, by rw [h.find]; exact h2.wf, by rw [h.find]; exact h2.tree, by rw [h.find]; exact h2.edge,
    h2.logConn, h2.logLt, h2.logFresh, h2.logCongr, by rw [h.uncanon]; exact h2.unSound, by rw [h.uncanon]; exact h2.unComplete,
    by rw [h.find]; exact h2.cur⟩

theorem CnOK.same (h : SameTree x x') (hc : CnOK x nodes L cn) : CnOK x' nodes L cn := by
  obtain ⟨f, u, o, m⟩ := x
  obtain ⟨f', u', o', m'⟩ := x'
  obtain ⟨h, h2, _⟩ := h
  cases h
  exact ⟨hc.len, hc.sound, hc.up⟩

theorem GC.same (h : SameTree x x') {c : Connection} {w : Nat} (hc : GC x nodes L cn c w) : GC x' nodes L cn c w := by
  rw [GC, h.find]; exact hc

theorem GPath.same (h : SameTree x x') {u v : Id} {k : Nat} (hp : GPath x nodes L cn u v k) : GPath x' nodes L cn u v k := by
  induction hp with
  | nil => exact .nil
  | cons h1 h2 _ ih => exact .cons h1 (h2.same h) ih

theorem SameTree.symm (h : SameTree x x') : SameTree x' x := ⟨h.1.symm, h.2.symm, h.3.symm⟩

/-! ### Paths in the memo -/

/-- The path from `l` to `r` that the memo stores. -/
inductive MP (x : Explain Op) (nodes : List (ENode Op)) (L : Log) (cn : List (List Id)) (r : Id) : Id → Nat → Prop where
  | nil : MP x nodes L cn r r 0
  | step {l cost c w k} : l ≠ r → x.shortMemo.get? (l, r) = some (cost, c.next) → c.current = l → GC x nodes L cn c w →
      MP x nodes L cn r c.next k → MP x nodes L cn r l (w + k)

theorem MP.gpath {r l : Id} {k : Nat} (h : MP x nodes L cn r l k) : GPath x nodes L cn l r k := by
  induction h with
  | nil => exact .nil
  | step _ _ h3 h4 _ ih => exact .cons h3 h4 ih

/-- A direct application of a rule. -/
def DirectStep (x : Explain Op) (l r : Id) : Prop :=
  ∃ (e : ExplainNode) (nb : Connection), x.find[l]? = some e ∧ nb ∈ e.neighbors ∧ nb.next = r ∧ nb.justification.isRule = true

/-- The paths in the memo cost no more than those through the forest. -/
def MemoInv (x : Explain Op) (nodes : List (ENode Op)) (L : Log) (cn : List (List Id)) : Prop :=
  ∀ l r cost nx, x.shortMemo.get? (l, r) = some (cost, nx) → l ≠ r → l < nodes.length → r < nodes.length → Conn L l r →
    ∃ k, MP x nodes L cn r l k ∧ (k ≤ D nodes L l r ∨ (nx = r ∧ DirectStep x l r))

theorem memoInv_of_direct (hf : Fo nodes conn L x) (hm : DirectMemo x) : MemoInv x nodes L cn := by
  intro l r cost nx hg hne _ _ _
  obtain ⟨rfl, e, nb, h1, h2, h3, h4⟩ := hm l r cost nx hg
  have hcur := (hf.nb l e h1 nb h2).1
  refine ⟨1 + 0, .step (c := nb) hne (by rw [h3]; exact hg) hcur (.inl ⟨h4, rfl, e, by rw [hcur]; exact h1, h2⟩) (by rw [h3]; exact .nil),
    .inr ⟨rfl, e, nb, h1, h2, h3, h4⟩⟩

theorem getNeighbor_spec {l nx : Id} {e : ExplainNode} (he : x.find[l]? = some e) :
    ∃ c, getNeighbor x l nx = .ok c ∧ ((c.justification.isRule = true ∧ c.next = nx) ∨ (c = ⟨nx, l, .congruence, true⟩ ∧ ¬ DirectStep x l nx)) := by
  unfold getNeighbor
  rw [getIdx_eq_ok.2 he, ok_bind]
  cases hf : e.neighbors.find? (fun c => decide (c.next = nx) && c.justification.isRule) with
  | none =>
    refine ⟨_, rfl, .inr ⟨rfl, ?_⟩⟩
    rintro ⟨e', nb, h1, h2, h3, h4⟩
    rw [he] at h1; cases h1
    rw [List.find?_eq_none] at hf
    have := hf nb h2
    simp [h3, h4] at this
  | some c =>
    have := List.find?_some hf
    simp only [Bool.and_eq_true, decide_eq_true_eq] at this
    exact ⟨c, rfl, .inl ⟨this.2, this.1⟩⟩

theorem tsize_of_zero (hf : Fo nodes conn L x) (hc : CnOK x nodes L cn) {c : Connection} (hg : GC x nodes L cn c 0) :
    tsize nodes c.current = tsize nodes c.next := by
  rcases hg with ⟨_, h1, _⟩ | ⟨_, h1, h2⟩
  · omega
  · obtain ⟨na, nb, g1, g2, g3, g4⟩ := hc.has h2
    rw [kd_eq g1 g2] at h1
    exact children_zero hf.dag hf.inv.logFresh hf.inv.logCongr g1 g2 g3 g4 h1.symm

/-- Following the memo gives a good path. -/
theorem mp_good (hf : Fo nodes conn L x) (hc : CnOK x nodes L cn) {l r i : Id} {k : Nat} (h : MP x nodes L cn r i k) :
    k ≤ D nodes L l r → (k = D nodes L l r → tsize nodes i = tsize nodes l) →
    Returns (fun f => getPath x f i r) (fun q => ∀ c ∈ q.1 ++ q.2.reverse.map flip, StepGood nodes L l r c) := by
  induction h with
  | nil =>
    intro _ _
    refine Returns.succ' ?_
    simp only [getPath, if_true]
    exact Returns.ret (by simp)
  | @step i cost c w k hne hg hcur hcw _ ih =>
    intro hle hsz
    refine Returns.succ' ?_
    simp only [getPath, if_neg hne, hg]
    obtain ⟨hlt1, hlt2⟩ := hcw.lt hf hc
    have hil : i < x.find.length := by rw [hf.len, ← hcur]; exact hlt1
    obtain ⟨c', hc', hcase⟩ := getNeighbor_spec (nx := c.next) (List.getElem?_eq_getElem hil)
    simp only [hc', ok_bind]
    refine Returns.bind (ih (by omega) ?_) ?_
    · intro e
      have h0 : w = 0 := by omega
      subst h0
      rw [← hsz (by omega), ← hcur]
      exact (tsize_of_zero hf hc hcw).symm
    · rintro ⟨lc, rc⟩ hq
      refine Returns.ret ?_
      intro d hd
      simp only [List.cons_append, List.mem_cons] at hd
      rcases hd with rfl | hd
      · rcases hcase with ⟨h1, h2⟩ | ⟨h1, h2⟩
        · refine ⟨by rw [h2]; exact hlt2, fun hj => ?_⟩
          rw [hj] at h1
          simp [Justification.isRule] at h1
        · rcases hcw with ⟨g1, _, e, g2, g3⟩ | ⟨_, g1, g2⟩
          · exact absurd ⟨e, c, by rw [← hcur]; exact g2, g3, rfl, g1⟩ h2
          · subst h1
            refine ⟨hlt2, fun _ => ?_⟩
            obtain ⟨na, nb, q1, q2, q3, q4⟩ := hc.has g2
            rw [kd_eq q1 q2] at g1
            rw [hcur] at q1
            refine ⟨na, nb, q1, q2, q3, q4, ?_⟩
            intro p q hpq
            have hle' : D nodes L p q ≤ childD nodes L na nb :=
              le_sum_of_mem (List.mem_map.2 ⟨(p, q), hpq, rfl⟩ : D nodes L p q ∈ (na.children.zip nb.children).map (fun p => D nodes L p.1 p.2))
            by_cases he : D nodes L p q = D nodes L l r
            · refine .inr ⟨he, ?_⟩
              rw [← hsz (by omega)]
              exact tsize_child hf.dag q1 (List.of_mem_zip hpq).1
            · exact .inl (by omega)
      · exact hq d hd

theorem memo_good (hf : Fo nodes conn L x) (hc : CnOK x nodes L cn) (hm : MemoInv x nodes L cn) : PathGood x nodes L := by
  intro l r hl hr hlr
  have hlr' := (hf.inv.logConn l r hl hr).1 hlr
  by_cases hne : l = r
  · refine ⟨1, fun f hf => ?_⟩
    obtain ⟨f, rfl⟩ : ∃ k, f = k + 1 := ⟨f - 1, by omega⟩
    exact ⟨[], [], by rw [getPath, if_pos hne], by simp⟩
  · cases hg : x.shortMemo.get? (l, r) with
    | none =>
      obtain ⟨f0, h⟩ := unoptimized_good hf.dag hf.inv hl hr hlr'
      refine ⟨f0 + 1, fun f hf => ?_⟩
      obtain ⟨f, rfl⟩ : ∃ k, f = k + 1 := ⟨f - 1, by omega⟩
      obtain ⟨lc, rc, h1, h2⟩ := h f (by omega)
      exact ⟨lc, rc, by rw [getPath, if_neg hne, hg]; exact h1, h2⟩
    | some v =>
      obtain ⟨cost, nx⟩ := v
      obtain ⟨k, h1, h2⟩ := hm l r cost nx hg hne hl hr hlr
      rcases h2 with h2 | ⟨rfl, h2⟩
      · obtain ⟨f0, ⟨lc, rc⟩, h3, h4⟩ := mp_good hf hc h1 h2 (fun _ => rfl)
        exact ⟨f0, fun f hf => ⟨lc, rc, h4 f hf, h3⟩⟩
      · refine ⟨2, fun f hf' => ?_⟩
        obtain ⟨f, rfl⟩ : ∃ k, f = k + 2 := ⟨f - 2, by omega⟩
        have hll : l < x.find.length := by rw [hf.len]; exact hl
        obtain ⟨c, g1, g2⟩ := getNeighbor_spec (nx := nx) (List.getElem?_eq_getElem hll)
        rcases g2 with ⟨g2, g3⟩ | ⟨_, g2⟩
        · refine ⟨[c], [], ?_, ?_⟩
          · rw [getPath, if_neg hne, hg]
            simp only [g1, ok_bind]
            rw [getPath, if_pos rfl]
            rfl
          · intro c' hc'
            simp at hc'
            subst hc'
            refine ⟨by rw [g3]; exact hr, fun hj => ?_⟩
            rw [hj] at g2
            simp [Justification.isRule] at g2
        · exact absurd h2 g2

/-! ### Storing a path -/

/-- A list of connections as a path. -/
inductive GP (x : Explain Op) (nodes : List (ENode Op)) (L : Log) (cn : List (List Id)) : Id → List Connection → Id → Nat → Prop where
  | nil {u} : GP x nodes L cn u [] u 0
  | cons {u v c w p k} : c.current = u → GC x nodes L cn c w → GP x nodes L cn c.next p v k → GP x nodes L cn u (c :: p) v (w + k)

theorem GP.gpath {u v : Id} {p : List Connection} {k : Nat} (h : GP x nodes L cn u p v k) : GPath x nodes L cn u v k := by
  induction h with
  | nil => exact .nil
  | cons h1 h2 _ ih => exact .cons h1 h2 ih

theorem GP.append {u v t : Id} {p p' : List Connection} {k k' : Nat} (h : GP x nodes L cn u p v k) (h' : GP x nodes L cn v p' t k') :
    GP x nodes L cn u (p ++ p') t (k + k') := by
  induction h with
  | nil => simpa using h'
  | cons h1 h2 _ ih => rw [Nat.add_assoc]; exact .cons h1 h2 (ih h')

theorem GP.split {u v : Id} {p s : List Connection} {c : Connection} {k : Nat} (h : GP x nodes L cn u (p ++ c :: s) v k) :
    ∃ k1 k2 w, GP x nodes L cn u p c.current k1 ∧ GC x nodes L cn c w ∧ GP x nodes L cn c.next s v k2 ∧ k = k1 + (w + k2) := by
  induction p generalizing u k with
  | nil =>
    cases h with
    | cons h1 h2 h3 => subst h1; exact ⟨0, _, _, .nil, h2, h3, by omega⟩
  | cons d p ih =>
    cases h with
    | cons h1 h2 h3 =>
      obtain ⟨k1, k2, w, g1, g2, g3, g4⟩ := ih h3
      exact ⟨_, k2, w, .cons h1 h2 g1, g2, g3, by omega⟩

variable {last : AMap Id Connection} {start : Id}

theorem BP.gp {v : Id} {p : List Connection} {k : Nat} (h : BP x nodes L cn last start v p k) : GP x nodes L cn start p v k := by
  induction h with
  | nil => exact .nil
  | snoc h1 _ _ _ h5 ih =>
    refine ih.append ?_
    have := GP.cons rfl h5 (GP.nil (x := x) (nodes := nodes) (L := L) (cn := cn))
    rwa [h1] at this

theorem BP.pre {v : Id} {p : List Connection} {k : Nat} (h : BP x nodes L cn last start v p k) : ∀ q c s, p = q ++ c :: s →
    ∃ k', BP x nodes L cn last start c.current q k' := by
  induction h with
  | nil => intro q c s e; simp at e
  | @snoc v c0 p0 k w h1 h2 _ _ _ ih =>
    intro q c s e
    rcases List.eq_nil_or_concat s with rfl | ⟨s', d, rfl⟩
    · have := List.append_inj' e rfl
      obtain ⟨rfl, h⟩ := this
      cases h
      exact ⟨_, h2⟩
    · have : p0 ++ [c0] = (q ++ c :: s') ++ [d] := by rw [e]; simp
      obtain ⟨e1, _⟩ := List.append_inj' this rfl
      exact ih q c s' e1

/-- The path does not visit a node twice. -/
theorem BP.simple {v : Id} {p : List Connection} {k : Nat} (h : BP x nodes L cn last start v p k) {q s : List Connection} {c : Connection}
    (e : p = q ++ c :: s) : c.current ≠ v ∧ ∀ c' ∈ s, c'.current ≠ c.current := by
  obtain ⟨k1, h1⟩ := h.pre q c s e
  constructor
  · intro hv
    subst hv
    have := h1.unique h
    rw [e] at this
    have := congrArg List.length this
    simp at this
  · intro c' hc' hcc
    obtain ⟨s1, s2, rfl⟩ := List.append_of_mem hc'
    obtain ⟨k2, h2⟩ := h.pre (q ++ c :: s1) c' s2 (by rw [e]; simp)
    rw [hcc] at h2
    have := congrArg List.length (h1.unique h2)
    simp at this

/-- What `populate_path_length` does to the memo. -/
structure Stored (x x' : Explain Op) (p : List Connection) (r : Id) : Prop where
  same : SameTree x x'
  new : ∀ c ∈ p, ∃ cost, x'.shortMemo.get? (c.current, r) = some (cost, c.next)
  old : ∀ a b, b ≠ r ∨ (a ≠ r ∧ ∀ c ∈ p, c.current ≠ a) → x'.shortMemo.get? (a, b) = x.shortMemo.get? (a, b)

theorem connectionDistance_ok (hf : Fo nodes conn L x) (hc : CnOK x nodes L cn) {c : Connection} {w : Nat} (hg : GC x nodes L cn c w) {dm : DistanceMemo} {n : Id → Nat}
    (h : DmAt x nodes L dm n) : Returns (fun f => connectionDistance x nodes f c dm) (fun q => ∃ n', DmAt x nodes L q.2 n') := by
  unfold connectionDistance
  rcases hg with ⟨h1, _, _⟩ | ⟨h1, _, h3⟩
  · cases hj : c.justification with
    | rule s => exact Returns.ret ⟨n, h⟩
    | congruence => rw [hj] at h1; cases h1
  · simp only [h1]
    exact (congruenceDistance_ok hf.dag hf.inv (hc.has h3) h).mono (fun _ h => h.2)

theorem populate_ok (hf : Fo nodes conn L x) (hc : CnOK x nodes L cn) {r : Id} {p : List Connection} {k : Nat} (hp : BP x nodes L cn last start r p k)
    {dm : DistanceMemo} {n : Id → Nat} (h : DmAt x nodes L dm n) :
    Returns (fun f => x.populatePathLength nodes f r p dm) (fun q => Stored x q.1 p r ∧ ∃ n', DmAt q.1 nodes L q.2 n') := by
  unfold populatePathLength
  refine (Returns.foldlM (I := fun (pre : List Connection) (acc : Explain Op × DistanceMemo) => Stored x acc.1 pre r ∧
    (acc.1.shortMemo.get? (r, r)).isSome ∧ ∃ n', DmAt acc.1 nodes L acc.2 n') p.reverse [] _ ?_ ?_).mono ?_
  · refine ⟨⟨⟨rfl, rfl, rfl⟩, by simp, ?_⟩, ?_, n, h.setMemo _⟩
    · intro a b hab
      simp only [AMap.get?_insert]
      rw [if_neg]
      intro e
      cases e
      rcases hab with hab | hab
      · exact hab rfl
      · exact hab.1 rfl
    · simp only [AMap.get?_insert, if_true, Option.isSome_some]
  · rintro pre c post ⟨x1, dm1⟩ e ⟨⟨h1, h2, h3⟩, h4, n1, h5⟩
    simp only at h1 h2 h3 h4 h5
    have hpe : p = post.reverse ++ c :: pre.reverse := by
      have e' : p.reverse = pre ++ c :: post := e
      have := congrArg List.reverse e'
      simpa using this
    obtain ⟨hs1, hs2⟩ := hp.simple hpe
    have hgp := hp.gp
    rw [hpe] at hgp
    obtain ⟨k1, k2, w, g1, g2, g3, _⟩ := hgp.split
    have hnext : ∃ v, x1.shortMemo.get? (c.next, r) = some v := by
      cases hpr : pre.reverse with
      | nil =>
        rw [hpr] at g3
        cases g3
        exact Option.isSome_iff_exists.1 h4
      | cons d s =>
        rw [hpr] at g3
        cases g3 with
        | cons q1 _ _ =>
          obtain ⟨cost, hd⟩ := h2 d (by rw [← List.mem_reverse, hpr]; simp)
          rw [q1] at hd
          exact ⟨_, hd⟩
    obtain ⟨v, hv⟩ := hnext
    simp only [unwrap_eq_ok.2 hv, ok_bind]
    refine Returns.bind (connectionDistance_ok (hf.same h1) (hc.same h1) (g2.same h1) h5) ?_
    rintro ⟨d, dm2⟩ ⟨n2, h6⟩
    refine Returns.ret ⟨⟨⟨h1.find, h1.uncanon, h1.optimize⟩, ?_, ?_⟩, ?_, n2, h6.setMemo _⟩
    · intro c' hc'
      simp only [AMap.get?_insert]
      rcases List.mem_append.1 hc' with hc' | hc'
      · rw [if_neg]
        · exact h2 c' hc'
        · intro e
          injection e with e _
          exact hs2 c' (List.mem_reverse.2 hc') e.symm
      · rw [List.mem_singleton] at hc'
        subst hc'
        exact ⟨_, if_pos rfl⟩
    · intro a b hab
      simp only [AMap.get?_insert]
      rw [if_neg]
      · refine h3 a b ?_
        rcases hab with hab | ⟨hab, hab'⟩
        · exact .inl hab
        · exact .inr ⟨hab, fun c hc => hab' c (by simp [hc])⟩
      · intro e
        cases e
        rcases hab with hab | ⟨_, hab⟩
        · exact hab rfl
        · exact hab c (by simp) rfl
    · simp only [AMap.get?_insert]
      split
      · rfl
      · exact h4
  · rintro ⟨x1, dm1⟩ ⟨⟨h1, h2, h3⟩, h4, h5⟩
    simp only [List.nil_append, List.mem_reverse] at h2 h3
    exact ⟨⟨h1, h2, h3⟩, h5⟩

theorem DirectStep.same (h : SameTree x x') {l r : Id} (hd : DirectStep x l r) : DirectStep x' l r := by
  rw [DirectStep, h.find]; exact hd

/-- Storing a shortest path keeps the invariant. -/
theorem stored_inv (hf : Fo nodes conn L x) (hc : CnOK x nodes L cn) (hm : MemoInv x nodes L cn) {r : Id} {p : List Connection} {k : Nat}
    (hp : BP x nodes L cn last start r p k) (hmin : ∀ k', GPath x nodes L cn start r k' → k ≤ k') (hs : Stored x x' p r) : MemoInv x' nodes L cn := by
  have claimA : ∀ (s q : List Connection) (i : Id) (k' : Nat), p = q ++ s → GP x nodes L cn i s r k' → MP x' nodes L cn r i k' := by
    intro s
    induction s with
    | nil => intro q i k' _ h; cases h; exact .nil
    | cons c s ih =>
      intro q i k' e h
      cases h with
      | cons h1 h2 h3 =>
        obtain ⟨cost, hg⟩ := hs.new c (by rw [e]; simp)
        rw [h1] at hg
        exact .step (by rw [← h1]; exact (hp.simple e).1) hg h1 (h2.same hs.same) (ih (q ++ [c]) _ _ (by rw [e]; simp) h3)
  have suffix : ∀ c ∈ p, ∃ k', MP x' nodes L cn r c.current k' ∧ ∀ k'', GPath x nodes L cn c.current r k'' → k' ≤ k'' := by
    intro c hcp
    obtain ⟨q, s, e⟩ := List.append_of_mem hcp
    have hgp := hp.gp
    rw [e] at hgp
    obtain ⟨k1, k2, w, g1, g2, g3, g4⟩ := hgp.split
    refine ⟨w + k2, claimA (c :: s) q _ _ e (.cons rfl g2 g3), fun k'' hk => ?_⟩
    have := hmin _ (g1.gpath.trans hk)
    omega
  have claimB : ∀ l k0, MP x nodes L cn r l k0 → ∃ k1, k1 ≤ k0 ∧ MP x' nodes L cn r l k1 := by
    intro l k0 h
    induction h with
    | nil => exact ⟨0, le_refl _, .nil⟩
    | @step l cost c w k h1 h2 h3 h4 h5 ih =>
      by_cases hin : ∃ d ∈ p, d.current = l
      · obtain ⟨d, hd, rfl⟩ := hin
        obtain ⟨k', g1, g2⟩ := suffix d hd
        exact ⟨k', g2 _ (.cons h3 h4 h5.gpath), g1⟩
      · obtain ⟨k1, g1, g2⟩ := ih
        refine ⟨w + k1, by omega, .step (cost := cost) h1 ?_ h3 (h4.same hs.same) g2⟩
        rw [hs.old l r (.inr ⟨h1, fun d hd e => hin ⟨d, hd, e⟩⟩)]
        exact h2
  intro l r' cost nx hg hne hl hr' hlr
  by_cases hr : r' = r
  · subst hr
    by_cases hin : ∃ d ∈ p, d.current = l
    · obtain ⟨d, hd, rfl⟩ := hin
      obtain ⟨k', g1, g2⟩ := suffix d hd
      exact ⟨k', g1, .inl (g2 _ (tree_gpath hf hc hl hr' hlr))⟩
    · rw [hs.old l r' (.inr ⟨hne, fun d hd e => hin ⟨d, hd, e⟩⟩)] at hg
      obtain ⟨k0, g1, g2⟩ := hm l r' cost nx hg hne hl hr' hlr
      obtain ⟨k1, g3, g4⟩ := claimB l k0 g1
      refine ⟨k1, g4, ?_⟩
      rcases g2 with g2 | ⟨g2, g5⟩
      · exact .inl (by omega)
      · exact .inr ⟨g2, g5.same hs.same⟩
  · rw [hs.old l r' (.inl hr)] at hg
    obtain ⟨k0, g1, g2⟩ := hm l r' cost nx hg hne hl hr' hlr
    refine ⟨k0, ?_, ?_⟩
    · clear g2 hg hne hl hlr
      induction g1 with
      | nil => exact .nil
      | step h1 h2 h3 h4 _ ih => exact .step h1 (by rw [hs.old _ r' (.inl hr)]; exact h2) h3 (h4.same hs.same) ih
    · rcases g2 with g2 | ⟨g2, g5⟩
      · exact .inl g2
      · exact .inr ⟨g2, g5.same hs.same⟩

end Explain
end Egg
