import Verif.Lemmas.ThinSearch
/-
While the `clean` flag is set, the e-nodes left in the classes are sorted and the index of operators
lists them, whatever has been pruned.
-/
namespace Egg
variable {Op D : Type} [DecidableEq Op] [Lang Op]
namespace EGraph
variable {eg eg' : EGraph Op D} {N : Analysis Op D}

/-- What searching needs: the e-nodes of a class are sorted, and the index lists the class under the operator of each. -/
structure InOrder (eg : EGraph Op D) : Prop where
  sorted : ∀ c k, eg.classes.get? c = some k → k.nodes.Pairwise (fun x y => Lang.le x y = true ∧ x ≠ y)
  index : ∀ c k, eg.classes.get? c = some k → ∀ n ∈ k.nodes, ∃ ids, eg.byOp.get? (Lang.disc n.op) = some ids ∧ k.id ∈ ids

/-- The flag is not set, and if it stays set the order is kept. -/
def KeepsOrder (eg eg' : EGraph Op D) : Prop := eg'.clean = true → eg.clean = true ∧ (InOrder eg → InOrder eg')

theorem KeepsOrder.rfl' : KeepsOrder eg eg := fun h => ⟨h, fun h => h⟩

theorem KeepsOrder.trans {eg'' : EGraph Op D} (h : KeepsOrder eg eg') (h' : KeepsOrder eg' eg'') : KeepsOrder eg eg'' := fun hc =>
  ⟨(h (h' hc).1).1, fun hi => (h' hc).2 ((h (h' hc).1).2 hi)⟩

theorem KeepsOrder.dirty (h : eg'.clean = false) : KeepsOrder eg eg' := fun hc => by rw [h] at hc; cases hc

/-- Sublists of the e-nodes stay in order. -/
theorem InOrder.sub (h : InOrder eg) (h2 : eg'.byOp = eg.byOp)
    (h3 : ∀ c k, eg'.classes.get? c = some k → ∃ k0, eg.classes.get? c = some k0 ∧ k.id = k0.id ∧ k.nodes.Sublist k0.nodes) : InOrder eg' := by
  constructor
  · intro c k hk
    obtain ⟨k0, g1, -, g2⟩ := h3 c k hk
    exact (h.sorted c k0 g1).sublist g2
  · intro c k hk n hn
    obtain ⟨k0, g1, e, g2⟩ := h3 c k hk
    rw [h2, e]
    exact h.index c k0 g1 n (g2.subset hn)

theorem KeepsOrder.sub (h1 : eg'.clean = eg.clean) (h2 : eg'.byOp = eg.byOp)
    (h3 : ∀ c k, eg'.classes.get? c = some k → ∃ k0, eg.classes.get? c = some k0 ∧ k.id = k0.id ∧ k.nodes.Sublist k0.nodes) : KeepsOrder eg eg' :=
  fun hc => ⟨by rw [← h1]; exact hc, fun hi => hi.sub h2 h3⟩

theorem KeepsOrder.frame (h1 : eg'.clean = eg.clean) (h2 : eg'.byOp = eg.byOp) (h3 : eg'.classes = eg.classes) : KeepsOrder eg eg' :=
  .sub h1 h2 (fun c k hk => ⟨k, by rw [← h3]; exact hk, rfl, .refl _⟩)

/-- The hook of the analysis keeps the order. -/
def OrderlyHook (N : Analysis Op D) : Prop := ∀ eg i eg', N.modify eg i = .ok eg' → KeepsOrder eg eg'

theorem OrderlyHook.mono (h : OrderlyHook N) : CleanMono N := fun eg i eg' hm hc => (h eg i eg' hm hc).1

theorem insert_sub {r : Id} {k k' : EClass Op D} (hk : eg.classes.get? r = some k) (e : k'.id = k.id) (hs : k'.nodes.Sublist k.nodes) :
    ∀ c x, (eg.classes.insert r k').get? c = some x → ∃ k0, eg.classes.get? c = some k0 ∧ x.id = k0.id ∧ x.nodes.Sublist k0.nodes := by
  intro c x hx
  rw [AMap.get?_insert] at hx
  split at hx
  · next e' => cases hx; exact ⟨k, by rw [← e']; exact hk, e, hs⟩
  · exact ⟨x, hx, rfl, .refl _⟩

theorem retain_order {i : Id} {keep : ENode Op → Bool} (h : eg.retain i keep = .ok eg') : KeepsOrder eg eg' := by
  unfold EGraph.retain at h
  obtain ⟨⟨uf, r⟩, h1, h⟩ := bind_eq_ok.1 h
  obtain ⟨k, h2, h⟩ := bind_eq_ok.1 h
  cases h
  exact .sub rfl rfl (insert_sub (unwrap_eq_ok.1 h2) rfl List.filter_sublist)

theorem setData_order (hN : OrderlyHook N) {i : Id} {d : D} (h : setAnalysisData N eg i d = .ok eg') : KeepsOrder eg eg' := by
  unfold setAnalysisData at h
  obtain ⟨⟨uf, r⟩, h1, h⟩ := bind_eq_ok.1 h
  obtain ⟨k, h2, h⟩ := bind_eq_ok.1 h
  have hk := hN _ _ _ h
  refine KeepsOrder.trans ?_ hk
  exact .sub rfl rfl (insert_sub (unwrap_eq_ok.1 h2) rfl (.refl _))

theorem addUncanonical_order {n : ENode Op} {i : Id} (h : addUncanonical N eg n = .ok (eg', i)) : KeepsOrder eg eg' := by
  unfold addUncanonical at h
  rw [bind_eq_ok] at h
  obtain ⟨m, _, h⟩ := h
  simp only at h
  split at h
  · rw [bind_eq_ok] at h
    obtain ⟨j, _, h⟩ := h
    split at h
    · cases h; exact .rfl'
    · split at h
      · cases h; exact .rfl'
      · iterate 3 (rw [bind_eq_ok] at h; obtain ⟨_, _, h⟩ := h)
        cases h; exact .frame rfl rfl rfl
  · iterate 3 (rw [bind_eq_ok] at h; obtain ⟨_, _, h⟩ := h)
    cases h
    exact .dirty rfl

theorem PruneProg.run_order (hN : OrderlyHook N) : ∀ (q : PruneProg Op D) {eg eg' : EGraph Op D}, q.run N eg = .ok eg' → KeepsOrder eg eg' := by
  intro q
  induction q with
  | done => intro eg eg' h; cases h; exact .rfl'
  | panic => intro eg eg' h; cases h
  | read k ih => intro eg eg' h; exact ih _ h
  | add n k ih =>
    intro eg eg' h
    unfold PruneProg.run at h
    obtain ⟨⟨eg1, i⟩, h1, h⟩ := bind_eq_ok.1 h
    unfold EGraph.add at h1
    obtain ⟨⟨eg2, j⟩, h2, h1⟩ := bind_eq_ok.1 h1
    obtain ⟨r, h3, h1⟩ := bind_eq_ok.1 h1
    cases h1
    exact (addUncanonical_order h2).trans (ih _ h)
  | union a b caller k ih =>
    intro eg eg' h
    unfold PruneProg.run at h
    obtain ⟨⟨eg1, r⟩, h1, h⟩ := bind_eq_ok.1 h
    exact (KeepsOrder.dirty ((union_clean hN.mono).1 h1)).trans (ih _ h)
  | setData i d k ih =>
    intro eg eg' h
    unfold PruneProg.run at h
    obtain ⟨eg1, h1, h⟩ := bind_eq_ok.1 h
    exact (setData_order hN h1).trans (ih h)
  | retain i keep k ih =>
    intro eg eg' h
    unfold PruneProg.run at h
    obtain ⟨eg1, h1, h⟩ := bind_eq_ok.1 h
    exact (retain_order h1).trans (ih h)

theorem orderly_at (A : PruneAnalysis Op D) : ∀ depth, OrderlyHook (A.at depth)
  | 0 => fun eg i eg' h => by cases h
  | depth + 1 => fun eg i eg' h => PruneProg.run_order (orderly_at A depth) _ h

/-! ### Rebuilding -/

theorem restAdds_disc : ∀ (ns : List (ENode Op)) (prev : ENode Op), ∀ n ∈ ns, Lang.disc n.op = Lang.disc prev.op ∨
    ∃ m ∈ restAdds prev ns, Lang.disc m.op = Lang.disc n.op
  | [], _, _, h => by cases h
  | x :: ns, prev, n, h => by
    unfold restAdds
    split
    · next hm =>
      unfold ENode.matches at hm
      simp only [Bool.and_eq_true, decide_eq_true_eq, beq_iff_eq] at hm
      rcases List.mem_cons.1 h with rfl | h
      · exact .inl (by rw [hm.1])
      · exact restAdds_disc ns prev n h
    · rcases List.mem_cons.1 h with rfl | h
      · exact .inr ⟨n, .head _, rfl⟩
      · rcases restAdds_disc ns x n h with e | ⟨m, h1, h2⟩
        · exact .inr ⟨x, .head _, e.symm⟩
        · exact .inr ⟨m, .tail _ h1, h2⟩

theorem classAdds_disc {ns : List (ENode Op)} {n : ENode Op} (h : n ∈ ns) : ∃ m ∈ classAdds ns, Lang.disc m.op = Lang.disc n.op := by
  cases ns with
  | nil => cases h
  | cons x ns =>
    rcases List.mem_cons.1 h with rfl | h
    · exact ⟨n, .head _, rfl⟩
    · rcases restAdds_disc ns x n h with e | ⟨m, h1, h2⟩
      · exact ⟨x, .head _, e.symm⟩
      · exact ⟨m, .tail _ h1, h2⟩

theorem foldl_addIx_keeps {d : Lang.Disc Op} {x : Id} : ∀ (l : List (Id × Lang.Disc Op)) (b : AMap (Lang.Disc Op) (List Id)),
    (∃ ids, b.get? d = some ids ∧ x ∈ ids) ∨ (x, d) ∈ l → ∃ ids, (l.foldl addIx b).get? d = some ids ∧ x ∈ ids
  | [], b, h => by
    rcases h with h | h
    · exact h
    · cases h
  | p :: l, b, h => by
    refine foldl_addIx_keeps l (addIx b p) ?_
    rcases h with ⟨ids, h1, h2⟩ | h
    · left
      unfold addIx
      rw [AMap.get?_insert]
      split
      · next e => exact ⟨_, rfl, mem_setInsert.2 (.inl (by rw [e, h1]; exact h2))⟩
      · exact ⟨ids, h1, h2⟩
    · rcases List.mem_cons.1 h with rfl | h
      · left
        unfold addIx
        rw [AMap.get?_insert, if_pos rfl]
        exact ⟨_, rfl, mem_setInsert.2 (.inr rfl)⟩
      · exact .inr h

theorem rebuildClassesGo_sorted : ∀ (cl : AMap Id (EClass Op D)) (uf : UF) (b : AMap (Lang.Disc Op) (List Id))
    (t : Nat) {uf' : UF} {b' : AMap (Lang.Disc Op) (List Id)} {cl' : AMap Id (EClass Op D)} {t' : Nat},
    rebuildClassesGo uf b cl t = .ok (uf', b', cl', t') →
    ∀ kc ∈ cl', kc.2.nodes.Pairwise (fun x y => Lang.le x y = true ∧ x ≠ y) := by
  intro cl
  induction cl with
  | nil => intro uf b t uf' b' cl' t' h; cases h; simp
  | cons kc cl ih =>
    obtain ⟨key, c⟩ := kc
    intro uf b t uf' b' cl' t' h
    simp only [rebuildClassesGo] at h
    rw [bind_eq_ok] at h
    obtain ⟨⟨uf1, ns⟩, h1, h2⟩ := h
    rw [bind_eq_ok] at h2
    obtain ⟨⟨uf2, b2, rest, t2⟩, h3, h4⟩ := h2
    cases h4
    intro kc hkc
    rcases List.mem_cons.1 hkc with rfl | hkc
    · exact sorted_dedupAdj Lang.le_antisymm (sorted_sortBy Lang.le_total Lang.le_trans _)
    · exact ih _ _ _ h3 kc hkc

theorem rebuild_order {fuel n : Nat} (h : rebuild N fuel eg = .ok (eg', n)) : InOrder eg' := by
  unfold rebuild at h
  obtain ⟨⟨eg1, m⟩, h1, h⟩ := bind_eq_ok.1 h
  obtain ⟨⟨eg2, t⟩, h2, h⟩ := bind_eq_ok.1 h
  cases h
  unfold rebuildClasses at h2
  obtain ⟨⟨uf, b, cl, t'⟩, h3, h2⟩ := bind_eq_ok.1 h2
  cases h2
  constructor
  · intro c k hk
    exact rebuildClassesGo_sorted _ _ _ _ h3 _ (AMap.mem_of_get? hk)
  · intro c k hk n hn
    have hk := AMap.mem_of_get? hk
    show ∃ ids, b.get? _ = some ids ∧ _
    rw [rebuildClassesGo_ix _ _ _ _ h3]
    refine foldl_addIx_keeps _ _ (.inr ?_)
    obtain ⟨m, g1, g2⟩ := classAdds_disc hn
    exact List.mem_flatMap.2 ⟨_, hk, List.mem_map.2 ⟨m, g1, by rw [g2]⟩⟩

end EGraph

open EGraph in
/-- In every state of every history with pruning in which the flag is set. -/
theorem PruneHist.inOrder {K : Op → Nat → Prop} {A : PruneAnalysis Op D} {depth : Nat} {allow : Caller Op D} {U : List (UnionRec Op)}
    {eg : EGraph Op D} (h : PruneHist K (A.at depth) allow U eg) : eg.clean = true → InOrder eg := by
  have hN := orderly_at A depth
  have keep : ∀ {eg eg' : EGraph Op D}, (eg.clean = true → InOrder eg) → KeepsOrder eg eg' → eg'.clean = true → InOrder eg' :=
    fun ih hk hc => (hk hc).2 (ih (hk hc).1)
  induction h with
  | new => intro hc; simp [EGraph.new] at hc
  | tail _ hs ih =>
    cases hs with
    | retain _ hr => exact keep ih (retain_order hr)
    | union _ _ hu => exact keep ih (.dirty ((union_clean hN.mono).1 hu))
    | unionTrusted _ _ hu => exact keep ih (.dirty ((union_clean hN.mono).2 hu))
    | call hs =>
      cases hs with
      | explain he =>
        refine keep ih ?_
        unfold withExplanationsEnabled at he
        split at he
        · cases he; exact .rfl'
        · split at he
          · cases he
          · cases he; exact .frame rfl rfl rfl
      | noOptimize he =>
        refine keep ih ?_
        unfold withoutExplanationLengthOptimization at he
        split at he
        · cases he; exact .frame rfl rfl rfl
        · cases he
      | optimize he =>
        refine keep ih ?_
        unfold withExplanationLengthOptimization at he
        split at he
        · cases he; exact .frame rfl rfl rfl
        · cases he
      | query _ he =>
        refine keep ih ?_
        unfold explainIdEquivalence at he
        obtain ⟨l, hl, he⟩ := bind_eq_ok.1 he
        obtain ⟨r, hr, he⟩ := bind_eq_ok.1 he
        split at he
        · cases he
        split at he
        · cases he
        · obtain ⟨⟨x, y⟩, hx, he⟩ := bind_eq_ok.1 he
          cases he
          exact .frame rfl rfl rfl
      | add ha => exact keep ih (addUncanonical_order ha)
      | union _ _ hu => exact keep ih (.dirty ((union_clean hN.mono).1 hu))
      | unionTrusted _ _ hu => exact keep ih (.dirty ((union_clean hN.mono).2 hu))
      | setData _ hd => exact keep ih (setData_order hN hd)
      | rebuild hr => exact fun _ => rebuild_order hr
      | restore => exact fun hc => by cases hc
      | disable _ => exact keep ih (.frame rfl rfl rfl)

end Egg
