import Verif.Model.Checks
import Verif.Props.Rebuild
/-
C54: the self-checks of debug builds never fail, and what they check.
-/
namespace Egg
variable {Op D : Type} [DecidableEq Op] [Lang Op]
namespace EGraph

theorem assertThat_ok {b : Bool} {u : Unit} : assertThat b = .ok u ↔ b = true := by
  cases b <;> simp [assertThat]

/-- Entries of the map under construction: the e-node is found by a lookup, in the recorded class. -/
def EntryOK (eg : EGraph Op D) (n : ENode Op) (e : Id) : Prop :=
  eg.find e = .ok e ∧ ∃ i, eg.memo.get? n = some i ∧ eg.find i = .ok e

theorem mem_of_insert {K V : Type} [DecidableEq K] {m : AMap K V} {k k' : K} {v v' : V}
    (h : (k', v') ∈ m.insert k v) : (k', v') = (k, v) ∨ (k', v') ∈ m := by
  induction m with
  | nil => simpa [AMap.insert] using h
  | cons a m ih =>
    obtain ⟨k1, v1⟩ := a
    simp only [AMap.insert] at h
    split at h
    · rcases List.mem_cons.1 h with h | h
      · exact Or.inl h
      · exact Or.inr (List.mem_cons_of_mem _ h)
    · rcases List.mem_cons.1 h with h | h
      · exact Or.inr (by simp [h])
      · rcases ih h with h | h
        · exact Or.inl h
        · exact Or.inr (List.mem_cons_of_mem _ h)

theorem checkMemoNodes_ok {eg : EGraph Op D} {id : Id} : ∀ {ns : List (ENode Op)} {tm : AMap (ENode Op) Id},
    (∀ n ∈ ns, EntryOK eg n id) → (∀ n e, (n, e) ∈ tm → EntryOK eg n e) →
    ∃ tm', checkMemoNodes eg id ns tm = .ok tm' ∧ ∀ n e, (n, e) ∈ tm' → EntryOK eg n e
  | [], tm, _, ht => ⟨tm, rfl, ht⟩
  | n :: ns, tm, hn, ht => by
    have h0 := hn n List.mem_cons_self
    obtain ⟨tm', h1, h2⟩ := checkMemoNodes_ok (tm := tm.insert n id)
      (fun m hm => hn m (List.mem_cons_of_mem _ hm))
      (fun m e hm => by
        rcases mem_of_insert hm with h | h
        · cases h; exact h0
        · exact ht m e h)
    refine ⟨tm', ?_, h2⟩
    simp only [checkMemoNodes]
    cases hg : AMap.get? tm n with
    | none => exact h1
    | some old =>
      obtain ⟨ha, i, hb, hc⟩ := ht n old (AMap.mem_of_get? hg)
      obtain ⟨ha', i', hb', hc'⟩ := h0
      rw [hb] at hb'; cases hb'
      rw [hc] at hc'; cases hc'
      simp only [checkOld, ha, ok_bind, beq_self_eq_true, assertThat]
      exact h1

theorem checkMemoClasses_ok {eg : EGraph Op D} : ∀ {l : List (Id × EClass Op D)} {tm : AMap (ENode Op) Id},
    (∀ c k, (c, k) ∈ l → k.id = c ∧ ∀ n ∈ k.nodes, EntryOK eg n c) → (∀ n e, (n, e) ∈ tm → EntryOK eg n e) →
    ∃ tm', checkMemoClasses eg l tm = .ok tm' ∧ ∀ n e, (n, e) ∈ tm' → EntryOK eg n e
  | [], tm, _, ht => ⟨tm, rfl, ht⟩
  | (c, k) :: l, tm, hl, ht => by
    obtain ⟨h0, h0'⟩ := hl c k List.mem_cons_self
    obtain ⟨tm1, h1, h1'⟩ := checkMemoNodes_ok h0' ht
    obtain ⟨tm2, h2, h2'⟩ := checkMemoClasses_ok (l := l) (tm := tm1)
      (fun c k h => hl c k (List.mem_cons_of_mem _ h)) h1'
    refine ⟨tm2, ?_, h2'⟩
    simp only [checkMemoClasses, h0, beq_self_eq_true, assertThat]
    show (checkMemoNodes eg c k.nodes tm >>= fun tm => checkMemoClasses eg l tm) = _
    rw [h1]
    exact h2

theorem checkMemoEntries_ok {eg : EGraph Op D} : ∀ {l : List (ENode Op × Id)},
    (∀ n e, (n, e) ∈ l → EntryOK eg n e) → checkMemoEntries eg l = .ok ()
  | [], _ => rfl
  | (n, e) :: l, h => by
    obtain ⟨h1, i, h2, h3⟩ := h n e List.mem_cons_self
    simp only [checkMemoEntries, checkEntry, h1, h2, h3, ok_bind, beq_self_eq_true, assertThat]
    exact checkMemoEntries_ok (fun n e hm => h n e (List.mem_cons_of_mem _ hm))

/-! What a passed check says. -/

theorem get?_insert_ne {K V : Type} [DecidableEq K] (m : AMap K V) (k q : K) (v : V) (h : k ≠ q) :
    (m.insert k v).get? q = m.get? q := by
  rw [AMap.get?_insert]; simp [h]

theorem checkMemoNodes_spec {eg : EGraph Op D} {id : Id} : ∀ {ns : List (ENode Op)} {tm tm' : AMap (ENode Op) Id},
    checkMemoNodes eg id ns tm = .ok tm' →
    (∀ n e r, tm.get? n = some e → eg.find e = .ok r → ∃ e', tm'.get? n = some e' ∧ eg.find e' = .ok r) ∧
    (∀ n ∈ ns, tm'.get? n = some id)
  | [], tm, tm', h => by
    cases h
    exact ⟨fun n e r h1 h2 => ⟨e, h1, h2⟩, fun n hn => by cases hn⟩
  | n :: ns, tm, tm', h => by
    simp only [checkMemoNodes] at h
    rw [bind_eq_ok] at h
    obtain ⟨_, h1, h2⟩ := h
    obtain ⟨h3, h4⟩ := checkMemoNodes_spec h2
    have key : ∀ (ns : List (ENode Op)) (tm tm' : AMap (ENode Op) Id), checkMemoNodes eg id ns tm = .ok tm' →
        tm.get? n = some id → tm'.get? n = some id := by
      intro ns
      induction ns with
      | nil => intro tm tm' h hg; cases h; exact hg
      | cons m ns ih =>
        intro tm tm' h hg
        simp only [checkMemoNodes] at h
        rw [bind_eq_ok] at h
        obtain ⟨_, _, h⟩ := h
        refine ih _ _ h ?_
        rw [AMap.get?_insert]
        split
        · rfl
        · exact hg
    refine ⟨fun m e r hm hr => ?_, fun m hm => ?_⟩
    · by_cases hmn : n = m
      · subst hmn
        rw [hm] at h1
        simp only [checkOld] at h1
        rw [bind_eq_ok] at h1
        obtain ⟨a, ha, h1⟩ := h1
        rw [bind_eq_ok] at h1
        obtain ⟨b, hb, h1⟩ := h1
        rw [assertThat_ok] at h1
        rw [hr] at ha; cases ha
        have := eq_of_beq h1
        subst this
        exact h3 n id _ (by rw [AMap.get?_insert]; simp) hb
      · exact h3 m e r (by rw [get?_insert_ne _ _ _ _ hmn]; exact hm) hr
    · rcases List.mem_cons.1 hm with rfl | hm
      · exact key _ _ _ h2 (by rw [AMap.get?_insert]; simp)
      · exact h4 m hm

theorem checkMemoClasses_spec {eg : EGraph Op D} : ∀ {l : List (Id × EClass Op D)} {tm tm' : AMap (ENode Op) Id},
    checkMemoClasses eg l tm = .ok tm' →
    (∀ n e r, tm.get? n = some e → eg.find e = .ok r → ∃ e', tm'.get? n = some e' ∧ eg.find e' = .ok r) ∧
    (∀ c k, (c, k) ∈ l → k.id = c ∧ ∀ n ∈ k.nodes, ∀ r, eg.find c = .ok r →
      ∃ e', tm'.get? n = some e' ∧ eg.find e' = .ok r)
  | [], tm, tm', h => by
    cases h
    exact ⟨fun n e r h1 h2 => ⟨e, h1, h2⟩, fun n k hn => by cases hn⟩
  | (c, k) :: l, tm, tm', h => by
    simp only [checkMemoClasses] at h
    rw [bind_eq_ok] at h
    obtain ⟨_, h0, h⟩ := h
    rw [bind_eq_ok] at h
    obtain ⟨tm1, h1, h2⟩ := h
    obtain ⟨a1, a2⟩ := checkMemoNodes_spec h1
    obtain ⟨b1, b2⟩ := checkMemoClasses_spec h2
    refine ⟨fun n e r he hr => ?_, fun c' k' hm => ?_⟩
    · obtain ⟨e', h3, h4⟩ := a1 n e r he hr
      exact b1 n e' r h3 h4
    · rcases List.mem_cons.1 hm with hm | hm
      · cases hm
        rw [assertThat_ok] at h0
        exact ⟨eq_of_beq h0, fun n hn r hr => b1 n c r (a2 n hn) hr⟩
      · exact b2 c' k' hm

theorem checkMemoEntries_spec {eg : EGraph Op D} : ∀ {l : List (ENode Op × Id)} {u : Unit},
    checkMemoEntries eg l = .ok u → ∀ n e, (n, e) ∈ l → EntryOK eg n e
  | [], _, _, n, e, hm => by cases hm
  | (n, e) :: l, u, h, m, e', hm => by
    simp only [checkMemoEntries] at h
    rw [bind_eq_ok] at h
    obtain ⟨r, h1, h⟩ := h
    rw [bind_eq_ok] at h
    obtain ⟨_, h2, h⟩ := h
    rw [assertThat_ok] at h2
    have h2 := eq_of_beq h2
    subst h2
    rw [bind_eq_ok] at h
    obtain ⟨u2, h3, h⟩ := h
    rcases List.mem_cons.1 hm with hm | hm
    · cases hm
      refine ⟨h1, ?_⟩
      cases hg : eg.memo.get? n with
      | none => rw [hg] at h3; cases h3
      | some i =>
        rw [hg] at h3
        simp only [checkEntry] at h3
        rw [bind_eq_ok] at h3
        obtain ⟨j, h4, h5⟩ := h3
        rw [assertThat_ok] at h5
        have h5 := eq_of_beq h5
        subst h5
        exact ⟨i, rfl, h4⟩
    · exact checkMemoEntries_spec h m e' hm

end EGraph

/-- On an e-graph that is not in need of a rebuild, every listed e-node is found in its class. -/
theorem entryOK_of_rebuilt {A : UserAnalysis Op D} {depth : Nat} {allow : Caller Op D}
    {U : List (UnionRec Op)} {eg : EGraph Op D} (h : Hist (A.at depth) allow U eg) (hr : Rebuilt eg)
    {c : Id} {k : EClass Op D} (hk : eg.classes.get? c = some k) {n : ENode Op} (hn : n ∈ k.nodes) :
    EGraph.EntryOK eg n c := by
  have hg := hist_good h
  have hlt : ∀ x ∈ n.children, x < eg.nodes.length := fun x hx =>
    (hg.inv.find_iff.1 (hr.canon c k hk n hn x hx)).1
  have hfix : n.mapChildren eg.rt = n := by
    obtain ⟨op, cs⟩ := n
    simp only [ENode.mapChildren]
    congr 1
    conv_rhs => rw [← List.map_id cs]
    exact List.map_congr_left (fun x hx => (hg.inv.find_iff.1 (hr.canon c k hk _ hn x hx)).2)
  obtain ⟨o, h1, _, h3⟩ := EGraph.lookup_ok hg.inv hlt
  have h4 := h3 hr.pending c k n hk hn ⟨rfl, rfl⟩
  subst h4
  refine ⟨hr.keys c k hk, ?_⟩
  unfold EGraph.lookup EGraph.lookupInternal at h1
  rw [hg.inv.canon hlt, hfix] at h1
  simp only [ok_bind] at h1
  cases hm : eg.memo.get? n with
  | none =>
    rw [hm] at h1
    cases h1
  | some i =>
    rw [hm] at h1
    change (do return some (← eg.find i)) = Except.ok (some c) at h1
    rw [bind_eq_ok] at h1
    obtain ⟨j, h5, h6⟩ := h1
    cases h6
    exact ⟨i, rfl, h5⟩

/-- **C54, never fails.**  In every state of every history in which the e-graph is not in need of a
rebuild, the self-check of debug builds passes, in whatever order the maps are iterated; and no class
is listed twice under an operator. -/
theorem c54_self_check {A : UserAnalysis Op D} {depth : Nat} {allow : Caller Op D}
    {U : List (UnionRec Op)} {eg : EGraph Op D} (h : Hist (A.at depth) allow U eg) (hc : eg.clean = true)
    {order : List (Id × EClass Op D)} (ho : order.Perm eg.classes)
    {order2 : List (ENode Op × Id) → List (ENode Op × Id)} (ho2 : ∀ l, (order2 l).Perm l) :
    EGraph.checkMemo eg order order2 = .ok () := by
  have hr := c47_clean_means_rebuilt h hc
  have hg := hist_good h
  obtain ⟨tm, h1, h2⟩ := EGraph.checkMemoClasses_ok (eg := eg) (l := order) (tm := [])
    (fun c k hm => by
      have hk := AMap.get?_of_mem hg.inv.clsNodup (ho.mem_iff.1 hm)
      exact ⟨hg.inv.core.clsId c _ (EGraph.sk_eq hk), fun n hn => entryOK_of_rebuilt h hr hk hn⟩)
    (fun n e hm => by cases hm)
  unfold EGraph.checkMemo
  rw [h1]
  exact EGraph.checkMemoEntries_ok (fun n e hm => h2 n e ((ho2 tm).mem_iff.1 hm))

/-- **C54, after a rebuild.**  The self-checks at the end of `rebuild` pass after every history, so a
debug build of `rebuild` does not panic where a release build returns. -/
theorem c54_rebuild_checks {A : UserAnalysis Op D} {depth fuel : Nat} {allow : Caller Op D}
    {U : List (UnionRec Op)} {eg eg' : EGraph Op D} (h : Hist (A.at depth) allow U eg) {n : Nat}
    (hr : EGraph.rebuild (A.at depth) fuel eg = .ok (eg', n))
    {order : List (Id × EClass Op D)} (ho : order.Perm eg'.classes)
    {order2 : List (ENode Op × Id) → List (ENode Op × Id)} (ho2 : ∀ l, (order2 l).Perm l) :
    EGraph.checkMemo eg' order order2 = .ok () ∧ EGraph.checkIndex eg' = .ok () := by
  have h' : Hist (A.at depth) allow U eg' := Steps.tail (V := []) h (.rebuild hr)
  have hc : eg'.clean = true := by
    unfold EGraph.rebuild at hr
    rw [bind_eq_ok] at hr
    obtain ⟨p, _, hr⟩ := hr
    rw [bind_eq_ok] at hr
    obtain ⟨q, _, hr⟩ := hr
    cases hr
    rfl
  refine ⟨c54_self_check h' hc ho ho2, ?_⟩
  have hb := c47_clean_means_rebuilt h' hc
  rw [EGraph.checkIndex, EGraph.assertThat_ok, List.all_eq_true]
  intro d _
  cases hd : eg'.classesForOp d with
  | none => rfl
  | some l => simpa using hb.indexNodup d l hd

/-- **C54, what it checks.**  If the check passes, every e-node listed in a class is found by the
hashcons, in that class; so an e-node is never listed in two classes. -/
theorem c54_check_means {eg : EGraph Op D} {order : List (Id × EClass Op D)} (ho : order.Perm eg.classes)
    {order2 : List (ENode Op × Id) → List (ENode Op × Id)} (ho2 : ∀ l, (order2 l).Perm l)
    (hc : EGraph.checkMemo eg order order2 = .ok ()) {c : Id} {k : EClass Op D} (hk : (c, k) ∈ eg.classes) :
    k.id = c ∧ ∀ n ∈ k.nodes, ∀ r, eg.find c = .ok r → ∃ i, eg.memo.get? n = some i ∧ eg.find i = .ok r := by
  unfold EGraph.checkMemo at hc
  rw [bind_eq_ok] at hc
  obtain ⟨tm, h1, h2⟩ := hc
  obtain ⟨_, h3⟩ := EGraph.checkMemoClasses_spec h1
  obtain ⟨h4, h5⟩ := h3 c k (ho.mem_iff.2 hk)
  refine ⟨h4, fun n hn r hr => ?_⟩
  obtain ⟨e, h6, h7⟩ := h5 n hn r hr
  obtain ⟨h8, i, h9, h10⟩ := EGraph.checkMemoEntries_spec h2 n e ((ho2 tm).mem_iff.2 (AMap.mem_of_get? h6))
  rw [h8] at h7; cases h7
  exact ⟨i, h9, h10⟩

/-- The rebuilt e-graph of f(a), f(b), a = b passes, before the rebuild two nodes collide after
canonicalization only; an e-graph whose hashcons misses an entry is rejected. -/
example : Hist (Ex.U0.at 1) .all [Ex.un] Ex.e6 ∧ Ex.e6.clean = true ∧
    EGraph.checkMemo Ex.e6 Ex.e6.classes.reverse List.reverse = .ok () ∧ EGraph.checkIndex Ex.e6 = .ok () ∧
    EGraph.checkMemo { Ex.e6 with memo := Ex.e6.memo.drop 1 } Ex.e6.classes id = .error .panic ∧
    (∃ k, (0, k) ∈ Ex.e6.classes ∧ k.nodes.length = 2) :=
  ⟨Ex.hist6 _, rfl, rfl, rfl, rfl, _, List.mem_cons_self, rfl⟩

end Egg
