import Verif.Props.Match
import Verif.Lemmas.Run
/-
C61: writing an e-graph with `serde` and reading it back.
-/
namespace Egg
variable {Op D : Type} [DecidableEq Op] [Lang Op]

/-- **C61, reading back.**  An e-graph read back is one a history reaches, with the same unions; it
represents the same terms in the same classes, and gives the same answers to `find`, `lookup`,
`egraph[id]` and `id_to_node`.  (So every theorem about histories holds of it, and of what is done to it
afterwards.)  It is not clean, so that searching it panics until it is rebuilt. -/
theorem c61_restored {A : UserAnalysis Op D} {depth : Nat} {allow : Caller Op D} {U : List (UnionRec Op)}
    {eg : EGraph Op D} (h : Hist (A.at depth) allow U eg) :
    Hist (A.at depth) allow U eg.restored ∧
    (∀ i, eg.restored.find i = eg.find i) ∧
    (∀ n, eg.restored.lookup n = eg.lookup n) ∧
    (∀ i, eg.restored.index i = eg.index i) ∧
    (∀ i, eg.restored.idToNode i = eg.idToNode i) ∧
    (∀ i t, Rep eg.restored i t ↔ Rep eg i t) ∧
    (∀ i j, SameClass eg.restored i j ↔ SameClass eg i j) ∧
    (eg.explain.isSome = eg.restored.explain.isSome) ∧
    ∀ (p : Pattern Op) (N : Analysis Op D) (ord : IterOrd) (c limit : Nat),
      p.searchEclassWithLimit N eg.restored ord c limit = .error .panic := by
  refine ⟨?_, fun _ => rfl, fun _ => rfl, fun _ => rfl, fun _ => rfl, ?_, fun _ _ => Iff.rfl, ?_,
    fun p N ord c limit => c47_search_dirty_panics rfl N c limit⟩
  · exact Steps.tail (V := []) h .restore
  · exact fun i t => ⟨EGraph.rep_frame (by rfl) (by rfl) t, EGraph.rep_frame (by rfl) (by rfl) t⟩
  · unfold EGraph.restored; cases eg.explain <;> rfl

/-- Patterns match alike in two e-graphs with equal classes and finds. -/
theorem pmatch_same {eg eg' : EGraph Op D} (hf : ∀ i, eg'.find i = eg.find i) (hx : ∀ i, eg'.index i = eg.index i)
    {σ : Var → Option Id} {c : Id} {p : Term (PatOp Op)} (h : PMatch eg σ c p) : PMatch eg' σ c p := by
  induction h with
  | var h1 h2 =>
    refine .var h1 ?_
    obtain ⟨r, h3, h4⟩ := h2
    exact ⟨r, by rw [hf]; exact h3, by rw [hf]; exact h4⟩
  | node h1 h2 h3 _ ih => exact .node (by rw [hx]; exact h1) h2 h3 ih

/-- **C61, rebuilding what was read back.**  When the e-graph was written after a rebuild, rebuilding what
was read back succeeds, performs no union, and gives back the e-graph: the same classes with the same
e-nodes and data, the same finds and lookups, the same classes for every operator; and a search of it that
is not cut off by its limit reports every match found before writing. -/
theorem c61_rebuild {A : UserAnalysis Op D} {depth : Nat} {allow : Caller Op D} {U : List (UnionRec Op)}
    {eg0 eg : EGraph Op D} {fuel k : Nat} (h0 : Hist (A.at depth) allow U eg0)
    (hr : EGraph.rebuild (A.at depth) fuel eg0 = .ok (eg, k)) (fuel' : Nat) :
    ∃ eg', EGraph.rebuild (A.at depth) (fuel' + 1) eg.restored = .ok (eg', 0) ∧
      Hist (A.at depth) allow U eg' ∧ eg'.clean = true ∧
      eg'.classes = eg.classes ∧ eg'.nodes = eg.nodes ∧
      (∀ i, eg'.find i = eg.find i) ∧ (∀ n, eg'.lookup n = eg.lookup n) ∧ (∀ i, eg'.index i = eg.index i) ∧
      (∀ d x, (∃ l, eg'.classesForOp d = some l ∧ x ∈ l) ↔ ∃ l, eg.classesForOp d = some l ∧ x ∈ l) ∧
      ∀ (p : Pattern Op) (t : Term (PatOp Op)) (ord ord' : IterOrd) (limit : Nat) (ms : List (SearchMatches Op)),
        DiscContiguous Op → (A.at depth).allowCycles = true → IsPattern p t → ord.OK eg → ord'.OK eg' →
        p.searchWithLimit (A.at depth) eg ord limit = .ok ms →
        ∃ l0, ∀ limit', l0 ≤ limit' → ∃ ms', p.searchWithLimit (A.at depth) eg' ord' limit' = .ok ms' ∧
          ∀ c s, (c, s) ∈ flat ms → ∃ s', (c, s') ∈ flat ms' ∧ ∀ v, Occurs v t → s'.get v = s.get v := by
  obtain ⟨hg, ht⟩ := rebuilt_tidy h0 hr
  have hh : Hist (A.at depth) allow U eg := Steps.tail (V := []) h0 (.rebuild hr)
  have hcl0 : eg.clean = true := EGraph.rebuild_clean hr
  have hh' : Hist (A.at depth) allow U eg.restored := (c61_restored hh).1
  have hg' := (EGraph.restored_good hg).1
  obtain ⟨uf, b, t', q1, q2, q3, q4⟩ := EGraph.rebuildClasses_ok hg'.inv
  have hcl : eg.restored.classes.map (fun kc => (kc.1, EGraph.tidyCls eg.restored.rt kc.2)) = eg.classes := by
    show eg.classes.map (fun kc => (kc.1, EGraph.tidyCls eg.rt kc.2)) = eg.classes
    conv_rhs => rw [← List.map_id eg.classes]
    apply List.map_congr_left
    rintro ⟨c, k⟩ hck
    have hk := AMap.get?_of_mem hg.inv.clsNodup hck
    simp only [EGraph.tidyCls, EGraph.tidy_of_tidy (ht.canon c k hk) (ht.sorted c k hk), id]
  rw [hcl] at q1
  have q2 : UF.Same eg.uf uf := q2
  have hf : ∀ i, UF.find uf i = UF.find eg.uf i := by
    intro i
    by_cases hi : i < eg.uf.length
    · rw [UF.find_eq_ok hg.inv.wf hi, UF.find_eq_ok q2.wf (by rw [q2.len]; exact hi), q2.root]
    · rw [UF.find_error_of_ge hi, UF.find_error_of_ge (by rw [q2.len]; exact hi)]
  have hreb : EGraph.rebuild (A.at depth) (fuel' + 1) eg.restored =
      .ok ({ eg.restored with uf := uf, byOp := b, classes := eg.classes, clean := true }, 0) := by
    unfold EGraph.rebuild EGraph.processUnions
    have hp : eg.restored.pending = [] := ht.pending
    have ha : eg.restored.apending.queue = [] := ht.apending
    have hc : (eg.restored.pending.isEmpty && eg.restored.apending.isEmpty) = true := by
      simp [hp, UniqueQueue.isEmpty, ha]
    rw [if_pos hc, ok_bind]
    dsimp only
    rw [q1]
    rfl
  have hx : ∀ i, ({ eg.restored with uf := uf, byOp := b, classes := eg.classes, clean := true } : EGraph Op D).index i
      = eg.index i := by
    intro i
    unfold EGraph.index EGraph.find
    simp only [hf]
  have hh2 : Hist (A.at depth) allow U
      { eg.restored with uf := uf, byOp := b, classes := eg.classes, clean := true } := by
    exact Steps.tail (V := []) hh' (.rebuild hreb)
  refine ⟨_, hreb, hh2, rfl, rfl, rfl, hf, ?_, hx, ?_, ?_⟩
  · intro n
    have : ({ eg.restored with uf := uf, byOp := b, classes := eg.classes, clean := true } : EGraph Op D).find =
        eg.find := funext hf
    simp only [EGraph.lookup, EGraph.lookupInternal, EGraph.canon, this]
    rfl
  · intro d x
    exact (q4 d x).trans (ht.index d x).symm
  · intro p t ord ord' limit ms hd hcyc hp ho ho' hm
    obtain ⟨l0, hl⟩ := c18_search_complete hh2 rfl hd ho' hp hcyc
    refine ⟨l0, fun limit' hlim => ?_⟩
    obtain ⟨ms', k1, k2⟩ := hl limit' hlim
    refine ⟨ms', k1, fun c s hcs => ?_⟩
    obtain ⟨f1, f2, f3, f4, -⟩ := c17_search_sound hh hcl0 hd ho hp hm c s hcs
    obtain ⟨r, s', g1, g2, g3⟩ := k2 s.get c (pmatch_same (eg := eg) (eg' := { eg.restored with uf := uf, byOp := b, classes := eg.classes, clean := true })
      hf hx f4)
    have : r = c := by
      have e1 : EGraph.find eg c = .ok r := by have := hf c; rw [show EGraph.find eg c = UF.find eg.uf c from rfl, ← this]; exact g1
      rw [f1] at e1; cases e1; rfl
    subst this
    refine ⟨s', g2, fun v hv => ?_⟩
    obtain ⟨x, y, z1, z2, z3⟩ := g3 v hv
    have e1 : EGraph.find eg x = .ok y := by have := hf x; rw [show EGraph.find eg x = UF.find eg.uf x from rfl, ← this]; exact z2
    rw [f3 v x z1] at e1; cases e1
    rw [z3, z1]

/-- The rebuilt example e-graph, written and read back: two classes, one found under `f`, and after the rebuild
a search finds `f ?x`. -/
example : Hist (Ex.U0.at 1) .noSet [Ex.un] Ex.e5 ∧
    EGraph.rebuild (Ex.U0.at 1) 20 Ex.e5 = .ok (Ex.e6, 1) ∧ (Ex.U0.at 1).allowCycles = true ∧
    Ex.e6.restored.classesForOp .f = none ∧
    ∃ eg', EGraph.rebuild (Ex.U0.at 1) 1 Ex.e6.restored = .ok (eg', 0) ∧ eg'.classes.length = 2 ∧
      eg'.classesForOp .f = some [2] := ⟨Ex.hist5 _, rfl, rfl, rfl, _, rfl, rfl, rfl⟩

end Egg
