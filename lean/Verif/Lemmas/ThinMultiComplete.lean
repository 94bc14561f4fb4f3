import Verif.Lemmas.ThinComplete
import Verif.Lemmas.ThinMulti
/-
Searching an e-graph with missing e-nodes for a multi-pattern finds what the e-nodes left give.
-/
namespace Egg
variable {Op D : Type} [DecidableEq Op] [Lang Op] {C : Cfg Op D} {eg g : EGraph Op D} {order order' : List Id}


theorem index_same {x y : Id} (h : SameClass eg x y) : eg.index x = eg.index y := by
  obtain ⟨r, h1, h2⟩ := h
  unfold EGraph.index
  rw [h1, h2]


theorem PMatch.same {σ : Var → Option Id} {x y : Id} {t : Term (PatOp Op)} (hm : PMatch eg σ x t) (h : SameClass eg x y) : PMatch eg σ y t := by
  cases hm with
  | var h1 h2 => exact .var h1 (h2.trans h)
  | node h1 h2 h3 h4 => exact .node (by rw [← index_same h]; exact h1) h2 h3 h4

namespace Compiler
variable {p : PatternAst Op}

/-- Compiling the first of several patterns loses no match. -/
theorem compile_first_thin {ord : Compiler Op → List (Id × Nat)} (ho : OrdOK ord) (hth : Thinner eg g) (h : EGraph.Inv C g) (hr : Rebuilt g)
    (hio : EGraph.InOrder eg) (hdc : DiscContiguous Op) (hd : Dag p) (hv : VarLeaf p) {t : Term (PatOp Op)} (ht : ExprTerm p t) {f : Nat}
    {v : Var} {c' : Compiler Op} (hc' : Compiler.new.compile ord f (some v) p = .ok c') {σ : Var → Option Id} {c0 x : Id} (hm : PMatch eg σ c0 t)
    (hx : σ v = some x) (hxc : SameClass eg x c0) :
    ∃ R, Sols eg order [] c' c'.nextReg σ c0 R := by
  have hpl : 0 < p.length := List.length_pos_iff.2 ht.1
  unfold compile at hc'
  obtain ⟨free, size, e1, htab⟩ := load_spec (c := Compiler.new) hd hv
  rw [e1] at hc'
  simp only [ok_bind, root_eq ht.1] at hc'
  generalize hcc : ({ Compiler.new with freeVars := free, subtreeSize := size } : Compiler Op) = c0' at hc'
  have hi : c0'.instrs = [] := by rw [← hcc]; rfl
  have hv2 : c0'.v2r = [] := by rw [← hcc]; rfl
  have htd : c0'.todo = [] := by rw [← hcc]; rfl
  have hnr : c0'.nextReg = 0 := by rw [← hcc]; rfl
  have hci : CI p c0' 1 := by
    refine ⟨by rw [hi]; exact .nil, by rw [← hcc]; exact htab, ?_, by rw [hv2]; simp [AMap.keys], ?_, by rw [htd]; simp [AMap.keys]⟩
    · rw [hv2]; intro v r h; simp [AMap.get?] at h
    · rw [htd]; intro v r m h; simp [AMap.get?] at h
  obtain ⟨c1, e2, ha⟩ := addTodo_spec (eg := eg) (order := order) hd hv hci (show p.length - 1 < p.length by omega) (show 0 < 1 by omega)
  have hanp : c0'.addNewPattern p (p.length - 1) = .ok c1 := by
    unfold addNewPattern
    rw [hi, hnr]
    exact e2
  obtain ⟨i1, i2, i3⟩ := insertVar_spec (eg := eg) (order := order) ha.ci (v := v) (show 0 < 1 by omega)
    (fun r' hr' => by have := ha.ci.vlt v r' hr'; omega)
  have hstart : c0'.start (some v) p (p.length - 1) = .ok ({ c1 with v2r := c1.v2r.insert v 0 }, 1) := by
    unfold start
    simp only [hv2, AMap.get?, hanp, ok_bind]
    rw [ha.next, hnr]
    rfl
  rw [hstart] at hc'
  simp only [ok_bind] at hc'
  rw [bind_eq_ok] at hc'
  obtain ⟨⟨c3, n3⟩, e4, hc'⟩ := hc'
  cases hc'
  have hs1 : Sols eg order p { c1 with v2r := c1.v2r.insert v 0 } 1 σ c0 [c0] := by
    rw [i2, ha.sols, sols_single hi hv2 htd]
    refine ⟨⟨⟨rfl, by rw [hth.nodes]; exact h.pmatch_lt (hth.pmatch hm)⟩, ?_⟩, x, c0, hx, rfl, hxc⟩
    simp only [List.mem_singleton, forall_eq]
    intro s hs
    rw [hs.unique ht.2]
    exact ⟨c0, rfl, hm⟩
  obtain ⟨R, hR⟩ := loop_thin ho hth h hr hio hdc hd hv f i1 e4 hs1
  obtain ⟨-, htd3, -⟩ := loop_spec (order := order) ho h hr hdc hd hv f i1 e4
  have hirr : Sols eg order [] { c3 with nextReg := n3 } n3 σ c0 R ↔ Sols eg order p c3 n3 σ c0 R := sols_irrel rfl rfl htd3 htd3
  exact ⟨R, hirr.2 hR⟩

/-- Compiling a further pattern loses no match. -/
theorem compile_more_thin {ord : Compiler Op → List (Id × Nat)} (ho : OrdOK ord) (hth : Thinner eg g) (h : EGraph.Inv C g) (hr : Rebuilt g)
    (hio : EGraph.InOrder eg) (hdc : DiscContiguous Op) (hd : Dag p) (hv : VarLeaf p) {t : Term (PatOp Op)} (ht : ExprTerm p t)
    (hord : ∀ x, eg.find x = .ok x → x ∈ order) {f : Nat}
    {v : Var} {c c' : Compiler Op} {Q : (Var → Option Id) → Id → Prop} {V : Var → Prop}
    (hf : Fin g order' c Q V) (hne : c.instrs ≠ []) (hc' : c.compile ord f (some v) p = .ok c')
    {σ : Var → Option Id} {c0 : Id} {R : List Id} (hR : Sols eg order [] c c.nextReg σ c0 R) {x : Id} (hx : σ v = some x) (hm : PMatch eg σ x t) :
    ∃ R', Sols eg order [] c' c'.nextReg σ c0 R' := by
  have hpl : 0 < p.length := List.length_pos_iff.2 ht.1
  unfold compile at hc'
  obtain ⟨free, size, e1, htab⟩ := load_spec (c := c) hd hv
  rw [e1] at hc'
  simp only [ok_bind, root_eq ht.1] at hc'
  generalize hcc : ({ c with freeVars := free, subtreeSize := size } : Compiler Op) = c1 at hc'
  have hi : c1.instrs = c.instrs := by rw [← hcc]
  have hv2 : c1.v2r = c.v2r := by rw [← hcc]
  have htd : c1.todo = [] := by rw [← hcc]; exact hf.todo
  have hnr : c1.nextReg = c.nextReg := by rw [← hcc]
  have hci : CI p c1 c.nextReg := by
    refine ⟨by rw [hi]; exact hf.laid, by rw [← hcc]; exact htab, by rw [hv2]; exact hf.vlt, by rw [hv2]; exact hf.vkeys,
      ?_, by rw [htd]; simp [AMap.keys]⟩
    rw [htd]; intro v r m h; simp [AMap.get?] at h
  have hR1 : Sols eg order p c1 c.nextReg σ c0 R := (sols_irrel (p := p) (p' := []) hi.symm hv2.symm htd hf.todo).2 hR
  have hstart : ∃ c2 n2 R2, c1.start (some v) p (p.length - 1) = .ok (c2, n2) ∧ CI p c2 n2 ∧ Sols eg order p c2 n2 σ c0 R2 := by
    cases hvi : c.v2r.get? v with
    | some i =>
      obtain ⟨c2, e2, ha⟩ := addTodo_spec (eg := eg) (order := order) hd hv hci (show p.length - 1 < p.length by omega)
        (hf.vlt v i hvi)
      refine ⟨c2, c.nextReg, R, ?_, ha.ci, (ha.sols _ _ _).2 ⟨hR1, ?_⟩⟩
      · unfold start
        simp only [hv2, hvi, e2, ok_bind]
        rw [ha.next, hnr]
        rfl
      · simp only [List.mem_singleton, forall_eq]
        intro s hs
        rw [hs.unique ht.2]
        obtain ⟨x', y, g1, g2, g3⟩ := hR1.vars v i (by rw [hv2]; exact hvi)
        rw [hx] at g1; cases g1
        exact ⟨y, g2, hm.same g3⟩
    | none =>
      have hcs : CI p { c1 with instrs := c1.instrs ++ [.scan c1.nextReg] } (c.nextReg + 1) := by
        refine ⟨?_, hci.tab, fun v r hv => Nat.lt_succ_of_lt (hci.vlt v r hv), hci.vkeys,
          fun a b k hk => ⟨Nat.lt_succ_of_lt (hci.tlt a b k hk).1, (hci.tlt a b k hk).2⟩, hci.tkeys⟩
        rw [hnr]
        exact hci.laid.append (.scan .nil)
      obtain ⟨c2, e2, ha⟩ := addTodo_spec (eg := eg) (order := order) hd hv hcs (show p.length - 1 < p.length by omega)
        (show c.nextReg < c.nextReg + 1 by omega)
      have hanp : c1.addNewPattern p (p.length - 1) = .ok c2 := by
        unfold addNewPattern
        rw [if_neg (by rw [hi]; simpa using hne), hnr]
        rw [hnr] at e2
        exact e2
      have hv2n : ∀ r', c2.v2r.get? v = some r' → r' = c.nextReg := by
        intro r' hr'
        unfold addTodo at e2
        rw [bind_eq_ok] at e2
        obtain ⟨nd, _, e2⟩ := e2
        split at e2
        · split at e2
          · cases e2
            have hr' : c1.v2r.get? v = some r' := hr'
            rw [hv2, hvi] at hr'; cases hr'
          · cases e2
            have hr' : (c1.v2r.insert _ c.nextReg).get? v = some r' := hr'
            rw [AMap.get?_insert] at hr'
            split at hr'
            · cases hr'; rfl
            · rw [hv2, hvi] at hr'; cases hr'
        · cases e2
          have hr' : c1.v2r.get? v = some r' := hr'
          rw [hv2, hvi] at hr'; cases hr'
      obtain ⟨i1, i2, i3⟩ := insertVar_spec (eg := eg) (order := order) ha.ci (v := v)
        (show c.nextReg < c.nextReg + 1 by omega) hv2n
      have hxl : x < g.nodes.length := h.pmatch_lt (hth.pmatch hm)
      have hfx : eg.find x = .ok (g.rt x) := by rw [hth.find]; exact h.find hxl
      have hfr : eg.find (g.rt x) = .ok (g.rt x) := by rw [hth.find]; exact h.find_iff.2 ⟨h.core.rtLt _ hxl, h.core.rtIdem _⟩
      have hlen := hR1.len
      refine ⟨_, c.nextReg + 1, R ++ [g.rt x], ?_, i1, ?_⟩
      · unfold start
        simp only [hv2, hvi, hanp, ok_bind]
        rw [ha.next]
        simp only [hnr]
        rfl
      · rw [i2, ha.sols]
        simp only [List.mem_singleton, forall_eq]
        refine ⟨⟨⟨by simp [hlen], getElem?_prefix hR1.root, ?_, ?_, ?_, ?_⟩, ?_⟩, x, g.rt x, hx, ?_, _, hfx, hfr⟩
        · intro y hy
          rcases List.mem_append.1 hy with hy | hy
          · exact hR1.valid y hy
          · simp at hy; subst hy; rw [hth.nodes]; exact h.core.rtLt _ hxl
        · intro ins hins
          rcases List.mem_append.1 hins with hins | hins
          · exact (satI_append hci.laid hlen ins hins).2 (hR1.sat ins hins)
          · simp at hins
            subst hins
            refine ⟨g.rt x, hord _ hfr, ?_⟩
            rw [hnr, ← hlen]; simp
        · intro v r hv
          obtain ⟨x, z, g1, g2, g3⟩ := hR1.vars v r hv
          exact ⟨x, z, g1, getElem?_prefix g2, g3⟩
        · show ∀ (id : Id) (reg : Nat) (m : ENode Op), c1.todo.get? (id, reg) = some m → _
          rw [htd]; intro _ _ _ h; simp [AMap.get?] at h
        · intro s hs
          rw [hs.unique ht.2]
          refine ⟨g.rt x, ?_, hm.same ⟨_, hfx, hfr⟩⟩
          rw [← hlen]; simp
        · rw [← hlen]; simp
  obtain ⟨c2, n2, R2, e3, hc2, hR2⟩ := hstart
  rw [e3] at hc'
  simp only [ok_bind] at hc'
  rw [bind_eq_ok] at hc'
  obtain ⟨⟨c3, n3⟩, e4, hc'⟩ := hc'
  cases hc'
  obtain ⟨R3, hR3⟩ := loop_thin ho hth h hr hio hdc hd hv f hc2 e4 hR2
  obtain ⟨-, htd3, -⟩ := loop_spec (order := order) ho h hr hdc hd hv f hc2 e4
  have hirr : Sols eg order [] { c3 with nextReg := n3 } n3 σ c0 R3 ↔ Sols eg order p c3 n3 σ c0 R3 := sols_irrel rfl rfl htd3 htd3
  exact ⟨R3, hirr.2 hR3⟩

theorem compileAll_thin {ord : Compiler Op → List (Id × Nat)} (ho : OrdOK ord) (hth : Thinner eg g) (h : EGraph.Inv C g) (hr : Rebuilt g)
    (hio : EGraph.InOrder eg) (hdc : DiscContiguous Op) (hord : ∀ x, eg.find x = .ok x → x ∈ order)
    (hord' : ∀ x, x ∈ order' ↔ x < g.nodes.length ∧ g.rt x = x) {f : Nat} {σ : Var → Option Id} {c0 : Id} :
    ∀ (asts : List (Var × PatternAst Op)) (ps : List (Var × Term (PatOp Op)))
    (_ : List.Forall₂ (fun a b => a.1 = b.1 ∧ PatWF a.2 ∧ ExprTerm a.2 b.2) asts ps)
    {c c' : Compiler Op} {Q : (Var → Option Id) → Id → Prop} {V : Var → Prop}
    (_ : Fin g order' c Q V) (_ : c.instrs ≠ []) (_ : compileAll ord f c asts = .ok c') {R : List Id} (_ : Sols eg order [] c c.nextReg σ c0 R)
    (_ : ∀ w u, (w, u) ∈ ps → ∃ x, σ w = some x ∧ PMatch eg σ x u), ∃ R', Sols eg order [] c' c'.nextReg σ c0 R'
  | _, _, .nil, c, c', Q, V, hf, hne, hc, R, hR, hm => by
    cases hc
    exact ⟨R, hR⟩
  | _ :: _, _ :: _, .cons (a := a) (b := b) hab hrest, c, c', Q, V, hf, hne, hc, R, hR, hm => by
    obtain ⟨v, p⟩ := a
    obtain ⟨v', t⟩ := b
    obtain ⟨e, hw, ht⟩ := hab
    have e : v = v' := e
    subst e
    unfold compileAll at hc
    rw [bind_eq_ok] at hc
    obtain ⟨c1, h1, hc⟩ := hc
    obtain ⟨x, hx, hxm⟩ := hm v t (by simp)
    obtain ⟨R1, hR1⟩ := compile_more_thin ho hth h hr hio hdc hw.1.2 hw.2 ht hord hf hne h1 hR hx hxm
    obtain ⟨g1, g2⟩ := compile_more ho h hr hdc hw.1.2 hw.2 ht hord' hf hne h1
    exact compileAll_thin ho hth h hr hio hdc hord hord' _ _ hrest g1 g2 hc hR1 (fun w u hwu => hm w u (by simp [hwu]))

end Compiler

/-- The search of one class by a multi-pattern, cf. `multi_searchEclass_eq`. -/
theorem multi_searchEclass_thin_eq (hth : Thinner eg g) (h : EGraph.Inv C g) (hcl : eg.clean = true)
    (N : Analysis Op D) {ord : IterOrd} (ho : ∀ c ∈ ord.classes, c < eg.nodes.length) {p : MultiPattern Op} {ps : List (Var × Term (PatOp Op))}
    (hp : IsMultiPattern p ps) (hfn : FirstIsNode ps) {c : Compiler Op} (hpc : p.program = c.extract)
    {Q : (Var → Option Id) → Id → Prop} {V : Var → Prop}
    (hf : Compiler.Fin g order' c Q V) {c0 : Id} (hc0 : c0 < eg.nodes.length) (limit : Nat) :
    p.searchEclassWithLimit N eg ord c0 limit =
      .ok (if ((matchesOf N.allowCycles eg ord.classes p.program c0).take limit).isEmpty then none
        else some ⟨c0, (matchesOf N.allowCycles eg ord.classes p.program c0).take limit, none⟩) := by
  have hrun : p.program.runWithLimit N eg ord.classes c0 limit =
      .ok ((matchesOf N.allowCycles eg ord.classes p.program c0).take limit) := by
    rw [hpc]
    unfold Program.runWithLimit
    rw [hcl]
    simp only [Bool.not_true, Bool.false_eq_true, if_false]
    split
    · next h0 => subst h0; simp
    · next h0 =>
      obtain ⟨s', h1, h2, -, -⟩ := run_thin hth h ho (ac := N.allowCycles) (subst := c.extract.subst)
        (instrs := c.extract.instrs) hf.laid hf.vlt' { reg := [c0], found := [], limit := limit } rfl
        (by simpa using hc0) (by simp; omega)
      rw [h1]
      simp only [ok_bind]
      rw [h2]
      rfl
  obtain ⟨ordc, fuel, hoc, hnew, hf2⟩ := hp
  obtain ⟨v, o, ts, rest, rfl⟩ := hfn
  unfold MultiPattern.searchEclassWithLimit
  generalize hasts : p.asts = asts at *
  cases hf2 with
  | @cons a _ l _ hab hrest =>
    obtain ⟨v', pt⟩ := a
    obtain ⟨e, hw, ht⟩ := hab
    have hnb : isBareVar pt = false := by
      obtain ⟨n, h1, h2⟩ := exprTerm_last ht
      unfold isBareVar
      split
      · next m =>
        simp at h1
        subst h1
        rw [h2]
      · rfl
    simp only [hnb, Bool.false_eq_true, if_false]
    rw [hrun, ok_bind]
    split <;> rfl

/-- A match of a multi-pattern made of the e-nodes left is among the results of the machine. -/
theorem multi_matchesOf_complete (hth : Thinner eg g) (h : EGraph.Inv C g) (hr : Rebuilt g) (hio : EGraph.InOrder eg) (hdc : DiscContiguous Op)
    (hord : ∀ x, eg.find x = .ok x → x ∈ order) (hord' : ∀ x, x ∈ order' ↔ x < g.nodes.length ∧ g.rt x = x) (hoo : ∀ c ∈ order, c ∈ order')
    {p : MultiPattern Op} {ps : List (Var × Term (PatOp Op))} (hp : IsMultiPattern p ps) (hfn : FirstIsNode ps)
    {σ : Var → Option Id} {c0 : Id} (hm : MultiMatch eg σ c0 ps) :
    ∃ s, s ∈ matchesOf true eg order p.program c0 ∧
      ∀ v, MultiOccurs v ps → ∃ x y, σ v = some x ∧ s.get v = some y ∧ SameClass eg x y := by
  obtain ⟨ordc, fuel, hoc, hnew, hf2⟩ := hp
  obtain ⟨v, o, ts, rest, rfl⟩ := hfn
  obtain ⟨c, h1, h2⟩ := multi_program hnew
  generalize hasts : p.asts = asts at *
  cases hf2 with
  | @cons a _ l _ hab hrest =>
    obtain ⟨v', pt⟩ := a
    obtain ⟨e, hw, ht⟩ := hab
    have e : v' = v := e
    subst e
    unfold Compiler.compileAll at h1
    rw [bind_eq_ok] at h1
    obtain ⟨c1, h3, h1⟩ := h1
    obtain ⟨g1, g2⟩ := Compiler.compile_first (order := order') hoc h hr hdc hw.1.2 hw.2 ht h3
    obtain ⟨⟨x, q1, q2⟩, q3, q4⟩ := hm
    obtain ⟨R0, hR0⟩ := Compiler.compile_first_thin (order := order) hoc hth h hr hio hdc hw.1.2 hw.2 ht h3 q3 q1 q2
    obtain ⟨R, hR⟩ := Compiler.compileAll_thin hoc hth h hr hio hdc hord hord' _ _ hrest g1 (g2 ⟨o, ts, rfl⟩) h1 hR0 q4
    have hf := Compiler.compileAll_more hoc h hr hdc hord' _ _ hrest g1 (g2 ⟨o, ts, rfl⟩) h1
    have hmem : R ∈ runs eg order c.instrs [c0] := by
      refine mem_runs_thin hf.laid rfl hR.len ?_ hR.sat
      have := hR.root
      cases R with
      | nil => simp at this
      | cons a l => simp at this; simp [this]
    obtain ⟨s, hs⟩ := hf.read h hr hdc (runs_thin hth h hr hdc hoo _ hmem)
    refine ⟨s, by rw [h2]; exact Compiler.mem_matchesOf.2 ⟨R, hmem, hs, fun hn => by cases hn⟩, fun w hw => ?_⟩
    obtain ⟨r, hr⟩ := (hf.vs w).2 (by
      obtain ⟨w', u, q1, q2⟩ := hw
      rcases List.mem_cons.1 q1 with q1 | q1
      · cases q1
        rcases q2 with q2 | q2
        · exact .inl (.inr (by rw [q2]))
        · exact .inl (.inl q2)
      · exact .inr ⟨w', u, q1, q2⟩)
    obtain ⟨x, y, k1, k2, k3⟩ := hR.vars w r hr
    exact ⟨x, y, k1, by rw [readSubst_get hs, hf.subst_eq, hr]; exact k2, k3⟩

end Egg
