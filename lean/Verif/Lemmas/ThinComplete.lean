import Verif.Lemmas.Indexed
/-
Searching an e-graph from which e-nodes are missing finds every match made of the e-nodes left.
-/
namespace Egg
variable {Op D : Type} [DecidableEq Op] [Lang Op]
variable {C : Cfg Op D} {eg g : EGraph Op D} {order : List Id}

theorem Thinner.pmatch (h : Thinner eg g) {σ : Var → Option Id} {c : Id} {t : Term (PatOp Op)} (hm : PMatch eg σ c t) : PMatch g σ c t := by
  induction hm with
  | var h1 h2 => exact .var h1 (h.sameClass.1 h2)
  | node h1 h2 h3 _ ih =>
    obtain ⟨k0, g1, g2⟩ := h.index_ok h1
    exact .node g1 (g2.nodes _ h2) h3 ih

theorem Thinner.index_total (h : Thinner eg g) {x : Id} {k0 : EClass Op D} (hk : g.index x = .ok k0) : ∃ k, eg.index x = .ok k := by
  unfold EGraph.index at hk ⊢
  rw [h.find]
  obtain ⟨r, h1, hk⟩ := bind_eq_ok.1 hk
  rw [h1]
  simp only [ok_bind]
  rcases h.get? r with ⟨h2, h3⟩ | ⟨k1, k2, h2, h3, h4⟩
  · rw [h3] at hk; cases hk
  · exact ⟨k1, by rw [h2]; rfl⟩

theorem Thinner.index_get (h : Thinner eg g) (hi : EGraph.Inv C g) {x : Id} {k : EClass Op D} (hk : eg.index x = .ok k) :
    eg.classes.get? (g.rt x) = some k := by
  unfold EGraph.index at hk
  rw [h.find] at hk
  obtain ⟨r, h1, hk⟩ := bind_eq_ok.1 hk
  rw [← (hi.find_iff.1 h1).2] at hk
  exact unwrap_eq_ok.1 hk

theorem Thinner.node_lt (h : Thinner eg g) (hi : EGraph.Inv C g) {x : Id} {k : EClass Op D} (hk : eg.index x = .ok k) {n : ENode Op}
    (hn : n ∈ k.nodes) : ∀ c ∈ n.children, c < eg.nodes.length := by
  obtain ⟨k0, g1, g2⟩ := h.index_ok hk
  rw [h.nodes]
  exact hi.index_node_lt g1 (g2.nodes n hn)

theorem Thinner.matching (h : Thinner eg g) (hi : EGraph.Inv C g) (hs : EGraph.InOrder eg) (hd : DiscContiguous Op) {x : Id} {k : EClass Op D}
    (hk : eg.index x = .ok k) {node m : ENode Op} :
    m ∈ matchingNodes k.nodes node ↔ m ∈ k.nodes ∧ m.op = node.op ∧ m.children.length = node.children.length :=
  mem_matchingNodes hd (hs.sorted _ _ (h.index_get hi hk))

/-! ### The compiler -/

namespace Compiler
variable {p : PatternAst Op}

theorem sols_bind_thin (hlt : ∀ {y : Id} {cls : EClass Op D} {q : ENode Op}, eg.index y = .ok cls → q ∈ cls.nodes → ∀ x ∈ q.children, x < eg.nodes.length)
    {c : Compiler Op} {n : Nat} (hc : CI p c n) {reg : Nat} {node : ENode Op}
    {ids : List Id} (hids : ids.length = node.children.length) {us : List (Term (PatOp Op))}
    (hus : List.Forall₂ (TermOf p) ids us) {σ : Var → Option Id} {c0 : Id} {R : List Id} {y : Id} {cls : EClass Op D} {q : ENode Op}
    (hs : Sols eg order p c n σ c0 R) (h1 : R[reg]? = some y) (h2 : eg.index y = .ok cls) (h3 : q ∈ matchingNodes cls.nodes node)
    (h4 : List.Forall₂ (PMatch eg σ) q.children us) :
    Sols eg order p { c with instrs := c.instrs ++ [.bind node reg n] } (n + ids.length) σ c0 (R ++ q.children) ∧
      ∀ o ∈ obsOf ids n, Ob eg p σ (R ++ q.children) o.1 o.2 := by
  have hn1 := hc.laid.le
  have hql := matchingNodes_length h3
  have hlen := hs.len
  refine ⟨⟨by simp; omega, getElem?_prefix hs.root, ?_, ?_, ?_, ?_⟩, ?_⟩
  · intro x hx
    rcases List.mem_append.1 hx with hx | hx
    · exact hs.valid x hx
    · exact hlt h2 (matchingNodes_sub h3).1 x hx
  · intro ins hins
    rcases List.mem_append.1 hins with hins | hins
    · exact (satI_append hc.laid hlen ins hins).2 (hs.sat ins hins)
    · simp at hins
      subst hins
      exact ⟨y, cls, q, getElem?_prefix h1, h2, h3, slice_append hlen⟩
  · intro v r hv
    obtain ⟨x, z, g1, g2, g3⟩ := hs.vars v r hv
    exact ⟨x, z, g1, getElem?_prefix g2, g3⟩
  · intro id reg' m hm t ht
    obtain ⟨z, g1, g2⟩ := hs.todo id reg' m hm t ht
    exact ⟨z, getElem?_prefix g1, g2⟩
  · rintro ⟨id, r⟩ ho t ht
    obtain ⟨j, g1, g2⟩ := (mem_obsOf _ _).1 ho
    simp only at g1 g2 ht ⊢
    subst g2
    rw [forall₂_iff_get?] at hus h4
    have hj := getElem?_lt g1
    have hu : us[j]? = some (us[j]'(by omega)) := List.getElem?_eq_getElem _
    have hq : q.children[j]? = some (q.children[j]'(by omega)) := List.getElem?_eq_getElem _
    rw [ht.unique (hus.2 j _ _ g1 hu)]
    refine ⟨_, ?_, h4.2 j _ _ hq hu⟩
    rw [List.getElem?_append_right (by omega), hlen, Nat.add_sub_cancel_left, hq]

/-- A step of the loop loses no solution. -/
theorem step_thin (hth : Thinner eg g) (h : EGraph.Inv C g) (hr : Rebuilt g) (hio : EGraph.InOrder eg) (hdc : DiscContiguous Op)
    (hd : Dag p) (hv : VarLeaf p) {c : Compiler Op} {n : Nat} (hc : CI p c n) {id : Id} {reg : Nat} {m : ENode Op}
    (hm : c.todo.get? (id, reg) = some m) {f : Nat} {c' : Compiler Op} {n' : Nat}
    (hs : step p f { c with todo := c.todo.erase (id, reg) } n id reg m = .ok (c', n')) {σ : Var → Option Id} {c0 : Id} {R : List Id}
    (hR : Sols eg order p c n σ c0 R) : ∃ R', Sols eg order p c' n' σ c0 R' := by
  obtain ⟨hreg, hpid⟩ := hc.tlt _ _ _ hm
  have hc1 := hc.erase (id, reg)
  have hidl := getElem?_lt hpid
  obtain ⟨t, ht⟩ := hd.exists_term id hidl
  obtain ⟨us, rfl, hus⟩ : ∃ us, t = .node (.op m.op) us ∧ List.Forall₂ (TermOf p) m.children us := by
    cases t with
    | node op us =>
      rw [termOf_iff] at ht
      obtain ⟨n', g1, rfl, g3⟩ := ht
      rw [hpid] at g1; cases g1
      exact ⟨us, rfl, g3⟩
  obtain ⟨fv, hfv, hfv'⟩ := hc.tab.free id _ hidl ht
  rw [sols_erase hm] at hR
  obtain ⟨hR, hob⟩ := hR
  obtain ⟨y, hy, hmt⟩ := hob _ ht
  unfold step isGroundNow at hs
  simp only [getIdx_eq_ok.2 hfv, ok_bind] at hs
  rw [show (pure (fv.all fun v => (c.v2r.get? v).isSome) : Res Bool) = .ok (fv.all fun v => (c.v2r.get? v).isSome) from rfl,
    ok_bind] at hs
  split at hs
  · rw [bind_eq_ok] at hs
    obtain ⟨e, he, hs⟩ := hs
    rw [bind_eq_ok] at hs
    obtain ⟨term, hterm, hs⟩ := hs
    cases hs
    obtain ⟨f0, e', hE, hE1, hE2, hE3⟩ := RecExpr.extract_spec ht
    have : e = e' := by
      have h1 := hE (max f f0) (Nat.le_max_right _ _)
      rw [RecExpr.extract_mono he (Nat.le_max_left _ _)] at h1
      cases h1; rfl
    subst this
    have hvE : VarLeaf e := by
      intro k hk v hkv
      obtain ⟨j, hj⟩ := List.mem_iff_getElem?.1 hk
      obtain ⟨u, hu⟩ := hE1.exists_term j (getElem?_lt hj)
      have hsub := live_subterm hE1 hE2 (hE3 j (getElem?_lt hj)) u hu
      cases u with
      | node op ws =>
        rw [termOf_iff] at hu
        obtain ⟨k', g1, rfl, g3⟩ := hu
        rw [hj] at g1; cases g1
        rw [hkv] at hsub
        have := hv.twf _ ht v ws hsub
        subst this
        cases g3' : k.children with
        | nil => rfl
        | cons a l => rw [g3'] at g3; cases g3
    refine ⟨R, hR.len, hR.root, hR.valid, ?_, hR.vars, hR.todo⟩
    intro ins hins
    rcases List.mem_append.1 hins with hins | hins
    · exact hR.sat ins hins
    · simp at hins
      subst hins
      show lookupOk eg R term reg = .ok true
      rw [hth.lookupOk]
      exact (lookupOk_iff h hr.pending hE1 hvE hE2 hE3 (fun x hx => by rw [← hth.nodes]; exact hR.valid x hx)
        (fun v r hvr => by
          obtain ⟨a, b, q1, q2, q3⟩ := hR.vars v r hvr
          exact ⟨a, b, q1, q2, hth.sameClass.1 q3⟩) hterm hy).2 (hth.pmatch hmt)
  · rw [bind_eq_ok] at hs
    obtain ⟨c3, hs3, hs⟩ := hs
    cases hs
    have hids : m.children.length = (m.mapChildren (fun _ => 0)).children.length := by simp [ENode.mapChildren]
    have hc2 : CI p { c with todo := c.todo.erase (id, reg), instrs := c.instrs ++ [.bind (m.mapChildren (fun _ => 0)) reg n] }
        (n + m.children.length) := by
      refine ⟨?_, hc1.tab, fun v r hv => Nat.lt_of_lt_of_le (hc1.vlt v r hv) (Nat.le_add_right _ _), hc1.vkeys,
        fun a b k hk => ⟨Nat.lt_of_lt_of_le (hc1.tlt a b k hk).1 (Nat.le_add_right _ _), (hc1.tlt a b k hk).2⟩, hc1.tkeys⟩
      refine hc1.laid.append (.bind hreg ?_)
      rw [← hids]
      exact .nil
    obtain ⟨c3', e3, ha⟩ := addTodos_spec (eg := eg) (order := order) hd hv m.children (out := n) hc2
      (fun ch hch => by have := hd _ _ hpid ch hch; omega) (Nat.le_refl _)
    rw [hs3] at e3; cases e3
    rw [pmatch_node_iff] at hmt
    obtain ⟨cls, q, g1, g2, g3, g4⟩ := hmt
    refine ⟨R ++ q.children, (ha.sols σ c0 _).2 (sols_bind_thin (fun hk hn => hth.node_lt h hk hn) hc1 hids hus hR hy g1 ?_ g4)⟩
    rw [hth.matching h hio hdc g1]
    refine ⟨g2, g3, ?_⟩
    rw [← hids, g4.length_eq, hus.length_eq]

theorem loop_thin {ord : Compiler Op → List (Id × Nat)} (ho : OrdOK ord) (hth : Thinner eg g) (h : EGraph.Inv C g) (hr : Rebuilt g)
    (hio : EGraph.InOrder eg) (hdc : DiscContiguous Op) (hd : Dag p) (hv : VarLeaf p) {σ : Var → Option Id} {c0 : Id} :
    ∀ (f : Nat) {c : Compiler Op} {n : Nat} {c' : Compiler Op} {n' : Nat} {R : List Id},
    CI p c n → loop ord p f c n = .ok (c', n') → Sols eg order p c n σ c0 R → ∃ R', Sols eg order p c' n' σ c0 R'
  | 0, _, _, _, _, _, _, hl, _ => by cases hl
  | f + 1, c, n, c', n', R, hc, hl, hR => by
    unfold loop at hl
    rw [bind_eq_ok] at hl
    obtain ⟨r, h1, h2⟩ := hl
    rcases next_cases ho h1 with ⟨rfl, ht⟩ | ⟨id, reg, m, rfl, hm⟩
    · cases h2
      exact ⟨R, hR⟩
    · simp only at h2
      rw [bind_eq_ok] at h2
      obtain ⟨⟨c1, n1⟩, h3, h4⟩ := h2
      obtain ⟨R1, hR1⟩ := step_thin (order := order) hth h hr hio hdc hd hv hc hm h3 hR
      obtain ⟨a1, -, -⟩ := step_spec (order := order) h hr hdc hd hv hc hm h3
      exact loop_thin ho hth h hr hio hdc hd hv f a1.ci h4 hR1

/-- Compiling a pattern loses no match. -/
theorem compile_thin {ord : Compiler Op → List (Id × Nat)} (ho : OrdOK ord) (hth : Thinner eg g) (h : EGraph.Inv C g) (hr : Rebuilt g)
    (hio : EGraph.InOrder eg) (hdc : DiscContiguous Op) (hd : Dag p) (hv : VarLeaf p) {t : Term (PatOp Op)} (ht : ExprTerm p t) {f : Nat}
    {c' : Compiler Op} (hc' : Compiler.new.compile ord f none p = .ok c') {σ : Var → Option Id} {c0 : Id} (hm : PMatch eg σ c0 t) :
    ∃ R, Sols eg order [] c' c'.nextReg σ c0 R := by
  have hpl : 0 < p.length := List.length_pos_iff.2 ht.1
  unfold compile at hc'
  obtain ⟨free, size, e1, htab⟩ := load_spec (c := Compiler.new) hd hv
  rw [e1] at hc'
  simp only [ok_bind, root_eq ht.1] at hc'
  generalize hcc : ({ Compiler.new with freeVars := free, subtreeSize := size } : Compiler Op) = c0' at hc'
  have hi : c0'.instrs = [] := by rw [← hcc]; rfl
  have hv2 : c0'.v2r = [] := by rw [← hcc]; rfl
  have htd : c0'.todo = [] := by rw [← hcc]; rfl
  have hnr : c0'.nextReg = 0 := by rw [← hcc]; rfl
  have hci : CI p c0' 1 := by
    refine ⟨by rw [hi]; exact .nil, by rw [← hcc]; exact htab, ?_, by rw [hv2]; simp [AMap.keys], ?_, by rw [htd]; simp [AMap.keys]⟩
    · rw [hv2]; intro v r h; simp [AMap.get?] at h
    · rw [htd]; intro v r m h; simp [AMap.get?] at h
  obtain ⟨c1, e2, ha⟩ := addTodo_spec (eg := eg) (order := order) hd hv hci (show p.length - 1 < p.length by omega) (show 0 < 1 by omega)
  have hanp : c0'.addNewPattern p (p.length - 1) = .ok c1 := by
    unfold addNewPattern
    rw [hi, hnr]
    exact e2
  have hstart : c0'.start none p (p.length - 1) = .ok (c1, 1) := by
    unfold start
    simp only [hanp, ok_bind]
    rw [ha.next, hnr]
    rfl
  rw [hstart] at hc'
  simp only [ok_bind] at hc'
  rw [bind_eq_ok] at hc'
  obtain ⟨⟨c3, n3⟩, e4, hc'⟩ := hc'
  cases hc'
  have hs1 : Sols eg order p c1 1 σ c0 [c0] := by
    rw [ha.sols, sols_single hi hv2 htd]
    refine ⟨⟨rfl, by rw [hth.nodes]; exact h.pmatch_lt (hth.pmatch hm)⟩, ?_⟩
    simp only [List.mem_singleton, forall_eq]
    intro s hs
    rw [hs.unique ht.2]
    exact ⟨c0, rfl, hm⟩
  obtain ⟨R, hR⟩ := loop_thin ho hth h hr hio hdc hd hv f ha.ci e4 hs1
  obtain ⟨-, htd3, -⟩ := loop_spec (order := order) ho h hr hdc hd hv f ha.ci e4
  have hirr : Sols eg order [] { c3 with nextReg := n3 } n3 σ c0 R ↔ Sols eg order p c3 n3 σ c0 R := sols_irrel rfl rfl htd3 htd3
  exact ⟨R, hirr.2 hR⟩

end Compiler

/-! ### The machine -/

theorem mem_runs_thin : ∀ {instrs : List (Instr Op)} {n n' : Nat}, Laid instrs n n' → ∀ {R R' : List Id}, R.length = n →
    R'.length = n' → R'.take n = R → (∀ ins ∈ instrs, SatI eg order R' ins) → R' ∈ runs eg order instrs R := by
  intro instrs n n' hl
  induction hl with
  | @nil n =>
    intro R R' hR h1 h2 _
    simp only [runs, List.mem_singleton]
    rw [← h2, List.take_of_length_le (by omega)]
  | @bind node i n n' rest hi hl ih =>
    intro R R' hR h1 h2 h3
    obtain ⟨x, hx⟩ : ∃ x, R[i]? = some x := ⟨_, List.getElem?_eq_getElem (by omega)⟩
    simp only [runs, hx]
    obtain ⟨S, rfl⟩ := take_prefix h2 hR
    obtain ⟨x', cls, m, g1, g2, g3, g4⟩ := h3 _ (List.mem_cons_self ..)
    rw [getElem?_prefix hx] at g1; cases g1
    rw [g2]
    simp only [List.mem_flatMap]
    have hlen := (matchingNodes_sub g3).2.2
    refine ⟨m, g3, ?_⟩
    refine ih (by simp [hR, hlen]) h1 ?_ (fun ins hins => h3 ins (List.mem_cons_of_mem _ hins))
    rw [← hR, List.drop_left] at g4
    rw [← hR, List.take_length_add_append, ← hlen, g4]
  | @compare i j n n' rest hi hj hl ih =>
    intro R R' hR h1 h2 h3
    obtain ⟨x, hx⟩ : ∃ x, R[i]? = some x := ⟨_, List.getElem?_eq_getElem (by omega)⟩
    obtain ⟨y, hy⟩ : ∃ y, R[j]? = some y := ⟨_, List.getElem?_eq_getElem (by omega)⟩
    simp only [runs, hx, hy]
    obtain ⟨x', y', g1, g2, g3⟩ := h3 _ (List.mem_cons_self ..)
    obtain ⟨S, rfl⟩ := take_prefix h2 hR
    rw [getElem?_prefix hx] at g1; cases g1
    rw [getElem?_prefix hy] at g2; cases g2
    rw [if_pos (sameB_iff.2 g3)]
    exact ih hR h1 h2 (fun ins hins => h3 ins (List.mem_cons_of_mem _ hins))
  | @lookup term i n n' rest hi ht hl ih =>
    intro R R' hR h1 h2 h3
    simp only [runs]
    have g : lookupOk eg R' term i = .ok true := h3 _ (List.mem_cons_self ..)
    obtain ⟨S, rfl⟩ := take_prefix h2 hR
    rw [lookupOk_append (by rw [hR]; exact ht) (by omega)] at g
    rw [g]
    exact ih hR h1 h2 (fun ins hins => h3 ins (List.mem_cons_of_mem _ hins))
  | @scan n n' rest hl ih =>
    intro R R' hR h1 h2 h3
    simp only [runs, List.mem_flatMap]
    obtain ⟨c, g1, g2⟩ := h3 _ (List.mem_cons_self ..)
    refine ⟨c, g1, ?_⟩
    refine ih (by simp [hR]) h1 ?_ (fun ins hins => h3 ins (List.mem_cons_of_mem _ hins))
    rw [List.take_add_one, h2, g2]
    rfl

/-- A run of the machine, cf. `run_spec`. -/
theorem run_thin (hth : Thinner eg g) (h : EGraph.Inv C g) (ho : ∀ c ∈ order, c < eg.nodes.length)
    {ac : Bool} {subst : List (Var × Nat)} : ∀ {instrs : List (Instr Op)} {n n' : Nat}, Laid instrs n n' →
    (∀ vr ∈ subst, vr.2 < n') → ∀ (s : MState), s.reg.length = n → (∀ x ∈ s.reg, x < eg.nodes.length) → 0 < s.limit →
    ∃ s', Machine.run eg order (yieldFn ac subst) instrs s = .ok (s', decide (s'.limit ≠ 0)) ∧
      s'.found = s.found ++ ((runs eg order instrs s.reg).filterMap (report ac subst)).take s.limit ∧
      s'.limit = s.limit - ((runs eg order instrs s.reg).filterMap (report ac subst)).length ∧
      s'.reg.take n = s.reg := by
  intro instrs n n' hl hv
  induction hl with
  | @nil n =>
    intro s hs _ hlim
    obtain ⟨s', h1, h2, h3, h4⟩ := yieldFn_spec (ac := ac) (subst := subst) (s := s) (by rw [hs]; exact hv) hlim
    exact ⟨s', h1, h2, h3, by rw [h4, List.take_of_length_le (by omega)]⟩
  | @bind node i n n' rest hi hl ih =>
    intro s hs hval hlim
    have hx : s.reg[i]? = some (s.reg[i]'(by omega)) := List.getElem?_eq_getElem (by omega)
    obtain ⟨k0, hk0, -⟩ := h.index (by rw [← hth.nodes]; exact hval _ (List.getElem_mem (show i < s.reg.length by omega)))
    obtain ⟨k, hk⟩ := hth.index_total hk0
    obtain ⟨s', g1, g2, g3, g4⟩ := tryForEach_spec
      (f := fun m t => Machine.run eg order (yieldFn ac subst) rest { t with reg := t.reg.take n ++ m.children })
      (g := fun m => (runs eg order rest (s.reg ++ m.children)).filterMap (report ac subst))
      (P := fun t => t.reg.take n = s.reg) (matchingNodes k.nodes node) (by
        intro m hm t ht htl
        have q := matchingNodes_sub hm
        obtain ⟨t', e1, e2, e3, e4⟩ := ih hv { t with reg := t.reg.take n ++ m.children }
          (by simp only [ht, List.length_append, hs]; rw [q.2.2]) (by
            intro y hy
            simp only [ht, List.mem_append] at hy
            rcases hy with hy | hy
            · exact hval y hy
            · exact hth.node_lt h hk q.1 y hy) htl
        simp only [ht] at e1 e2 e3 e4
        refine ⟨t', by simp only [ht]; exact e1, e2, e3, ?_⟩
        have := congrArg (List.take n) e4
        rw [List.take_take, Nat.min_eq_left (by omega)] at this
        rw [this, ← hs, List.take_left]) s (List.take_of_length_le (by omega)) hlim
    refine ⟨s', ?_, ?_, ?_, g4⟩
    · unfold Machine.run
      rw [getIdx_lt (by omega)]
      simp only [ok_bind, hk]
      exact g1
    · simp only [runs, hx, hk, List.filterMap_flatMap]
      exact g2
    · simp only [runs, hx, hk, List.filterMap_flatMap]
      exact g3
  | @compare i j n n' rest hi hj hl ih =>
    intro s hs hval hlim
    have hx : s.reg[i]? = some (s.reg[i]'(by omega)) := List.getElem?_eq_getElem (by omega)
    have hy : s.reg[j]? = some (s.reg[j]'(by omega)) := List.getElem?_eq_getElem (by omega)
    have vx := hval _ (List.getElem_mem (show i < s.reg.length by omega))
    have vy := hval _ (List.getElem_mem (show j < s.reg.length by omega))
    rw [hth.nodes] at vx vy
    unfold Machine.run
    rw [getIdx_lt (show i < s.reg.length by omega), getIdx_lt (show j < s.reg.length by omega)]
    simp only [ok_bind, hth.find, h.find vx, h.find vy]
    by_cases he : g.rt (s.reg[i]'(by omega)) = g.rt (s.reg[j]'(by omega))
    · rw [if_neg (by simp [he])]
      have hb := sameB_iff.2 (hth.sameClass.2 (h.sameClass_iff.2 ⟨vx, vy, he⟩))
      simp only [runs, hx, hy, hb, if_true]
      exact ih hv s hs hval hlim
    · rw [if_pos he]
      have hb : sameB eg (s.reg[i]'(by omega)) (s.reg[j]'(by omega)) = false := by
        rw [Bool.eq_false_iff]
        intro hb
        exact he (h.sameClass_iff.1 (hth.sameClass.1 (sameB_iff.1 hb))).2.2
      simp only [runs, hx, hy, hb]
      refine ⟨s, ?_, by simp, by simp, List.take_of_length_le (by omega)⟩
      simp [show s.limit ≠ 0 by omega]
  | @lookup term i n n' rest hi ht hl ih =>
    intro s hs hval hlim
    obtain ⟨b, hb⟩ := lookupOk_total h (fun x hx => by rw [← hth.nodes]; exact hval x hx) (term := term) (i := i) (by omega) (by rw [hs]; exact ht)
    rw [← hth.lookupOk] at hb
    unfold Machine.run
    rw [hb]
    simp only [ok_bind]
    cases b with
    | true =>
      rw [if_pos rfl]
      simp only [runs, hb]
      exact ih hv s hs hval hlim
    | false =>
      simp only [runs, hb]
      refine ⟨s, ?_, by simp, by simp, List.take_of_length_le (by omega)⟩
      simp [show s.limit ≠ 0 by omega]
  | @scan n n' rest hl ih =>
    intro s hs hval hlim
    obtain ⟨s', g1, g2, g3, g4⟩ := tryForEach_spec
      (f := fun c t => Machine.run eg order (yieldFn ac subst) rest { t with reg := t.reg.take n ++ [c] })
      (g := fun c => (runs eg order rest (s.reg ++ [c])).filterMap (report ac subst))
      (P := fun t => t.reg.take n = s.reg) order (by
        intro c hc t ht htl
        obtain ⟨t', e1, e2, e3, e4⟩ := ih hv { t with reg := t.reg.take n ++ [c] }
          (by simp only [ht, List.length_append, hs]; rfl) (by
            intro y hy
            simp only [ht, List.mem_append, List.mem_singleton] at hy
            rcases hy with hy | rfl
            · exact hval y hy
            · exact ho _ hc) htl
        simp only [ht] at e1 e2 e3 e4
        refine ⟨t', by simp only [ht]; exact e1, e2, e3, ?_⟩
        have := congrArg (List.take n) e4
        rw [List.take_take, Nat.min_eq_left (by omega)] at this
        rw [this, ← hs, List.take_left]) s (List.take_of_length_le (by omega)) hlim
    refine ⟨s', ?_, ?_, ?_, g4⟩
    · unfold Machine.run
      exact g1
    · simp only [runs, List.filterMap_flatMap]
      exact g2
    · simp only [runs, List.filterMap_flatMap]
      exact g3

/-! ### Patterns -/

/-- The search of one class by a compiled program, cf. `searchEclass_eq`. -/
theorem searchEclass_thin_eq (hth : Thinner eg g) (h : EGraph.Inv C g) (hcl : eg.clean = true)
    (N : Analysis Op D) {ord : IterOrd} (ho : ∀ c ∈ ord.classes, c < eg.nodes.length) {p : Pattern Op} {c : Compiler Op} (hpc : p.program = c.extract)
    {order' : List Id} {Q : (Var → Option Id) → Id → Prop} {V : Var → Prop}
    (hf : Compiler.Fin g order' c Q V) {c0 : Id} (hc0 : c0 < eg.nodes.length) (limit : Nat) :
    p.searchEclassWithLimit N eg ord c0 limit =
      .ok (if ((matchesOf N.allowCycles eg ord.classes p.program c0).take limit).isEmpty then none
        else some ⟨c0, (matchesOf N.allowCycles eg ord.classes p.program c0).take limit, some p.ast⟩) := by
  have hrun : p.program.runWithLimit N eg ord.classes c0 limit =
      .ok ((matchesOf N.allowCycles eg ord.classes p.program c0).take limit) := by
    rw [hpc]
    unfold Program.runWithLimit
    rw [hcl]
    simp only [Bool.not_true, Bool.false_eq_true, if_false]
    split
    · next h0 => subst h0; simp
    · next h0 =>
      obtain ⟨s', h1, h2, -, -⟩ := run_thin hth h ho (ac := N.allowCycles) (subst := c.extract.subst)
        (instrs := c.extract.instrs) hf.laid hf.vlt' { reg := [c0], found := [], limit := limit } rfl
        (by simpa using hc0) (by simp; omega)
      rw [h1]
      simp only [ok_bind]
      rw [h2]
      rfl
  unfold Pattern.searchEclassWithLimit
  rw [hrun, ok_bind]
  split <;> rfl

/-- A match made of the e-nodes left is among the results of the machine. -/
theorem matchesOf_complete (hth : Thinner eg g) (h : EGraph.Inv C g) (hr : Rebuilt g) (hio : EGraph.InOrder eg) (hdc : DiscContiguous Op)
    {ordc : Compiler Op → List (Id × Nat)} (hoc : OrdOK ordc) {order' : List Id} (hoo : ∀ c ∈ order, c ∈ order') {fuel : Nat} {ast : PatternAst Op}
    {p : Pattern Op} (hw : PatWF ast) (hp : Pattern.new ordc fuel ast = .ok p) {t : Term (PatOp Op)} (ht : ExprTerm p.ast t)
    {σ : Var → Option Id} {c0 : Id} (hm : PMatch eg σ c0 t) :
    ∃ s, s ∈ matchesOf true eg order p.program c0 ∧
      ∀ v, Occurs v t → ∃ x y, σ v = some x ∧ s.get v = some y ∧ SameClass eg x y := by
  have hp0 := hp
  unfold Pattern.new at hp
  rw [bind_eq_ok] at hp
  obtain ⟨e, h1, hp⟩ := hp
  rw [bind_eq_ok] at hp
  obtain ⟨pr, h2, hp⟩ := hp
  cases hp
  have hwe := RecExpr.compact_pat hw h1
  unfold Program.compileFromPat at h2
  rw [bind_eq_ok] at h2
  obtain ⟨c, h3, h2⟩ := h2
  cases h2
  have hf := (Compiler.compile_first (order := order') hoc h hr hdc hwe.1.2 hwe.2 ht h3).1
  obtain ⟨R, hR⟩ := Compiler.compile_thin (order := order) hoc hth h hr hio hdc hwe.1.2 hwe.2 ht h3 hm
  have hmem : R ∈ runs eg order c.instrs [c0] := by
    refine mem_runs_thin hf.laid rfl hR.len ?_ hR.sat
    have := hR.root
    cases R with
    | nil => simp at this
    | cons a l => simp at this; simp [this]
  obtain ⟨s, hs⟩ := hf.read h hr hdc (runs_thin hth h hr hdc hoo _ hmem)
  refine ⟨s, Compiler.mem_matchesOf.2 ⟨R, hmem, hs, fun hn => by cases hn⟩, fun v hv => ?_⟩
  obtain ⟨r, hr⟩ := (hf.vs v).2 (.inl hv)
  obtain ⟨x, y, g1, g2, g3⟩ := hR.vars v r hr
  exact ⟨x, y, g1, by rw [readSubst_get hs, hf.subst_eq, hr]; exact g2, g3⟩

/-- The classes with matches are visited. -/
theorem visited_complete (hth : Thinner eg g) (h : EGraph.Inv C g) (hio : EGraph.InOrder eg) {ord : IterOrd} (ho : ord.OK eg)
    {t : Term (PatOp Op)} {σ : Var → Option Id} {c : Id} (hm : PMatch eg σ c t) (hc : eg.find c = .ok c) : c ∈ visited eg ord t := by
  have hcg := hc
  rw [hth.find] at hcg
  obtain ⟨hlt, hrt⟩ := h.find_iff.1 hcg
  cases hm with
  | var h1 h2 =>
    obtain ⟨k0, hk0, -⟩ := h.index hlt
    obtain ⟨k, hk⟩ := hth.index_total hk0
    have hget := hth.index_get h hk
    rw [hrt] at hget
    obtain ⟨k0', g1, g2⟩ := hth.index_ok hk
    have hid : k.id = c := by
      rw [g2.id]
      have := h.core.clsId _ _ (EGraph.sk_eq (h.index_iff.1 g1).2)
      rw [hrt] at this
      exact this
    show c ∈ ord.classes
    exact ho.classes.mem_iff.2 (List.mem_map.2 ⟨_, AMap.mem_of_get? hget, hid⟩)
  | @node _ k n ps h1 h2 h3 h4 =>
    have hget := hth.index_get h h1
    rw [hrt] at hget
    obtain ⟨k0', g1, g2⟩ := hth.index_ok h1
    have hid : k.id = c := by
      rw [g2.id]
      have := h.core.clsId _ _ (EGraph.sk_eq (h.index_iff.1 g1).2)
      rw [hrt] at this
      exact this
    obtain ⟨ids, q1, q2⟩ := hio.index c k hget n h2
    unfold visited
    simp only [EGraph.classesForOp, q1]
    rw [hid] at q2
    exact (ho.byOp ids).mem_iff.2 q2

end Egg
