import Verif.Lemmas.Compile
/-
From the pattern compiler to the results of a search.
-/
namespace Egg
variable {Op D : Type} [DecidableEq Op] [Lang Op]

/-! ### Substitutions -/

theorem Subst.get_insert (s : Subst) (v w : Var) (i : Id) :
    (Subst.insert s v i).1.get w = if v = w then some i else s.get w := by
  induction s with
  | nil => simp [Subst.insert, Subst.get]
  | cons a s ih =>
    obtain ⟨u, j⟩ := a
    unfold Subst.insert
    split
    · next h => subst h; simp only [Subst.get]; split <;> rfl
    · next h =>
      simp only [Subst.get, ih]
      by_cases hu : u = w
      · subst hu; simp [Ne.symm h]
      · simp [hu]

theorem Subst.insert_old (s : Subst) (v : Var) (i : Id) : (Subst.insert s v i).2 = s.get v := by
  induction s with
  | nil => rfl
  | cons a s ih =>
    obtain ⟨u, j⟩ := a
    unfold Subst.insert
    by_cases h : u = v
    · simp [h, Subst.get]
    · simp [h, Subst.get, ih]

theorem Subst.insert_fresh {s : Subst} {v : Var} (h : v ∉ s.map Prod.fst) (i : Id) :
    (Subst.insert s v i).1 = s ++ [(v, i)] := by
  induction s with
  | nil => rfl
  | cons a s ih =>
    obtain ⟨u, j⟩ := a
    simp only [List.map_cons, List.mem_cons, not_or] at h
    unfold Subst.insert
    rw [if_neg (Ne.symm h.1)]
    simp [ih h.2]

theorem foldl_insert {l : List (Var × Nat)} : ∀ {s : Subst}, (s.map Prod.fst ++ l.map Prod.fst).Nodup →
    l.foldl (fun s vr => (Subst.insert s vr.1 vr.2).1) s = s ++ l := by
  induction l with
  | nil => intro s _; simp
  | cons a l ih =>
    intro s h
    rw [List.foldl_cons, Subst.insert_fresh (by
      intro ha
      rw [List.nodup_append] at h
      exact h.2.2 _ ha _ (by simp) rfl), ih (by simpa using h)]
    simp

theorem readSubst_get {subst : List (Var × Nat)} {R : List Id} {s : Subst} (h : readSubst subst R = .ok s) (v : Var) :
    s.get v = (AMap.get? subst v).bind (fun r => R[r]?) := by
  unfold readSubst at h
  rw [mapM_eq_ok] at h
  induction h with
  | nil => rfl
  | @cons a b l s h1 _ ih =>
    obtain ⟨w, r⟩ := a
    rw [bind_eq_ok] at h1
    obtain ⟨x, g1, g2⟩ := h1
    cases g2
    rw [getIdx_eq_ok] at g1
    unfold Subst.get AMap.get?
    split
    · simp [g1]
    · exact ih

theorem readSubst_total {subst : List (Var × Nat)} {R : List Id} (h : ∀ vr ∈ subst, vr.2 < R.length) :
    ∃ s, readSubst subst R = .ok s := by
  unfold readSubst
  obtain ⟨s, hs⟩ := forall₂_exists (R := fun (vr : Var × Nat) b => (do return (vr.1, ← getIdx R vr.2) : Res (Var × Id)) = .ok b)
    (as := subst) (fun vr hvr => ⟨(vr.1, R[vr.2]'(h vr hvr)), by rw [getIdx_lt (h vr hvr)]; rfl⟩)
  exact ⟨s, mapM_eq_ok.2 hs⟩

/-! ### Runs -/

section
variable {C : Cfg Op D} {eg : EGraph Op D} {order : List Id}

/-- A property of the root, of the children of e-nodes and of the listed classes
holds of all registers. -/
theorem runs_all {P : Id → Prop} (h : EGraph.Inv C eg) (hr : Rebuilt eg) (hdc : DiscContiguous Op)
    (hP : ∀ c cl, eg.index c = .ok cl → ∀ n ∈ cl.nodes, ∀ d ∈ n.children, P d) (ho : ∀ c ∈ order, P c) :
    ∀ (instrs : List (Instr Op)) {R R' : List Id}, (∀ x ∈ R, P x) → R' ∈ runs eg order instrs R → ∀ x ∈ R', P x
  | [], R, R', hR, hR' => by
    simp only [runs, List.mem_singleton] at hR'
    subst hR'; exact hR
  | .bind node i out :: rest, R, R', hR, hR' => by
    simp only [runs] at hR'
    split at hR'
    · cases hR'
    · split at hR'
      · cases hR'
      · next x _ cls hcls =>
        rw [List.mem_flatMap] at hR'
        obtain ⟨m, hm, hR'⟩ := hR'
        have hsrt := hr.sorted _ cls (h.index_iff.1 hcls).2
        rw [mem_matchingNodes hdc hsrt] at hm
        refine runs_all h hr hdc hP ho rest ?_ hR'
        intro y hy
        rcases List.mem_append.1 hy with hy | hy
        · exact hR y hy
        · exact hP _ _ hcls _ hm.1 y hy
  | .scan out :: rest, R, R', hR, hR' => by
    simp only [runs, List.mem_flatMap] at hR'
    obtain ⟨c, hc, hR'⟩ := hR'
    refine runs_all h hr hdc hP ho rest ?_ hR'
    intro y hy
    rcases List.mem_append.1 hy with hy | hy
    · exact hR y hy
    · simp at hy; subst hy; exact ho _ hc
  | .compare i j :: rest, R, R', hR, hR' => by
    simp only [runs] at hR'
    split at hR'
    · split at hR'
      · exact runs_all h hr hdc hP ho rest hR hR'
      · cases hR'
    · cases hR'
  | .lookup term i :: rest, R, R', hR, hR' => by
    simp only [runs] at hR'
    split at hR'
    · exact runs_all h hr hdc hP ho rest hR hR'
    · cases hR'

/-- Registers hold ids of the e-graph. -/
theorem runs_valid (h : EGraph.Inv C eg) (hr : Rebuilt eg) (hdc : DiscContiguous Op) (ho : ∀ c ∈ order, c < eg.nodes.length)
    (instrs : List (Instr Op)) {R R' : List Id} (hR : ∀ x ∈ R, x < eg.nodes.length) (hR' : R' ∈ runs eg order instrs R) :
      ∀ x ∈ R', x < eg.nodes.length :=
  runs_all h hr hdc (fun _ _ hi _ hn _ hd => EGraph.InvW.index_node_lt h hi hn _ hd) ho instrs hR hR'

/-- Registers hold canonical ids when the root is canonical. -/
theorem runs_canon (h : EGraph.Inv C eg) (hr : Rebuilt eg) (hdc : DiscContiguous Op) (ho : ∀ c ∈ order, eg.find c = .ok c)
    (instrs : List (Instr Op)) {R R' : List Id} (hR : ∀ x ∈ R, eg.find x = .ok x) (hR' : R' ∈ runs eg order instrs R) :
      ∀ x ∈ R', eg.find x = .ok x :=
  runs_all h hr hdc (fun c cl hi n hn d hd => hr.canon _ cl (h.index_iff.1 hi).2 n hn d hd) ho instrs hR hR'

/-- The matches a program yields for one class, in order. -/
def matchesOf (ac : Bool) (eg : EGraph Op D) (order : List Id) (pr : Program Op) (c0 : Id) : List Subst :=
  (runs eg order pr.instrs [c0]).filterMap (report ac pr.subst)

namespace Compiler
variable {c : Compiler Op} {Q : (Var → Option Id) → Id → Prop} {V : Var → Prop}

theorem Fin.subst_eq (hf : Fin eg order c Q V) : c.extract.subst = c.v2r := by
  have := foldl_insert (l := c.v2r) (s := []) (by simpa [AMap.keys] using hf.vkeys)
  simpa [extract] using this

theorem Fin.vlt' (hf : Fin eg order c Q V) : ∀ vr ∈ c.extract.subst, vr.2 < c.nextReg := by
  rw [hf.subst_eq]
  intro vr hvr
  exact hf.vlt vr.1 vr.2 (AMap.get?_of_mem hf.vkeys hvr)

/-- The run of a compiled program. -/
theorem Fin.run (hf : Fin eg order c Q V) (h : EGraph.Inv C eg) (hr : Rebuilt eg) (hdc : DiscContiguous Op)
    (ho : ∀ c ∈ order, c < eg.nodes.length) (N : Analysis Op D) (hcl : eg.clean = true) {c0 : Id}
    (hc0 : c0 < eg.nodes.length) (limit : Nat) :
    c.extract.runWithLimit N eg order c0 limit = .ok ((matchesOf N.allowCycles eg order c.extract c0).take limit) := by
  unfold Program.runWithLimit
  rw [hcl]
  simp only [Bool.not_true, Bool.false_eq_true, if_false]
  split
  · next h0 => subst h0; simp
  · next h0 =>
    obtain ⟨s', h1, h2, -, -⟩ := run_spec h hr hdc ho (ac := N.allowCycles) (subst := c.extract.subst)
      (instrs := c.extract.instrs) hf.laid hf.vlt' { reg := [c0], found := [], limit := limit } rfl
      (by simpa using hc0) (by simp; omega)
    rw [h1]
    simp only [ok_bind]
    rw [h2]
    rfl

theorem Fin.mem (hf : Fin eg order c Q V) (h : EGraph.Inv C eg) (hr : Rebuilt eg) (hdc : DiscContiguous Op)
    (ho : ∀ c ∈ order, c < eg.nodes.length) {c0 : Id} (hc0 : c0 < eg.nodes.length) {R : List Id}
    (hR : R ∈ runs eg order c.instrs [c0]) {s : Subst} (hs : readSubst c.extract.subst R = .ok s) {σ : Var → Option Id}
    (hσ : ∀ v y, s.get v = some y → ∃ x, σ v = some x ∧ SameClass eg x y) :
    Sols eg order [] c c.nextReg σ c0 R := by
  have hv := runs_valid h hr hdc ho c.instrs (by simpa using hc0) hR
  rw [mem_runs h hr hdc hf.laid rfl] at hR
  obtain ⟨h1, h2, h3⟩ := hR
  refine ⟨h1, ?_, hv, h3, ?_, ?_⟩
  · have : (R.take 1)[0]? = some c0 := by rw [h2]; rfl
    rwa [List.getElem?_take_of_lt (by omega)] at this
  · intro v r hr
    have hg := readSubst_get hs v
    have hlt : r < R.length := by rw [h1]; exact hf.vlt v r hr
    rw [hf.subst_eq, hr] at hg
    simp only [Option.bind_some, List.getElem?_eq_getElem hlt] at hg
    obtain ⟨x, g1, g2⟩ := hσ v _ hg
    exact ⟨x, _, g1, List.getElem?_eq_getElem hlt, g2⟩
  · rw [hf.todo]; intro _ _ _ h; simp [AMap.get?] at h

theorem Fin.read (hf : Fin eg order c Q V) (h : EGraph.Inv C eg) (hr : Rebuilt eg) (hdc : DiscContiguous Op) {c0 : Id} {R : List Id}
    (hR : R ∈ runs eg order c.instrs [c0]) : ∃ s, readSubst c.extract.subst R = .ok s := by
  rw [mem_runs h hr hdc hf.laid rfl] at hR
  exact readSubst_total (fun vr hvr => by rw [hR.1]; exact hf.vlt' vr hvr)

theorem mem_matchesOf {ac : Bool} {pr : Program Op} {c0 : Id} {s : Subst} : s ∈ matchesOf ac eg order pr c0 ↔
    ∃ R ∈ runs eg order pr.instrs [c0], readSubst pr.subst R = .ok s ∧ (ac = false → rootAgain R = false) := by
  unfold matchesOf
  rw [List.mem_filterMap]
  refine exists_congr (fun R => and_congr_right (fun _ => ?_))
  unfold report
  by_cases hc : (!ac && rootAgain R) = true
  · rw [if_pos hc]
    simp only [Bool.and_eq_true, Bool.not_eq_true'] at hc
    simp [hc.1, hc.2]
  · rw [if_neg hc]
    simp only [Bool.and_eq_true, Bool.not_eq_true', not_and, Bool.not_eq_true] at hc
    cases hs : readSubst pr.subst R with
    | error e => simp
    | ok x => simp; exact fun _ => hc

theorem Fin.sound (hf : Fin eg order c Q V) (h : EGraph.Inv C eg) (hr : Rebuilt eg) (hdc : DiscContiguous Op)
    (ho : ∀ c ∈ order, c < eg.nodes.length) {c0 : Id} (hc0 : c0 < eg.nodes.length) {ac : Bool} {s : Subst}
    (hs : s ∈ matchesOf ac eg order c.extract c0) :
    Q s.get c0 ∧ (∀ v, (∃ x, s.get v = some x) ↔ V v) ∧ (∀ v x, s.get v = some x → Valid eg x) ∧
      (s.map Prod.fst).Nodup := by
  rw [mem_matchesOf] at hs
  obtain ⟨R, hR, hs, -⟩ := hs
  have hv := runs_valid h hr hdc ho c.instrs (by simpa using hc0) hR
  have hval : ∀ v x, s.get v = some x → x < eg.nodes.length := by
    intro v x hx
    rw [readSubst_get hs] at hx
    obtain ⟨r, _, hx⟩ := Option.bind_eq_some_iff.1 hx
    exact hv x (List.mem_of_getElem? hx)
  have hsol := hf.mem h hr hdc ho hc0 hR hs (σ := s.get) (fun v y hy => ⟨y, hy, _, h.find (hval v y hy), h.find (hval v y hy)⟩)
  refine ⟨(hf.sols _ _).1 ⟨R, hsol⟩, ?_, fun v x hx => ⟨_, h.find (hval v x hx)⟩, ?_⟩
  · intro v
    rw [← hf.vs, readSubst_get hs, hf.subst_eq]
    constructor
    · rintro ⟨x, hx⟩
      obtain ⟨r, hr, _⟩ := Option.bind_eq_some_iff.1 hx
      exact ⟨r, hr⟩
    · rintro ⟨r, hr⟩
      rw [hr]
      have hlt : r < R.length := by rw [hsol.len]; exact hf.vlt v r hr
      exact ⟨R[r], by simp [List.getElem?_eq_getElem hlt]⟩
  · have : s.map Prod.fst = c.extract.subst.map Prod.fst := by
      unfold readSubst at hs
      rw [mapM_eq_ok] at hs
      clear hsol hval hv hR
      generalize c.extract.subst = sub at hs
      induction hs with
      | nil => rfl
      | cons h1 _ ih =>
        rw [bind_eq_ok] at h1
        obtain ⟨x, _, g2⟩ := h1
        cases g2
        simp [ih]
    rw [this, hf.subst_eq]
    exact hf.vkeys

theorem Fin.canon (_hf : Fin eg order c Q V) (h : EGraph.Inv C eg) (hr : Rebuilt eg) (hdc : DiscContiguous Op)
    (ho : ∀ c ∈ order, eg.find c = .ok c) {c0 : Id} (hc0 : eg.find c0 = .ok c0) {ac : Bool} {s : Subst}
    (hs : s ∈ matchesOf ac eg order c.extract c0) : ∀ v x, s.get v = some x → eg.find x = .ok x := by
  rw [mem_matchesOf] at hs
  obtain ⟨R, hR, hs, -⟩ := hs
  have hv := runs_canon h hr hdc ho c.instrs (by simpa using hc0) hR
  intro v x hx
  rw [readSubst_get hs] at hx
  obtain ⟨r, _, hx⟩ := Option.bind_eq_some_iff.1 hx
  exact hv x (List.mem_of_getElem? hx)

theorem Fin.complete (hf : Fin eg order c Q V) (h : EGraph.Inv C eg) (hr : Rebuilt eg) (hdc : DiscContiguous Op)
    {c0 : Id} {σ : Var → Option Id} (hQ : Q σ c0) :
    ∃ R s, R ∈ runs eg order c.instrs [c0] ∧ readSubst c.extract.subst R = .ok s ∧ Sols eg order [] c c.nextReg σ c0 R ∧
      ∀ v, V v → ∃ x y, σ v = some x ∧ s.get v = some y ∧ SameClass eg x y := by
  obtain ⟨R, hR⟩ := (hf.sols σ c0).2 hQ
  have hmem : R ∈ runs eg order c.instrs [c0] := by
    rw [mem_runs h hr hdc hf.laid rfl]
    refine ⟨hR.len, ?_, hR.sat⟩
    cases R with
    | nil => have := hR.root; simp at this
    | cons a l => have := hR.root; simp at this; simp [this]
  obtain ⟨s, hs⟩ := hf.read h hr hdc hmem
  refine ⟨R, s, hmem, hs, hR, ?_⟩
  intro v hv
  obtain ⟨r, hr⟩ := (hf.vs v).2 hv
  obtain ⟨x, y, g1, g2, g3⟩ := hR.vars v r hr
  exact ⟨x, y, g1, by rw [readSubst_get hs, hf.subst_eq, hr]; exact g2, g3⟩

theorem Fin.unique (hf : Fin eg order c Q V) (h : EGraph.Inv C eg) (hr : Rebuilt eg) (hdc : DiscContiguous Op)
    (ho : ∀ c ∈ order, c < eg.nodes.length) (hno : order.Nodup) {c0 : Id} (hc0 : c0 < eg.nodes.length) (ac : Bool) :
    (matchesOf ac eg order c.extract c0).Pairwise (fun s t => ¬ SubstEq eg s t) := by
  unfold matchesOf
  rw [List.pairwise_filterMap]
  have hnd := runs_nodup h hr hdc hno hf.laid (R := [c0]) rfl
  refine (List.Pairwise.imp_of_mem (R := fun a b => a ≠ b) ?_ hnd)
  intro R R' hR hR' hne s hs t ht heq
  have key : ∀ {R : List Id} {s : Subst}, report ac c.extract.subst R = some s → readSubst c.extract.subst R = .ok s := by
    intro R s hs
    unfold report at hs
    split at hs
    · cases hs
    · split at hs
      · cases hs; assumption
      · cases hs
  have hv := runs_valid h hr hdc ho c.instrs (by simpa using hc0) hR
  have hval : ∀ v x, s.get v = some x → x < eg.nodes.length := by
    intro v x hx
    rw [readSubst_get (key hs)] at hx
    obtain ⟨r, _, hx⟩ := Option.bind_eq_some_iff.1 hx
    exact hv x (List.mem_of_getElem? hx)
  apply hne
  refine hf.uniq s.get c0 R R' (hf.mem h hr hdc ho hc0 hR (key hs)
    (fun v y hy => ⟨y, hy, _, h.find (hval v y hy), h.find (hval v y hy)⟩))
    (hf.mem h hr hdc ho hc0 hR' (key ht) ?_)
  intro v y hy
  rcases heq v with ⟨_, h2⟩ | ⟨x, y', h1, h2, h3⟩
  · rw [hy] at h2; cases h2
  · rw [hy] at h2; cases h2; exact ⟨x, h1, h3⟩

/-! ### Compilation succeeds -/

theorem extract_fuel {p : PatternAst Op} (hd : Dag p) :
    ∃ F, ∀ f id, F ≤ f → id < p.length → ∃ e, RecExpr.extract f p id = .ok e := by
  have : ∀ k, k ≤ p.length → ∃ F, ∀ f id, F ≤ f → id < k → ∃ e, RecExpr.extract f p id = .ok e := by
    intro k
    induction k with
    | zero => intro _; exact ⟨0, fun f id _ h => by omega⟩
    | succ k ih =>
      intro hk
      obtain ⟨F, hF⟩ := ih (by omega)
      obtain ⟨t, ht⟩ := hd.exists_term k (by omega)
      obtain ⟨f0, e, he, -⟩ := RecExpr.extract_spec ht
      refine ⟨max F f0, fun f id hf hid => ?_⟩
      rcases Nat.lt_or_ge id k with h | h
      · exact hF f id (by omega) h
      · obtain rfl : id = k := by omega
        exact ⟨e, he f (by omega)⟩
  exact this _ (Nat.le_refl _)

theorem CI.insertVar {p : PatternAst Op} {n : Nat} (hc : CI p c n) (v : Var) {r : Nat} (hr : r < n) :
    CI p { c with v2r := c.v2r.insert v r } n := by
  refine ⟨hc.laid, hc.tab, ?_, AMap.nodup_insert hc.vkeys _ _, hc.tlt, hc.tkeys⟩
  intro w r' hw
  rw [AMap.get?_insert] at hw
  split at hw
  · cases hw; exact hr
  · exact hc.vlt _ _ hw

section
omit [Lang Op]

theorem addTodo_ext {p : PatternAst Op} {c c' : Compiler Op} {id : Id} {reg : Nat} (h : addTodo c p id reg = .ok c') :
    ∃ l, c'.instrs = c.instrs ++ l := by
  unfold addTodo at h
  rw [bind_eq_ok] at h
  obtain ⟨nd, _, h⟩ := h
  split at h
  · split at h
    · cases h; exact ⟨_, rfl⟩
    · cases h; exact ⟨[], by simp⟩
  · cases h; exact ⟨[], by simp⟩

theorem addTodos_ext {p : PatternAst Op} : ∀ (l : List Id) {c c' : Compiler Op} {out : Nat},
    addTodos p c l out = .ok c' → ∃ l, c'.instrs = c.instrs ++ l
  | [], c, c', out, h => by cases h; exact ⟨[], by simp⟩
  | ch :: l, c, c', out, h => by
    unfold addTodos at h
    rw [bind_eq_ok] at h
    obtain ⟨c1, h1, h2⟩ := h
    obtain ⟨a, ha⟩ := addTodo_ext h1
    obtain ⟨b, hb⟩ := addTodos_ext l h2
    exact ⟨a ++ b, by rw [hb, ha]; simp⟩

theorem step_ext {p : PatternAst Op} {c c' : Compiler Op} {f n n' id reg : Nat} {m : ENode Op}
    (h : step p f c n id reg m = .ok (c', n')) : ∃ i l, c'.instrs = c.instrs ++ i :: l := by
  unfold step at h
  rw [bind_eq_ok] at h
  obtain ⟨g, _, h⟩ := h
  split at h
  · rw [bind_eq_ok] at h
    obtain ⟨e, _, h⟩ := h
    rw [bind_eq_ok] at h
    obtain ⟨t, _, h⟩ := h
    cases h; exact ⟨_, [], rfl⟩
  · rw [bind_eq_ok] at h
    obtain ⟨c1, h1, h⟩ := h
    cases h
    obtain ⟨l, hl⟩ := addTodos_ext _ h1
    exact ⟨.bind (m.mapChildren (fun _ => 0)) reg n, l, by rw [hl]; simp⟩

theorem loop_ext {ord : Compiler Op → List (Id × Nat)} (ho : OrdOK ord) {p : PatternAst Op} : ∀ (f : Nat)
    {c c' : Compiler Op} {n n' : Nat}, loop ord p f c n = .ok (c', n') →
    (∃ l, c'.instrs = c.instrs ++ l) ∧ (c.instrs ≠ [] ∨ c.todo ≠ [] → c'.instrs ≠ [])
  | 0, _, _, _, _, h => by cases h
  | f + 1, c, c', n, n', h => by
    unfold loop at h
    rw [bind_eq_ok] at h
    obtain ⟨r, h1, h2⟩ := h
    rcases next_cases ho h1 with ⟨rfl, ht⟩ | ⟨id, reg, m, rfl, hm⟩
    · cases h2
      refine ⟨⟨[], by simp⟩, ?_⟩
      rintro (h | h)
      · exact h
      · exact absurd ht h
    · simp only at h2
      rw [bind_eq_ok] at h2
      obtain ⟨⟨c1, n1⟩, h3, h4⟩ := h2
      obtain ⟨i, l, hl⟩ := step_ext h3
      obtain ⟨⟨l', hl'⟩, -⟩ := loop_ext ho f h4
      have e : c'.instrs = c.instrs ++ i :: l ++ l' := by rw [hl', hl]
      exact ⟨⟨i :: l ++ l', by rw [e]; simp⟩, fun _ => by rw [e]; simp⟩

theorem step_mono {p : PatternAst Op} {c : Compiler Op} {f f' n id reg : Nat} {m : ENode Op} {r}
    (h : step p f c n id reg m = .ok r) (hf : f ≤ f') : step p f' c n id reg m = .ok r := by
  unfold step at h ⊢
  rw [bind_eq_ok] at h ⊢
  obtain ⟨g, hg, h⟩ := h
  refine ⟨g, hg, ?_⟩
  split at h
  · next hc =>
    rw [if_pos hc]
    rw [bind_eq_ok] at h ⊢
    obtain ⟨e, h1, h2⟩ := h
    exact ⟨e, RecExpr.extract_mono h1 hf, h2⟩
  · next hc =>
    rw [if_neg hc]; exact h

theorem loop_mono {ord : Compiler Op → List (Id × Nat)} {p : PatternAst Op} : ∀ (f f' : Nat)
    {c : Compiler Op} {n : Nat} {r}, loop ord p f c n = .ok r → f ≤ f' → loop ord p f' c n = .ok r
  | 0, _, _, _, _, h, _ => by cases h
  | f + 1, f', c, n, r, h, hf => by
    obtain ⟨g, rfl⟩ : ∃ g, f' = g + 1 := ⟨f' - 1, by omega⟩
    unfold loop at h ⊢
    rw [bind_eq_ok] at h ⊢
    obtain ⟨o, h1, h2⟩ := h
    refine ⟨o, h1, ?_⟩
    split at h2
    · exact h2
    · rw [bind_eq_ok] at h2 ⊢
      obtain ⟨q, h3, h4⟩ := h2
      exact ⟨q, step_mono h3 (by omega), loop_mono f g h4 (by omega)⟩

theorem compile_mono {ord : Compiler Op → List (Id × Nat)} {p : PatternAst Op} {f f' : Nat} {c : Compiler Op} {b : Option Var}
    {c' : Compiler Op} (h : c.compile ord f b p = .ok c') (hf : f ≤ f') : c.compile ord f' b p = .ok c' := by
  unfold compile at h ⊢
  rw [bind_eq_ok] at h ⊢
  obtain ⟨c1, h1, h⟩ := h
  refine ⟨c1, h1, ?_⟩
  rw [bind_eq_ok] at h ⊢
  obtain ⟨r, h2, h⟩ := h
  refine ⟨r, h2, ?_⟩
  rw [bind_eq_ok] at h ⊢
  obtain ⟨q, h3, h⟩ := h
  refine ⟨q, h3, ?_⟩
  rw [bind_eq_ok] at h ⊢
  obtain ⟨l, h4, h⟩ := h
  exact ⟨l, loop_mono f f' h4 hf, h⟩

theorem compileAll_mono {ord : Compiler Op → List (Id × Nat)} {f f' : Nat} (hf : f ≤ f') : ∀ (ps : List (Var × PatternAst Op))
    {c c' : Compiler Op}, compileAll ord f c ps = .ok c' → compileAll ord f' c ps = .ok c'
  | [], _, _, h => h
  | (v, p) :: ps, c, c', h => by
    unfold compileAll at h ⊢
    rw [bind_eq_ok] at h ⊢
    obtain ⟨c1, h1, h2⟩ := h
    exact ⟨c1, compile_mono h1 hf, compileAll_mono hf ps h2⟩

end

/-- The start of compiling a pattern succeeds. -/
theorem start_total {p : PatternAst Op} (hd : Dag p) (hv : VarLeaf p) (hp : p ≠ []) {c : Compiler Op} {n : Nat} (hc : CI p c n)
    (hfresh : (c.instrs = [] ∧ c.v2r = [] ∧ c.nextReg = 0 ∧ n = 1) ∨ (c.instrs ≠ [] ∧ c.nextReg = n)) (b : Option Var) :
    ∃ c2 n2, c.start b p (p.length - 1) = .ok (c2, n2) ∧ CI p c2 n2 ∧
      (∀ nd : ENode (PatOp Op), p[p.length - 1]? = some nd → (∃ o, nd.op = .op o) → c2.todo ≠ []) ∧ ∃ l, c2.instrs = c.instrs ++ l := by
  have hpl : 0 < p.length := List.length_pos_iff.2 hp
  have htodo : ∀ {c c1 : Compiler Op} {reg : Nat}, addTodo c p (p.length - 1) reg = .ok c1 →
      (∀ nd : ENode (PatOp Op), p[p.length - 1]? = some nd → (∃ o, nd.op = .op o) → c1.todo ≠ []) := by
    intro c c1 reg h nd hnd ho
    obtain ⟨o, ho⟩ := ho
    unfold addTodo at h
    rw [getIdx_eq_ok.2 hnd] at h
    simp only [ok_bind, ho] at h
    cases h
    exact AMap.insert_ne_nil _ _ _
  have hanp : ∃ c1, c.addNewPattern p (p.length - 1) = .ok c1 ∧ CI p c1 (c.nextReg + 1) ∧ c1.nextReg = c.nextReg ∧
      (∀ nd : ENode (PatOp Op), p[p.length - 1]? = some nd → (∃ o, nd.op = .op o) → c1.todo ≠ []) ∧
      ∃ l, c1.instrs = c.instrs ++ l := by
    unfold addNewPattern
    rcases hfresh with ⟨h1, h2, h3, rfl⟩ | ⟨h1, rfl⟩
    · rw [if_pos (by simp [h1]), h3]
      obtain ⟨c1, e2, ha⟩ := addTodo_spec (eg := (EGraph.new : EGraph Op Unit)) (order := []) hd hv hc
        (show p.length - 1 < p.length by omega) (show 0 < 1 by omega)
      exact ⟨c1, e2, ha.ci, by rw [ha.next, h3], htodo e2, ha.ext⟩
    · rw [if_neg (by simpa using h1)]
      have hcs : CI p { c with instrs := c.instrs ++ [.scan c.nextReg] } (c.nextReg + 1) := by
        refine ⟨?_, hc.tab, fun v r hv => Nat.lt_succ_of_lt (hc.vlt v r hv), hc.vkeys,
          fun a b k hk => ⟨Nat.lt_succ_of_lt (hc.tlt a b k hk).1, (hc.tlt a b k hk).2⟩, hc.tkeys⟩
        exact hc.laid.append (.scan .nil)
      obtain ⟨c1, e2, ha⟩ := addTodo_spec (eg := (EGraph.new : EGraph Op Unit)) (order := []) hd hv hcs
        (show p.length - 1 < p.length by omega) (show c.nextReg < c.nextReg + 1 by omega)
      obtain ⟨l, hl⟩ := ha.ext
      exact ⟨c1, e2, ha.ci, ha.next, htodo e2, .scan c.nextReg :: l, by rw [hl]; simp⟩
  obtain ⟨c1, e1, hc1, hn1, ht1, hx1⟩ := hanp
  unfold start
  cases b with
  | none =>
    simp only [e1, ok_bind]
    exact ⟨c1, _, rfl, by rw [hn1]; exact hc1, ht1, hx1⟩
  | some v =>
    cases hvi : c.v2r.get? v with
    | some i =>
      simp only [hvi]
      rcases hfresh with ⟨h1, h2, h3, rfl⟩ | ⟨h1, rfl⟩
      · rw [h2] at hvi; simp [AMap.get?] at hvi
      obtain ⟨c2, e2, ha⟩ := addTodo_spec (eg := (EGraph.new : EGraph Op Unit)) (order := []) hd hv hc
        (show p.length - 1 < p.length by omega) (hc.vlt v i hvi)
      rw [e2]
      simp only [ok_bind]
      exact ⟨c2, _, rfl, by rw [ha.next]; exact ha.ci, htodo e2, ha.ext⟩
    | none =>
      simp only [hvi, e1, ok_bind]
      refine ⟨_, _, rfl, ?_, ht1, hx1⟩
      rw [← hn1] at hc1
      exact hc1.insertVar v (Nat.lt_succ_self _)

/-- What holds between two patterns. -/
structure Idle (c : Compiler Op) : Prop where
  laid : Laid c.instrs 1 c.nextReg
  vlt : ∀ v r, c.v2r.get? v = some r → r < c.nextReg
  vkeys : (AMap.keys c.v2r).Nodup
  todo : c.todo = []

/-- Compiling a well-formed pattern succeeds. -/
theorem compile_total {ord : Compiler Op → List (Id × Nat)} (ho : OrdOK ord) {p : PatternAst Op} (hd : Dag p) (hv : VarLeaf p) (hp : p ≠ [])
    {c : Compiler Op} (hc : c = Compiler.new ∨ (Idle c ∧ c.instrs ≠ [])) (b : Option Var) :
    ∃ f0 c', (∀ f, f0 ≤ f → c.compile ord f b p = .ok c') ∧ Idle c' ∧
      ((∀ nd : ENode (PatOp Op), p[p.length - 1]? = some nd → ∃ o, nd.op = .op o) ∨ c.instrs ≠ [] → c'.instrs ≠ []) := by
  obtain ⟨free, size, e1, htab⟩ := load_spec (c := c) hd hv
  have hci : ∃ n, CI p { c with freeVars := free, subtreeSize := size } n ∧
      ((c.instrs = [] ∧ c.v2r = [] ∧ c.nextReg = 0 ∧ n = 1) ∨ (c.instrs ≠ [] ∧ c.nextReg = n)) := by
    rcases hc with rfl | ⟨hc, hne⟩
    · refine ⟨1, ⟨.nil, htab, ?_, by simp [new, AMap.keys], ?_, by simp [new, AMap.keys]⟩, .inl ⟨rfl, rfl, rfl, rfl⟩⟩
      · intro v r h; simp [new, AMap.get?] at h
      · intro a b k h; simp [new, AMap.get?] at h
    · refine ⟨c.nextReg, ⟨hc.laid, htab, hc.vlt, hc.vkeys, ?_, ?_⟩, .inr ⟨hne, rfl⟩⟩
      · intro a b k h
        have h : c.todo.get? (a, b) = some k := h
        rw [hc.todo] at h; simp [AMap.get?] at h
      · show (AMap.keys c.todo).Nodup
        rw [hc.todo]; simp [AMap.keys]
  obtain ⟨n, hci, hfr⟩ := hci
  obtain ⟨c2, n2, e2, hc2, ht2, ⟨l2, hx2⟩⟩ := start_total hd hv hp hci hfr b
  obtain ⟨F, hF⟩ := extract_fuel hd
  obtain ⟨c3, n3, e3, hc3, ht3⟩ := loop_total ho hd hv hF (work c2) hc2 (Nat.le_refl _) (F + work c2 + 1) (Nat.le_refl _)
  have hpl : 0 < p.length := List.length_pos_iff.2 hp
  refine ⟨F + work c2 + 1, { c3 with nextReg := n3 }, fun f hf => ?_, ⟨hc3.laid, hc3.vlt, hc3.vkeys, ht3⟩, ?_⟩
  · unfold compile
    rw [e1]
    simp only [ok_bind, root_eq hp]
    rw [e2]
    simp only [ok_bind, loop_mono _ f e3 hf]
    rfl
  · intro hor
    refine (loop_ext ho _ e3).2 ?_
    rcases hor with hroot | hne
    · right
      exact ht2 _ (List.getElem?_eq_getElem (by omega)) (hroot _ (List.getElem?_eq_getElem (by omega)))
    · left
      rw [hx2]; simp [hne]

end Compiler
end
end Egg
