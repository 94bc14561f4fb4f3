import Verif.Lemmas.Pattern
/-
The programs of single patterns, for searches without cycles.
-/
namespace Egg
variable {Op D : Type} [DecidableEq Op] [Lang Op]

namespace Compiler
omit [Lang Op]

/-- No instruction scans, and no variable is in a register below `k`. -/
structure Local (k : Nat) (c : Compiler Op) : Prop where
  noScan : ∀ o, Instr.scan o ∉ c.instrs
  vars : ∀ v r, c.v2r.get? v = some r → k ≤ r

theorem Local.addTodo {c c' : Compiler Op} {p : PatternAst Op} {id : Id} {reg : Nat} (hl : Local k c) (hr : k ≤ reg)
    (h : c.addTodo p id reg = .ok c') : Local k c' := by
  unfold Compiler.addTodo at h
  rw [bind_eq_ok] at h
  obtain ⟨n, _, h⟩ := h
  split at h
  · split at h
    · cases h
      exact ⟨by intro o; simp [hl.noScan o], hl.vars⟩
    · cases h
      refine ⟨hl.noScan, fun w r hw => ?_⟩
      simp only [AMap.get?_insert] at hw
      split at hw
      · cases hw; exact hr
      · exact hl.vars w r hw
  · cases h
    exact ⟨hl.noScan, hl.vars⟩

theorem Local.addTodos {p : PatternAst Op} : ∀ (l : List Id) {c c' : Compiler Op} {out : Nat}, Local k c → k ≤ out →
    addTodos p c l out = .ok c' → Local k c'
  | [], c, c', out, hl, _, h => by cases h; exact hl
  | x :: l, c, c', out, hl, ho, h => by
    unfold Compiler.addTodos at h
    rw [bind_eq_ok] at h
    obtain ⟨c1, h1, h⟩ := h
    exact Local.addTodos l (hl.addTodo ho h1) (by omega) h

theorem Local.step {p : PatternAst Op} {fuel : Nat} {c : Compiler Op} {out : Nat} {id : Id} {reg : Nat} {node : ENode Op}
    {r} (hl : Local k c) (ho : k ≤ out) (h : step p fuel c out id reg node = .ok r) : Local k r.1 ∧ k ≤ r.2 := by
  unfold Compiler.step at h
  rw [bind_eq_ok] at h
  obtain ⟨g, _, h⟩ := h
  split at h
  · rw [bind_eq_ok] at h
    obtain ⟨e, _, h⟩ := h
    rw [bind_eq_ok] at h
    obtain ⟨t, _, h⟩ := h
    cases h
    exact ⟨⟨by intro o; simp [hl.noScan o], hl.vars⟩, ho⟩
  · dsimp only at h
    rw [bind_eq_ok] at h
    obtain ⟨c1, h1, h⟩ := h
    cases h
    refine ⟨Local.addTodos _ (c := { c with instrs := _ }) ?_ ho h1, by dsimp only; omega⟩
    exact ⟨by intro o; simp [hl.noScan o], hl.vars⟩

theorem Local.loop {ord : Compiler Op → List (Id × Nat)} {p : PatternAst Op} : ∀ (f : Nat) {c : Compiler Op} {out : Nat} {r},
    Local k c → k ≤ out → loop ord p f c out = .ok r → Local k r.1
  | 0, _, _, _, _, _, h => by cases h
  | f + 1, c, out, r, hl, ho, h => by
    unfold Compiler.loop at h
    rw [bind_eq_ok] at h
    obtain ⟨nx, h1, h⟩ := h
    cases nx with
    | none => cases h; exact hl
    | some q =>
      obtain ⟨⟨id, reg⟩, node, c1⟩ := q
      dsimp only at h
      rw [bind_eq_ok] at h
      obtain ⟨⟨c2, out2⟩, h2, h⟩ := h
      have hl1 : Local k c1 := by
        unfold next at h1
        rw [bind_eq_ok] at h1
        obtain ⟨m, _, h1⟩ := h1
        split at h1
        · cases h1
        · rw [bind_eq_ok] at h1
          obtain ⟨n, _, h1⟩ := h1
          cases h1
          exact ⟨hl.noScan, hl.vars⟩
      have := hl1.step ho h2
      exact Local.loop f this.1 this.2 h

/-- The compiled program of a pattern that is not a variable. -/
theorem local_compile {ord : Compiler Op → List (Id × Nat)} {fuel : Nat} {p : PatternAst Op} {c : Compiler Op}
    {t : Term (PatOp Op)} (ht : ExprTerm p t)
    (h : compile ord fuel Compiler.new none p = .ok c) : Local 0 c ∧ ((∃ o ts, t = .node (.op o) ts) → Local 1 c) := by
  unfold compile at h
  rw [bind_eq_ok] at h
  obtain ⟨c1, h1, h⟩ := h
  rw [bind_eq_ok] at h
  obtain ⟨root, h2, h⟩ := h
  rw [bind_eq_ok] at h
  obtain ⟨⟨c2, out⟩, h3, h⟩ := h
  dsimp only at h
  rw [bind_eq_ok] at h
  obtain ⟨⟨c3, out3⟩, h4, h⟩ := h
  cases h
  rw [root_eq ht.1] at h2
  cases h2
  unfold loadPattern at h1
  rw [bind_eq_ok] at h1
  obtain ⟨⟨fr, sz⟩, _, h1⟩ := h1
  cases h1
  simp only [start] at h3
  rw [bind_eq_ok] at h3
  obtain ⟨c2', h3, h5⟩ := h3
  cases h5
  unfold addNewPattern at h3
  simp only [Compiler.new, List.isEmpty_nil, if_true] at h3
  unfold addTodo at h3
  rw [bind_eq_ok] at h3
  obtain ⟨n, hn, h3⟩ := h3
  have key : ∀ k, k ≤ 1 → Local k c2 → Local k c3 := by
    intro k hk hl
    refine Local.loop (r := (c3, out3)) fuel hl ?_ h4
    have : 1 ≤ c2.nextReg + 1 := by omega
    omega
  constructor
  · have := key 0 (by omega) (by
      split at h3
      · simp only [AMap.get?] at h3
        cases h3
        exact ⟨by intro o; simp, by intro v r hv; omega⟩
      · cases h3
        exact ⟨by intro o; simp, by intro v r hv; omega⟩)
    exact ⟨this.noScan, this.vars⟩
  · rintro ⟨o, ts, rfl⟩
    obtain ⟨m, g1, g2, _⟩ := termOf_iff.1 ht.2
    rw [getIdx_eq_ok, g1] at hn
    cases hn
    rw [g2] at h3
    cases h3
    have := key 1 (by omega) ⟨by intro o; simp, by intro v r hv; simp [AMap.get?] at hv⟩
    exact ⟨this.noScan, this.vars⟩

end Compiler

section
variable {C : Cfg Op D} {eg : EGraph Op D} {order : List Id}

/-- The compiled program of a pattern. -/
theorem pattern_local (h : EGraph.Inv C eg) (hr : Rebuilt eg) (hdc : DiscContiguous Op)
    {ordc : Compiler Op → List (Id × Nat)} (hoc : OrdOK ordc) (order : List Id) {fuel : Nat} {ast : PatternAst Op}
    {p : Pattern Op} (hw : PatWF ast) (hp : Pattern.new ordc fuel ast = .ok p) {t : Term (PatOp Op)}
    (ht : ExprTerm p.ast t) :
    ∃ c : Compiler Op, p.program = c.extract ∧ Compiler.Local 0 c ∧ ((∃ o ts, t = .node (.op o) ts) → Compiler.Local 1 c) ∧
      Compiler.Fin eg order c (fun σ c0 => PMatch eg σ c0 t) (fun v => Occurs v t) := by
  unfold Pattern.new at hp
  rw [bind_eq_ok] at hp
  obtain ⟨e, k1, hp⟩ := hp
  rw [bind_eq_ok] at hp
  obtain ⟨pr, k2, hp⟩ := hp
  cases hp
  have hwe := RecExpr.compact_pat hw k1
  unfold Program.compileFromPat at k2
  rw [bind_eq_ok] at k2
  obtain ⟨c', k3, k2⟩ := k2
  cases k2
  refine ⟨c', rfl, (Compiler.local_compile ht k3).1, (Compiler.local_compile ht k3).2, ?_⟩
  have := (Compiler.compile_first (order := order) hoc h hr hdc hwe.1.2 hwe.2 ht k3).1
  refine ⟨this.laid, this.vlt, this.vkeys, this.todo, ?_, this.uniq, ?_⟩
  · intro σ c0; rw [this.sols]; simp
  · intro v; rw [this.vs]; simp

/-- Without scans, a property of the children of e-nodes of good classes holds of all registers but the first. -/
theorem runs_reach {P : Id → Prop} (h : EGraph.Inv C eg) (hr : Rebuilt eg) (hdc : DiscContiguous Op) {c0 : Id}
    (h0 : ∀ cl, eg.index c0 = .ok cl → ∀ n ∈ cl.nodes, ∀ d ∈ n.children, P d)
    (hP : ∀ c cl, P c → eg.index c = .ok cl → ∀ n ∈ cl.nodes, ∀ d ∈ n.children, P d) :
    ∀ (instrs : List (Instr Op)) {R R' : List Id}, (∀ o, Instr.scan o ∉ instrs) → (∀ x ∈ R, P x) →
      R' ∈ runs eg order instrs (c0 :: R) → ∃ S, R' = c0 :: S ∧ ∀ x ∈ S, P x
  | [], R, R', _, hR, hR' => by
    simp only [runs, List.mem_singleton] at hR'
    exact ⟨R, hR', hR⟩
  | .bind node i out :: rest, R, R', hn, hR, hR' => by
    simp only [runs] at hR'
    split at hR'
    · cases hR'
    · next x hx =>
      split at hR'
      · cases hR'
      · next cls hcls =>
        rw [List.mem_flatMap] at hR'
        obtain ⟨m, hm, hR'⟩ := hR'
        have hsrt := hr.sorted _ cls (h.index_iff.1 hcls).2
        rw [mem_matchingNodes hdc hsrt] at hm
        refine runs_reach h hr hdc h0 hP rest (R := R ++ m.children) (fun o ho => hn o (by simp [ho])) ?_ hR'
        intro y hy
        rcases List.mem_append.1 hy with hy | hy
        · exact hR y hy
        · rcases List.mem_cons.1 (List.mem_of_getElem? hx) with rfl | hx
          · exact h0 _ hcls _ hm.1 y hy
          · exact hP _ _ (hR _ hx) hcls _ hm.1 y hy
  | .scan out :: rest, R, R', hn, hR, hR' => absurd (by simp) (hn out)
  | .compare i j :: rest, R, R', hn, hR, hR' => by
    simp only [runs] at hR'
    split at hR'
    · split at hR'
      · exact runs_reach h hr hdc h0 hP rest (fun o ho => hn o (by simp [ho])) hR hR'
      · cases hR'
    · cases hR'
  | .lookup term i :: rest, R, R', hn, hR, hR' => by
    simp only [runs] at hR'
    split at hR'
    · exact runs_reach h hr hdc h0 hP rest (fun o ho => hn o (by simp [ho])) hR hR'
    · cases hR'

end
end Egg
