import Verif.Spec.Rewrite
import Verif.Lemmas.Pattern
/-
Multi-patterns as searchers.
-/
namespace Egg
variable {Op D : Type} [DecidableEq Op] [Lang Op]

namespace Compiler
variable {C : Cfg Op D} {eg : EGraph Op D} {order : List Id}

theorem compileAll_more {ord : Compiler Op → List (Id × Nat)} (ho : OrdOK ord) (h : EGraph.Inv C eg) (hr : Rebuilt eg)
    (hdc : DiscContiguous Op) (hord : ∀ x, x ∈ order ↔ x < eg.nodes.length ∧ eg.rt x = x) {f : Nat} :
    ∀ (asts : List (Var × PatternAst Op)) (ps : List (Var × Term (PatOp Op)))
    (_ : List.Forall₂ (fun a b => a.1 = b.1 ∧ PatWF a.2 ∧ ExprTerm a.2 b.2) asts ps)
    {c c' : Compiler Op} {Q : (Var → Option Id) → Id → Prop} {V : Var → Prop}
    (_ : Fin eg order c Q V) (_ : c.instrs ≠ []) (_ : compileAll ord f c asts = .ok c'),
    Fin eg order c' (fun σ c0 => Q σ c0 ∧ ∀ w u, (w, u) ∈ ps → ∃ x, σ w = some x ∧ PMatch eg σ x u)
      (fun w => V w ∨ MultiOccurs w ps)
  | _, _, .nil, c, c', Q, V, hf, hne, hc => by
    cases hc
    refine ⟨hf.laid, hf.vlt, hf.vkeys, hf.todo, ?_, hf.uniq, ?_⟩
    · intro σ c0; rw [hf.sols]; simp
    · intro v; rw [hf.vs]; simp [MultiOccurs]
  | _ :: _, _ :: _, .cons (a := a) (b := b) hab hrest, c, c', Q, V, hf, hne, hc => by
    obtain ⟨v, p⟩ := a
    obtain ⟨v', t⟩ := b
    obtain ⟨e, hw, ht⟩ := hab
    have e : v = v' := e
    subst e
    unfold compileAll at hc
    rw [bind_eq_ok] at hc
    obtain ⟨c1, h1, hc⟩ := hc
    obtain ⟨g1, g2⟩ := compile_more ho h hr hdc hw.1.2 hw.2 ht hord hf hne h1
    have g3 := compileAll_more ho h hr hdc hord _ _ hrest g1 g2 hc
    refine ⟨g3.laid, g3.vlt, g3.vkeys, g3.todo, ?_, g3.uniq, ?_⟩
    · intro σ c0
      rw [g3.sols]
      constructor
      · rintro ⟨⟨q1, q2⟩, q3⟩
        refine ⟨q1, fun w u hm => ?_⟩
        rcases List.mem_cons.1 hm with hm | hm
        · cases hm; exact q2
        · exact q3 w u hm
      · rintro ⟨q1, q2⟩
        exact ⟨⟨q1, q2 _ _ (List.mem_cons.2 (.inl rfl))⟩, fun w u hm => q2 w u (List.mem_cons.2 (.inr hm))⟩
    · intro w
      rw [g3.vs]
      constructor
      · rintro ((q | q | q) | ⟨w', u, q1, q2⟩)
        · exact .inl q
        · exact .inr ⟨v, t, by simp, .inr q⟩
        · exact .inr ⟨v, t, by simp, .inl q⟩
        · exact .inr ⟨w', u, by simp [q1], q2⟩
      · rintro (q | ⟨w', u, q1, q2⟩)
        · exact .inl (.inl q)
        · rcases List.mem_cons.1 q1 with q1 | q1
          · cases q1
            rcases q2 with q2 | q2
            · exact .inl (.inr (.inr q2))
            · exact .inl (.inr (.inl q2))
          · exact .inr ⟨w', u, q1, q2⟩

theorem compileAll_total {ord : Compiler Op → List (Id × Nat)} (ho : OrdOK ord) :
    ∀ (asts : List (Var × PatternAst Op)) (_ : ∀ a ∈ asts, PatWF a.2) {c : Compiler Op} (_ : Idle c) (_ : c.instrs ≠ []),
    ∃ f0 c', ∀ f, f0 ≤ f → compileAll ord f c asts = .ok c'
  | [], _, c, _, _ => ⟨0, c, fun _ _ => rfl⟩
  | (v, p) :: rest, hw, c, hc, hne => by
    have hwp := hw (v, p) (by simp)
    obtain ⟨f1, c1, h1, h2, h3⟩ := compile_total ho hwp.1.2 hwp.2 hwp.1.1 (c := c) (.inr ⟨hc, hne⟩) (some v)
    obtain ⟨f2, c2, h4⟩ := compileAll_total ho rest (fun a ha => hw a (by simp [ha])) h2 (h3 (.inr hne))
    refine ⟨max f1 f2, c2, fun f hf => ?_⟩
    unfold compileAll
    rw [h1 f (le_trans (le_max_left _ _) hf), ok_bind]
    exact h4 f (le_trans (le_max_right _ _) hf)

end Compiler

section
variable {C : Cfg Op D} {eg : EGraph Op D}

omit [Lang Op] in
theorem multi_program {ordc : Compiler Op → List (Id × Nat)} {fuel : Nat} {asts : List (Var × PatternAst Op)} {p : MultiPattern Op}
    (hp : MultiPattern.new ordc fuel asts = .ok p) :
    ∃ c, Compiler.compileAll ordc fuel Compiler.new asts = .ok c ∧ p = ⟨asts, c.extract⟩ := by
  unfold MultiPattern.new at hp
  rw [bind_eq_ok] at hp
  obtain ⟨pr, h1, hp⟩ := hp
  unfold Program.compileFromMultiPat at h1
  rw [bind_eq_ok] at h1
  obtain ⟨c, h2, h1⟩ := h1
  cases h1
  cases hp
  exact ⟨c, h2, rfl⟩

/-- The compiled program of a multi-pattern. -/
theorem multi_fin (h : EGraph.Inv C eg) (hr : Rebuilt eg) (hdc : DiscContiguous Op) {order : List Id}
    (hord : ∀ x, x ∈ order ↔ x < eg.nodes.length ∧ eg.rt x = x) {p : MultiPattern Op} {ps : List (Var × Term (PatOp Op))}
    (hp : IsMultiPattern p ps) (hfn : FirstIsNode ps) :
    ∃ c : Compiler Op, p.program = c.extract ∧
      Compiler.Fin eg order c (fun σ c0 => MultiMatch eg σ c0 ps) (fun v => MultiOccurs v ps) := by
  obtain ⟨ordc, fuel, hoc, hnew, hf2⟩ := hp
  obtain ⟨v, o, ts, rest, rfl⟩ := hfn
  obtain ⟨c, h1, h2⟩ := multi_program hnew
  generalize hasts : p.asts = asts at *
  cases hf2 with
  | @cons a _ l _ hab hrest =>
    obtain ⟨v', pt⟩ := a
    obtain ⟨e, hw, ht⟩ := hab
    have e : v' = v := e
    subst e
    refine ⟨c, by rw [h2], ?_⟩
    unfold Compiler.compileAll at h1
    rw [bind_eq_ok] at h1
    obtain ⟨c1, h3, h1⟩ := h1
    obtain ⟨g1, g2⟩ := Compiler.compile_first (order := order) hoc h hr hdc hw.1.2 hw.2 ht h3
    have g3 := Compiler.compileAll_more hoc h hr hdc hord _ _ hrest g1 (g2 ⟨o, ts, rfl⟩) h1
    refine ⟨g3.laid, g3.vlt, g3.vkeys, g3.todo, ?_, g3.uniq, ?_⟩
    · intro σ c0
      rw [g3.sols]
      unfold MultiMatch
      constructor
      · rintro ⟨⟨q1, q2⟩, q3⟩
        exact ⟨q2 v' rfl, q1, q3⟩
      · rintro ⟨q1, q2, q3⟩
        exact ⟨⟨q2, fun w hw => by cases hw; exact q1⟩, q3⟩
    · intro w
      rw [g3.vs]
      constructor
      · rintro ((q | q) | ⟨w', u, q1, q2⟩)
        · exact ⟨v', _, List.mem_cons.2 (.inl rfl), .inr q⟩
        · cases q; exact ⟨v', _, List.mem_cons.2 (.inl rfl), .inl rfl⟩
        · exact ⟨w', u, List.mem_cons.2 (.inr q1), q2⟩
      · rintro ⟨w', u, q1, q2⟩
        rcases List.mem_cons.1 q1 with q1 | q1
        · cases q1
          rcases q2 with q2 | q2
          · exact .inl (.inr (by rw [q2]))
          · exact .inl (.inl q2)
        · exact .inr ⟨w', u, q1, q2⟩

/-- `MultiPattern::new` succeeds on well-formed patterns whose first one is not a
variable. -/
theorem multi_new_total {ordc : Compiler Op → List (Id × Nat)} (hoc : OrdOK ordc) {asts : List (Var × PatternAst Op)}
    {ps : List (Var × Term (PatOp Op))} (hw : List.Forall₂ (fun a b => a.1 = b.1 ∧ PatWF a.2 ∧ ExprTerm a.2 b.2) asts ps)
    (hfn : FirstIsNode ps) : ∃ f0 p, ∀ fuel, f0 ≤ fuel → MultiPattern.new ordc fuel asts = .ok p := by
  obtain ⟨v, o, ts, rest, rfl⟩ := hfn
  cases hw with
  | @cons a _ l _ hab hrest =>
    obtain ⟨v', pt⟩ := a
    obtain ⟨e, hw, ht⟩ := hab
    obtain ⟨f1, c1, h1, h2, h3⟩ := Compiler.compile_total hoc hw.1.2 hw.2 hw.1.1 (c := Compiler.new) (.inl rfl) (some v')
    have hne : c1.instrs ≠ [] := by
      refine h3 (.inl (fun nd hnd => ?_))
      have h5 := ht.2
      rw [termOf_iff] at h5
      obtain ⟨n, h6, h7, _⟩ := h5
      rw [h6] at hnd; cases hnd
      exact ⟨o, h7⟩
    obtain ⟨f2, c2, h4⟩ := Compiler.compileAll_total hoc l (fun a ha => by
      obtain ⟨b, _, hb⟩ := forall₂_mem_left hrest ha
      exact hb.2.1) h2 hne
    refine ⟨max f1 f2, ⟨(v', pt) :: l, c2.extract⟩, fun fuel hf => ?_⟩
    unfold MultiPattern.new Program.compileFromMultiPat Compiler.compileAll
    rw [h1 fuel (le_trans (le_max_left _ _) hf), ok_bind, h4 fuel (le_trans (le_max_right _ _) hf)]
    rfl

/-- The search of one class by a multi-pattern. -/
theorem multi_searchEclass_eq (h : EGraph.Inv C eg) (hr : Rebuilt eg) (hdc : DiscContiguous Op) (hcl : eg.clean = true)
    (N : Analysis Op D) {ord : IterOrd} (ho : ord.OK eg) {p : MultiPattern Op} {ps : List (Var × Term (PatOp Op))}
    (hp : IsMultiPattern p ps) (hfn : FirstIsNode ps) {c : Compiler Op} (hpc : p.program = c.extract)
    {Q : (Var → Option Id) → Id → Prop} {V : Var → Prop}
    (hf : Compiler.Fin eg ord.classes c Q V) {c0 : Id} (hc0 : c0 < eg.nodes.length) (limit : Nat) :
    p.searchEclassWithLimit N eg ord c0 limit =
      .ok (if ((matchesOf N.allowCycles eg ord.classes p.program c0).take limit).isEmpty then none
        else some ⟨c0, (matchesOf N.allowCycles eg ord.classes p.program c0).take limit, none⟩) := by
  obtain ⟨ordc, fuel, hoc, hnew, hf2⟩ := hp
  obtain ⟨v, o, ts, rest, rfl⟩ := hfn
  unfold MultiPattern.searchEclassWithLimit
  generalize hasts : p.asts = asts at *
  cases hf2 with
  | @cons a _ l _ hab hrest =>
    obtain ⟨v', pt⟩ := a
    obtain ⟨e, hw, ht⟩ := hab
    have hnb : isBareVar pt = false := by
      obtain ⟨n, h1, h2⟩ := exprTerm_last ht
      unfold isBareVar
      split
      · next m =>
        simp at h1
        subst h1
        rw [h2]
      · rfl
    simp only [hnb, Bool.false_eq_true, if_false]
    rw [hpc, hf.run h hr hdc (fun c hc => ((order_ok h ho).1 c |>.1 hc).1) N hcl hc0, ok_bind]
    split <;> rfl

end
end Egg
