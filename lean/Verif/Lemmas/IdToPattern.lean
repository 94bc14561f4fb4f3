import Verif.Lemmas.IdToExpr
import Verif.Lemmas.Pattern
import Verif.Model.GraphOps
import Verif.Props.RecExpr
import Verif.Lemmas.Mapper
import Verif.Lemmas.Apply
/-
`id_to_pattern` without substitutions is `id_to_expr`.
-/
namespace Egg
variable {Op D : Type}

/-- An e-node as a pattern node. -/
def opNode (n : ENode Op) : ENode (PatOp Op) := ⟨.op n.op, n.children⟩

theorem idToPatternGo_eq (varOf : Id → Var) (nodes : List (ENode Op)) : ∀ (k : Nat)
    (s : List (ENode Op) × AMap Id Id) (sb : Subst) (i : Id),
    idToPatternGo varOf nodes [] k ⟨s.1.map opNode, s.2, sb⟩ i =
      (idToExprGo nodes k s i).map (fun r => (⟨r.1.1.map opNode, r.1.2, sb⟩, r.2)) := by
  intro k
  induction k with
  | zero => intro s sb i; rfl
  | succ k ih =>
    intro s sb i
    unfold idToPatternGo idToExprGo
    dsimp only
    cases s.2.get? i with
    | some e => rfl
    | none =>
      have hnil : AMap.get? ([] : AMap Id Id) i = none := rfl
      rw [hnil]
      dsimp only
      cases getIdx nodes i with
      | error e => rfl
      | ok n =>
        have key : ∀ (cs : List Id) (s : List (ENode Op) × AMap Id Id),
            mapAccumM (idToPatternGo varOf nodes [] k) ⟨s.1.map opNode, s.2, sb⟩ cs =
              (mapAccumM (idToExprGo nodes k) s cs).map (fun r => (⟨r.1.1.map opNode, r.1.2, sb⟩, r.2)) := by
          intro cs
          induction cs with
          | nil => intro s; rfl
          | cons c cs ihc =>
            intro s
            unfold mapAccumM
            rw [ih]
            cases idToExprGo nodes k s c with
            | error e => rfl
            | ok r =>
              simp only [Except.map, ok_bind]
              rw [ihc]
              cases mapAccumM (idToExprGo nodes k) r.1 cs <;> rfl
        simp only [ok_bind]
        rw [key]
        cases mapAccumM (idToExprGo nodes k) s n.children with
        | error e => rfl
        | ok r => simp [Except.map, opNode]

/-- Reachable through children. -/
inductive Below (nodes : List (ENode Op)) (i : Id) : Id → Prop where
  | refl : Below nodes i i
  | step {x c n} : Below nodes i x → nodes[x]? = some n → c ∈ n.children → Below nodes i c

theorem Below.trans {nodes : List (ENode Op)} {i j k : Id} (h : Below nodes i j) (h' : Below nodes j k) :
    Below nodes i k := by
  induction h' with
  | refl => exact h
  | step _ h1 h2 ih => exact ih.step h1 h2

theorem idToExprGo_below {nodes : List (ENode Op)} : ∀ (k : Nat) (st : List (ENode Op) × AMap Id Id) (i : Id)
    {st' j}, idToExprGo nodes k st i = .ok (st', j) →
    ∀ x, st'.2.get? x ≠ none → st.2.get? x ≠ none ∨ Below nodes i x := by
  intro k
  induction k with
  | zero => intro st i st' j h; cases h
  | succ k ih =>
    intro st i st' j h
    unfold idToExprGo at h
    cases hc : st.2.get? i with
    | some e => rw [hc] at h; cases h; intro x hx; exact .inl hx
    | none =>
      rw [hc] at h
      dsimp only at h
      rw [bind_eq_ok] at h
      obtain ⟨n, hn, h⟩ := h
      rw [bind_eq_ok] at h
      obtain ⟨⟨st1, cs'⟩, h1, h⟩ := h
      cases h
      have key : ∀ (cs : List Id) (st : List (ENode Op) × AMap Id Id) {st' js}, (∀ c ∈ cs, c ∈ n.children) →
          mapAccumM (idToExprGo nodes k) st cs = .ok (st', js) →
          ∀ x, st'.2.get? x ≠ none → st.2.get? x ≠ none ∨ Below nodes i x := by
        intro cs
        induction cs with
        | nil => intro st st' js _ h x hx; cases h; exact .inl hx
        | cons c cs ihc =>
          intro st st' js hcs h x hx
          unfold mapAccumM at h
          rw [bind_eq_ok] at h
          obtain ⟨⟨s1, j1⟩, g1, h⟩ := h
          rw [bind_eq_ok] at h
          obtain ⟨⟨s2, js2⟩, g2, h⟩ := h
          cases h
          rcases ihc s1 (fun y hy => hcs y (by simp [hy])) g2 x hx with h | h
          · rcases ih st c g1 x h with h | h
            · exact .inl h
            · exact .inr ((Below.refl.step (getIdx_eq_ok.1 hn) (hcs c (by simp))).trans h)
          · exact .inr h
      intro x hx
      simp only [AMap.get?_insert] at hx
      by_cases e : i = x
      · subst e; exact .inr .refl
      · rw [if_neg e] at hx
        exact key _ _ (fun _ h => h) h1 x hx

theorem Below.size {nodes : List (ENode Op)} {i x : Id} (h : Below nodes i x) {t : Term Op} (ht : TermOf nodes i t) :
    ∃ s, TermOf nodes x s ∧ (x = i ∨ sizeOf s < sizeOf t) := by
  induction h with
  | refl => exact ⟨t, ht, .inl rfl⟩
  | @step x c n _ h1 h2 ih =>
    obtain ⟨s, hs, hlt⟩ := ih
    cases s with
    | node op ts =>
      obtain ⟨m, g1, g2, g3⟩ := termOf_iff.1 hs
      rw [h1] at g1; cases g1
      obtain ⟨u, hu, hcu⟩ := forall₂_mem_left g3 h2
      refine ⟨u, hcu, .inr ?_⟩
      have := List.sizeOf_lt_of_mem hu
      have h3 : sizeOf u < sizeOf (Term.node n.op ts) := by simp only [Term.node.sizeOf_spec]; omega
      rcases hlt with rfl | hlt
      · rw [← hs.unique ht, ← g2]; exact h3
      · rw [← g2] at hlt; omega


/-- The terms of a node table as terms of patterns. -/
theorem TermOf.opNode {nodes : List (ENode Op)} {i : Id} {t : Term Op} (h : TermOf nodes i t) :
    TermOf (nodes.map Egg.opNode) i (t.map PatOp.op) := by
  induction h with
  | @mk i n ts h1 h2 _ ih =>
    rw [Term.map_node, termOf_iff]
    refine ⟨Egg.opNode n, by simp [h1], rfl, ?_⟩
    rw [forall₂_iff_get?]
    refine ⟨by simpa [Egg.opNode] using h2, fun q a b ha hb => ?_⟩
    simp only [List.getElem?_map, Option.map_eq_some_iff] at hb
    obtain ⟨u, hu, rfl⟩ := hb
    exact ih q _ _ ha hu

theorem Term.map_op_inj {s t : Term Op} (h : s.map PatOp.op = t.map PatOp.op) : s = t := by
  induction s using Term.ind generalizing t with
  | h op ss ih =>
    cases t with
    | node op' ts =>
      rw [Term.map_node, Term.map_node] at h
      injection h with h1 h2
      injection h1 with h1
      subst h1
      congr 1
      apply List.ext_getElem?
      intro q
      have := congrArg (fun l => l[q]?) h2
      simp only [List.getElem?_map] at this
      cases hs : ss[q]? with
      | none => rw [hs] at this; cases ht : ts[q]? with
        | none => rfl
        | some t => rw [ht] at this; cases this
      | some s => rw [hs] at this; cases ht : ts[q]? with
        | none => rw [ht] at this; cases this
        | some t =>
          rw [ht] at this
          simp only [Option.map_some, Option.some.injEq] at this
          rw [ih s (List.mem_of_getElem? hs) this]

variable [DecidableEq Op]

/-- `id_to_pattern` without substitutions gives a ground pattern for the term of the id. -/
theorem idToPattern_spec [Lang Op] {eg : EGraph Op D} (hd : Dag eg.nodes) (varOf : Id → Var)
    {ord : Compiler Op → List (Id × Nat)} {i : Id} {t : Term Op} (ht : TermOf eg.nodes i t) :
    ∃ ast : PatternAst Op, PatWF ast ∧ ExprTerm ast (t.map PatOp.op) ∧ (∀ n ∈ ast, ∃ o, n.op = .op o) ∧
      (∀ cfuel p sb, eg.idToPattern varOf ord cfuel i [] = .ok (p, sb) → p.ast = ast ∧ sb = []) ∧
      (OrdOK ord → ∃ f0 p, ∀ cfuel, f0 ≤ cfuel → eg.idToPattern varOf ord cfuel i [] = .ok (p, [])) := by
  obtain ⟨st, j, h1, h2, _, h4, h5, _⟩ := idToExprGo_ok hd (eg.nodes.length + 1) ([], []) i
    (by have := ht.lt; omega) ht.lt
    ⟨by intro i n h; simp at h, by intro i j h; simp [AMap.get?] at h, by intro j h; simp at h,
      by intro i j h; simp [AMap.get?] at h⟩
  have h5 := h5 (by simp [AMap.get?])
  have hlive := idToExprGo_below _ _ _ h1
  have hne : st.1 ≠ [] := by intro e; rw [e] at h5; simp at h5
  have hdm : Dag (st.1.map opNode) := by
    intro q n hq c hc
    simp only [List.getElem?_map, Option.map_eq_some_iff] at hq
    obtain ⟨m, hm, rfl⟩ := hq
    exact h2.dag q m hm c hc
  have hroot : ExprTerm (st.1.map opNode) (t.map PatOp.op) := by
    refine ⟨by simpa using hne, ?_⟩
    have := (h2.ok _ _ h4 t ht).opNode
    rwa [show j = (st.1.map opNode).length - 1 by simp; omega] at this
  have hw : PatWF (st.1.map opNode) := by
    refine ⟨⟨by simpa using hne, hdm⟩, ?_⟩
    intro n hn v hv
    simp only [List.mem_map] at hn
    obtain ⟨m, _, rfl⟩ := hn
    cases hv
  have huniq : ∀ q, TermOf (st.1.map opNode) q (t.map PatOp.op) → q = (st.1.map opNode).length - 1 := by
    intro q hq
    obtain ⟨u, hu, e⟩ := termOf_mapOp (f := PatOp.op) (nodes := st.1) hq
    have := Term.map_op_inj e
    subst this
    obtain ⟨x, _, hx⟩ := h2.src q hu.lt
    rcases hlive x (by rw [hx]; simp) with h | h
    · simp [AMap.get?] at h
    · obtain ⟨s, hs, hlt⟩ := h.size ht
      rcases hlt with rfl | hlt
      · rw [h4] at hx; cases hx; simp; omega
      · have := (h2.ok _ _ hx s hs).unique hu
        subst this; omega
  obtain ⟨ast, ha1, ha2⟩ := c39_compact_root _ _ hdm hroot huniq
  have hgo : idToPatternGo varOf eg.nodes [] (eg.nodes.length + 1) ⟨[], [], []⟩ i = .ok (⟨st.1.map opNode, st.2, []⟩, j) := by
    have := idToPatternGo_eq varOf eg.nodes (eg.nodes.length + 1) ([], []) [] i
    rw [h1] at this
    exact this
  refine ⟨ast, RecExpr.compact_pat hw ha1, ha2, ?_, ?_, ?_⟩
  · intro n hn
    obtain ⟨q, hq⟩ := List.getElem?_of_mem hn
    have hwa := RecExpr.compact_pat hw ha1
    obtain ⟨ast', g1, g2, _, g3⟩ := c39_compact _ hdm
    rw [ha1] at g1; cases g1
    obtain ⟨u, hu⟩ := g2.exists_term q (getElem?_lt hq)
    obtain ⟨r, hr⟩ := (g3 u).2 ⟨q, hu⟩
    cases u with
    | node o us =>
      obtain ⟨m, k1, k2, _⟩ := termOf_iff.1 hu
      rw [hq] at k1; cases k1
      obtain ⟨m', k1', k2', _⟩ := termOf_iff.1 hr
      simp only [List.getElem?_map, Option.map_eq_some_iff] at k1'
      obtain ⟨m'', _, rfl⟩ := k1'
      exact ⟨m''.op, by rw [k2, ← k2']; rfl⟩
  · intro cfuel p sb h
    unfold EGraph.idToPattern at h
    rw [hgo, ok_bind, bind_eq_ok] at h
    obtain ⟨p', hp, h⟩ := h
    cases h
    unfold Pattern.new at hp
    rw [ha1, ok_bind, bind_eq_ok] at hp
    obtain ⟨pr, _, hp⟩ := hp
    cases hp
    exact ⟨rfl, rfl⟩
  · intro hoc
    obtain ⟨f0, p, hp⟩ := pattern_new_total hoc hw
    refine ⟨f0, p, fun cfuel hf => ?_⟩
    unfold EGraph.idToPattern
    rw [hgo, ok_bind]
    dsimp only
    rw [hp cfuel hf]
    rfl

namespace EGraph
variable [Lang Op]

/-- A class that contains an instance of a ground pattern represents its term. -/
theorem rep_of_pmatch {eg : EGraph Op D} {σ : Var → Option Id} :
    ∀ (t : Term Op) {c : Id}, PMatch eg σ c (t.map PatOp.op) → Rep eg c t := by
  intro t
  induction t using Term.ind with
  | h op ts ih =>
    intro c hp
    rw [Term.map_node] at hp
    cases hp with
    | @node _ k n _ h1 h2 h3 h4 =>
      unfold index at h1
      rw [bind_eq_ok] at h1
      obtain ⟨r, g1, g2⟩ := h1
      refine .mk g1 (unwrap_eq_ok.1 g2) h2 (by simpa using h3) ?_
      intro q d u hd hu
      exact ih u (List.mem_of_getElem? hu) (h4 q d _ hd (by simp [hu]))

end EGraph
end Egg
