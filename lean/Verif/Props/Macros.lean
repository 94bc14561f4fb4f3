import Verif.Model.Macros
import Verif.Spec.Macros
import Verif.Spec.MultiRule
import Verif.Props.MultiText
import Verif.Lemmas.Saturated
import Verif.Props.ProofText
/-
C79: the macros `rewrite!` and `multi_rewrite!`.
-/
namespace Egg
variable {Op D : Type} [DecidableEq Op]

mutual
/-- The nodes a text adds denote subterms of the term that was read. -/
theorem parseInto_subterm {Op : Type} (T : OpText Op) (hT : T.Uniform) :
    ∀ (s : Sexp) (e e' : List (ENode Op)) (i : Id), Dag e → parseInto T s e = .ok (e', i) → ∀ t, TermOf e' i t →
      ∀ j u, e.length ≤ j → TermOf e' j u → Subterm u t
  | .empty, e, e', i, hd, h => by rw [parseInto] at h; cases h
  | .str s, e, e', i, hd, h => by
    rw [parseInto] at h
    split at h
    · cases h
    · cases h
      intro t ht j u hj hu
      have := hu.lt
      simp at this
      have hj : j = e.length := by omega
      subst hj
      rw [hu.unique ht]
      exact .refl
  | .list [], e, e', i, hd, h => by rw [parseInto] at h; cases h
  | .list (.empty :: _), e, e', i, hd, h => by rw [parseInto] at h; cases h
  | .list (.list _ :: _), e, e', i, hd, h => by rw [parseInto] at h; cases h
  | .list (.str op :: args), e, e', i, hd, h => by
    rw [parseInto] at h
    split at h
    · cases h
    · rename_i e1 ids h1
      have ih := parseArgs_subterm T hT args e e1 ids hd h1
      have hd1 := (parseArgs_dag T (fun s ids n h => by rw [hT.children h]) args e e1 ids h1 hd).1
      obtain ⟨ext, ts, rfl, _, _, hts⟩ := parseArgs_reads T hT args e e1 ids h1
      split at h
      · cases h
      · rename_i n hn
        cases h
        have hc := hT.children hn
        intro t ht j u hj hu
        have hlt := hu.lt
        simp only [List.length_append, List.length_singleton] at hlt
        by_cases hjl : j = (e ++ ext).length
        · subst hjl
          rw [hu.unique ht]
          exact .refl
        · have hjl : j < (e ++ ext).length := by simp only [List.length_append] at hjl ⊢; omega
          have ht' : TermOf (e ++ ext ++ [n]) (e ++ ext).length (.node n.op ts) := by
            refine termOf_iff.2 ⟨n, by simp, rfl, ?_⟩
            rw [hc]
            exact hts.imp (fun _ _ h => h.append)
          rw [ht.unique ht']
          obtain ⟨u', hu'⟩ := hd1.exists_term j hjl
          rw [hu.unique hu'.append]
          obtain ⟨k, hk, hsub⟩ := ih ts hts j u' hj hu'
          exact .arg hk hsub
theorem parseArgs_subterm {Op : Type} (T : OpText Op) (hT : T.Uniform) :
    ∀ (ss : List Sexp) (e e' : List (ENode Op)) (ids : List Id), Dag e → parseArgs T ss e = .ok (e', ids) → ∀ ts, List.Forall₂ (TermOf e') ids ts →
      ∀ j u, e.length ≤ j → TermOf e' j u → ∃ t ∈ ts, Subterm u t
  | [], e, e', ids, hd, h => by
    rw [parseArgs] at h
    cases h
    intro ts _ j u hj hu
    have := hu.lt
    omega
  | s :: ss, e, e', ids, hd, h => by
    rw [parseArgs] at h
    split at h
    · cases h
    · rename_i e1 i h1
      have ih1 := parseInto_subterm T hT s e e1 i hd h1
      have hd1 := (parseInto_dag T (fun s ids n h => by rw [hT.children h]) s e e1 i h1 hd).1
      obtain ⟨ext, t1, rfl, hi, _, ht1⟩ := parseInto_reads T hT s e e1 i h1
      split at h
      · cases h
      · rename_i e2 is h2
        have ih2 := parseArgs_subterm T hT ss (e ++ ext) e2 is hd1 h2
        obtain ⟨ext', ts', rfl, _, _, _⟩ := parseArgs_reads T hT ss _ e2 is h2
        cases h
        intro ts hts j u hj hu
        cases hts with
        | @cons _ t _ ts ht hts =>
          by_cases hjl : j < (e ++ ext).length
          · obtain ⟨u', hu'⟩ := hd1.exists_term j hjl
            have e1 := hu.unique hu'.append
            have e2 := ht.unique ht1.append
            subst e1
            subst e2
            exact ⟨_, List.mem_cons_self .., ih1 _ ht1 j _ hj hu'⟩
          · obtain ⟨k, hk, hle⟩ := ih2 ts hts j u (by omega) hu
            exact ⟨k, List.mem_cons_of_mem _ hk, hle⟩
end

/-- The nodes of a parsed expression denote subterms of it. -/
theorem parse_subterm {Op : Type} (T : OpText Op) (hT : T.Uniform) {parse : List Char → Option Sexp} {text : List Char}
    {e : List (ENode Op)} (h : parseExpr T parse text = .ok e) {t : Term Op} (ht : ExprTerm e t) {j : Id} {u : Term Op}
    (hu : TermOf e j u) : Subterm u t := by
  unfold parseExpr at h
  split at h
  · cases h
  · rename_i s _
    split at h
    · cases h
    · rename_i e1 i hp
      cases h
      have hd0 : Dag ([] : List (ENode Op)) := by intro i n h; cases h
      obtain ⟨ext, t', he, hi, _, _⟩ := parseInto_reads T hT s [] e i hp
      have hi' : i = e.length - 1 := by omega
      subst hi'
      exact parseInto_subterm T hT s [] e _ hd0 hp t ht.2 j u (Nat.zero_le _) hu

variable [Lang Op]

/-- What a literal gives. -/
theorem patternLit_ok {ordc : Compiler Op → List (Id × Nat)} (hoc : OrdOK ordc) (T : OpText Op) (hT : T.Uniform)
    {parse : List Char → Option Sexp} {text : List Char} {t : Term (PatOp Op)} (h : PatText T parse text t) :
    ∃ p f0, (∀ fuel, f0 ≤ fuel → patternLit T parse ordc fuel text = .ok p) ∧ IsPattern p t ∧ ∀ v, v ∈ p.vars ↔ Occurs v t := by
  obtain ⟨s, hs, hr⟩ := h
  obtain ⟨ast, p, f0, h1, h2, h3⟩ := c52_from_text hoc T hT parse text s hs t hr
  refine ⟨p, f0, fun fuel hf => ?_, h3, fun v => ⟨fun hv => ?_, h3.occurs_vars⟩⟩
  · unfold patternLit
    rw [h1]
    exact h2 fuel hf
  · obtain ⟨n, hn, hvn⟩ := mem_vars.1 hv
    have h0 := h2 f0 (Nat.le_refl _)
    unfold Pattern.new at h0
    obtain ⟨q, hq, h0⟩ := bind_eq_ok.1 h0
    obtain ⟨pr, _, h0⟩ := bind_eq_ok.1 h0
    cases h0
    obtain ⟨i, hi, hni⟩ := List.getElem_of_mem hn
    obtain ⟨hd, _⟩ := c40_parse_wellformed T.pat (fun s ids n h => by rw [hT.pat.children h]) parse text ast h1
    obtain ⟨q', hq', hdq, _, hiff⟩ := c39_compact ast hd
    rw [hq] at hq'
    cases hq'
    have hg : q[i]? = some n := by rw [List.getElem?_eq_getElem hi]; exact congrArg some hni
    have hch : n.children = [] := h3.wf.1.2 n hn v hvn
    have hti : TermOf q i (.node (.var v) []) := termOf_iff.2 ⟨n, hg, hvn, by rw [hch]; exact .nil⟩
    obtain ⟨j, hj⟩ := (hiff _).2 ⟨i, hti⟩
    obtain ⟨ast', k1, k2⟩ := (c40_parse_iff T.pat hT.pat parse text t).1 ⟨s, hs, hr⟩
    rw [h1] at k1
    cases k1
    exact parse_subterm T.pat hT.pat h1 k2 hj

omit [Lang Op] in
/-- A literal that cannot be read. -/
theorem patternLit_bad {ordc : Compiler Op → List (Id × Nat)} (T : OpText Op) (hT : T.Uniform)
    {parse : List Char → Option Sexp} {text : List Char} (h : ∀ t, ¬ PatText T parse text t) (fuel : Nat) :
    patternLit T parse ordc fuel text = .error .panic := by
  unfold patternLit
  cases hp : parseExpr T.pat parse text with
  | error e => rfl
  | ok ast =>
    obtain ⟨_, t, ht⟩ := c40_parse_wellformed T.pat (fun s ids n h => by rw [hT.pat.children h]) parse text ast hp
    exact absurd ((c40_parse_iff T.pat hT.pat parse text t).2 ⟨ast, hp, ht⟩) (h t)

/-! ### Conditions -/

/-- Both conditions, the first one first. -/
def Condition.both (k1 k2 : Condition Op D) : Condition Op D where
  check := fun N g c s => do
    let (g, b) ← k1.check N g c s
    if b then k2.check N g c s else return (g, false)
  vars := k2.vars ++ k1.vars

def Condition.allOf (k : Condition Op D) : List (Condition Op D) → Condition Op D
  | [] => k
  | k' :: ks => Condition.both k (Condition.allOf k' ks)

theorem conditional_both (k1 k2 : Condition Op D) (a : Applier Op D) :
    Applier.conditional k1 (Applier.conditional k2 a) = Applier.conditional (k1.both k2) a := by
  have h1 : ∀ N g c s ast rule, conditionalOne k1 (Applier.conditional k2 a) N g c s ast rule =
      conditionalOne (k1.both k2) a N g c s ast rule := by
    intro N g c s ast rule
    unfold conditionalOne Condition.both Applier.conditional conditionalOne
    dsimp only
    cases k1.check N g c s with
    | error e => rfl
    | ok r =>
      obtain ⟨g1, b⟩ := r
      cases b <;> rfl
  have h2 : (Applier.conditional k2 a).vars ++ k1.vars = a.vars ++ (k1.both k2).vars := by
    simp only [Applier.conditional, Condition.both, List.append_assoc]
  unfold Applier.conditional at h2 ⊢
  unfold Applier.conditional at h1
  simp only [h1, h2]

theorem condApplier_cons (core : Applier Op D) : ∀ (k : Condition Op D) (ks : List (Condition Op D)),
    condApplier core (k :: ks) = Applier.conditional (Condition.allOf k ks) core
  | k, [] => rfl
  | k, k' :: ks => by
    rw [condApplier, condApplier_cons core k' ks, conditional_both]
    rfl

theorem allOf_check {N : Analysis Op D} : ∀ (k : Condition Op D) (ks : List (Condition Op D)) {g g' : EGraph Op D} {c : Id} {s : Subst} {b : Bool},
    (Condition.allOf k ks).check N g c s = .ok (g', b) → CheckAll N (k :: ks) g c s g' b
  | k, [], g, g', c, s, b, h => by
    cases b with
    | false => exact .stop h
    | true => exact .next h .nil
  | k, k' :: ks, g, g', c, s, b, h => by
    unfold Condition.allOf Condition.both at h
    dsimp only at h
    obtain ⟨⟨g1, b1⟩, h1, h⟩ := bind_eq_ok.1 h
    cases b1 with
    | false =>
      cases h
      exact .stop h1
    | true => exact .next h1 (allOf_check k' ks h)

theorem allOf_onlyAdds {N : Analysis Op D} (k : Condition Op D) (ks : List (Condition Op D)) (h : ∀ x ∈ k :: ks, OnlyAdds N x) :
    OnlyAdds N (Condition.allOf k ks) := by
  intro g c s g' b hc
  have := allOf_check k ks hc
  clear hc
  generalize k :: ks = l at h this
  induction this with
  | nil => exact .refl
  | @stop k ks g c s g1 h1 => exact h k (by simp) _ _ _ _ _ h1
  | @next k ks g c s g1 g2 b h1 h2 ih => exact (h k (by simp) _ _ _ _ _ h1).trans (ih fun x hx => h x (by simp [hx]))

theorem Guarded.mono {c1 c2 : EGraph Op D → Id → Subst → EGraph Op D → Bool → Prop}
    {o1 o2 : EGraph Op D → Id → Subst → EGraph Op D → List Id → Prop} (hc : ∀ {g c s g' b}, c1 g c s g' b → c2 g c s g' b)
    (ho : ∀ {g c s g' b}, o1 g c s g' b → o2 g c s g' b) {g g' : EGraph Op D} {ms : List (Id × Subst)} {ids : List Id}
    (h : Guarded c1 o1 g ms ids g') : Guarded c2 o2 g ms ids g' := by
  induction h with
  | nil => exact .nil
  | skip h1 _ ih => exact .skip (hc h1) ih
  | apply h1 h2 _ ih => exact .apply (hc h1) (ho h2) ih

/-- **C79, conditions.**  For every applier and all conditions: the applier that the macro makes does what the inner
applier does, for exactly those matches for which all conditions, checked from left to right up to the first that
fails, hold at that moment. -/
theorem c79_conditions {N : Analysis Op D} {core : Applier Op D} {k : Condition Op D} {ks : List (Condition Op D)} {rule : Symbol}
    {eg eg' : EGraph Op D} {ms : List (SearchMatches Op)} {ids : List Id}
    (h : (condApplier core (k :: ks)).applyMatches N eg ms rule = .ok (eg', ids)) :
    Guarded (CheckAll N (k :: ks)) (fun g c s g' ids => ∃ ast, core.applyOne N g c s ast rule = .ok (g', ids) ∧
      ∀ l, ast = some l → ∃ m ∈ ms, m.ast = some l ∧ m.eclass = c ∧ s ∈ m.substs) eg (flat ms) ids eg' := by
  rw [condApplier_cons] at h
  exact (c48_conditional h).mono (allOf_check k ks) id

theorem mem_condApplier_vars (core : Applier Op D) (v : Var) : ∀ (ks : List (Condition Op D)),
    v ∈ (condApplier core ks).vars ↔ v ∈ core.vars ∨ ∃ k ∈ ks, v ∈ k.vars
  | [] => by simp [condApplier]
  | k :: ks => by
    have := mem_condApplier_vars core v ks
    simp only [condApplier, Applier.conditional, List.mem_append, this, List.mem_cons, exists_eq_or_imp]
    generalize (∃ k ∈ ks, v ∈ k.vars) = E
    tauto

/-! ### `rewrite!` -/

section
variable {ordc : Compiler Op → List (Id × Nat)} {T : OpText Op} {parse : List Char → Option Sexp}
  {intern : List Char → Symbol} {name lhs rhs : List Char} {tl t : Term (PatOp Op)} {conds : List (Condition Op D)}

theorem newUnwrap_ok {n : Symbol} {sr : Searcher Op D} {ap : Applier Op D} (h : ∀ v ∈ ap.vars, v ∈ sr.vars) :
    newUnwrap n sr ap = .ok ⟨n, sr, ap⟩ := by
  unfold newUnwrap
  rw [(c24_new n sr ap).2 h]

theorem newUnwrap_bad {n : Symbol} {sr : Searcher Op D} {ap : Applier Op D} (h : ¬ ∀ v ∈ ap.vars, v ∈ sr.vars) :
    newUnwrap n sr ap = .error .panic := by
  have h : ∃ v ∈ ap.vars, v ∉ sr.vars := by
    by_contra hn
    exact h fun v hv => by by_contra hv'; exact hn ⟨v, hv, hv'⟩
  obtain ⟨v, _, _, hv⟩ := (c24_new n sr ap).1 h
  unfold newUnwrap
  rw [hv]

/-- **C79.**  `rewrite!` on readable texts: if every variable of the right-hand side and of the conditions occurs on the
left, it returns the rule with the given name, sides and conditions. -/
theorem c79_rewrite (hoc : OrdOK ordc) (hT : T.Uniform) (hl : PatText T parse lhs tl) (hr : PatText T parse rhs t)
    (hv : ∀ v, Uses t conds v → Occurs v tl) :
    ∃ (rw' : Rewrite Op D) (f0 : Nat), (∀ fuel, f0 ≤ fuel → rewriteMacro T parse ordc fuel intern name lhs rhs conds = .ok rw') ∧
      rw'.name = intern name ∧ (conds = [] → PatternRule rw' tl t) ∧
      (conds ≠ [] → GuardedRule rw' tl t conds ∧ ∀ N, (∀ k ∈ conds, OnlyAdds N k) → ConditionalRule N rw' tl t) := by
  obtain ⟨lp, f1, h1, h2, h3⟩ := patternLit_ok hoc T hT hl
  obtain ⟨rp, f2, k1, k2, k3⟩ := patternLit_ok hoc T hT hr
  have hvars : ∀ v ∈ (condApplier (rp.applier (D := D)) conds).vars, v ∈ (lp.searcher (D := D)).vars := by
    intro v hv'
    refine (h3 v).2 (hv v ?_)
    rcases (mem_condApplier_vars _ v conds).1 hv' with h | h
    · exact .inl ((k3 v).1 h)
    · exact .inr h
  refine ⟨⟨intern name, lp.searcher, condApplier rp.applier conds⟩, max f1 f2, fun fuel hf => ?_, rfl, ?_, ?_⟩
  · unfold rewriteMacro
    rw [h1 fuel (le_trans (le_max_left _ _) hf), ok_bind, k1 fuel (le_trans (le_max_right _ _) hf), ok_bind]
    exact newUnwrap_ok hvars
  · rintro rfl
    exact ⟨lp, rp, h2, fun v h => (h3 v).1 h, k2, (c24_new _ _ _).2 hvars⟩
  · intro hne
    cases conds with
    | nil => exact absurd rfl hne
    | cons k ks =>
      refine ⟨⟨lp, rp, h2, k2, rfl, fun N eg ms eg' ids h => c79_conditions h⟩, fun N hN => ?_⟩
      refine ⟨lp, rp, Condition.allOf k ks, h2, fun v h => (h3 v).1 h, k2, allOf_onlyAdds k ks hN, ?_⟩
      have := (c24_new (intern name) (lp.searcher (D := D)) (condApplier rp.applier (k :: ks))).2 hvars
      rw [← condApplier_cons]
      exact this

/-- **C79.**  Otherwise it panics: a variable that does not occur on the left … -/
theorem c79_rewrite_unbound (hoc : OrdOK ordc) (hT : T.Uniform) (hl : PatText T parse lhs tl) (hr : PatText T parse rhs t)
    (hv : ∃ v, Uses t conds v ∧ ¬ Occurs v tl) :
    ∃ f0, ∀ fuel, f0 ≤ fuel → rewriteMacro T parse ordc fuel intern name lhs rhs conds = .error .panic := by
  obtain ⟨lp, f1, h1, h2, h3⟩ := patternLit_ok hoc T hT hl
  obtain ⟨rp, f2, k1, k2, k3⟩ := patternLit_ok hoc T hT hr
  refine ⟨max f1 f2, fun fuel hf => ?_⟩
  unfold rewriteMacro
  rw [h1 fuel (le_trans (le_max_left _ _) hf), ok_bind, k1 fuel (le_trans (le_max_right _ _) hf), ok_bind]
  refine newUnwrap_bad fun hall => ?_
  obtain ⟨v, hu, hn⟩ := hv
  refine hn ((h3 v).1 (hall v ((mem_condApplier_vars _ v conds).2 ?_)))
  rcases hu with h | h
  · exact .inl ((k3 v).2 h)
  · exact .inr h

/-- **C79.**  … or a text that cannot be read. -/
theorem c79_rewrite_unreadable (hoc : OrdOK ordc) (hT : T.Uniform)
    (h : (∀ t, ¬ PatText T parse lhs t) ∨ ∀ t, ¬ PatText T parse rhs t) :
    ∃ f0, ∀ fuel, f0 ≤ fuel → rewriteMacro T parse ordc fuel intern name lhs rhs conds = .error .panic := by
  by_cases hl : ∃ t, PatText T parse lhs t
  · obtain ⟨tl, hl⟩ := hl
    obtain ⟨lp, f1, h1, _, _⟩ := patternLit_ok hoc T hT hl
    refine ⟨f1, fun fuel hf => ?_⟩
    unfold rewriteMacro
    rw [h1 fuel hf, ok_bind]
    rcases h with h | h
    · exact absurd hl (h tl)
    · rw [patternLit_bad T hT h]
      rfl
  · refine ⟨0, fun fuel _ => ?_⟩
    unfold rewriteMacro
    rw [patternLit_bad T hT (fun t ht => hl ⟨t, ht⟩)]
    rfl

/-- **C79, `<=>`.**  If both sides have the same variables, and every variable of a condition is among them, the macro
returns two rules: the first reads from left to right, the second, whose name has `-rev` appended, from right to left. -/
theorem c79_both (hoc : OrdOK ordc) (hT : T.Uniform) (hl : PatText T parse lhs tl) (hr : PatText T parse rhs t)
    (hv : ∀ v, Occurs v t ↔ Occurs v tl) (hk : ∀ k ∈ conds, ∀ v ∈ k.vars, Occurs v tl) :
    ∃ (r1 r2 : Rewrite Op D) (f0 : Nat), (∀ fuel, f0 ≤ fuel → rewriteBothMacro T parse ordc fuel intern name lhs rhs conds = .ok [r1, r2]) ∧
      r1.name = intern name ∧ r2.name = intern (name ++ "-rev".toList) ∧
      (conds = [] → PatternRule r1 tl t ∧ PatternRule r2 t tl) ∧
      (conds ≠ [] → GuardedRule r1 tl t conds ∧ GuardedRule r2 t tl conds ∧
        ∀ N, (∀ k ∈ conds, OnlyAdds N k) → ConditionalRule N r1 tl t ∧ ConditionalRule N r2 t tl) := by
  obtain ⟨r1, f1, h1, h2, h3, h4⟩ := c79_rewrite (intern := intern) (name := name) (conds := conds) hoc hT hl hr (by
    rintro v (h | ⟨k, hk', h⟩)
    · exact (hv v).1 h
    · exact hk k hk' v h)
  obtain ⟨r2, f2, k1, k2, k3, k4⟩ := c79_rewrite (intern := intern) (name := name ++ "-rev".toList) (conds := conds) hoc hT hr hl (by
    rintro v (h | ⟨k, hk', h⟩)
    · exact (hv v).2 h
    · exact (hv v).2 (hk k hk' v h))
  refine ⟨r1, r2, max f1 f2, fun fuel hf => ?_, h2, k2, fun h => ⟨h3 h, k3 h⟩, fun h => ⟨(h4 h).1, (k4 h).1, fun N hN => ⟨(h4 h).2 N hN, (k4 h).2 N hN⟩⟩⟩
  unfold rewriteBothMacro
  rw [h1 fuel (le_trans (le_max_left _ _) hf), ok_bind, k1 fuel (le_trans (le_max_right _ _) hf), ok_bind]
  rfl

/-- **C79, `<=>`.**  If a variable occurs on one side only, or a condition uses a variable that does not occur in
the sides, it panics. -/
theorem c79_both_unbound (hoc : OrdOK ordc) (hT : T.Uniform) (hl : PatText T parse lhs tl) (hr : PatText T parse rhs t)
    (hv : ∃ v, ¬ (Occurs v t ↔ Occurs v tl) ∨ (¬ Occurs v tl ∧ ∃ k ∈ conds, v ∈ k.vars)) :
    ∃ f0, ∀ fuel, f0 ≤ fuel → rewriteBothMacro (D := D) T parse ordc fuel intern name lhs rhs conds = .error .panic := by
  by_cases hb : ∃ v, Uses t conds v ∧ ¬ Occurs v tl
  · obtain ⟨f0, h⟩ := c79_rewrite_unbound (intern := intern) (name := name) hoc hT hl hr hb
    refine ⟨f0, fun fuel hf => ?_⟩
    unfold rewriteBothMacro
    rw [h fuel hf]
    rfl
  · have hb' : ∀ v, Uses t conds v → Occurs v tl := fun v h => by by_contra h'; exact hb ⟨v, h, h'⟩
    obtain ⟨r1, f1, h1, _⟩ := c79_rewrite (intern := intern) (name := name) hoc hT hl hr hb'
    obtain ⟨f2, h2⟩ := c79_rewrite_unbound (intern := intern) (name := name ++ "-rev".toList) (conds := conds) hoc hT hr hl (by
      obtain ⟨v, hv⟩ := hv
      rcases hv with hv | ⟨h1, h2⟩
      · refine ⟨v, ?_⟩
        by_cases ht : Occurs v t
        · exact absurd (iff_of_true ht (hb' v (.inl ht))) hv
        · by_cases htl : Occurs v tl
          · exact ⟨.inl htl, ht⟩
          · exact absurd (iff_of_false ht htl) hv
      · exact absurd (hb' v (.inr h2)) h1)
    refine ⟨max f1 f2, fun fuel hf => ?_⟩
    unfold rewriteBothMacro
    rw [h1 fuel (le_trans (le_max_left _ _) hf), ok_bind, h2 fuel (le_trans (le_max_right _ _) hf)]
    rfl
end

/-! ### `multi_rewrite!` -/

omit [DecidableEq Op] [Lang Op] in
theorem mem_nodeVars {p : PatternAst Op} {v : Var} : v ∈ nodeVars p ↔ ∃ n ∈ p, n.op = .var v := by
  unfold nodeVars
  rw [List.mem_filterMap]
  constructor
  · rintro ⟨n, hn, h⟩
    refine ⟨n, hn, ?_⟩
    split at h
    · rename_i w hw
      cases h
      exact hw
    · cases h
  · rintro ⟨n, hn, h⟩
    exact ⟨n, hn, by rw [h]⟩

omit [Lang Op] in
theorem parse_nodeVars (T : OpText Op) (hT : T.Uniform) {parse : List Char → Option Sexp} {text : List Char} {ast : PatternAst Op}
    (h : parseExpr T.pat parse text = .ok ast) {t : Term (PatOp Op)} (ht : ExprTerm ast t) (v : Var) :
    v ∈ nodeVars ast ↔ Occurs v t := by
  rw [mem_nodeVars]
  constructor
  · rintro ⟨n, hn, hv⟩
    obtain ⟨i, hi, hni⟩ := List.getElem_of_mem hn
    have hch : n.children = [] := (parse_patWF T hT parse text ast h).1.2 n hn v hv
    exact parse_subterm T.pat hT.pat h ht (j := i) (termOf_iff.2 ⟨n, by rw [List.getElem?_eq_getElem hi, hni], hv, by rw [hch]; exact .nil⟩)
  · intro hv
    obtain ⟨j, hj⟩ := termOf_subterm hv ht.2
    obtain ⟨n, h1, h2, _⟩ := termOf_iff.1 hj
    exact ⟨n, List.mem_of_getElem? h1, h2⟩

omit [DecidableEq Op] [Lang Op] in
theorem mem_applierVars {v : Var} : ∀ {asts : List (Var × PatternAst Op)} {rs : List (Var × Term (PatOp Op))} {bound : List Var},
    List.Forall₂ (fun a b => a.1 = b.1 ∧ ∀ v, v ∈ nodeVars a.2 ↔ Occurs v b.2) asts rs →
    (v ∈ applierVars asts bound ↔ v ∉ bound ∧ Needs rs v)
  | _, _, bound, .nil => by
    simp only [applierVars, List.not_mem_nil, false_iff, not_and]
    rintro _ ⟨pre, w, q, post, h, _⟩
    simp at h
  | (w, p) :: asts, (w', q) :: rs, bound, .cons hab hrest => by
    obtain ⟨rfl, hab⟩ := hab
    have ih := mem_applierVars (v := v) (bound := w :: bound) hrest
    simp only [applierVars, List.mem_append, List.mem_filter, decide_eq_true_eq, ih, hab v, List.mem_cons, not_or]
    constructor
    · rintro (⟨h1, h2⟩ | ⟨⟨h1, h2⟩, pre, w', q', post, rfl, h4, h5⟩)
      · exact ⟨h2, [], w, q, rs, rfl, h1, by simp⟩
      · refine ⟨h2, (w, q) :: pre, w', q', post, rfl, h4, fun x hx => ?_⟩
        rcases List.mem_cons.1 hx with rfl | hx
        · exact fun h => h1 h.symm
        · exact h5 x hx
    · rintro ⟨hb, pre, w', q', post, he, h4, h5⟩
      cases pre with
      | nil =>
        simp only [List.nil_append, List.cons.injEq, Prod.mk.injEq] at he
        obtain ⟨⟨_, rfl⟩, _⟩ := he
        exact .inl ⟨h4, hb⟩
      | cons x pre =>
        simp only [List.cons_append, List.cons.injEq] at he
        obtain ⟨rfl, rfl⟩ := he
        exact .inr ⟨⟨fun h => h5 (w, q) (by simp) h.symm, hb⟩, pre, w', q', post, rfl, h4, fun x hx => h5 x (by simp [hx])⟩

omit [DecidableEq Op] [Lang Op] in
theorem mem_searchVars {v : Var} {asts : List (Var × PatternAst Op)} {ls : List (Var × Term (PatOp Op))}
    (h : List.Forall₂ (fun a b => a.1 = b.1 ∧ ∀ v, v ∈ nodeVars a.2 ↔ Occurs v b.2) asts ls) (pr : Program Op) :
    v ∈ MultiPattern.searchVars ⟨asts, pr⟩ ↔ MultiOccurs v ls := by
  unfold MultiPattern.searchVars MultiOccurs
  simp only [List.mem_flatMap, List.mem_cons]
  constructor
  · rintro ⟨a, ha, hv⟩
    obtain ⟨b, hb, h1, h2⟩ := forall₂_mem_left h ha
    exact ⟨b.1, b.2, hb, by rw [← h1, ← h2]; exact hv⟩
  · rintro ⟨w, t, hb, hv⟩
    obtain ⟨a, ha, h1, h2⟩ := forall₂_mem_left (forall₂_flip h) hb
    exact ⟨a, ha, by rw [h1, h2]; exact hv⟩

omit [Lang Op] in
theorem multi_text_vars (T : OpText Op) (hT : T.Uniform) {parse : List Char → Option Sexp} {text : List Char}
    {ps : List (Var × Term (PatOp Op))} (h : MultiText (PatText T parse) text ps) :
    ∃ asts, parseMulti T parse text = .ok asts ∧ List.Forall₂ (fun a b => a.1 = b.1 ∧ PatWF a.2 ∧ ExprTerm a.2 b.2) asts ps ∧
      List.Forall₂ (fun a b => a.1 = b.1 ∧ ∀ v, v ∈ nodeVars a.2 ↔ Occurs v b.2) asts ps := by
  obtain ⟨asts, h1, h2⟩ := h.image (Q' := fun pt p => parseExpr T.pat parse pt = .ok p)
    (S := fun a b => (PatWF a ∧ ExprTerm a b) ∧ ∀ v, v ∈ nodeVars a ↔ Occurs v b) (by
      intro pt t ht
      obtain ⟨ast, k1, k2⟩ := (c40_parse_iff T.pat hT.pat parse pt t).1 ht
      exact ⟨ast, k1, ⟨(parse_patWF T hT parse pt ast k1).1, k2⟩, parse_nodeVars T hT k1 k2⟩)
  exact ⟨asts, (c63_parse T parse text asts).2 h1, h2.imp fun _ _ h => ⟨h.1, h.2.1⟩, h2.imp fun _ _ h => ⟨h.1, h.2.2⟩⟩

theorem multiLit_ok {ordc : Compiler Op → List (Id × Nat)} (hoc : OrdOK ordc) (T : OpText Op) (hT : T.Uniform)
    {parse : List Char → Option Sexp} {text : List Char} {ps : List (Var × Term (PatOp Op))}
    (h : MultiText (PatText T parse) text ps) (hf : FirstIsNode ps ∨ ps.length = 1) :
    ∃ p f0, (∀ fuel, f0 ≤ fuel → multiPatternLit T parse ordc fuel text = .ok p) ∧ IsMultiPattern p ps ∧
      List.Forall₂ (fun a b => a.1 = b.1 ∧ ∀ v, v ∈ nodeVars a.2 ↔ Occurs v b.2) p.asts ps := by
  obtain ⟨asts, h1, h2, h3⟩ := multi_text_vars T hT h
  have hex : ∃ p f0, (∀ fuel, f0 ≤ fuel → MultiPattern.new ordc fuel asts = .ok p) ∧ p.asts = asts ∧ IsMultiPattern p ps := by
    rcases hf with hf | hf
    · exact c22_new_succeeds hoc h2 hf
    · obtain ⟨b, rfl⟩ := List.length_eq_one_iff.1 hf
      have h2' := h2
      cases h2' with
      | @cons a _ l _ hab hrest =>
        cases hrest
        obtain ⟨v', pt⟩ := a
        obtain ⟨e, hw, ht⟩ := hab
        obtain ⟨f1, c1, k1, k2, k3⟩ := Compiler.compile_total hoc hw.1.2 hw.2 hw.1.1 (c := Compiler.new) (.inl rfl) (some v')
        have key : ∀ fuel, f1 ≤ fuel → MultiPattern.new ordc fuel [(v', pt)] = .ok ⟨[(v', pt)], c1.extract⟩ := by
          intro fuel hf
          unfold MultiPattern.new Program.compileFromMultiPat Compiler.compileAll
          rw [k1 fuel hf, ok_bind]
          rfl
        exact ⟨_, f1, key, rfl, ordc, f1, hoc, key f1 (Nat.le_refl _), h2⟩
  obtain ⟨p, f0, k1, rfl, k3⟩ := hex
  refine ⟨p, f0, fun fuel hf => ?_, k3, h3⟩
  unfold multiPatternLit
  rw [h1]
  exact k1 fuel hf

section
variable {ordc : Compiler Op → List (Id × Nat)} {T : OpText Op} {parse : List Char → Option Sexp}
  {intern : List Char → Symbol} {name lhs rhs : List Char} {ls rs : List (Var × Term (PatOp Op))}

/-- **C79, `multi_rewrite!`.**  If every variable that the right-hand side needs occurs on the left, the macro returns the
rule with the given name and sides. -/
theorem c79_multi (hoc : OrdOK ordc) (hT : T.Uniform) (hl : MultiText (PatText T parse) lhs ls) (hfl : FirstIsNode ls)
    (hr : MultiText (PatText T parse) rhs rs) (hfr : FirstIsNode rs ∨ rs.length = 1) (hv : ∀ v, Needs rs v → MultiOccurs v ls) :
    ∃ (rw' : Rewrite Op D) (f0 : Nat), (∀ fuel, f0 ≤ fuel → multiRewriteMacro T parse ordc fuel intern name lhs rhs = .ok rw') ∧
      rw'.name = intern name ∧ MultiRule rw' ls rs := by
  obtain ⟨lp, f1, h1, h2, h3⟩ := multiLit_ok hoc T hT hl (.inl hfl)
  obtain ⟨rp, f2, k1, k2, k3⟩ := multiLit_ok hoc T hT hr hfr
  have hvars : ∀ v ∈ (rp.applier (D := D)).vars, v ∈ (lp.searcher (D := D)).vars := by
    intro v hv'
    exact (mem_searchVars h3 lp.program).2 (hv v ((mem_applierVars k3).1 hv').2)
  refine ⟨⟨intern name, lp.searcher, rp.applier⟩, max f1 f2, fun fuel hf => ?_, rfl, lp, rp, h2, hfl,
    fun v hv => (mem_searchVars h3 lp.program).1 hv, k2, (c24_new _ _ _).2 hvars⟩
  unfold multiRewriteMacro
  rw [h1 fuel (le_trans (le_max_left _ _) hf), ok_bind, k1 fuel (le_trans (le_max_right _ _) hf), ok_bind]
  exact newUnwrap_ok hvars

/-- **C79, `multi_rewrite!`.**  Otherwise it panics. -/
theorem c79_multi_unbound (hoc : OrdOK ordc) (hT : T.Uniform) (hl : MultiText (PatText T parse) lhs ls) (hfl : FirstIsNode ls)
    (hr : MultiText (PatText T parse) rhs rs) (hfr : FirstIsNode rs ∨ rs.length = 1) (hv : ∃ v, Needs rs v ∧ ¬ MultiOccurs v ls) :
    ∃ f0, ∀ fuel, f0 ≤ fuel → multiRewriteMacro (D := D) T parse ordc fuel intern name lhs rhs = .error .panic := by
  obtain ⟨lp, f1, h1, h2, h3⟩ := multiLit_ok hoc T hT hl (.inl hfl)
  obtain ⟨rp, f2, k1, k2, k3⟩ := multiLit_ok hoc T hT hr hfr
  refine ⟨max f1 f2, fun fuel hf => ?_⟩
  unfold multiRewriteMacro
  rw [h1 fuel (le_trans (le_max_left _ _) hf), ok_bind, k1 fuel (le_trans (le_max_right _ _) hf), ok_bind]
  refine newUnwrap_bad fun hall => ?_
  obtain ⟨v, hu, hn⟩ := hv
  exact hn ((mem_searchVars h3 lp.program).1 (hall v ((mem_applierVars k3).2 ⟨by simp, hu⟩)))

/-- **C79, `multi_rewrite!`.**  It also panics on a text that cannot be read. -/
theorem c79_multi_unreadable (hoc : OrdOK ordc) (hT : T.Uniform)
    (h : (∀ ps, ¬ MultiText (PatText T parse) lhs ps) ∨
      ((∃ ps, MultiText (PatText T parse) lhs ps ∧ FirstIsNode ps) ∧ ∀ ps, ¬ MultiText (PatText T parse) rhs ps)) :
    ∃ f0, ∀ fuel, f0 ≤ fuel → multiRewriteMacro (D := D) T parse ordc fuel intern name lhs rhs = .error .panic := by
  have bad : ∀ {text}, (∀ ps, ¬ MultiText (PatText T parse) text ps) → ∀ fuel, multiPatternLit T parse ordc fuel text = .error .panic := by
    intro text h fuel
    unfold multiPatternLit
    cases hp : parseMulti T parse text with
    | error e => rfl
    | ok asts =>
      obtain ⟨ps, hps, _⟩ := ((c63_parse T parse text asts).1 hp).image (Q' := PatText T parse) (S := fun _ _ => True) (by
        intro pt ast ha
        obtain ⟨_, t, ht⟩ := parse_patWF T hT parse pt ast ha
        exact ⟨t, (c40_parse_iff T.pat hT.pat parse pt t).2 ⟨ast, ha, ht⟩, trivial⟩)
      exact absurd hps (h ps)
  rcases h with h | ⟨⟨ps, h1, h2⟩, h⟩
  · refine ⟨0, fun fuel _ => ?_⟩
    unfold multiRewriteMacro
    rw [bad h]
    rfl
  · obtain ⟨lp, f1, k1, _, _⟩ := multiLit_ok hoc T hT h1 (.inl h2)
    refine ⟨f1, fun fuel hf => ?_⟩
    unfold multiRewriteMacro
    rw [k1 fuel hf, ok_bind, bad h]
    rfl
end

/-! ### Examples -/

namespace Ex

theorem text_uniform : text.Uniform := by
  intro s ids n h ids' _
  unfold text at h ⊢
  dsimp only at h ⊢
  split at h <;> cases h <;> rfl

/-- `(g ?x (f ?y))` and `(f (g ?y ?x))`: both sides have the same variables. -/
def mL : List Char := " (g ?x (f ?y))".toList
def mR : List Char := "(f (g ?y ?x))".toList
def mTl : Term (PatOp S) := .node (.op .g) [.node (.var vx) [], .node (.op .f) [.node (.var vy) []]]
def mTr : Term (PatOp S) := .node (.op .f) [.node (.op .g) [.node (.var vy) [], .node (.var vx) []]]

theorem patText_of {txt : List Char} {ast : PatternAst S} {t : Term (PatOp S)} (h : (parseExpr text.pat parseSexp? txt).toOption = some ast)
    (ht : ExprTerm ast t) : PatText text parseSexp? txt t := by
  refine (c40_parse_iff text.pat text_uniform.pat parseSexp? txt t).2 ⟨ast, ?_, ht⟩
  cases hp : parseExpr text.pat parseSexp? txt with
  | error e => rw [hp] at h; cases h
  | ok a => rw [hp] at h; cases h; rfl

theorem mL_text : PatText text parseSexp? mL mTl :=
  patText_of (ast := [⟨.var vx, []⟩, ⟨.var vy, []⟩, ⟨.op .f, [1]⟩, ⟨.op .g, [0, 2]⟩]) (by decide +kernel) (exprTerm_of (f := 9) rfl rfl)
theorem mR_text : PatText text parseSexp? mR mTr :=
  patText_of (ast := [⟨.var vy, []⟩, ⟨.var vx, []⟩, ⟨.op .g, [0, 1]⟩, ⟨.op .f, [2]⟩]) (by decide +kernel) (exprTerm_of (f := 9) rfl rfl)

theorem subterm_node {Op : Type} {s : Term Op} {op : Op} {ts : List (Term Op)} : Subterm s (.node op ts) ↔ s = .node op ts ∨ ∃ t ∈ ts, Subterm s t := by
  constructor
  · intro h
    cases h with
    | refl => exact .inl rfl
    | arg h1 h2 => exact .inr ⟨_, h1, h2⟩
  · rintro (rfl | ⟨t, h1, h2⟩)
    · exact .refl
    · exact .arg h1 h2

theorem mTl_occurs (v : Var) : Occurs v mTl ↔ v = vx ∨ v = vy := by
  simp [Occurs, mTl, subterm_node]
theorem mTr_occurs (v : Var) : Occurs v mTr ↔ v = vx ∨ v = vy := by
  simp [Occurs, mTr, subterm_node, or_comm]

/-- A condition: the class of `?x` is not that of `?y`. -/
def diff : Condition S Unit where
  check := fun _ eg _ s => do
    let x ← unwrap (s.get vx)
    let y ← unwrap (s.get vy)
    let x ← eg.find x
    let y ← eg.find y
    return (eg, decide (x ≠ y))
  vars := [vx, vy]

example : OrdOK (ordc (Op := S)) ∧ text.Uniform ∧ PatText text parseSexp? mL mTl ∧ PatText text parseSexp? mR mTr ∧
    (∀ v, Occurs v mTr ↔ Occurs v mTl) ∧ ∀ k ∈ [diff, diff], ∀ v ∈ k.vars, Occurs v mTl := by
  refine ⟨ordcOK, text_uniform, mL_text, mR_text, fun v => (mTr_occurs v).trans (mTl_occurs v).symm, ?_⟩
  intro k hk v hv
  rw [mTl_occurs]
  simp only [List.mem_cons, List.not_mem_nil, or_false, or_self] at hk
  subst hk
  simpa [diff] using hv

example : OnlyAdds N0 diff := by
  intro eg c s eg' b h
  simp only [diff] at h
  obtain ⟨_, _, h⟩ := bind_eq_ok.1 h
  obtain ⟨_, _, h⟩ := bind_eq_ok.1 h
  obtain ⟨_, _, h⟩ := bind_eq_ok.1 h
  obtain ⟨_, _, h⟩ := bind_eq_ok.1 h
  cases h
  exact .refl

/-- The names of the rules `r` returns. -/
def names (intern : List Char → Symbol) (fuel : Nat) (l r : List Char) (conds : List (Condition S Unit)) : Res (List Symbol) := do
  let rules ← rewriteBothMacro text parseSexp? ordc fuel intern "swap".toList l r conds
  return rules.map (·.name)

example : names List.length 20 mL mR [diff, diff] = .ok [4, 8] := by decide +kernel

/-- `?y` does not occur on the other side. -/
example : names List.length 20 mL "(f ?x)".toList [] = .error .panic := by decide +kernel
/-- The condition uses `?y`. -/
example : names List.length 20 "(f ?x)".toList "(g ?x ?x)".toList [diff] = .error .panic := by decide +kernel
/-- `h` is not an operator. -/
example : names List.length 20 "(h ?x)".toList "(g ?x ?x)".toList [] = .error .panic := by decide +kernel

/-- `?p = (g ?y ?x), ?y = (f ?x)` `=>` `?q = (f ?x), ?p = (g ?q ?q)`: the second clause on the right uses a variable
that the first one binds. -/
def mmL : List Char := "?p = (g ?y ?x), ?y = (f ?x)".toList
def mmR : List Char := "?q = (f ?x), ?p = (g ?q ?q)".toList
def mmRs : List (Var × Term (PatOp S)) :=
  [(vq, termFx), (vp, .node (.op .g) [.node (.var vq) [], .node (.var vq) []])]

theorem multiText_of {txt : List Char} {asts : List (Var × PatternAst S)} {ps : List (Var × Term (PatOp S))}
    (h : (parseMulti text parseSexp? txt).toOption = some asts)
    (ht : List.Forall₂ (fun a b => a.1 = b.1 ∧ PatWF a.2 ∧ ExprTerm a.2 b.2) asts ps) : MultiText (PatText text parseSexp?) txt ps := by
  refine (c63_denotes text text_uniform parseSexp? txt ps).2 ⟨asts, ?_, ht⟩
  cases hp : parseMulti text parseSexp? txt with
  | error e => rw [hp] at h; cases h
  | ok a => rw [hp] at h; cases h; rfl

example : MultiText (PatText text parseSexp?) mmL multiTerms ∧ FirstIsNode multiTerms ∧ MultiText (PatText text parseSexp?) mmR mmRs ∧
    FirstIsNode mmRs ∧ ∀ v, Needs mmRs v → MultiOccurs v multiTerms := by
  refine ⟨multiText_of (asts := multiAsts) (by decide +kernel) (.cons ⟨rfl, patWF_of rfl rfl rfl, exprTerm_of (f := 5) rfl rfl⟩
      (.cons ⟨rfl, patWF_of rfl rfl rfl, exprTerm_of (f := 5) rfl rfl⟩ .nil)), ⟨_, _, _, _, rfl⟩,
    multiText_of (asts := [(vq, astFx), (vp, [⟨.var vq, []⟩, ⟨.var vq, []⟩, ⟨.op .g, [0, 1]⟩])]) (by decide +kernel)
      (.cons ⟨rfl, patWF_of rfl rfl rfl, exprTerm_of (f := 5) rfl rfl⟩
      (.cons ⟨rfl, patWF_of rfl rfl rfl, exprTerm_of (f := 5) rfl rfl⟩ .nil)), ⟨_, _, _, _, rfl⟩, ?_⟩
  rintro v ⟨pre, w, q, post, he, h1, h2⟩
  cases pre with
  | nil =>
    simp only [mmRs, List.nil_append, List.cons.injEq, Prod.mk.injEq] at he
    obtain ⟨⟨_, rfl⟩, _⟩ := he
    simp [Occurs, termFx, subterm_node] at h1
    subst h1
    exact ⟨vy, termFx, by simp [multiTerms], .inr (by simp [Occurs, termFx, subterm_node])⟩
  | cons x pre =>
    cases pre with
    | nil =>
      simp only [mmRs, List.cons_append, List.nil_append, List.cons.injEq, Prod.mk.injEq] at he
      obtain ⟨rfl, ⟨_, rfl⟩, _⟩ := he
      simp [Occurs, subterm_node] at h1
      exact absurd h1.symm (h2 (vq, termFx) (by simp))
    | cons y pre => simp [mmRs] at he

def multiName (l r : List Char) : Res Symbol := do
  let rule ← multiRewriteMacro (D := Unit) text parseSexp? ordc 20 List.length "m".toList l r
  return rule.name

example : multiName mmL mmR = .ok 1 := by decide +kernel
/-- Merging two variables. -/
example : multiName mmL "?x = ?y".toList = .ok 1 := by decide +kernel
/-- In the other order `?q` is unbound where it is used. -/
example : multiName mmL "?p = (g ?q ?q), ?q = (f ?x)".toList = .error .panic := by decide +kernel

end Ex
end Egg
