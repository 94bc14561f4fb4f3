import Verif.Lemmas.Stages
import Verif.Props.Eager
/-
C95: a run saturates exactly if what the rules generate is finite.
-/
namespace Egg
variable {Op D S H : Type} [DecidableEq Op] [Lang Op]
variable {A : UserAnalysis Op D} {depth : Nat} {allow : Caller Op D} {U : List (UnionRec Op)} {eg0 eg1 : EGraph Op D}
variable {env : RunEnv Op D} {sch : Scheduler Op D S} {hooks : List (Hook Op D H)} {rules : List (Rewrite Op D)}
  {eqs : List (Term (PatOp Op) × Term (PatOp Op))} {r r' : Runner Op D S H} {f : Nat}

/-- **C95.**  A run puts nothing into the e-graph but what the rules generate: if two terms are in one class of the
e-graph with which a run ends, however it ends, then the rules generate them, and their equality, from the e-graph with which it started. -/
theorem c95_only_generated (hA : ∀ i, A.modify i = .done) (hN : env.analysis = A.at depth) (hord : ∀ i eg, (env.ord i eg).OK eg)
    (hd : DiscContiguous Op) (hs : sch.Honest env) (hh : HooksRead hooks)
    (hr : ∀ rw' ∈ rules, ∃ tl t, (tl, t) ∈ eqs ∧ TightRule rw' tl t)
    (h : Hist (A.at depth) allow U r.egraph) (hrun : r.run env sch hooks rules f = .ok r')
    {c : Id} {s t : Term Op} (hs' : Rep r'.egraph c s) (ht : Rep r'.egraph c t) : Generated r.egraph eqs s t := by
  unfold Runner.run at hrun
  obtain ⟨⟨eg, n⟩, h1, h2⟩ := bind_eq_ok.1 hrun
  rw [hN] at h1
  have k1 : Hist (A.at depth) allow ([] ++ U) eg := Steps.trans h (.single (.rebuild h1))
  exact (Runner.runLoop_inside hA hN hord hd hs hh hr f _ r' _ k1 (EGraph.rebuild_clean h1) ((Inside.start hA h).rebuild hA h1) h2).rep hs' ht

/-- **C95.**  If the run ends with `Saturated`, the e-graph contains all that is generated: two terms are in
one class exactly if they are generated as equal. -/
theorem c95_saturated_exact (hA : ∀ i, A.modify i = .done) (hcyc : (A.at depth).allowCycles = true) (hd : DiscContiguous Op)
    (h : Hist (A.at depth) allow U eg0) (hsat : SaturatedRun A depth eqs eg0 eg1) (s t : Term Op) :
    (∃ c, Rep eg1 c s ∧ Rep eg1 c t) ↔ Generated eg0 eqs s t := by
  obtain ⟨⟨V, hV⟩, g0, hc0, hcl⟩ := hsat.facts hcyc hd h
  have hF := Full.of_hist hV hc0
  refine ⟨fun ⟨c, h1, h2⟩ => ?_, fun hg => hg.present hF (fun c t => g0.rep c t) fun tl t ht => closedTerms_of hF (hcl tl t ht)⟩
  obtain ⟨k1, k2, k3, k4, k5, k6, k7, k8, rfl, k10, k11, k12⟩ := hsat
  exact c95_only_generated hA k1 k2 hd k3 k7 k8.1 h k10 h1 h2

/-- **C95.**  A run can end with `Saturated`, with whatever scheduler, only if what the rules generate has finitely many classes. -/
theorem c95_finite_of_saturated (hA : ∀ i, A.modify i = .done) (hcyc : (A.at depth).allowCycles = true) (hd : DiscContiguous Op)
    (h : Hist (A.at depth) allow U eg0) (hsat : SaturatedRun A depth eqs eg0 eg1) : FinitelyGenerated eg0 eqs := by
  obtain ⟨⟨V, hV⟩, g0, hc0, hcl⟩ := hsat.facts hcyc hd h
  have hg := hist_good hV
  have hl : ∀ n, n ≤ eg1.nodes.length → ∃ l : List (Term Op), ∀ c < n, ∃ u ∈ l, Rep eg1 c u := by
    intro n
    induction n with
    | zero => exact fun _ => ⟨[], fun c hc => by omega⟩
    | succ n ih =>
      intro hn
      obtain ⟨l, hl⟩ := ih (by omega)
      obtain ⟨u, hu⟩ := hg.inv.exists_rep (i := n) (by omega)
      refine ⟨u :: l, fun c hc => ?_⟩
      by_cases hcn : c = n
      · exact ⟨u, by simp, hcn ▸ hu⟩
      · obtain ⟨w, hw, hw'⟩ := hl c (by omega)
        exact ⟨w, by simp [hw], hw'⟩
  obtain ⟨l, hl⟩ := hl _ (Nat.le_refl _)
  refine ⟨l, fun t ht => ?_⟩
  obtain ⟨c, hc, -⟩ := (c95_saturated_exact hA hcyc hd h hsat t t).2 ht
  obtain ⟨u, hu, hu'⟩ := hl c (hg.inv.rep_lt hc)
  exact ⟨u, hu, (c95_saturated_exact hA hcyc hd h hsat t u).1 ⟨c, hc, hu'⟩⟩

/-- One more iteration is enough once everything is there. -/
theorem Runner.runLoop_present (hA : ∀ i, A.modify i = .done) (hd : DiscContiguous Op) (hcyc : (A.at depth).allowCycles = true)
    (hlim : sch.Limited env) : ∀ (k f : Nat) (b r' : Runner Op D S H), EagerAt A depth allow eg0 eqs env sch hooks rules b →
    (∀ bk, Runner.after env sch hooks rules k b = some bk → ∀ s t, Generated eg0 eqs s t → ∃ c, Rep bk.egraph c s ∧ Rep bk.egraph c t) →
    runLoop env sch hooks rules f b = .ok r' → r'.iterations.length ≤ b.iterations.length + k + 1 := by
  intro k
  induction k with
  | zero =>
    intro f b r' hb hp hl
    obtain ⟨V, hV⟩ := hb.hist
    have hF := hb.full
    have hp := hp b rfl
    obtain ⟨-, its, h1, -, reason, -, -, h4⟩ := Runner.runLoop_still (M := b.egraph) (hM := Full.of_hist hV hb.clean) hA hb.analysis hb.ord hd hb.eager.honest hb.eager.counting hlim hb.read
      hb.are.1 (fun tl t ht τ s w d h1 h2 h3 => by
        obtain ⟨c, h4, h5⟩ := hp s w (.rule (hb.inside.rep h3 h3) ⟨tl, t, ht, τ, h1, h2⟩)
        exact (hF.rel h4 h5 d).1 h3) f b r' V hV hb.clean (Still.start hA hV hb.clean hb.queue) hl
    rw [h1, List.length_append, (h4 hb.eager.stop).1]
  | succ k ih =>
    intro f b r' hb hp hl
    obtain ⟨f', r1, it, -, -, e, h3⟩ := runLoop_step hl
    rcases h3 with ⟨s, _, rfl⟩ | ⟨_, _, _, _, _, _, _, _, e'⟩ | ⟨_, h4, h5⟩
    · simp only [List.length_append, List.length_singleton, e]; omega
    · rw [e', List.length_append, List.length_singleton, e]; omega
    · have := ih f' _ r' (hb.next hA hd hcyc h4).1 (fun bk hk => hp bk (after_succ h4 hk)) h5
      simp only [List.length_append, List.length_singleton, e] at this
      omega

/-- **C95.**  If what the rules generate has finitely many classes, then there is a number of iterations after which every run saturates
that uses a scheduler like the `SimpleScheduler`: no such run, whatever the order of the rules and of the hash maps, makes more than `N` iterations.
So if `N` is below the iteration limit, it ends with `Saturated`, unless the time or the node limit is exceeded or a hook returns an error. -/
theorem c95_saturates (hA : ∀ i, A.modify i = .done) (hcyc : (A.at depth).allowCycles = true) (hd : DiscContiguous Op)
    (h : Hist (A.at depth) allow U eg0) (hfin : FinitelyGenerated eg0 eqs) :
    ∃ N, ∀ (S H : Type) (env : RunEnv Op D) (sch : Scheduler Op D S) (hooks : List (Hook Op D H)) (rules : List (Rewrite Op D))
      (r r' : Runner Op D S H) (f : Nat), env.analysis = A.at depth → (∀ i eg, (env.ord i eg).OK eg) → sch.Eager env → sch.Limited env →
      HooksRead hooks → RulesAre rules eqs → r.egraph = eg0 → r.AlwaysFits env sch hooks rules → r.run env sch hooks rules f = .ok r' →
      r'.iterations.length ≤ r.iterations.length + N ∧
      (r.iterations.length + N < r.limits.iterLimit → r'.stopReason = some .saturated ∨
        (∃ n, r'.stopReason = some (.nodeLimit n) ∧ r.limits.nodeLimit < n) ∨
        (∃ t k, r'.stopReason = some (.timeLimit t) ∧ r.limits.timeLimit < t ∧ env.elapsed k = t) ∨
        ∃ msg, r'.stopReason = some (.other msg) ∧ ∃ hook ∈ hooks, ∃ h eg its h' eg', hook h eg its = .ok (h', eg', some msg)) := by
  by_cases hv : ∀ tl t, (tl, t) ∈ eqs → ∀ v, Occurs v t → Occurs v tl
  swap
  · refine ⟨0, fun S H env sch hooks rules r r' f _ _ _ _ _ hr => absurd ?_ hv⟩
    intro tl t hm v hv
    obtain ⟨rw', -, lp, rp, h1, -, h2, h3, -, h4⟩ := hr.2 tl t hm
    exact h2 v ((rewrite_new_inv h4).1 v (h3.occurs_vars hv))
  obtain ⟨k, hk⟩ := hfin.stage (A := A) (depth := depth) (allow := allow) hA hd hcyc (hist_good h) hv
  refine ⟨k + 1, fun S H env sch hooks rules r r' f hN hord hs hlim hh hr he hfit hrun => ?_⟩
  subst he
  have hlen : r'.iterations.length ≤ r.iterations.length + (k + 1) := by
    unfold Runner.run at hrun
    obtain ⟨⟨eg, n⟩, h1, h2⟩ := bind_eq_ok.1 hrun
    have hfit := fun k rk => hfit eg n k rk h1
    rw [hN] at h1
    have s1 : Steps (A.at depth) allow r.egraph ([] ++ []) eg := .single (.rebuild h1)
    have hb : EagerAt A depth allow r.egraph eqs env sch hooks rules { r with egraph := eg } :=
      ⟨hN, hord, hs, hh, hr, ⟨_, Steps.trans h s1⟩, EGraph.rebuild_clean h1, (rebuilt_tidy h h1).2.apending,
        fun c t => (steps_grow s1 (hist_good h)).2.rep c t, (Inside.start hA h).rebuild hA h1, hfit⟩
    have := Runner.runLoop_present hA hd hcyc hlim k f _ r' hb (fun bk hbk s t hst => hk s t hst _ _ _ _ _ _ _ _ hb hbk) h2
    dsimp only at this
    omega
  refine ⟨hlen, fun hl => ?_⟩
  obtain ⟨reason, new, last, h1, -, -, -, -, h2, -⟩ := c27_run_stops hlim hrun
  rw [h1]
  cases reason with
  | saturated => exact Or.inl rfl
  | iterationLimit n =>
    have h2 : r.limits.iterLimit ≤ n ∧ n ≤ r'.iterations.length := h2
    omega
  | nodeLimit n => exact Or.inr (Or.inl ⟨n, rfl, h2.1⟩)
  | timeLimit t =>
    obtain ⟨h3, k, h4⟩ := h2
    exact Or.inr (Or.inr (Or.inl ⟨t, k, rfl, h3, h4⟩))
  | other msg => exact Or.inr (Or.inr (Or.inr ⟨msg, rfl, h2⟩))

/-! ### Examples -/

/-- The rules `f(x) → g(x)` and `f(x) → x` generate finitely many classes from `f(f(a))`, as a run saturates; so all do. -/
example : FinitelyGenerated Ex.runnerS1.egraph Ex.eqs2 :=
  c95_finite_of_saturated (A := Ex.U0) (depth := 1) (fun _ => rfl) rfl Ex.discContiguous Ex.histS1 Ex.satA

/-- In that run `f(a)` and `g(g(a))` end in one class, so their equality is generated; and by `c95_saturated_exact`. -/
example : Generated Ex.runnerS1.egraph Ex.eqs2 (.node .f [.node .a []]) (.node .g [.node .g [.node .a []]]) := by
  refine (c95_saturated_exact (A := Ex.U0) (depth := 1) (fun _ => rfl) rfl Ex.discContiguous Ex.histS1 Ex.satA _ _).1 ⟨0, ?_, ?_⟩
  · exact Ex.rep_app1 (i := 0) rfl rfl (by decide) (Ex.rep_leaf rfl rfl (by decide))
  · exact Ex.rep_app1 (i := 0) rfl rfl (by decide) (Ex.rep_app1 (i := 0) rfl rfl (by decide) (Ex.rep_leaf rfl rfl (by decide)))

namespace Ex

/-- `f(x) → g(f(g(x)))` -/
def astGfg : PatternAst Ex.S := [⟨.var vx, []⟩, ⟨.op .g, [0]⟩, ⟨.op .f, [1]⟩, ⟨.op .g, [2]⟩]
def patGfg : Pattern Ex.S := match Pattern.new ordc 10 astGfg with | .ok p => p | _ => ⟨[], ⟨[], []⟩⟩
def termGfg : Term (PatOp Ex.S) := .node (.op .g) [.node (.op .f) [.node (.op .g) [.node (.var vx) []]]]
def ruleGfg : Rewrite Ex.S Unit := ⟨9, patFx.searcher, patGfg.applier⟩

theorem isPatGfg : IsPattern patGfg termGfg :=
  ⟨ordc, 10, astGfg, ordcOK, patWF_of rfl rfl rfl, rfl, exprTerm_of (f := 5) rfl rfl⟩

theorem tightGfg : TightRule ruleGfg termFx termGfg := by
  refine ⟨patFx, patGfg, isPatFx, liveFx, live, isPatGfg, ?_, rfl⟩
  intro k hk
  have hk : k < 4 := hk
  have h3 : Live patGfg.ast 3 := .root
  have h2 : Live patGfg.ast 2 := .child (n := ⟨.op .g, [2]⟩) h3 rfl (by simp)
  have h1 : Live patGfg.ast 1 := .child (n := ⟨.op .f, [1]⟩) h2 rfl (by simp)
  have h0 : Live patGfg.ast 0 := .child (n := ⟨.op .g, [0]⟩) h1 rfl (by simp)
  have : k = 0 ∨ k = 1 ∨ k = 2 ∨ k = 3 := by omega
  rcases this with rfl | rfl | rfl | rfl <;> assumption

theorem rulesAreGfg : RulesAre [ruleGfg] [(termFx, termGfg)] := by
  refine ⟨fun rw' h => ?_, fun tl t h => ?_⟩
  · rw [List.mem_singleton.1 h]; exact ⟨_, _, by simp, tightGfg⟩
  · simp only [List.mem_singleton, Prod.mk.injEq] at h
    obtain ⟨rfl, rfl⟩ := h
    exact ⟨_, by simp, tightGfg⟩

mutual
/-- A model of the rule in the integers: `f` is negation and `g` the successor. -/
def intOf : Term Ex.S → Int
  | .node op ts => match op with
    | .f => - (intsOf ts).head?.getD 0
    | .g => (intsOf ts).head?.getD 0 + 1
    | _ => 0
def intsOf : List (Term Ex.S) → List Int
  | [] => []
  | t :: ts => intOf t :: intsOf ts
end

theorem intsOf_congr {ss ts : List (Term Ex.S)} (h : List.Forall₂ (fun s t => intOf s = intOf t) ss ts) : intsOf ss = intsOf ts := by
  induction h with
  | nil => rfl
  | cons h1 _ ih => rw [intsOf, intsOf, h1, ih]

theorem intOf_congr (op : Ex.S) {ss ts : List (Term Ex.S)} (h : List.Forall₂ (fun s t => intOf s = intOf t) ss ts) :
    intOf (.node op ss) = intOf (.node op ts) := by
  have := intsOf_congr h
  cases op <;> simp [intOf, this]

theorem sameInt : IsCongruence (fun s t : Term Ex.S => intOf s = intOf t) where
  refl _ := rfl
  symm h := h.symm
  trans h h' := h.trans h'
  congr op _ _ h := intOf_congr op h

theorem generated_int {s t : Term Ex.S} (h : Generated runnerS1.egraph [(termFx, termGfg)] s t) : intOf s = intOf t := by
  induction h with
  | start h1 h2 =>
    obtain ⟨hg, -⟩ := hist_good_of_sound (soundFor_of_quiet (A := U0) (fun _ => rfl) _ sameInt) histS1 (by rintro s t ⟨u, hu, -⟩; cases hu)
    obtain ⟨u, hu⟩ := hg.inv.core.dag.exists_term _ (hg.inv.rep_lt h1)
    exact (hg.inv.rep_sound _ h1 hu).symm.trans (hg.inv.rep_sound _ h2 hu)
  | rule _ h _ =>
    obtain ⟨tl, t, hm, τ, h1, h2⟩ := h
    simp only [List.mem_singleton, Prod.mk.injEq] at hm
    obtain ⟨rfl, rfl⟩ := hm
    obtain ⟨us, rfl, hus⟩ := inst_node_iff.1 h1
    obtain ⟨ws, rfl, hws⟩ := inst_node_iff.1 h2
    cases hus with
    | cons a b =>
    cases b
    cases hws with
    | cons c d =>
    cases d
    obtain ⟨ws, rfl, hws⟩ := inst_node_iff.1 c
    cases hws with
    | cons c' d =>
    cases d
    obtain ⟨ws, rfl, hws⟩ := inst_node_iff.1 c'
    cases hws with
    | cons x d =>
    cases d
    rw [inst_var_iff] at a x
    obtain ⟨-, rfl⟩ := a
    obtain ⟨-, rfl⟩ := x
    simp [intOf, intsOf]
  | symm _ ih => exact ih.symm
  | trans _ _ ih1 ih2 => exact ih1.trans ih2
  | arg => rfl
  | congr _ hlen _ _ ih =>
    exact intOf_congr _ (List.forall₂_iff_get.2 ⟨hlen, fun i hi hi' => ih i _ _ (List.getElem?_eq_getElem hi) (List.getElem?_eq_getElem hi')⟩)

theorem rep_S1_fa : Rep runnerS1.egraph 1 (.node .f [.node .a []]) :=
  rep_app1 (i := 0) rfl rfl (by decide) (rep_leaf rfl rfl (by decide))

/-- `gⁿ(a)` -/
def gs : Nat → Term Ex.S
  | 0 => .node .a []
  | n + 1 => .node .g [gs n]

theorem generated_gs : ∀ n, Generated runnerS1.egraph [(termFx, termGfg)] (.node .f [gs n]) (.node .f [gs n]) := by
  intro n
  induction n with
  | zero => exact .start (c := 1) rep_S1_fa rep_S1_fa
  | succ n ih =>
    have h : Generated runnerS1.egraph [(termFx, termGfg)] (.node .f [gs n]) (.node .g [.node .f [.node .g [gs n]]]) := by
      refine .rule ih ⟨termFx, termGfg, by simp, fun _ => gs n, inst_node_iff.2 ⟨_, rfl, .cons .var .nil⟩,
        inst_node_iff.2 ⟨_, rfl, .cons (inst_node_iff.2 ⟨_, rfl, .cons (inst_node_iff.2 ⟨_, rfl, .cons .var .nil⟩) .nil⟩) .nil⟩⟩
    exact .arg h.right (by simp [gs])

theorem int_gs : ∀ n, intOf (gs n) = n := by
  intro n
  induction n with
  | zero => rfl
  | succ n ih => simp [gs, intOf, intsOf, ih]

/-- The rule `f(x) → g(f(g(x)))` generates infinitely many classes from `f(f(a))`. -/
theorem not_finite : ¬ FinitelyGenerated runnerS1.egraph [(termFx, termGfg)] := by
  rintro ⟨l, hl⟩
  have hb : ∃ m : Nat, ∀ u ∈ l, (intOf u).natAbs < m := by
    clear hl
    induction l with
    | nil => exact ⟨0, by simp⟩
    | cons a l ih =>
      obtain ⟨m, hm⟩ := ih
      refine ⟨max m ((intOf a).natAbs + 1), fun u hu => ?_⟩
      rcases List.mem_cons.1 hu with rfl | hu
      · omega
      · have := hm u hu; omega
  obtain ⟨m, hm⟩ := hb
  obtain ⟨u, hu, h⟩ := hl _ (generated_gs m)
  have h1 := generated_int h
  have h2 := hm u hu
  rw [← h1] at h2
  simp [intOf, intsOf, int_gs] at h2

end Ex

/-- So no run with it saturates, whatever the scheduler, the limits and the order of the hash maps. -/
example (eg : EGraph Ex.S Unit) : ¬ SaturatedRun Ex.U0 1 [(Ex.termFx, Ex.termGfg)] Ex.runnerS1.egraph eg := fun h =>
  Ex.not_finite (c95_finite_of_saturated (A := Ex.U0) (depth := 1) (fun _ => rfl) rfl Ex.discContiguous Ex.histS1 h)

/-- `c95_saturates` for the two rules that generate finitely many classes: there is a bound for all runs, and the example run is one. -/
example : ∃ N, Ex.runA.iterations.length ≤ N ∧ Ex.runA'.iterations.length ≤ N := by
  obtain ⟨N, hN⟩ := c95_saturates (A := Ex.U0) (depth := 1) (eqs := Ex.eqs2) (fun _ => rfl) rfl Ex.discContiguous Ex.histS1
    (c95_finite_of_saturated (A := Ex.U0) (depth := 1) (fun _ => rfl) rfl Ex.discContiguous Ex.histS1 Ex.satA)
  have h1 := (hN _ _ Ex.renv simpleScheduler [] [Ex.ruleFG, Ex.ruleFX] Ex.runnerS1 Ex.runA 10 rfl (fun _ eg => Ex.ordOK eg) simple_eager simple_limited
    (fun k hk => by cases hk) Ex.rulesAre.1 rfl (Ex.fits2 _ (Or.inl rfl)) rfl).1
  have h2 := (hN _ _ Ex.renv simpleScheduler [] [Ex.ruleFX, Ex.ruleFG] Ex.runnerS1 Ex.runA' 10 rfl (fun _ eg => Ex.ordOK eg) simple_eager simple_limited
    (fun k hk => by cases hk) Ex.rulesAre.2 rfl (Ex.fits2 _ (Or.inr rfl)) rfl).1
  have h0 : Ex.runnerS1.iterations.length = 0 := rfl
  exact ⟨N, by omega, by omega⟩

end Egg
