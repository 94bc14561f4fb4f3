import Verif.Lemmas.GuardChase
import Verif.Props.TestRunner
import Verif.Props.Quiet
/-
C107: with conditional rules, a run (and `test_runner`) derives what follows from the rules and their guards, and nothing else.
-/
namespace Egg
variable {Op D S H : Type} [DecidableEq Op] [Lang Op]
variable {A : UserAnalysis Op D} {depth : Nat} {allow : Caller Op D} {U : List (UnionRec Op)}
variable {env : RunEnv Op D} {sch : Scheduler Op D S} {hooks : List (Hook Op D H)} {rules : List (Rewrite Op D)}
variable {r r' : Runner Op D S H} {f : Nat} {start : List (ENode Op)} {s : Term Op} {K : Term Op → Term Op → Prop}
variable {goals : List (Pattern Op)} {ts : List (Term (PatOp Op))} {early : Bool}

theorem run_guarded {hK : PCong K} (hA : ∀ i, A.modify i = .done) (hN : env.analysis = A.at depth) (hord : ∀ i eg, (env.ord i eg).OK eg)
    (hd : DiscContiguous Op) (hs : sch.Honest env) (hh : HooksRead hooks)
    (hr : ∀ rw' ∈ rules, HoldsIn (A.at depth) allow K rw')
    (h : Hist (A.at depth) allow U r.egraph) (hu : InHull K hK r.egraph) (hrun : r.run env sch hooks rules f = .ok r') :
    InHull K hK r'.egraph ∧ r'.egraph.clean = true ∧ ∃ V, Steps (A.at depth) allow r.egraph V r'.egraph := by
  unfold Runner.run at hrun
  obtain ⟨⟨eg, n⟩, h1, h2⟩ := bind_eq_ok.1 hrun
  rw [hN] at h1
  have s1 : Steps (A.at depth) allow r.egraph ([] ++ []) eg := .single (.rebuild h1)
  obtain ⟨k1, k2, V, k3⟩ := Runner.runLoop_guarded hA hN hord hd hs hh hr f _ r' _ (Steps.trans h s1) (EGraph.rebuild_clean h1) (hu.rebuild hA h1) h2
  exact ⟨k1, k2, _, Steps.trans s1 k3⟩

/-- **C107.**  A run with rules of two patterns, with or without conditions, which at most add terms, and multi-pattern rules.  Let `K` be any notion of equality of existing terms that contains
the equalities of the first e-graph and is closed under the rules, where a rule is to be applied only to instances for which its guards hold.  Then what is there and
equal after the run, whatever the scheduler and however the run ends, is so in `K`. -/
theorem c107_sound (hK : PCong K) (hA : ∀ i, A.modify i = .done) (hN : env.analysis = A.at depth) (hord : ∀ i eg, (env.ord i eg).OK eg)
    (hd : DiscContiguous Op) (hs : sch.Honest env) (hh : HooksRead hooks)
    (hr : ∀ rw' ∈ rules, HoldsIn (A.at depth) allow K rw')
    (h : Hist (A.at depth) allow U r.egraph) (h0 : ∀ s t, Equal r.egraph s t → K s t) (hrun : r.run env sch hooks rules f = .ok r')
    {s t : Term Op} (hst : Equal r'.egraph s t) : K s t :=
  (run_guarded (hK := hK) hA hN hord hd hs hh hr h (InHull.start hA h h0) hrun).1.equal hst

/-- **C107, `test_runner`.**  If it returns, then each goal has an instance that is equal to the start expression in every `K` that contains the equalities of the given e-graph,
and the start expression, and is closed under the guarded rules.  (The instance does not depend on `K`: it is one that the final e-graph knows to be equal to the start expression.) -/
theorem c107_test (hK : PCong K) (hA : ∀ i, A.modify i = .done) (hN : env.analysis = A.at depth) (hord : ∀ i eg, (env.ord i eg).OK eg)
    (hd : DiscContiguous Op) (hcyc : (A.at depth).allowCycles = true) (hmax : 1 ≤ env.usizeMax) (hs : sch.Honest env) (hh : HooksRead hooks)
    (hr : ∀ rw' ∈ rules, HoldsIn (A.at depth) allow K rw') (hg : List.Forall₂ IsPattern goals ts)
    (h : Hist (A.at depth) allow U r.egraph) (h0 : ∀ a b, Given r.egraph s a b → K a b)
    (hwf : WFExpr start) (hst : ExprTerm start s) (hlive : ∀ k, k < start.length → Live start k)
    (ht : testRunner env sch hooks rules f r start goals early = .ok r') :
    ∀ t ∈ ts, ∃ (τ : Var → Term Op) (u : Term Op), Inst τ t u ∧ Equal r'.egraph s u ∧ K s u := by
  unfold testRunner at ht
  rw [hN] at ht
  obtain ⟨⟨r1, id⟩, hst0, ht⟩ := bind_eq_ok.1 ht
  obtain ⟨r2, hrun, ht⟩ := bind_eq_ok.1 ht
  obtain ⟨_, hgoals, ht⟩ := bind_eq_ok.1 ht
  cases ht
  obtain ⟨h1, hrep, -, -, -, -, i, ha⟩ := testStart_spec h hwf hst hst0
  have hu : InHull K hK r1.egraph :=
    (InHull.start (K := K) (hK := hK) hA h (fun a b hab => h0 a b (.inl hab))).addExpr hA hwf hst hlive (h0 _ _ (.inr ⟨rfl, rfl⟩)) ha
  obtain ⟨k1, k2, V, k3⟩ := run_guarded hA hN hord hd hs (goalHook_read hh) hr h1 hu hrun
  have hh' : Hist (A.at depth) allow _ r'.egraph := Steps.trans h1 k3
  have hrep' := (steps_grow k3 (hist_good h1)).2.rep _ _ hrep
  have hg' := hist_good hh'
  have hq := checkGoals_iff hh' k2 hd (hord r'.iterations.length r'.egraph) hcyc (hg'.valid_iff.2 (hg'.inv.rep_lt hrep')) hmax hg
  rw [goalsIn_iff hh' k2 hrep'] at hq
  have hall := Classical.byContradiction fun hc => by
    have := hq.2.1 hc
    rw [hgoals] at this
    cases this
  intro t htm
  obtain ⟨τ, u, q1, q2⟩ := hall t htm
  exact ⟨τ, u, q1, q2, k1.equal q2⟩

/-- **C107, conditions on e-nodes** only look, and ensure that the term is equal in `K` to one whose operator passes the test. -/
theorem c107_nodes {Q : (Var → Term Op) → Prop} (v : Var) (p : Op → Bool) : (Condition.onNodes (D := D) v p).Adds (A.at depth) ∧
    (Condition.onNodes (D := D) v p).Within (A.at depth) allow K Q (fun τ => ∃ op us, p op = true ∧ K (τ v) (.node op us)) := by
  constructor
  · intro eg c s eg' b he
    simp only [Condition.onNodes, bind_eq_ok] at he
    obtain ⟨x, h1, k, h2, he⟩ := he
    cases he
    exact .refl
  · intro U eg c s eg' b _ hH hK _ hb _ _ _ he
    simp only [Condition.onNodes, bind_eq_ok] at he
    obtain ⟨x, h1, k, h2, he⟩ := he
    cases he
    refine ⟨hK, fun hf τ hτ => ?_⟩
    obtain ⟨n, hn, hf⟩ := List.any_eq_true.1 hf
    have hx := hτ v x (unwrap_eq_ok.1 h1)
    unfold EGraph.index at h2
    obtain ⟨r, hr, h2⟩ := bind_eq_ok.1 h2
    have h2 := unwrap_eq_ok.1 h2
    have hg := hist_good hH
    obtain ⟨hx', rfl⟩ := hg.inv.find_iff.1 hr
    obtain ⟨i, m, g1, g2, g3⟩ := hg.inv.core.clsNodes _ _ (EGraph.sk_eq h2) n hn
    obtain ⟨u, hu⟩ := hg.inv.core.dag.exists_term i (getElem?_lt g1)
    have hi := hg.inv.rep_of_termOf u hu
    cases u with
    | node op us =>
      rw [termOf_iff] at hu
      obtain ⟨m', k1, k2, _⟩ := hu
      rw [g1] at k1; cases k1
      exact ⟨op, us, by rw [← k2, ← g3.1]; exact hf,
        hK _ _ ⟨x, hx, hg.inv.rep_congr hx' g2 hi⟩⟩

/-- **C107, conditions on data** only look, and ensure that the term is described by a datum that passes the test, if the data describe terms (C59) up to a congruence that
contains `K`. -/
theorem c107_data {Q : (Var → Term Op) → Prop} {R : Term Op → Term Op → Prop} {V : D → Term Op → Prop} {hR : IsCongruence R}
    {hV : ∀ {s t d}, R s t → V d s → V d t}
    (hA : Describing A R hR V hV) (hKR : ∀ s t, K s t → R s t) (v : Var) (p : D → Bool) :
    (Condition.onData (Op := Op) v p).Adds (A.at depth) ∧
    (Condition.onData (Op := Op) v p).Within (A.at depth) (SetsDescribing V) K Q (fun τ => ∃ d, p d = true ∧ V d (τ v)) := by
  constructor
  · intro eg c s eg' b he
    simp only [Condition.onData, bind_eq_ok] at he
    obtain ⟨x, h1, k, h2, he⟩ := he
    cases he
    exact .refl
  · intro U eg c s eg' b _ hH hK _ hb _ _ _ he
    simp only [Condition.onData, bind_eq_ok] at he
    obtain ⟨x, h1, k, h2, he⟩ := he
    cases he
    refine ⟨hK, fun hf τ hτ => ⟨k.data, hf, (c59_data_describes hA hH ?_).1 x k _ h2 (hτ v x (unwrap_eq_ok.1 h1))⟩⟩
    rintro s t ⟨u, hu, rfl, rfl⟩
    obtain ⟨h1, h2, h3⟩ := (hist_good_of_sound (soundFor_true A) hH (fun _ _ _ => trivial)).2 u hu
    have hg := hist_good hH
    exact hKR _ _ (hK _ _ ⟨u.a, h1, hg.inv.rep_congr (hg.inv.rep_lt h1) h3.symm h2⟩)

/-- **C107, `ConditionEqual`** adds the instances of its two patterns.  It ensures that they are equal in `K`, and does not lead out of `K` if both exist there whenever it is
checked. -/
theorem c107_equal {Q : (Var → Term Op) → Prop} {p1 p2 : Pattern Op} {t1 t2 : Term (PatOp Op)} (hK : PCong K) (hA : ∀ i, A.modify i = .done)
    (h1 : IsPattern p1 t1) (h2 : IsPattern p2 t2) (hl1 : ∀ k, k < p1.ast.length → Live p1.ast k) (hl2 : ∀ k, k < p2.ast.length → Live p2.ast k)
    (hQ : ∀ τ, Q τ → Exists K t1 τ ∧ Exists K t2 τ) :
    (Condition.equal (D := D) p1 p2).Adds (A.at depth) ∧
    (Condition.equal (D := D) p1 p2).Within (A.at depth) allow K Q (fun τ => ∀ u w, Inst τ t1 u → Inst τ t2 w → K u w) := by
  have inv : ∀ {eg : EGraph Op D} {c : Id} {s : Subst} {eg' : EGraph Op D} {b : Bool}, (Condition.equal (D := D) p1 p2).check (A.at depth) eg c s = .ok (eg', b) →
      ∃ eg1 b1 a1 b2 a2, applyPat (A.at depth) (List.replicate p1.ast.length 0) p1.ast eg s = .ok (eg1, b1, a1) ∧
        applyPat (A.at depth) (List.replicate p2.ast.length 0) p2.ast eg1 s = .ok (eg', b2, a2) := by
    intro eg c s eg' b he
    have he' : (do
      let (eg, _, a1) ← applyPat (A.at depth) (List.replicate p1.ast.length 0) p1.ast eg s
      let (eg, _, a2) ← applyPat (A.at depth) (List.replicate p2.ast.length 0) p2.ast eg s
      return (eg, decide (a1 = a2)) : Res (EGraph Op D × Bool)) = .ok (eg', b) := he
    rw [bind_eq_ok] at he'
    obtain ⟨⟨eg1, b1, a1⟩, e1, he'⟩ := he'
    rw [bind_eq_ok] at he'
    obtain ⟨⟨eg2, b2, a2⟩, e2, he'⟩ := he'
    cases he'
    exact ⟨eg1, b1, a1, b2, a2, e1, e2⟩
  have hadd : (Condition.equal (D := D) p1 p2).Adds (A.at depth) := fun eg c s eg' b he => by
    obtain ⟨eg1, b1, a1, b2, a2, e1, e2⟩ := inv he
    exact (EGraph.applyPat_steps e1).trans (EGraph.applyPat_steps e2)
  refine ⟨hadd, ?_⟩
  intro U eg c s eg' b τ hH hEq hc hb hbound hτ hQs he
  obtain ⟨eg1, b1, a1, b2, a2, e1, e2⟩ := inv he
  have hNok := (soundFor_true A).hookOK trivial depth
  have hu : InHull K hK eg := InHull.start hA hH hEq
  have hg := hist_good hH
  obtain ⟨⟨u, hiu, hku⟩, ⟨w, hiw, hkw⟩⟩ := hQ τ hQs
  have bnd1 := binds_of hg hb (fun v hv => hbound v (List.mem_append.2 (.inl hv)))
  have bnd2 := binds_of hg hb (fun v hv => hbound v (List.mem_append.2 (.inr hv)))
  have ad1 := EGraph.applyPat_steps e1
  obtain ⟨g1, x1⟩ := AddSteps.ext hNok ad1 hg
  obtain ⟨hu1, r1⟩ := InHull.applySteps hA (P := EntryOf p1.ast) (tl := t1) (t := t1) (fun q hq => .inl (entry_subterm h1.wf.1 h1.wf.2 hl1 hq))
    (EGraph.applyPat_inst (L := [(c, s)]) (c := c) hNok h1.wf.1 (fun _ h => h) (by simp) hg bnd1 (by simp) e1) hu
    (fun c' s' hcs => by
      simp only [List.mem_singleton, Prod.mk.injEq] at hcs
      obtain ⟨rfl, rfl⟩ := hcs
      exact ⟨τ, u, u, hτ, hiu, hiu, hku⟩)
  obtain ⟨hu2, -⟩ := InHull.applySteps hA (P := EntryOf p2.ast) (tl := t2) (t := t2) (fun q hq => .inl (entry_subterm h2.wf.1 h2.wf.2 hl2 hq))
    (EGraph.applyPat_inst (L := [(c, s)]) (c := c) hNok h2.wf.1 (fun _ h => h) (by simp) g1 (bnd2.ext x1) (by simp) e2) hu1
    (fun c' s' hcs => by
      simp only [List.mem_singleton, Prod.mk.injEq] at hcs
      obtain ⟨rfl, rfl⟩ := hcs
      exact ⟨τ, w, w, fun v x hx => r1 _ _ (hτ v x hx), hiw, hiw, hkw⟩)
  refine ⟨fun s t hst => hu2.equal hst, ?_⟩
  rintro rfl σ hσ u' w' hu' hw'
  obtain ⟨-, x, m1, m2⟩ := c48_equal_sound hH h1 h2 hb hbound he
  exact hu2.equal ⟨x, hu2.good.inv.pmatch_rep t1 m1 (fun v x _ hx => hσ v x hx) hu', hu2.good.inv.pmatch_rep t2 m2 (fun v x _ hx => hσ v x hx) hw'⟩

/-! ### Examples: `(f ?x) => (g ?x) if ?x contains a`, on `f (f a)` -/

namespace Ex

/-- The class of `?x` contains `a`. -/
def hasA : Condition Ex.S Unit := Condition.onNodes vx (fun o => decide (o = .a))
def ruleGC : Rewrite Ex.S Unit := ⟨1, patFx.searcher, condApplier patGx.applier [hasA]⟩

/-- Exactly these terms exist, and are equal if they have the same number: `a`; `f a` and `g a`; `f (f a)` and `f (g a)`. -/
inductive Num : Term Ex.S → Nat → Prop where
  | a : Num (.node .a []) 0
  | f0 {x : Term Ex.S} : Num x 0 → Num (.node .f [x]) 1
  | g0 {x : Term Ex.S} : Num x 0 → Num (.node .g [x]) 1
  | f1 {x : Term Ex.S} : Num x 1 → Num (.node .f [x]) 2

def KC (s t : Term Ex.S) : Prop := ∃ n, Num s n ∧ Num t n

theorem Num.unique {s : Term Ex.S} {n : Nat} (h : Num s n) : ∀ {m : Nat}, Num s m → n = m := by
  induction h with
  | a => intro m h; cases h; rfl
  | f0 _ ih => intro m h; cases h with
    | f0 h => rfl
    | f1 h => exact absurd (ih h) (by decide)
  | g0 _ ih => intro m h; cases h; rfl
  | f1 _ ih => intro m h; cases h with
    | f0 h => exact absurd (ih h) (by decide)
    | f1 h => rfl

theorem pcongKC : PCong KC where
  symm := fun ⟨n, h1, h2⟩ => ⟨n, h2, h1⟩
  trans := fun ⟨n, h1, h2⟩ ⟨m, h3, h4⟩ => by
    have := h2.unique h3
    subst this
    exact ⟨n, h1, h4⟩
  arg := fun ⟨n, h, _⟩ hs => by
    cases h with
    | a => cases hs
    | f0 h => rw [List.mem_singleton.1 hs]; exact ⟨0, h, h⟩
    | g0 h => rw [List.mem_singleton.1 hs]; exact ⟨0, h, h⟩
    | f1 h => rw [List.mem_singleton.1 hs]; exact ⟨1, h, h⟩
  congr := fun ⟨n, h, _⟩ hf => by
    cases h with
    | a => cases hf; exact ⟨0, .a, .a⟩
    | f0 h =>
      cases hf with
      | cons h1 h2 =>
        cases h2
        obtain ⟨m, k1, k2⟩ := h1
        have := h.unique k1
        subst this
        exact ⟨1, .f0 h, .f0 k2⟩
    | g0 h =>
      cases hf with
      | cons h1 h2 =>
        cases h2
        obtain ⟨m, k1, k2⟩ := h1
        have := h.unique k1
        subst this
        exact ⟨1, .g0 h, .g0 k2⟩
    | f1 h =>
      cases hf with
      | cons h1 h2 =>
        cases h2
        obtain ⟨m, k1, k2⟩ := h1
        have := h.unique k1
        subst this
        exact ⟨2, .f1 h, .f1 k2⟩

def clauseGC : GuardedClause Ex.S := ⟨termFx, termGx, [fun τ => ∃ op us, decide (op = Ex.S.a) = true ∧ KC (τ vx) (.node op us)]⟩

theorem closesGC : clauseGC.Closes KC := by
  intro τ u w hP hu hw _
  obtain ⟨op, us, h1, n, h2, h3⟩ := hP _ (List.mem_singleton.2 rfl)
  have h1 : op = .a := of_decide_eq_true h1
  subst h1
  cases h3
  obtain ⟨vs, rfl, hvs⟩ := inst_node_iff.1 hu
  obtain ⟨ws, rfl, hws⟩ := inst_node_iff.1 hw
  cases hvs with
  | cons a1 a2 =>
    cases a2
    cases hws with
    | cons b1 b2 =>
      cases b2
      cases a1
      cases b1
      exact ⟨1, .f0 h2, .g0 h2⟩

theorem guardedGC : IsGuardedClause (U0.at 1) .all KC ruleGC clauseGC :=
  ⟨patFx, patGx, [hasA], isPatFx, liveFx, live, isPatGx, liveGx, fun k hk => by rw [List.mem_singleton.1 hk]; exact (c107_nodes (K := KC) (allow := .all) (Q := Exists KC termFx) vx _).1,
    .cons (c107_nodes vx _).2 .nil, rfl⟩

theorem rulesGC : ∀ rw' ∈ [ruleGC], HoldsIn (U0.at 1) .all KC rw' := fun rw' h => by
  rw [List.mem_singleton.1 h]
  exact .inl ⟨clauseGC, guardedGC, closesGC⟩

/-- The goal `(f (g ?x))`. -/
def fgAst : PatternAst Ex.S := [⟨.var vx, []⟩, ⟨.op .g, [0]⟩, ⟨.op .f, [1]⟩]
def fgTerm : Term (PatOp Ex.S) := .node (.op .f) [termGx]
def patFG : Pattern Ex.S := match Pattern.new ordc 10 fgAst with | .ok p => p | _ => patFx
theorem isPatFG : IsPattern patFG fgTerm := ⟨ordc, 10, fgAst, ordcOK, patWF_of rfl rfl rfl, rfl, exprTerm_of (f := 5) rfl rfl⟩

def doneGC : Runner Ex.S Unit Unit Unit := stR () (startT.run renv simpleScheduler [] [ruleGC] 10)

theorem testGC : testRunner renv simpleScheduler [] [ruleGC] 10 runnerT exprFfa [patFG] false = .ok doneGC := rfl

theorem givenGC : ∀ a b, Given runnerT.egraph tffa a b → KC a b := by
  rintro a b (⟨c, h, _⟩ | ⟨rfl, rfl⟩)
  · exact absurd ((hist_good histT).inv.rep_lt h) (Nat.not_lt_zero _)
  · exact ⟨2, .f1 (.f0 .a), .f1 (.f0 .a)⟩

/-- `f (f a) = f (g ..)` is proved, and so it is so in `KC`. -/
example : ∀ t ∈ [fgTerm], ∃ (τ : Var → Term Ex.S) (u : Term Ex.S), Inst τ t u ∧ Equal doneGC.egraph tffa u ∧ KC tffa u :=
  c107_test (A := U0) (depth := 1) (allow := .all) (env := renv) (sch := simpleScheduler) (hooks := []) (rules := [ruleGC]) (r := runnerT) (r' := doneGC) (f := 10)
    (start := exprFfa) (goals := [patFG]) (early := false) pcongKC
    (fun _ => rfl) rfl (fun _ eg => ordOK eg) discContiguous rfl (by decide) simple_honest (fun k hk => by cases hk)
    rulesGC (.cons isPatFG .nil) histT givenGC wfFfa termFfa liveFfa testGC

/-- But not `f (f a) = g ..`, which holds without the condition (see C105): there is no such term in `KC`, hence none in the e-graph of any run. -/
theorem noGC {S' H' : Type} {sch : Scheduler Ex.S Unit S'} {r r' : Runner Ex.S Unit S' H'} (hs : sch.Honest renv)
    (hr : Hist (U0.at 1) .all [] r.egraph) (h0 : ∀ s t, Equal r.egraph s t → KC s t) {n : Nat}
    (hrun : r.run renv sch [] [ruleGC] n = .ok r') : ¬ Equal r'.egraph tffa (.node .g [tfa]) := fun h => by
  obtain ⟨n, h1, h2⟩ := c107_sound (A := U0) (depth := 1) (allow := .all) pcongKC (fun _ => rfl) rfl (fun _ eg => ordOK eg) discContiguous hs
    (fun k hk => by cases hk) rulesGC hr h0 hrun h
  cases h2 with
  | g0 h => exact absurd (h.unique (.f0 .a)) (by decide)

/-- The first e-graph of the run above is one. -/
example : Hist (U0.at 1) .all [] startT.egraph ∧ (∀ s t, Equal startT.egraph s t → KC s t) ∧
    ¬ Equal doneGC.egraph tffa (.node .g [tfa]) := by
  have h1 := (testStart_spec histT wfFfa termFfa startT_ok).1
  obtain ⟨-, -, -, -, -, -, i, ha⟩ := testStart_spec histT wfFfa termFfa startT_ok
  have hu := (InHull.start (K := KC) (hK := pcongKC) (fun _ => rfl) histT (fun a b hab => givenGC a b (.inl hab))).addExpr (fun _ => rfl) wfFfa termFfa liveFfa
    ⟨2, .f1 (.f0 .a), .f1 (.f0 .a)⟩ ha
  exact ⟨h1, fun s t hst => hu.equal hst, noGC simple_honest h1 (fun s t hst => hu.equal hst) (r := startT) (n := 10) rfl⟩

/-- `(f ?x) => (g ?x) if ?x = a`, with `ConditionEqual`. -/
def clauseIfA : GuardedClause Ex.S := ⟨termFx, termGx, [fun τ => ∀ u w, Inst τ (.node (.var vx) []) u → Inst τ termA w → KC u w]⟩

theorem liveA : ∀ k, k < patA.ast.length → Live patA.ast k := by
  intro k hk
  have hk : k < 1 := hk
  have : k = 0 := by omega
  subst this
  exact .root

/-- Where `f ?x` exists, both `?x` and `a` do. -/
theorem existIfA : ∀ τ, Exists KC termFx τ → Exists KC (.node (.var vx) []) τ ∧ Exists KC termA τ := by
  rintro τ ⟨u, hu, hk⟩
  obtain ⟨vs, rfl, hvs⟩ := inst_node_iff.1 hu
  cases hvs with
  | cons a1 a2 =>
    cases a2
    cases a1
    exact ⟨⟨τ vx, .var, pcongKC.arg hk (List.mem_singleton.2 rfl)⟩, .node .a [], inst_node_iff.2 ⟨[], rfl, .nil⟩, 0, .a, .a⟩

theorem rulesIfA : ∀ rw' ∈ [ruleIfA], HoldsIn (U0.at 1) .all KC rw' := fun rw' h => by
  rw [List.mem_singleton.1 h]
  have hq := c107_equal (A := U0) (depth := 1) (allow := .all) pcongKC (fun _ => rfl) isPatX isPatA liveX liveA existIfA
  refine .inl ⟨clauseIfA, ⟨patFx, patGx, [Condition.equal patX patA], isPatFx, liveFx, live, isPatGx, liveGx,
    fun k hk => by rw [List.mem_singleton.1 hk]; exact hq.1, .cons hq.2 .nil, rfl⟩, ?_⟩
  intro τ u w hP hu hw _
  obtain ⟨n, h1, h2⟩ := hP _ (List.mem_singleton.2 rfl) (τ vx) (.node .a []) .var (inst_node_iff.2 ⟨[], rfl, .nil⟩)
  cases h2
  obtain ⟨vs, rfl, hvs⟩ := inst_node_iff.1 hu
  obtain ⟨ws, rfl, hws⟩ := inst_node_iff.1 hw
  cases hvs with
  | cons a1 a2 =>
    cases a2
    cases hws with
    | cons b1 b2 =>
      cases b2
      cases a1
      cases b1
      exact ⟨1, .f0 h1, .g0 h1⟩

def doneIfA : Runner Ex.S Unit Unit Unit := stR () (startT.run renv simpleScheduler [] [ruleIfA] 10)

theorem testIfA : testRunner renv simpleScheduler [] [ruleIfA] 10 runnerT exprFfa [patFG] false = .ok doneIfA := rfl

example : ∀ t ∈ [fgTerm], ∃ (τ : Var → Term Ex.S) (u : Term Ex.S), Inst τ t u ∧ Equal doneIfA.egraph tffa u ∧ KC tffa u :=
  c107_test (A := U0) (depth := 1) (allow := .all) (env := renv) (sch := simpleScheduler) (hooks := []) (rules := [ruleIfA]) (r := runnerT) (r' := doneIfA) (f := 10)
    (start := exprFfa) (goals := [patFG]) (early := false) pcongKC
    (fun _ => rfl) rfl (fun _ eg => ordOK eg) discContiguous rfl (by decide) simple_honest (fun k hk => by cases hk)
    rulesIfA (.cons isPatFG .nil) histT givenGC wfFfa termFfa liveFfa testIfA

/-- Together with the multi-pattern rule `?p = (g (g ?x)) => ?p = (g ?x)` of C104: no `g (g ..)` exists in `KC`. -/
theorem rulesMix : ∀ rw' ∈ [ruleGC, ruleGG], HoldsIn (U0.at 1) .all KC rw' := by
  intro rw' h
  rcases List.mem_cons.1 h with rfl | h
  · exact rulesGC _ (List.mem_singleton.2 rfl)
  · rw [List.mem_singleton.1 h]
    refine .inr ⟨.horn [(vp, ggTerm)] [(vp, termGx)], tightGG, ?_⟩
    rintro s t ⟨τ, h1, -⟩
    obtain ⟨u, hu, n, -, h2⟩ := h1 vp ggTerm (List.mem_singleton.2 rfl)
    obtain ⟨vs, rfl, hvs⟩ := inst_node_iff.1 hu
    cases hvs with
    | cons a1 a2 =>
      cases a2
      obtain ⟨ws, rfl, -⟩ := inst_node_iff.1 a1
      cases h2 with
      | g0 h => cases h

def doneMix : Runner Ex.S Unit Unit Unit := stR () (startT.run renv simpleScheduler [] [ruleGC, ruleGG] 10)

example : ∀ t ∈ [fgTerm], ∃ (τ : Var → Term Ex.S) (u : Term Ex.S), Inst τ t u ∧ Equal doneMix.egraph tffa u ∧ KC tffa u :=
  c107_test (A := U0) (depth := 1) (allow := .all) (env := renv) (sch := simpleScheduler) (hooks := []) (rules := [ruleGC, ruleGG]) (r := runnerT) (r' := doneMix) (f := 10)
    (start := exprFfa) (goals := [patFG]) (early := false) pcongKC
    (fun _ => rfl) rfl (fun _ eg => ordOK eg) discContiguous rfl (by decide) simple_honest (fun k hk => by cases hk)
    rulesMix (.cons isPatFG .nil) histT givenGC wfFfa termFfa liveFfa rfl

end Ex

/-- The condition `?x is zero` of C89. -/
example {P : (Nat → Nat) → Prop} : Fold.isZero.Adds Fold.N ∧ Fold.isZero.Within Fold.N (SetsDescribing (Fold.Val P)) (Fold.SameVal P) (fun _ => True)
    (fun τ => ∃ d, decide (d = some 0) = true ∧ Fold.Val P d (τ Ex.vx)) :=
  c107_data (hR := Fold.sameVal) (V := Fold.Val P) Fold.describing (fun _ _ h => h) Ex.vx _

end Egg
