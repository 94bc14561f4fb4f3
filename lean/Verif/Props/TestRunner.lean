import Verif.Lemmas.TestRunner
import Verif.Spec.TestRunner
import Verif.Props.ChaseBackoff
import Verif.Props.Simplify
/-
C105: `test_runner` proves the goals that the rules derive from the start expression, and no others.
-/
namespace Egg
variable {Op D S H : Type} [DecidableEq Op] [Lang Op]
variable {A : UserAnalysis Op D} {depth : Nat} {allow : Caller Op D} {U : List (UnionRec Op)}
variable {env : RunEnv Op D} {sch : Scheduler Op D S} {hooks : List (Hook Op D H)} {rules : List (Rewrite Op D)} {cs : List (Clause Op)}
variable {r r1 r' : Runner Op D S H} {f : Nat} {start : List (ENode Op)} {s : Term Op} {id : Id}
variable {goals : List (Pattern Op)} {ts : List (Term (PatOp Op))} {early : Bool} {I : Nat → S → Prop}

theorem testStart_spec (h : Hist (A.at depth) allow U r.egraph) (hwf : WFExpr start) (hs : ExprTerm start s)
    (hst : testStart (A.at depth) r start = .ok (r1, id)) :
    Hist (A.at depth) allow U r1.egraph ∧ Rep r1.egraph id s ∧ EGraph.Grow r.egraph r1.egraph ∧ r1.iterations = r.iterations ∧
      r1.scheduler = r.scheduler ∧ r1.limits = r.limits ∧ ∃ i, EGraph.addExpr (A.at depth) r.egraph start = .ok (r1.egraph, i) := by
  unfold testStart at hst
  obtain ⟨r2, h1, hst⟩ := bind_eq_ok.1 hst
  obtain ⟨root, h2, hst⟩ := bind_eq_ok.1 hst
  obtain ⟨j, h3, hst⟩ := bind_eq_ok.1 hst
  cases hst
  obtain ⟨root', g1, g2, g3⟩ := withExpr_spec h hwf hs h1
  have : root = root' := by
    rw [g1] at h2
    simp [unwrap] at h2
    exact h2.symm
  subst this
  have hg := hist_good g3
  unfold Runner.withExpr at h1
  obtain ⟨⟨eg, i⟩, k1, k2⟩ := bind_eq_ok.1 h1
  cases k2
  refine ⟨g3, ?_, (steps_grow (EGraph.addExpr_steps (allow := allow) k1) (hist_good h)).2, rfl, rfl, rfl, i, k1⟩
  have hlt := hg.inv.rep_lt g2
  have hf := hg.inv.find_iff.1 h3
  have hlu := hlt
  rw [hg.inv.len] at hlu
  have hid : id < eg.nodes.length := by
    have := UF.root_lt hg.inv.wf hlu
    rw [← hf.2]
    rw [hg.inv.len]
    exact this
  refine hg.inv.rep_congr hid ?_ g2
  rw [← hf.2]
  exact (UF.root_root hg.inv.wf hlu).symm

/-- What the e-graph contains after the start expression was added. -/
theorem given_of_start (hA : ∀ i, A.modify i = .done) (h : Hist (A.at depth) allow U r.egraph) (hwf : WFExpr start) (hs : ExprTerm start s)
    (hlive : ∀ k, k < start.length → Live start k) (hst : testStart (A.at depth) r start = .ok (r1, id)) {a b : Term Op} :
    Equal r1.egraph a b → EqHull (Given r.egraph s) a b := by
  obtain ⟨-, -, -, -, -, -, i, ha⟩ := testStart_spec h hwf hs hst
  have h0 := InHull.start (K := EqHull (Given r.egraph s)) (hK := EqHull.pcong) hA h (fun _ _ h => .base (.inl h))
  exact (h0.addExpr hA hwf hs hlive (.base (.inr ⟨rfl, rfl⟩)) ha).equal

theorem Given.equal (h : Hist (A.at depth) allow U r.egraph) (hwf : WFExpr start) (hs : ExprTerm start s)
    (hst : testStart (A.at depth) r start = .ok (r1, id)) {a b : Term Op} (hab : Given r.egraph s a b) : Equal r1.egraph a b := by
  obtain ⟨-, hrep, gr, -⟩ := testStart_spec h hwf hs hst
  rcases hab with hab | ⟨rfl, rfl⟩
  · exact gr.equal hab
  · exact ⟨id, hrep, hrep⟩

theorem goalHook_read : HooksRead hooks → HooksRead (if early then hooks ++ [goalHook env id goals] else hooks) := by
  intro hh
  split
  · intro k hk h eg its h' eg' o hc
    rcases List.mem_append.1 hk with hk | hk
    · exact hh k hk _ _ _ _ _ _ hc
    · rw [List.mem_singleton.1 hk] at hc
      unfold goalHook at hc
      obtain ⟨b, _, hc⟩ := bind_eq_ok.1 hc
      cases hc
      rfl
  · exact hh

/-- The e-graph after the run. -/
theorem run_final (hN : env.analysis = A.at depth) (hord : ∀ i eg, (env.ord i eg).OK eg) (hd : DiscContiguous Op) (hs : sch.Honest env) (hlim : sch.Limited env)
    (hh : HooksRead hooks) (hr : ∀ rw' ∈ rules, ∃ c ∈ cs, IsClause rw' c) (h : Hist (A.at depth) allow U r1.egraph)
    (hrun : r1.run env sch hooks rules f = .ok r') :
    (r'.egraph.clean = true ∧ ∃ V, Steps (A.at depth) allow r1.egraph V r'.egraph) ∧
    ∀ msg, r'.stopReason = some (.other msg) → ∃ (eg1 : EGraph Op D) (V W : List (UnionRec Op)), eg1.clean = true ∧ Steps (A.at depth) allow r1.egraph V eg1 ∧
      Steps (A.at depth) allow eg1 W r'.egraph ∧ ∃ k ∈ hooks, ∃ its h h', k h eg1 its = .ok (h', eg1, some msg) := by
  unfold Runner.run at hrun
  obtain ⟨⟨eg, n⟩, h1, h2⟩ := bind_eq_ok.1 hrun
  rw [hN] at h1
  have s1 : Steps (A.at depth) allow r1.egraph ([] ++ []) eg := .single (.rebuild h1)
  obtain ⟨⟨k1, V, k2⟩, k3⟩ := Runner.runLoop_final hN hord hd hs hlim hh hr f { r1 with egraph := eg } r' _ (Steps.trans h s1) (EGraph.rebuild_clean h1) h2
  refine ⟨⟨k1, _, Steps.trans s1 k2⟩, fun msg hm => ?_⟩
  obtain ⟨eg1, V1, W1, q1, q2, q3, q4⟩ := k3 msg hm
  exact ⟨eg1, _, _, q1, Steps.trans s1 q2, q3, q4⟩

theorem goalsIn_iff (h : Hist (A.at depth) allow U eg) (hc : eg.clean = true) {c : Id} (hrep : Rep eg c s) :
    GoalsIn eg c ts ↔ ∀ t ∈ ts, ∃ (τ : Var → Term Op) (u : Term Op), Inst τ t u ∧ Equal eg s u := by
  have hg := hist_good h
  have hp := (c47_clean_means_rebuilt h hc).pending
  refine ⟨fun q t ht => ?_, fun q t ht => ?_⟩
  · obtain ⟨τ, u, h1, h2⟩ := q t ht
    exact ⟨τ, u, h1, c, hrep, h2⟩
  · obtain ⟨τ, u, h1, d, h2, h3⟩ := q t ht
    exact ⟨τ, u, h1, hg.inv.rep_congr (hg.inv.rep_lt hrep) (EGraph.InvW.rep_unique hg.inv hp _ h2 hrep) h3⟩

/-- The outcome of `test_runner`, after a run that returned. -/
theorem testRunner_outcome (hN : env.analysis = A.at depth) (hord : ∀ i eg, (env.ord i eg).OK eg) (hd : DiscContiguous Op)
    (hcyc : (A.at depth).allowCycles = true) (hmax : 1 ≤ env.usizeMax) (hs : sch.Honest env) (hlim : sch.Limited env) (hh : HooksRead hooks)
    (hr : ∀ rw' ∈ rules, ∃ c ∈ cs, IsClause rw' c) (hg : List.Forall₂ IsPattern goals ts) (h : Hist (A.at depth) allow U r.egraph)
    (hwf : WFExpr start) (hst : ExprTerm start s) (h0 : testStart (A.at depth) r start = .ok (r1, id))
    (hrun : r1.run env sch (if early then hooks ++ [goalHook env id goals] else hooks) rules f = .ok r') :
    ((∀ t ∈ ts, ∃ (τ : Var → Term Op) (u : Term Op), Inst τ t u ∧ Equal r'.egraph s u) → testRunner env sch hooks rules f r start goals early = .ok r') ∧
    (¬ (∀ t ∈ ts, ∃ (τ : Var → Term Op) (u : Term Op), Inst τ t u ∧ Equal r'.egraph s u) →
      testRunner env sch hooks rules f r start goals early = .error .panic) := by
  obtain ⟨h1, hrep, -⟩ := testStart_spec h hwf hst h0
  obtain ⟨⟨hc, V, hsteps⟩, -⟩ := run_final hN hord hd hs hlim (goalHook_read hh) hr h1 hrun
  have hh' : Hist (A.at depth) allow _ r'.egraph := Steps.trans h1 hsteps
  have hrep' := (steps_grow hsteps (hist_good h1)).2.rep _ _ hrep
  have hg' := hist_good hh'
  have hq := checkGoals_iff hh' hc hd (hord r'.iterations.length r'.egraph) hcyc (hg'.valid_iff.2 (hg'.inv.rep_lt hrep')) hmax hg
  rw [goalsIn_iff hh' hc hrep'] at hq
  unfold testRunner
  rw [hN, h0, ok_bind]
  dsimp only
  rw [hrun, ok_bind]
  exact ⟨fun q => by rw [hq.1 q]; rfl, fun q => by rw [hq.2.1 q]; rfl⟩

/-- **C105.**  If `test_runner` returns, the rules derive that the start expression is equal to an instance of each goal, in as many rounds as there were
iterations: from the equalities of the given e-graph, and of the existence of the start expression. -/
theorem c105_sound (hA : ∀ i, A.modify i = .done) (hN : env.analysis = A.at depth) (hord : ∀ i eg, (env.ord i eg).OK eg) (hd : DiscContiguous Op)
    (hcyc : (A.at depth).allowCycles = true) (hmax : 1 ≤ env.usizeMax) (hs : sch.Honest env) (hlim : sch.Limited env) (hh : HooksRead hooks)
    (hr : ∀ rw' ∈ rules, ∃ c ∈ cs, IsTightClause rw' c) (hg : List.Forall₂ IsPattern goals ts) (h : Hist (A.at depth) allow U r.egraph)
    (hwf : WFExpr start) (hst : ExprTerm start s) (hlive : ∀ k, k < start.length → Live start k)
    (ht : testRunner env sch hooks rules f r start goals early = .ok r') :
    Proves cs (Given r.egraph s) s ts (r'.iterations.length - r.iterations.length) := by
  have ht0 := ht
  unfold testRunner at ht
  rw [hN] at ht
  obtain ⟨⟨r1, id⟩, h0, ht⟩ := bind_eq_ok.1 ht
  obtain ⟨r2, hrun, ht⟩ := bind_eq_ok.1 ht
  obtain ⟨_, _, ht⟩ := bind_eq_ok.1 ht
  cases ht
  have hr' : ∀ rw' ∈ rules, ∃ c ∈ cs, IsClause rw' c := fun rw' hrw => by
    obtain ⟨c, hc, q⟩ := hr rw' hrw
    exact ⟨c, hc, q.isClause⟩
  obtain ⟨h1, hrep, -, hits, -⟩ := testStart_spec h hwf hst h0
  have hq := testRunner_outcome hN hord hd hcyc hmax hs hlim hh hr' hg h hwf hst h0 hrun
  have hall := Classical.byContradiction fun hc => by
    have := hq.2 hc
    rw [ht0] at this
    cases this
  intro t htm
  obtain ⟨τ, u, q1, q2⟩ := hall t htm
  refine ⟨τ, u, q1, ?_⟩
  have := c102_sound hA hN hord hd hs (goalHook_read hh) hr h1 hrun q2
  rw [hits] at this
  exact Chase.start (fun a b => given_of_start hA h hwf hst hlive h0) _ this

/-- **C105.**  If each goal has an instance that the rules derive to be equal to the start expression in `k` rounds, then after `k` iterations, the last of which was not
cut short, `test_runner` returns. -/
theorem c105_complete (hN : env.analysis = A.at depth) (hord : ∀ i eg, (env.ord i eg).OK eg) (hd : DiscContiguous Op)
    (hcyc : (A.at depth).allowCycles = true) (hmax : 1 ≤ env.usizeMax) (hs : sch.Eager env) (hlim : sch.Limited env) (hh : HooksRead hooks)
    (hr : AreClauses rules cs) (hg : List.Forall₂ IsPattern goals ts) (h : Hist (A.at depth) allow U r.egraph)
    (hwf : WFExpr start) (hst : ExprTerm start s) (h0 : testStart (A.at depth) r start = .ok (r1, id))
    (hfit : r1.AlwaysFitsAny env sch (if early then hooks ++ [goalHook env id goals] else hooks) rules)
    (hrun : r1.run env sch (if early then hooks ++ [goalHook env id goals] else hooks) rules f = .ok r')
    (hlast : ∀ it, r'.iterations.getLast? = some it → it.Completed) {k : Nat} (hk : k ≤ r'.iterations.length - r.iterations.length)
    (hpr : Proves cs (Given r.egraph s) s ts k) : testRunner env sch hooks rules f r start goals early = .ok r' := by
  obtain ⟨h1, hrep, -, hits, -⟩ := testStart_spec h hwf hst h0
  refine (testRunner_outcome hN hord hd hcyc hmax hs.honest hlim hh hr.1 hg h hwf hst h0 hrun).1 fun t ht => ?_
  obtain ⟨τ, u, q1, q2⟩ := hpr t ht
  exact ⟨τ, u, q1, c102_chase hN hord hd hcyc hs hlim (goalHook_read hh) hr h1 hfit hrun hlast (by rw [hits]; exact hk)
    (Chase.mono (fun a b => Given.equal h hwf hst h0) k q2)⟩

/-- **C105.**  A run that ends as saturated decides: `test_runner` returns if each goal has an instance that can be derived to be equal to the start expression, in any
number of rounds, and panics otherwise. -/
theorem c105_saturated (hA : ∀ i, A.modify i = .done) (hN : env.analysis = A.at depth) (hord : ∀ i eg, (env.ord i eg).OK eg) (hd : DiscContiguous Op)
    (hcyc : (A.at depth).allowCycles = true) (hmax : 1 ≤ env.usizeMax) (hsh : sch.Honest env) (hlim : sch.Limited env) (hs : sch.Thorough env r.limits I)
    (hI : I r.iterations.length r.scheduler) (hh : HooksRead hooks)
    (hr : AreTightClauses rules cs) (hg : List.Forall₂ IsPattern goals ts) (h : Hist (A.at depth) allow U r.egraph)
    (hwf : WFExpr start) (hst : ExprTerm start s) (hlive : ∀ k, k < start.length → Live start k) (h0 : testStart (A.at depth) r start = .ok (r1, id))
    (hfit : r1.AlwaysFitsAny env sch (if early then hooks ++ [goalHook env id goals] else hooks) rules)
    (hrun : r1.run env sch (if early then hooks ++ [goalHook env id goals] else hooks) rules f = .ok r') (hsat : r'.stopReason = some .saturated) :
    ((∃ k, Proves cs (Given r.egraph s) s ts k) ∧ testRunner env sch hooks rules f r start goals early = .ok r') ∨
    ((¬ ∃ k, Proves cs (Given r.egraph s) s ts k) ∧ testRunner env sch hooks rules f r start goals early = .error .panic) := by
  obtain ⟨h1, hrep, -, hits, hsch, hl, -⟩ := testStart_spec h hwf hst h0
  have hdec := c104_saturated_decides (s := s) hA hN hord hd hcyc hsh hlim (by rw [hl]; exact hs) (goalHook_read hh) hr h1 (by rw [hits, hsch]; exact hI) hfit hrun hsat
  have hq := testRunner_outcome hN hord hd hcyc hmax hsh hlim hh hr.areClauses.1 hg h hwf hst h0 hrun
  by_cases hall : ∀ t ∈ ts, ∃ (τ : Var → Term Op) (u : Term Op), Inst τ t u ∧ Equal r'.egraph s u
  · exact .inl ⟨⟨_, c105_sound hA hN hord hd hcyc hmax hsh hlim hh hr.1 hg h hwf hst hlive (hq.1 hall)⟩, hq.1 hall⟩
  · refine .inr ⟨fun ⟨k, hk⟩ => hall fun t ht => ?_, hq.2 hall⟩
    obtain ⟨τ, u, q1, q2⟩ := hk t ht
    exact ⟨τ, u, q1, (hdec u).2 ⟨k, Chase.mono (fun a b => Given.equal h hwf hst h0) k q2⟩⟩

/-- **C105.**  The same as `c105_complete` for the back-off scheduler, which a default runner uses: each rule may cost some additional iterations, in which it is banned. -/
theorem c105_backoff {r r1 r' : Runner Op D Backoff H} (hN : env.analysis = A.at depth) (hord : ∀ i eg, (env.ord i eg).OK eg) (hd : DiscContiguous Op)
    (hcyc : (A.at depth).allowCycles = true) (hmax : 1 ≤ env.usizeMax) (hh : HooksRead hooks)
    (hr : AreClauses rules cs) (hnames : (rules.map (·.name)).Nodup) (hg : List.Forall₂ IsPattern goals ts) (h : Hist (A.at depth) allow U r.egraph)
    (hw : r.scheduler.WF) {m len d B : Symbol → Nat} (hfresh : ∀ rw' ∈ rules, r.scheduler.Fresh rw'.name (m rw'.name) (len rw'.name))
    (hcov : ∀ rw' ∈ rules, Covers env.bits (m rw'.name) (d rw'.name) (B rw'.name) ∧ B rw'.name < env.usizeMax)
    (hwf : WFExpr start) (hst : ExprTerm start s) (h0 : testStart (A.at depth) r start = .ok (r1, id))
    (hmost : ∀ eg n k rk, r1.egraph.rebuild env.analysis env.fuel = .ok (eg, n) →
      Runner.after env Backoff.scheduler (if early then hooks ++ [goalHook env id goals] else hooks) rules k { r1 with egraph := eg } = some rk →
      ∀ rw' ∈ rules, rk.AtMost env rw' (B rw'.name))
    (hrun : r1.run env Backoff.scheduler (if early then hooks ++ [goalHook env id goals] else hooks) rules f = .ok r')
    (hlast : ∀ it, r'.iterations.getLast? = some it → it.Completed) {k : Nat}
    (hk : k + (rules.map fun rw' => max 1 (len rw'.name) * (2 ^ d rw'.name - 1)).sum ≤ r'.iterations.length - r.iterations.length)
    (hpr : Proves cs (Given r.egraph s) s ts k) : testRunner env Backoff.scheduler hooks rules f r start goals early = .ok r' := by
  obtain ⟨h1, hrep, -, hits, hsch, -⟩ := testStart_spec h hwf hst h0
  refine (testRunner_outcome hN hord hd hcyc hmax backoff_honest backoff_limited hh hr.1 hg h hwf hst h0 hrun).1 fun t ht => ?_
  obtain ⟨τ, u, q1, q2⟩ := hpr t ht
  exact ⟨τ, u, q1, c104_backoff hN hord hd hcyc (goalHook_read hh) hr hnames h1 (by rw [hsch]; exact hw) (by rw [hsch]; exact hfresh) hcov hmost hrun hlast
    (by rw [hits]; exact hk) (Chase.mono (fun a b => Given.equal h hwf hst h0) k q2)⟩

/-- **C105.**  If the run was stopped by the hook of `test_runner`, it returns. -/
theorem c105_early (hN : env.analysis = A.at depth) (hord : ∀ i eg, (env.ord i eg).OK eg) (hd : DiscContiguous Op)
    (hcyc : (A.at depth).allowCycles = true) (hmax : 1 ≤ env.usizeMax) (hs : sch.Honest env) (hlim : sch.Limited env)
    (hr : ∀ rw' ∈ rules, ∃ c ∈ cs, IsClause rw' c) (hg : List.Forall₂ IsPattern goals ts) (h : Hist (A.at depth) allow U r.egraph)
    (hwf : WFExpr start) (hst : ExprTerm start s) (h0 : testStart (A.at depth) r start = .ok (r1, id))
    (hrun : r1.run env sch [goalHook env id goals] rules f = .ok r') {msg : String} (hstop : r'.stopReason = some (.other msg)) :
    msg = "Proved all goals" ∧ testRunner env sch [] rules f r start goals true = .ok r' := by
  have hh : HooksRead ([] : List (Hook Op D H)) := fun k hk => by cases hk
  obtain ⟨h1, hrep, -⟩ := testStart_spec h hwf hst h0
  obtain ⟨-, hstp⟩ := run_final hN hord hd hs hlim (goalHook_read (early := true) hh) hr h1 hrun
  obtain ⟨eg1, V, W, c1, s1, s2, k, hk, its, hb, ha, hc⟩ := hstp msg hstop
  have hk : k = goalHook env id goals := by simpa using hk
  subst hk
  unfold goalHook at hc
  obtain ⟨b, h2, hc⟩ := bind_eq_ok.1 hc
  have hb : b = true ∧ msg = "Proved all goals" := by
    cases b with
    | false => cases hc
    | true => cases hc; exact ⟨rfl, rfl⟩
  obtain ⟨rfl, rfl⟩ := hb
  have hh1 : Hist (A.at depth) allow _ eg1 := Steps.trans h1 s1
  have hrep1 := (steps_grow s1 (hist_good h1)).2.rep _ _ hrep
  have hg1 := hist_good hh1
  rw [hN] at h2
  have hin := (checkGoals_iff hh1 c1 hd (hord its.length eg1) hcyc (hg1.valid_iff.2 (hg1.inv.rep_lt hrep1)) hmax hg).2.2 h2
  rw [goalsIn_iff hh1 c1 hrep1] at hin
  refine ⟨rfl, (testRunner_outcome hN hord hd hcyc hmax hs hlim hh hr hg h hwf hst h0 (early := true) hrun).1 fun t ht => ?_⟩
  obtain ⟨τ, u, q1, q2⟩ := hin t ht
  exact ⟨τ, u, q1, (steps_grow s2 hg1).2.equal q2⟩

/-! ### Examples -/

namespace Ex

/-- Starting from `f (f a)` and nothing else, with the rule `(f ?x) => (g ?x)`. -/
def runnerT : Runner Ex.S Unit Unit Unit := { runner () with egraph := .new, limits := ⟨10, 1000, 5⟩ }
def clausesT : List (Clause Ex.S) := [.rewrite termFx termGx]
def tffa : Term Ex.S := .node .f [tfa]

/-- The goal `(g (g ?x))`. -/
def patGG : Pattern Ex.S := match Pattern.new ordc 10 ggAst with | .ok p => p | _ => patFx
/-- The goal `(g (g (g ?x)))`. -/
def gggAst : PatternAst Ex.S := [⟨.var vx, []⟩, ⟨.op .g, [0]⟩, ⟨.op .g, [1]⟩, ⟨.op .g, [2]⟩]
def gggTerm : Term (PatOp Ex.S) := .node (.op .g) [ggTerm]
def patGGG : Pattern Ex.S := match Pattern.new ordc 10 gggAst with | .ok p => p | _ => patFx

theorem isPatGG : IsPattern patGG ggTerm := ⟨ordc, 10, ggAst, ordcOK, patWF_of rfl rfl rfl, rfl, exprTerm_of (f := 5) rfl rfl⟩
theorem isPatGGG : IsPattern patGGG gggTerm := ⟨ordc, 10, gggAst, ordcOK, patWF_of rfl rfl rfl, rfl, exprTerm_of (f := 5) rfl rfl⟩

theorem wfFfa : WFExpr exprFfa := by
  refine ⟨by simp [exprFfa], ?_⟩
  intro i n h c hc
  match i with
  | 0 => cases h; cases hc
  | 1 => cases h; simp [app] at hc; omega
  | 2 => cases h; simp [app] at hc; omega
  | i + 3 => cases h

theorem termFfa : ExprTerm exprFfa tffa := exprTerm_of (f := 5) rfl rfl

theorem liveFfa : ∀ k, k < exprFfa.length → Live exprFfa k := by
  have h2 : Live exprFfa 2 := .root
  have h1 : Live exprFfa 1 := .child h2 (n := app .f [1]) rfl (by simp [app])
  have h0 : Live exprFfa 0 := .child h1 (n := app .f [0]) rfl (by simp [app])
  intro k hk
  have hk : k < 3 := hk
  match k with
  | 0 => exact h0
  | 1 => exact h1
  | 2 => exact h2
  | k + 3 => omega

theorem areT : AreTightClauses [ruleFG] clausesT :=
  ⟨fun rw' h => ⟨.rewrite termFx termGx, by simp [clausesT], by rw [List.mem_singleton.1 h]; exact tightFG⟩,
   fun c h => ⟨ruleFG, by simp, by rw [List.mem_singleton.1 h]; exact tightFG⟩⟩

theorem histT : Hist (U0.at 1) .all [] runnerT.egraph := .refl

/-- The runner after `with_expr`. -/
def startT : Runner Ex.S Unit Unit Unit := match testStart N0 runnerT exprFfa with | .ok x => x.1 | _ => runnerT
def hookT (goals : List (Pattern Ex.S)) : Hook Ex.S Unit Unit := goalHook renv 2 goals
def doneT (goals : List (Pattern Ex.S)) : Runner Ex.S Unit Unit Unit := stR () (startT.run renv simpleScheduler [hookT goals] [ruleFG] 10)

theorem startT_ok : testStart (U0.at 1) runnerT exprFfa = .ok (startT, 2) := rfl

/-- The hook stops the second iteration, since `f (f a) = g (g a)`. -/
theorem testT : testRunner renv simpleScheduler [] [ruleFG] 10 runnerT exprFfa [patGG] true = .ok (doneT [patGG]) :=
  (c105_early (A := U0) (depth := 1) (allow := .all) (cs := clausesT) (ts := [ggTerm]) rfl (fun _ eg => ordOK eg) discContiguous rfl (by decide) simple_honest simple_limited
    areT.areClauses.1 (.cons isPatGG .nil) histT wfFfa termFfa startT_ok (r' := doneT [patGG]) rfl (msg := "Proved all goals") rfl).2

/-- So the equality can be derived from the existence of `f (f a)` alone. -/
example : Proves clausesT (Given (.new : EGraph Ex.S Unit) tffa) tffa [ggTerm] 2 :=
  c105_sound (A := U0) (depth := 1) (allow := .all) (env := renv) (sch := simpleScheduler) (hooks := []) (rules := [ruleFG]) (r := runnerT) (r' := doneT [patGG]) (f := 10)
    (start := exprFfa) (goals := [patGG]) (early := true)
    (fun _ => rfl) rfl (fun _ eg => ordOK eg) discContiguous rfl (by decide) simple_honest simple_limited (fun k hk => by cases hk)
    areT.1 (.cons isPatGG .nil) histT wfFfa termFfa liveFfa testT

theorem fitsT : startT.AlwaysFitsAny renv simpleScheduler [hookT [patGG, patGGG]] [ruleFG] := by
  intro eg n k rk hreb hk rw' hrw i ms hms
  cases hreb
  rw [List.mem_singleton.1 hrw] at hms
  rcases k with _ | _ | k
  · cases hk; cases hms; decide +kernel
  · cases hk; cases hms; decide +kernel
  · cases hk

/-- `(g (g (g ?x)))` cannot be derived: the run saturates, and `test_runner` panics. -/
example : (¬ ∃ k, Proves clausesT (Given (.new : EGraph Ex.S Unit) tffa) tffa [ggTerm, gggTerm] k) ∧
    testRunner renv simpleScheduler [] [ruleFG] 10 runnerT exprFfa [patGG, patGGG] true = .error .panic := by
  rcases c105_saturated (A := U0) (depth := 1) (allow := .all) (env := renv) (sch := simpleScheduler) (hooks := []) (rules := [ruleFG]) (cs := clausesT) (r := runnerT)
    (r1 := startT) (r' := doneT [patGG, patGGG]) (f := 10) (start := exprFfa) (s := tffa) (id := 2) (goals := [patGG, patGGG]) (ts := [ggTerm, gggTerm]) (early := true)
    (I := fun _ _ => True)
    (fun _ => rfl) rfl (fun _ eg => ordOK eg) discContiguous rfl (by decide) simple_honest simple_limited (simple_thorough _) trivial (fun k hk => by cases hk)
    areT (.cons isPatGG (.cons isPatGGG .nil)) histT wfFfa termFfa liveFfa startT_ok fitsT rfl rfl with ⟨-, h⟩ | h
  · have : testRunner renv simpleScheduler [] [ruleFG] 10 runnerT exprFfa [patGG, patGGG] true = .error .panic := rfl
    rw [this] at h
    cases h
  · exact h

def doneT0 : Runner Ex.S Unit Unit Unit := stR () (startT.run renv simpleScheduler [] [ruleFG] 10)

theorem fitsT0 : startT.AlwaysFitsAny renv simpleScheduler ([] : List (Hook Ex.S Unit Unit)) [ruleFG] := by
  intro eg n k rk hreb hk rw' hrw i ms hms
  cases hreb
  rw [List.mem_singleton.1 hrw] at hms
  rcases k with _ | _ | k
  · cases hk; cases hms; decide +kernel
  · cases hk; cases hms; decide +kernel
  · cases hk

/-- One round derives `f (f a) = g (g a)` … -/
theorem provesT : Proves clausesT (Given (.new : EGraph Ex.S Unit) tffa) tffa [ggTerm] 1 := by
  have e0 : EqHull (Given (.new : EGraph Ex.S Unit) tffa) tffa tffa := .base (.inr ⟨rfl, rfl⟩)
  have e1 : EqHull (Given (.new : EGraph Ex.S Unit) tffa) tfa tfa := .arg e0 (List.mem_singleton.2 rfl)
  have d : ∀ t : Term Ex.S, EqHull (Given (.new : EGraph Ex.S Unit) tffa) (.node .f [t]) (.node .f [t]) →
      Chase clausesT (Given (.new : EGraph Ex.S Unit) tffa) 1 (.node .f [t]) (.node .g [t]) := fun t ht =>
    .base (.inr ⟨_, List.mem_singleton.2 rfl, fun _ => t, inst_node_iff.2 ⟨[t], rfl, .cons .var .nil⟩, inst_node_iff.2 ⟨[t], rfl, .cons .var .nil⟩, ht⟩)
  have h1 := d _ e0
  have h2 := d _ e1
  have h3 : Chase clausesT (Given (.new : EGraph Ex.S Unit) tffa) 1 (.node .g [tfa]) (.node .g [.node .g [ta]]) :=
    .congr (.trans (.symm h1) h1) rfl (fun j s t hs ht => by
      match j with
      | 0 => cases hs; cases ht; exact h2
      | j + 1 => cases hs)
  intro t ht
  rw [List.mem_singleton.1 ht]
  exact ⟨fun _ => ta, _, inst_node_iff.2 ⟨[.node .g [ta]], rfl, .cons (inst_node_iff.2 ⟨[ta], rfl, .cons .var .nil⟩) .nil⟩, .trans h1 h3⟩

/-- … so without the hook `test_runner` returns after the complete run. -/
example : testRunner renv simpleScheduler [] [ruleFG] 10 runnerT exprFfa [patGG] false = .ok doneT0 :=
  c105_complete (A := U0) (depth := 1) (allow := .all) (env := renv) (sch := simpleScheduler) (hooks := []) (rules := [ruleFG]) (cs := clausesT) (r := runnerT)
    (r1 := startT) (r' := doneT0) (f := 10) (start := exprFfa) (s := tffa) (id := 2) (goals := [patGG]) (ts := [ggTerm]) (early := false)
    rfl (fun _ eg => ordOK eg) discContiguous rfl (by decide) simple_eager simple_limited (fun k hk => by cases hk)
    areT.areClauses (.cons isPatGG .nil) histT wfFfa termFfa startT_ok fitsT0 rfl (fun it h => by cases h; exact .inr rfl) (k := 1) (by decide) provesT

/-- With the back-off scheduler, match limit 1 and ban length 1, the rule is banned once. -/
def runnerTB : Runner Ex.S Unit Backoff Unit := { boRunner 10 with egraph := .new, limits := ⟨3, 1000, 5⟩ }
def startTB : Runner Ex.S Unit Backoff Unit := match testStart N0 runnerTB exprFfa with | .ok x => x.1 | _ => runnerTB
def doneTB : Runner Ex.S Unit Backoff Unit := stR bo11 (startTB.run renv Backoff.scheduler [] [ruleFG] 10)

theorem mostTB : ∀ eg n k rk, startTB.egraph.rebuild renv.analysis renv.fuel = .ok (eg, n) →
    Runner.after renv Backoff.scheduler ([] : List (Hook Ex.S Unit Unit)) [ruleFG] k { startTB with egraph := eg } = some rk →
    ∀ rw' ∈ [ruleFG], rk.AtMost renv rw' 2 := by
  intro eg n k rk hreb hk rw' hrw ms hms
  cases hreb
  rw [List.mem_singleton.1 hrw] at hms
  rcases k with _ | _ | _ | k
  · cases hk; cases hms; decide +kernel
  · cases hk; cases hms; decide +kernel
  · cases hk; cases hms; decide +kernel
  · cases hk

example : testRunner renv Backoff.scheduler [] [ruleFG] 10 runnerTB exprFfa [patGG] false = .ok doneTB :=
  c105_backoff (A := U0) (depth := 1) (allow := .all) (env := renv) (hooks := []) (rules := [ruleFG]) (cs := clausesT) (r := runnerTB)
    (r1 := startTB) (r' := doneTB) (f := 10) (start := exprFfa) (s := tffa) (id := 2) (goals := [patGG]) (ts := [ggTerm]) (early := false)
    (m := fun _ => 1) (len := fun _ => 1) (d := fun _ => 1) (B := fun _ => 2)
    rfl (fun _ eg => ordOK eg) discContiguous rfl (by decide) (fun k hk => by cases hk) areT.areClauses (by decide) (.cons isPatGG .nil) histT
    List.nodup_nil (fun _ _ => rfl) (fun _ _ => ⟨⟨by decide, by decide⟩, by decide⟩) wfFfa termFfa rfl mostTB rfl
    (fun it h => by cases h; exact .inr rfl) (k := 1) (by decide) provesT

end Ex

end Egg
