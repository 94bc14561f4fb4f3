import Verif.Lemmas.RunExplain
import Verif.ExampleExplain
/-
C57: what can be explained after a run.
-/
namespace Egg
variable {Op D S H : Type} [DecidableEq Op] [Lang Op]
variable {A : UserAnalysis Op D} {depth : Nat} {allow : Caller Op D} {infos : List (RuleInfo Op)}
variable {env : RunEnv Op D} {sch : Scheduler Op D S} {hooks : List (Hook Op D H)} {rules : List (Rewrite Op D)}
  {r r' : Runner Op D S H} {eg0 : EGraph Op D}

/-- A run with explanations enabled, of rules with two patterns (with or without conditions), does
nothing but apply these rules. -/
theorem c57_run_steps {U : List (UnionRec Op)} (hN : env.analysis = A.at depth) (hord : ∀ i eg, (env.ord i eg).OK eg)
    (hd : DiscContiguous Op) (hs : sch.Honest env) (hh : HooksOK (A.at depth) allow (fun _ _ => False) hooks) (hdis : ¬ allow.disables)
    (hr : ∀ rw' ∈ rules, ∃ info ∈ infos, Described (A.at depth) rw' info)
    (h : Hist (A.at depth) allow U r.egraph) (hx : r.egraph.explain.isSome) {f : Nat} (hrun : r.run env sch hooks rules f = .ok r') :
    RuleSteps (A.at depth) allow infos r.egraph r'.egraph := by
  unfold Runner.run at hrun
  rw [bind_eq_ok] at hrun
  obtain ⟨⟨eg, n⟩, h1, h2⟩ := hrun
  rw [hN] at h1
  have s1 : Steps (A.at depth) allow r.egraph [] eg := .single (.rebuild h1)
  have := (Runner.runLoop_explained hN hord hd hs hh hdis hr f _ _ ([] ++ U) (Steps.trans h s1) (EGraph.rebuild_clean h1)
    (steps_expl s1 (hist_good h) hdis hx) h2).2
  exact (RuleSteps.of_steps s1 rfl).append this

/-- **C57.**  Run rules with two patterns (with or without conditions) and with distinct names, on
an e-graph with explanations enabled on which no union was requested before.  The hooks request none
either, nobody switches explanations off, and the analysis does not change the e-graph in `modify`.  Whatever the scheduler
selected and whatever the reason the run stopped: every explanation that is returned afterwards is
a proof in which each step rewrites one position by an instance of the rule it names, forward or backward;
its own check accepts it; and the self-check of the table of explanations passes. -/
theorem c57_run_explained (hA : ∀ i, A.modify i = .done) (hN : env.analysis = A.at depth) (hord : ∀ i eg, (env.ord i eg).OK eg)
    (hd : DiscContiguous Op) (hs : sch.Honest env) (hh : HooksOK (A.at depth) allow (fun _ _ => False) hooks) (hdis : ¬ allow.disables)
    (hr : List.Forall₂ (Described (A.at depth)) rules infos) (hnames : (rules.map (·.name)).Nodup)
    (h : Hist (A.at depth) allow [] r.egraph) (hx : r.egraph.explain.isSome) {f : Nat} (hrun : r.run env sch hooks rules f = .ok r') :
    (∃ f0, ∀ f, f0 ≤ f → r'.egraph.checkEachExplain f infos = .ok true) ∧
    ∀ (ch : Explain.Choices) (fuel : Nat) (a b : Id) (p : List (TreeTerm Op)) (eg' : EGraph Op D),
      r'.egraph.explainIdEquivalence ch fuel a b = .ok (p, eg') →
      (∃ e1 e2 s t, r'.egraph.idToExpr a = .ok e1 ∧ r'.egraph.idToExpr b = .ok e2 ∧ ExprTerm e1 s ∧ ExprTerm e2 t ∧
        ∃ fl, TreeTerm.flattenProof p [] = .ok fl ∧ ValidFlat (ByRule infos) s fl t) ∧
      ∃ f0, ∀ f, f0 ≤ f → checkProof f infos p = .ok () := by
  have hdesc : ∀ rw' ∈ rules, ∃ info ∈ infos, Described (A.at depth) rw' info := fun rw' hm => forall₂_mem_left hr hm
  have hname : infos.map (·.name) = rules.map (·.name) := by
    clear hnames hrun hdesc
    induction hr with
    | nil => rfl
    | cons h1 _ ih =>
      obtain ⟨lp, rp, tl, t, -, -, -, rfl, -⟩ := h1
      rw [List.map_cons, List.map_cons, ih]
  have hok : ∀ info ∈ infos, ∀ lhs rhs, info.lhs = some lhs → info.rhs = some rhs → PatternsOK lhs rhs := by
    intro info hm
    obtain ⟨rw', _, hd'⟩ := forall₂_mem_left hr.flip hm
    exact Described.ok hd'
  have hst := c57_run_steps hN hord hd hs hh hdis hdesc h hx hrun
  rw [← hname] at hnames
  exact ⟨c55_rules hA hok hnames h hx hdis hst, fun ch fuel a b p eg' he => c34_rules hA hok hnames h hx hdis hst he⟩

/-- The debug assertion at the end of every iteration (`src/run.rs:596-598`) holds: the e-graph was changed
only by applying the rules `infos` since a state without unions (in particular, by earlier iterations),
and the iteration runs some of these rules. -/
theorem c57_iteration_check (hA : ∀ i, A.modify i = .done) (hN : env.analysis = A.at depth) (hord : ∀ i eg, (env.ord i eg).OK eg)
    (hd : DiscContiguous Op) (hs : sch.Honest env) (hh : HooksOK (A.at depth) allow (fun _ _ => False) hooks) (hdis : ¬ allow.disables)
    (hr : ∀ rw' ∈ rules, ∃ info ∈ infos, Described (A.at depth) rw' info)
    (hok : ∀ info ∈ infos, ∀ lhs rhs, info.lhs = some lhs → info.rhs = some rhs → PatternsOK lhs rhs)
    (hnames : (infos.map (·.name)).Nodup)
    (h0 : Hist (A.at depth) allow [] eg0) (hx : eg0.explain.isSome) (h : RuleSteps (A.at depth) allow infos eg0 r.egraph)
    (hc : r.egraph.clean = true) {it : Iteration} (ho : Runner.runOne env sch hooks rules r = .ok (r', it)) :
    RuleSteps (A.at depth) allow infos eg0 r'.egraph ∧ r'.egraph.clean = true ∧
    ∃ f0, ∀ f, f0 ≤ f → r'.egraph.checkEachExplain f infos = .ok true := by
  obtain ⟨hx', U, hh', _⟩ := RuleSteps.steps hA hok h0 hx hdis h
  obtain ⟨c1, s1⟩ := Runner.runOne_explained hN hord hd hs hh hdis hr hh' hc hx' ho
  have := h.append s1
  exact ⟨this, c1, c55_rules hA hok hnames h0 hx hdis this⟩

/-! ### An example -/

def Ex.runnerX : Runner Ex.S Unit Unit Unit := { (Runner.new () () : Runner Ex.S Unit Unit Unit) with egraph := Ex.x4 }
def Ex.doneX : Runner Ex.S Unit Unit Unit := Ex.stR () (Ex.runnerX.run Ex.renv simpleScheduler [] [Ex.ruleFG] 10)

theorem Ex.describedFG (N) : Described N Ex.ruleFG Ex.infoFG :=
  ⟨Ex.patFx, Ex.patGx, _, _, Ex.isPatFx, Ex.live, Ex.isPatGx, rfl, Or.inl rfl⟩

/-- The rule is applied to `f a` and `f b`; afterwards `f a = g a` can be explained. -/
example : Ex.runnerX.run Ex.renv simpleScheduler [] [Ex.ruleFG] 10 = .ok Ex.doneX ∧
    List.Forall₂ (Described (Ex.U0.at 1)) [Ex.ruleFG] [Ex.infoFG] ∧ Hist (Ex.U0.at 1) .keeps [] Ex.runnerX.egraph ∧
    Ex.runnerX.egraph.explain.isSome = true ∧ Ex.doneX.egraph.find 4 = Ex.doneX.egraph.find 2 ∧
    ∃ p eg', Ex.doneX.egraph.explainIdEquivalence Ex.ch0 100 2 4 = .ok (p, eg') :=
  ⟨rfl, .cons (Ex.describedFG _) .nil, Ex.histx4 _, rfl, rfl, exists_of_isOk (by decide +kernel)⟩

/-- One more iteration, from the result of the run. -/
example : RuleSteps (Ex.U0.at 1) .keeps [Ex.infoFG] Ex.x4 { Ex.doneX with stopReason := none }.egraph ∧ Ex.doneX.egraph.clean = true ∧
    ∃ r' it, Runner.runOne Ex.renv simpleScheduler [] [Ex.ruleFG] { Ex.doneX with stopReason := none } = .ok (r', it) :=
  ⟨c57_run_steps (A := Ex.U0) (depth := 1) (env := Ex.renv) (sch := simpleScheduler) (hooks := []) (rules := [Ex.ruleFG]) (r := Ex.runnerX) (f := 10)
    rfl (fun _ eg => Ex.ordOK eg) Ex.discContiguous simple_honest (Ex.hooksOK _ _) id
    (fun rw' h => ⟨_, List.mem_singleton.2 rfl, (List.mem_singleton.1 h) ▸ Ex.describedFG _⟩) (Ex.histx4 _) rfl (r' := Ex.doneX) rfl,
    rfl, exists_of_isOk (by decide +kernel)⟩

end Egg
