import Verif.Props.Run
import Verif.Props.Extract
/-
C58: simplifying an expression: add it, run rules, extract.
-/
namespace Egg
variable {Op D S H Cost : Type} [DecidableEq Op] [Lang Op]
variable {A : UserAnalysis Op D} {depth : Nat} {allow : Caller Op D}
variable {env : RunEnv Op D} {sch : Scheduler Op D S} {hooks : List (Hook Op D H)} {rules : List (Rewrite Op D)}
  {eqs : List (Term (PatOp Op) × Term (PatOp Op))} {Q : Term Op → Term Op → Prop}
  {r r1 r' : Runner Op D S H} {U : List (UnionRec Op)}

theorem Runner.runLoop_roots : ∀ (f : Nat) (r r' : Runner Op D S H), runLoop env sch hooks rules f r = .ok r' → r'.roots = r.roots := by
  intro f
  induction f with
  | zero => intro r r' h; cases h
  | succ f ih =>
    intro r r' h
    unfold runLoop at h
    rw [bind_eq_ok] at h
    obtain ⟨⟨r1, it⟩, h1, h⟩ := h
    have fr := runOne_frame h1
    dsimp only at h
    split at h
    · cases h; exact fr.roots
    · split at h
      · cases h; exact fr.roots
      · rw [ih _ _ h]; exact fr.roots

/-- A run keeps the roots. -/
theorem Runner.run_roots {f : Nat} (h : r.run env sch hooks rules f = .ok r') : r'.roots = r.roots := by
  unfold Runner.run at h
  rw [bind_eq_ok] at h
  obtain ⟨⟨eg, n⟩, _, h2⟩ := h
  have := Runner.runLoop_roots _ _ _ h2
  exact this

/-- `with_expr` adds the expression and remembers its class as the last root. -/
theorem withExpr_spec (h : Hist (A.at depth) allow U r.egraph) {e : List (ENode Op)} (hwf : WFExpr e) {s : Term Op} (hs : ExprTerm e s)
    (hw : r.withExpr (A.at depth) e = .ok r1) :
    ∃ root, r1.roots = r.roots ++ [root] ∧ Rep r1.egraph root s ∧ Hist (A.at depth) allow U r1.egraph := by
  unfold Runner.withExpr at hw
  rw [bind_eq_ok] at hw
  obtain ⟨⟨eg, i⟩, h1, h2⟩ := hw
  cases h2
  have hst : Steps (A.at depth) allow r.egraph [] eg := EGraph.addExpr_steps h1
  obtain ⟨_, _, _, _, hrep⟩ := (EGraph.addExpr_post ((soundFor_true A).hookOK trivial depth) (Or.inl ⟨hwf.1, hwf.2⟩) (hist_good h)).elim h1
  exact ⟨i, rfl, hrep s hs, Steps.trans h hst⟩

/-- **C58.**  Simplification.  Give an expression for the term `s` to a runner, run rules and extract
from its root with an admissible cost function.  Whatever the scheduler selects, whatever limits are hit,
and in whatever order tables are iterated: extraction succeeds, and the term it returns is related to `s` by every
congruence `R` that contains the equalities asserted before, the instances of the rules, and what hooks
and the analysis may unite; it has the cost that is reported; no term that the root's class
represents is cheaper; in particular it is not more costly than `s`. -/
theorem c58_simplify {R : Term Op → Term Op → Prop} (hR : IsCongruence R) (hA : SoundFor A R hR)
    (hN : env.analysis = A.at depth) (hord : ∀ i eg, (env.ord i eg).OK eg)
    (hd : DiscContiguous Op) (hs : sch.Honest env) (hh : HooksOK (A.at depth) allow Q hooks)
    (hr : AreRules (A.at depth) rules eqs) (h : Hist (A.at depth) allow U r.egraph)
    (hU : ∀ s t, eqsOf U s t → R s t) (hI : ∀ s t, RuleInstance eqs s t → R s t) (hQ : ∀ s t, Q s t → R s t)
    {e : List (ENode Op)} (hwf : WFExpr e) {s : Term Op} (hse : ExprTerm e s) (hw : r.withExpr (A.at depth) e = .ok r1)
    {f : Nat} (hrun : r1.run env sch hooks rules f = .ok r')
    {cf : CostFn Op Cost} (hcf : cf.OK) {ks : List (EClass Op D)} (hks : ks.Perm (r'.egraph.classes.map Prod.snd))
    {passes : Nat} (hp : r'.egraph.classes.length < passes) :
    ∃ root x fuel cost e' t, r'.roots = r.roots ++ [root] ∧ Extractor.new cf r'.egraph ks passes = .ok x ∧
      (∀ f, fuel ≤ f → x.findBest r'.egraph f root = .ok (cost, e')) ∧ WFExpr e' ∧ ExprTerm e' t ∧
      R s t ∧ cf.Same cost (termCost cf t) ∧ cf.Le cost (termCost cf s) ∧
      ∀ t', Rep r'.egraph root t' → cf.Le cost (termCost cf t') := by
  obtain ⟨root, h1, h2, h3⟩ := withExpr_spec h hwf hse hw
  obtain ⟨_, V, s1, q1⟩ := c25_run_reach hN hord hd hs hh hr h3 hrun
  have hh' := Steps.trans h3 s1
  have hrep : Rep r'.egraph root s := (steps_grow s1 (hist_good h3)).2.rep _ _ h2
  have hval : Valid r'.egraph root := (hist_good hh').valid_iff.2 ((hist_good hh').inv.rep_lt hrep)
  obtain ⟨x, hx⟩ := c31_new_terminates hh' hcf hks hp
  obtain ⟨fuel, cost, e', t, k1, -, k2, k3, k4, k5, -, k6⟩ := c29_c30_find_best hh' hcf hks hx hval
  refine ⟨root, x, fuel, cost, e', t, by rw [Runner.run_roots hrun, h1], hx, k1, k2, k3, ?_, k5, k6 s hrep, k6⟩
  have hfind := (hist_good hh').inv.find ((hist_good hh').inv.rep_lt hrep)
  exact c25_eqsat_sound hR hA hN hord hd hs hh hr h3 hU hI hQ hrun ⟨_, hfind, hfind⟩ hrep k4

/-! ### An example: `f (f a)` with the rule `(f ?x) => ?x` -/

def Ex.astX : PatternAst Ex.S := [⟨.var Ex.vx, []⟩]
def Ex.patX : Pattern Ex.S := ⟨Ex.astX, ⟨[], [(Ex.vx, 0)]⟩⟩
def Ex.cf : CostFn Ex.S (CostFn.Usize 100) := CostFn.astSize 100
theorem Ex.isPatX : IsPattern Ex.patX (.node (.var Ex.vx) []) :=
  ⟨Ex.ordc, 10, Ex.astX, Ex.ordcOK, patWF_of rfl rfl rfl, rfl, exprTerm_of (f := 5) rfl rfl⟩
def Ex.ruleFX : Rewrite Ex.S Unit := ⟨8, Ex.patFx.searcher, Ex.patX.applier⟩
def Ex.exprFfa : List (ENode Ex.S) := [Ex.leaf .a, Ex.app .f [0], Ex.app .f [1]]
def Ex.runnerS : Runner Ex.S Unit Unit Unit := Runner.new () ()
def Ex.runnerS1 : Runner Ex.S Unit Unit Unit := Ex.stR () (Ex.runnerS.withExpr Ex.N0 Ex.exprFfa)
def Ex.doneS : Runner Ex.S Unit Unit Unit := Ex.stR () (Ex.runnerS1.run Ex.renv simpleScheduler [] [Ex.ruleFX] 10)

theorem Ex.areRulesX (N) : AreRules N [Ex.ruleFX] [(Ex.termFx, .node (.var Ex.vx) [])] := by
  intro rw' h
  simp only [List.mem_singleton] at h
  subst h
  exact ⟨_, _, by simp, Or.inl ⟨Ex.patFx, Ex.patX, Ex.isPatFx, Ex.live, Ex.isPatX, rfl⟩⟩

/-- The hypotheses are met, the result is `a`. -/
example : ∃ root x fuel cost e' t, Ex.doneS.roots = [] ++ [root] ∧
    Extractor.new Ex.cf Ex.doneS.egraph (Ex.doneS.egraph.classes.map Prod.snd) 10 = .ok x ∧
    (∀ f, fuel ≤ f → x.findBest Ex.doneS.egraph f root = .ok (cost, e')) ∧ WFExpr e' ∧ ExprTerm e' t ∧
    GEq (RuleInstance [(Ex.termFx, .node (.var Ex.vx) [])]) (.node .f [Ex.tfa]) t ∧ Ex.cf.Same cost (termCost Ex.cf t) ∧
    Ex.cf.Le cost (termCost Ex.cf (.node .f [Ex.tfa])) ∧
    ∀ t', Rep Ex.doneS.egraph root t' → Ex.cf.Le cost (termCost Ex.cf t') :=
  c58_simplify (A := Ex.U0) (depth := 1) (allow := .all) (env := Ex.renv) (sch := simpleScheduler) (hooks := [])
    (Q := fun _ _ => False) (rules := [Ex.ruleFX]) (r := Ex.runnerS) (r1 := Ex.runnerS1) (f := 10) (U := []) .geq (soundFor_of_quiet (fun _ => rfl) _ _)
    rfl (fun _ eg => Ex.ordOK eg) Ex.discContiguous simple_honest (Ex.hooksOK _ _) (Ex.areRulesX _) .refl
    (fun _ _ h => by obtain ⟨u, hu, _⟩ := h; cases hu) (fun _ _ h => .ax h) (fun _ _ h => h.elim)
    (e := Ex.exprFfa) (wfExpr_of rfl rfl) (exprTerm_of (f := 5) rfl rfl) rfl (r' := Ex.doneS) rfl (c30_astSize_ok 100) (.refl _) (by decide)

example : Ex.doneS.roots = [2] ∧ ∃ x, Extractor.new Ex.cf Ex.doneS.egraph (Ex.doneS.egraph.classes.map Prod.snd) 10 = .ok x ∧
    x.findBest Ex.doneS.egraph 5 2 = .ok (1, [Ex.leaf .a]) := ⟨rfl, _, rfl, rfl⟩

end Egg
