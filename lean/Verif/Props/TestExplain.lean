import Verif.Props.TestRunner
import Verif.Props.RunExplain
import Verif.Props.ExplainAll
import Verif.Props.ExplainCheck
import Verif.Props.CopyGraph
import Verif.Props.Fold
import Verif.Props.ProofSize
/-
C106: after a run, every match of a goal in the class of an expression can be explained by the rules.
-/
namespace Egg
variable {Op D S H : Type} [DecidableEq Op] [Lang Op]
variable {A : UserAnalysis Op D} {depth : Nat} {allow : Caller Op D} {infos : List (RuleInfo Op)} {U : List (UnionRec Op)}
variable {env : RunEnv Op D} {sch : Scheduler Op D S} {hooks : List (Hook Op D H)} {rules : List (Rewrite Op D)}
variable {r r1 r' : Runner Op D S H} {f : Nat} {left : List (ENode Op)} {s : Term Op} {t : Term (PatOp Op)} {eg eg0 eg' : EGraph Op D}
variable {goals : List (Pattern Op)} {ts : List (Term (PatOp Op))} {early : Bool}

/-- `p` proves by the rules that `s` is equal to an instance of the pattern `t`: flattened, each step rewrites one position by an instance of the
rule that it names, forward or backward; and the check of the proof accepts it. -/
def ProvedBy (infos : List (RuleInfo Op)) (s : Term Op) (t : Term (PatOp Op)) (p : List (TreeTerm Op)) : Prop :=
  (∃ (τ : Var → Term Op) (u : Term Op) (fl : List (FlatTerm Op)), Inst τ t u ∧ TreeTerm.flattenProof p [] = .ok fl ∧ ValidFlat (ByRule infos) s fl u) ∧
  ∃ f0, ∀ f, f0 ≤ f → checkProof f infos p = .ok ()

omit [DecidableEq Op] [Lang Op] in
theorem Rewrites.target {J J' : Symbol → Term Op → Term Op → Prop} {s t t' : Term Op} {fs : List (FlatTerm Op)} (h : Rewrites J s fs t) :
    Rewrites J' s fs t' → t = t' := by
  induction h with
  | nil => intro h; cases h; rfl
  | cons _ _ ih => intro h; cases h with | cons _ h => exact ih h

omit [DecidableEq Op] [Lang Op] in
/-- A flat proof says what it proves. -/
theorem ValidFlat.ends {J J' : Symbol → Term Op → Term Op → Prop} {s t s' t' : Term Op} {fl : List (FlatTerm Op)} (h : ValidFlat J s fl t)
    (h' : ValidFlat J' s' fl t') : s = s' ∧ t = t' := by
  obtain ⟨f, fs, rfl, _, rfl, h1⟩ := h
  obtain ⟨_, _, hf, _, rfl, h2⟩ := h'
  cases hf
  exact ⟨rfl, h1.target h2⟩

theorem EGraph.Closed.rep_unique {C : Cfg Op D} (hcl : EGraph.Closed eg) (h : EGraph.Inv C eg) : ∀ (t : Term Op) {a b : Id},
    Rep eg a t → Rep eg b t → eg.rt a = eg.rt b := by
  intro t
  induction t using Term.ind with
  | h op ts ih =>
    intro a b ha hb
    rw [h.rep_iff] at ha hb
    obtain ⟨hal, k1, n1, hk1, hn1, ho1, hc1⟩ := ha
    obtain ⟨hbl, k2, n2, hk2, hn2, ho2, hc2⟩ := hb
    have hcong : Cong eg.rt n1 n2 := by
      refine ⟨ho1.trans ho2.symm, ?_⟩
      rw [← forall₂_map_eq]
      exact forall₂_comp hc1 (forall₂_flip hc2) (fun x t y _ ht _ h1 h2 => ih t ht h1 h2)
    obtain ⟨i, m, h1, h2, h3⟩ := h.core.clsNodes _ _ (EGraph.sk_eq hk1) n1 hn1
    obtain ⟨j, m', g1, g2, g3⟩ := h.core.clsNodes _ _ (EGraph.sk_eq hk2) n2 hn2
    rw [← h2, ← g2]
    exact hcl.congr h1 g1 (h3.symm.trans (hcong.trans g3))

/-- In an e-graph that was changed only by applying the rules, what `explain_matches` returns is a proof by the rules. -/
theorem c106_matches (hA : ∀ i, A.modify i = .done)
    (hr : ∀ info ∈ infos, ∀ lhs rhs, info.lhs = some lhs → info.rhs = some rhs → PatternsOK lhs rhs) (hnames : (infos.map (·.name)).Nodup)
    (h0 : Hist (A.at depth) allow [] eg0) (hx : eg0.explain.isSome) (hdis : ¬ allow.disables) (h : RuleSteps (A.at depth) allow infos eg0 eg)
    (hw : WFExpr left) (hs : ExprTerm left s) {right : PatternAst Op} (hp : PatWF right) (ht : ExprTerm right t)
    {σ : Subst} (hσ : ∀ v x, σ.get v = some x → Valid eg x) {ch : Explain.Choices} {fuel : Nat} {p : List (TreeTerm Op)}
    (he : EGraph.explainMatches (A.at depth) eg ch fuel left right σ = .ok (p, eg')) : ProvedBy infos s t p := by
  obtain ⟨_, U, hU, _⟩ := RuleSteps.steps hA hr h0 hx hdis h
  obtain ⟨s', P, τ, u, k1, k2, k3, -, -, fl0, k4, k5⟩ := c56_explain_matches hA hU hw hp hσ he
  obtain rfl : s' = s := k1.2.unique hs.2
  obtain rfl : P = t := k2.2.unique ht.2
  unfold EGraph.explainMatches at he
  obtain ⟨⟨eg1, l⟩, h1, he⟩ := bind_eq_ok.1 he
  obtain ⟨⟨eg2, m⟩, h2, he⟩ := bind_eq_ok.1 he
  have he : eg2.explainIdEquivalence ch fuel l m = .ok (p, eg') := he
  have st1 : AddSteps (A.at depth) eg eg1 := by
    unfold EGraph.addExprUncanonical at h1
    obtain ⟨⟨eg3, ids⟩, h3, h4⟩ := bind_eq_ok.1 h1
    obtain ⟨j, _, h5⟩ := bind_eq_ok.1 h4
    cases h5
    exact addExpr_adds _ _ _ h3
  have st : RuleSteps (A.at depth) allow infos eg0 eg2 :=
    (h.append (.of_adds st1)).append (.of_adds (EGraph.addInst_steps h2))
  obtain ⟨⟨e1, e2, a, b, q1, q2, q3, q4, fl, q5, q6⟩, q7⟩ := c34_rules hA hr hnames h0 hx hdis st he
  rw [k4] at q5
  cases q5
  obtain ⟨rfl, rfl⟩ := k5.ends q6
  exact ⟨⟨τ, _, fl0, k3, k4, q6⟩, q7⟩

/-- If an expression and a match of a pattern are in one class of a clean e-graph, `explain_matches` returns. -/
theorem c106_returns (hA : TotalQuiet A) {sets : EGraph Op D → Id → D → Prop} (h : Hist (A.at (depth + 1)) (Caller.unoptimized sets) U eg)
    (hc : eg.clean = true) (hx : eg.explain.isSome) (hw : WFExpr left) (hs : ExprTerm left s) {g : Pattern Op} (hp : IsPattern g t)
    {c : Id} (hrep : Rep eg c s) {σ : Subst} (hσ : ∀ v x, σ.get v = some x → Valid eg x) (hb : ∀ v ∈ g.vars, σ.get v ≠ none)
    (hm : PMatch eg σ.get c t) (ch : Explain.Choices) :
    ∃ f0 p eg', ∀ fuel, f0 ≤ fuel → EGraph.explainMatches (A.at (depth + 1)) eg ch fuel left g.ast σ = .ok (p, eg') := by
  have hg := hist_good h
  have hN := hA.hookOK (depth := depth) (R := fun _ _ => True) (hR := isCongruence_true)
  have hq : EGraph.QuietMod (A.at (depth + 1)) := hA.quietMod
  have hcl := EGraph.closed_of_pending hg.inv (c47_clean_means_rebuilt h hc).pending
  obtain ⟨⟨eg1, l⟩, h1, g1, x1, l1, rep1⟩ := (EGraph.addExprUncanonical_post hN (.inl hw) hg).exists_ok
  have rep1 := rep1 s hs
  have st1 : AddSteps (A.at (depth + 1)) eg eg1 := by
    unfold EGraph.addExprUncanonical at h1
    obtain ⟨⟨eg3, ids⟩, h3, h4⟩ := bind_eq_ok.1 h1
    obtain ⟨j, _, h5⟩ := bind_eq_ok.1 h4
    cases h5
    exact addExpr_adds _ _ _ h3
  have hcl1 := (AddSteps.quiet hN hq st1 hg).2 hcl
  obtain ⟨⟨eg2, m⟩, h2, g2, x2, l2, m2⟩ := (EGraph.addInst_post hN hp.wf.1 g1 ((binds_of hg hσ hb).ext x1)).exists_ok
  have m2 := m2 t hp.wf.2
  have hcl2 := (AddSteps.quiet hN hq (EGraph.addInst_steps h2) g1).2 hcl1
  have e1 : eg2.rt l = eg2.rt c := hcl2.rep_unique g2.inv s (x2.rep g1.inv g2.inv s rep1)
    (x2.rep g1.inv g2.inv s (x1.rep hg.inv g1.inv s hrep))
  have e2 : SameClass eg2 c m := hcl2.pmatch_det g2.inv t (x2.pmatch g1.inv g2.inv (x1.pmatch hg.inv g1.inv hm)) m2
  have hlm : SameClass eg2 l m := by
    rw [g2.inv.sameClass_iff] at e2 ⊢
    exact ⟨x2.lt l1, e2.2.1, e1.trans e2.2.2⟩
  have hh2 : Hist (A.at (depth + 1)) (Caller.unoptimized sets) U eg2 := by
    have := Steps.trans (addExpr_hist h h1) ((EGraph.addInst_steps h2).steps (allow := Caller.unoptimized sets))
    simpa [Hist] using this
  have hx2 : eg2.explain.isSome := by rw [x2.expl, x1.expl]; exact hx
  obtain ⟨f0, p, eg', h3⟩ := c33_explains hh2 hx2 ch hlm
  refine ⟨f0, p, eg', fun fuel hf => ?_⟩
  unfold EGraph.explainMatches
  rw [h1, ok_bind]
  dsimp only
  rw [h2, ok_bind]
  exact h3 fuel hf

theorem checkGoals_ok {N : Analysis Op D} {ord : IterOrd} {limit : Nat} {id : Id} : ∀ {goals : List (Pattern Op)},
    eg.checkGoals N ord limit id goals = .ok () → ∀ g ∈ goals, ∃ m, g.searchEclassWithLimit N eg ord id limit = .ok (some m) := by
  intro goals
  induction goals with
  | nil => intro _ g hg; cases hg
  | cons a rest ih =>
    intro h g hg
    unfold EGraph.checkGoals at h
    obtain ⟨o, h1, h2⟩ := bind_eq_ok.1 h
    cases o with
    | none => cases h2
    | some m =>
      rcases List.mem_cons.1 hg with rfl | hg
      · exact ⟨m, h1⟩
      · exact ih h2 g hg

/-- **C106.**  Let `test_runner` return, on a runner with explanations enabled in whose e-graph no union and no optimized explanation was requested before, with rules of two patterns
(with or without conditions) that have distinct names.  Then for every goal the search that `test_runner` makes afterwards in the class of the start expression finds a match;
for each substitution found, `explain_matches` returns; and it returns a proof by the rules that the start expression is equal to an
instance of the goal. -/
theorem c106_proved (hA : TotalQuiet A) (hN : env.analysis = A.at (depth + 1)) (hord : ∀ i eg, (env.ord i eg).OK eg) (hd : DiscContiguous Op)
    (hs : sch.Honest env) (hh : HooksRead hooks) (hr : List.Forall₂ (Described (A.at (depth + 1))) rules infos) (hnames : (rules.map (·.name)).Nodup)
    (h : Hist (A.at (depth + 1)) allow [] r.egraph) (hopt : ¬ allow.optimized) (hdis : ¬ allow.disables) (hx : r.egraph.explain.isSome)
    (hw : WFExpr left) (hst : ExprTerm left s) {id : Id} (h0 : testStart (A.at (depth + 1)) r left = .ok (r1, id))
    (ht : testRunner env sch hooks rules f r left goals early = .ok r')
    {g : Pattern Op} (hg : g ∈ goals) (hp : IsPattern g t) (hlive : ∀ v ∈ g.vars, Occurs v t) :
    ∃ m, g.searchEclassWithLimit (A.at (depth + 1)) r'.egraph (env.ord r'.iterations.length r'.egraph) id env.usizeMax = .ok (some m) ∧
      m.substs ≠ [] ∧ ∀ σ ∈ m.substs, ∀ ch : Explain.Choices, ∃ f0 p eg',
        (∀ fuel, f0 ≤ fuel → EGraph.explainMatches (A.at (depth + 1)) r'.egraph ch fuel left g.ast σ = .ok (p, eg')) ∧ ProvedBy infos s t p := by
  unfold testRunner at ht
  rw [hN, h0, ok_bind] at ht
  dsimp only at ht
  obtain ⟨r2, hrun, ht⟩ := bind_eq_ok.1 ht
  obtain ⟨_, hck, ht⟩ := bind_eq_ok.1 ht
  cases ht
  obtain ⟨h1, hrep, -, -, -, -, i, hadd⟩ := testStart_spec h hw hst h0
  have hq : ∀ i, A.modify i = .done := hA.quiet
  have hx1 : r1.egraph.explain.isSome := steps_expl (EGraph.addExpr_steps (allow := allow) hadd) (hist_good h) hdis hx
  have hread := goalHook_read (env := env) (id := id) (goals := goals) (early := early) hh
  have hok : HooksOK (A.at (depth + 1)) allow (fun _ _ => False) (if early then hooks ++ [goalHook env id goals] else hooks) := by
    intro k hk h eg its h' eg' o hcl hc
    obtain rfl := hread k hk _ _ _ _ _ _ hc
    exact ⟨hcl, [], .refl, by simp⟩
  have hdesc : ∀ rw' ∈ rules, ∃ info ∈ infos, Described (A.at (depth + 1)) rw' info := fun rw' hm => forall₂_mem_left hr hm
  have hname : infos.map (·.name) = rules.map (·.name) := by
    clear * - hr
    induction hr with
    | nil => rfl
    | cons h1 _ ih =>
      obtain ⟨lp, rp, tl, t, -, -, -, rfl, -⟩ := h1
      rw [List.map_cons, List.map_cons, ih]
  have hpat : ∀ info ∈ infos, ∀ lhs rhs, info.lhs = some lhs → info.rhs = some rhs → PatternsOK lhs rhs := by
    intro info hm
    obtain ⟨rw', _, hd'⟩ := forall₂_mem_left hr.flip hm
    exact Described.ok hd'
  rw [← hname] at hnames
  have hrs := c57_run_steps hN hord hd hs hok hdis hdesc h1 hx1 hrun
  obtain ⟨hxf, V, hhf, -⟩ := RuleSteps.steps hq hpat h1 hx1 hdis hrs
  have hclean : r'.egraph.clean = true := by
    unfold Runner.run at hrun
    rw [bind_eq_ok] at hrun
    obtain ⟨⟨eg, n⟩, k1, k2⟩ := hrun
    rw [hN] at k1
    have s1 : Steps (A.at (depth + 1)) allow r1.egraph [] eg := .single (.rebuild k1)
    exact (Runner.runLoop_explained hN hord hd hs hok hdis hdesc f _ _ ([] ++ []) (Steps.trans h1 s1) (EGraph.rebuild_clean k1)
      (steps_expl s1 (hist_good h1) hdis hx1) k2).1
  obtain ⟨W, hW⟩ := RuleSteps.hist h1 hrs
  have hrep' := (steps_grow hW (hist_good h1)).2.rep _ _ hrep
  have hgf := hist_good hhf
  obtain ⟨m, hm⟩ := checkGoals_ok hck g hg
  obtain ⟨-, hne, hsub⟩ := c17_search_eclass_sound hhf hclean hd (hord _ _) hp (hgf.valid_iff.2 (hgf.inv.rep_lt hrep')) hm
  refine ⟨m, hm, hne, fun σ hσ ch => ?_⟩
  obtain ⟨q1, q2, q3, -⟩ := hsub σ hσ
  have hval : ∀ v x, σ.get v = some x → Valid r'.egraph x := fun v x hv => (q2 v x hv).1
  obtain ⟨f0, p, eg', hret⟩ := c106_returns hA (sets := allow.sets)
    (Steps.weaken (allow := allow) (allow' := Caller.unoptimized allow.sets) (fun _ _ _ h => h) (fun h => hopt h) (fun _ => trivial) hhf) hclean hxf hw hst hp hrep' hval
    (fun v hv hn => by
      obtain ⟨x, hx⟩ := (q1 v).2 (hlive v hv)
      rw [hx] at hn; cases hn) q3 ch
  exact ⟨f0, p, eg', hret, c106_matches hq hpat hnames h1 hx1 hdis hrs hw hst hp.wf.1 hp.wf.2 hval (hret f0 (le_refl _))⟩

/-- `explain_matches`, `src/egraph.rs:524-551`, as `EGraph.explainMatches`, with addresses. -/
def EGraph.explainMatchesShared (N : Analysis Op D) (eg : EGraph Op D) (ch : Explain.Choices) (fuel : Nat)
    (left : List (ENode Op)) (right : PatternAst Op) (σ : Subst) : Res (List (RcTree Op)) := do
  let (eg, l) ← eg.addExprUncanonical N left
  let (eg, r) ← addInstantiationNoncanonical N eg right σ
  eg.explainIdShared ch fuel l r

/-- If no two expressions were ever unified, the size of what `explain_matches` returns is zero, so the assertion that it is not zero (`src/test.rs:106`) fails: with
explanations enabled `test_runner` panics on a goal that holds from the start, although it is proved. -/
theorem c106_zero (hA : ∀ i, A.modify i = .done) (h : Hist (A.at depth) allow [] eg) {right : PatternAst Op} {σ : Subst} {ch : Explain.Choices} {fuel : Nat}
    {p : List (TreeTerm Op)} (he : EGraph.explainMatches (A.at depth) eg ch fuel left right σ = .ok (p, eg')) :
    ∃ trees, EGraph.explainMatchesShared (A.at depth) eg ch fuel left right σ = .ok trees ∧ trees.map RcTree.tree = p ∧ RcTree.getTreeSize trees = .ok 0 := by
  unfold EGraph.explainMatches at he
  obtain ⟨⟨eg1, l⟩, h1, he⟩ := bind_eq_ok.1 he
  obtain ⟨⟨eg2, m⟩, h2, he⟩ := bind_eq_ok.1 he
  have he : eg2.explainIdEquivalence ch fuel l m = .ok (p, eg') := he
  have hh2 : Hist (A.at depth) allow [] eg2 := by
    simpa [Hist] using Steps.trans (addExpr_hist h h1) ((EGraph.addInst_steps h2).steps (allow := allow))
  obtain ⟨trees, n, k1, k2, k3, k4⟩ := c69_le_unions hA hh2 he
  refine ⟨trees, ?_, k2, by rw [k3, Nat.le_zero.1 k4]⟩
  unfold EGraph.explainMatchesShared
  rw [h1, ok_bind]
  dsimp only
  rw [h2, ok_bind]
  exact k1

/-! ### An example -/
namespace Ex

def runnerTE : Runner Ex.S Unit Unit Unit :=
  { runnerT with egraph := match (EGraph.new : EGraph Ex.S Unit).withExplanationsEnabled with | .ok eg => eg | _ => .new }
def startTE : Runner Ex.S Unit Unit Unit := match testStart N0 runnerTE exprFfa with | .ok x => x.1 | _ => runnerTE
def doneTE : Runner Ex.S Unit Unit Unit := stR () (startTE.run renv simpleScheduler [hookT [patGG]] [ruleFG] 10)
def callerTE : Caller Ex.S Unit := ⟨fun _ _ _ => True, False, False⟩

theorem histTE : Hist (U0.at 1) callerTE [] runnerTE.egraph := .single (.explain rfl)

theorem liveGG : ∀ v ∈ patGG.vars, Occurs v ggTerm := by
  intro v hv
  have : v = vx := by simpa using (show v ∈ [vx] from hv)
  subst this
  exact .arg (List.mem_singleton.2 rfl) (.arg (List.mem_singleton.2 rfl) .refl)

theorem testTE : testRunner renv simpleScheduler [] [ruleFG] 10 runnerTE exprFfa [patGG] true = .ok doneTE :=
  rfl

/-- The equality `f (f a) = g (g a)` is proved, and explained by the rule. -/
example : ∃ m, patGG.searchEclassWithLimit (U0.at 1) doneTE.egraph (renv.ord doneTE.iterations.length doneTE.egraph) 2 renv.usizeMax = .ok (some m) ∧
      m.substs ≠ [] ∧ ∀ σ ∈ m.substs, ∀ ch : Explain.Choices, ∃ f0 p eg',
        (∀ fuel, f0 ≤ fuel → EGraph.explainMatches (U0.at 1) doneTE.egraph ch fuel exprFfa patGG.ast σ = .ok (p, eg')) ∧ ProvedBy [infoFG] tffa ggTerm p :=
  c106_proved (A := U0) (depth := 0) (allow := callerTE) (env := renv) (sch := simpleScheduler) (hooks := []) (rules := [ruleFG]) (r := runnerTE) (r' := doneTE)
    (r1 := startTE) (f := 10) (goals := [patGG]) (early := true)
    ⟨fun _ _ _ _ _ => ⟨_, rfl⟩, fun _ _ _ _ _ => ⟨_, rfl⟩, fun _ => rfl⟩ rfl (fun _ eg => ordOK eg) discContiguous simple_honest (fun k hk => by cases hk)
    (.cons (describedFG _) .nil) (by simp) histTE id id rfl wfFfa termFfa rfl testTE (List.mem_singleton.2 rfl) isPatGG liveGG

/-- The goal `(f ?x)` holds from the start: it is proved without rules, but the proof has size zero. -/
example : testRunner renv simpleScheduler [] [] 10 runnerTE exprFfa [patFx] true = .ok (stR () (startTE.run renv simpleScheduler [hookT [patFx]] [] 10)) ∧
    ∃ p eg', EGraph.explainMatches (U0.at 1) startTE.egraph ch0 20 exprFfa patFx.ast [(vx, 1)] = .ok (p, eg') :=
  ⟨rfl, exists_of_isOk (by decide +kernel)⟩

end Ex

end Egg
