import Verif.Lemmas.Resume
import Verif.Lemmas.Exact
import Verif.Props.Least
/-
C99: a run may be cut into pieces.
-/
namespace Egg
variable {Op D S H : Type} [DecidableEq Op] [Lang Op]
variable {A : UserAnalysis Op D} {depth : Nat} {allow : Caller Op D} {U : List (UnionRec Op)}
  {env env' : RunEnv Op D} {sch : Scheduler Op D S} {hooks : List (Hook Op D H)} {rules : List (Rewrite Op D)}
  {eqs : List (Term (PatOp Op) × Term (PatOp Op))} {Q : Term Op → Term Op → Prop}

/-- **C99** (and a stronger form of C08).  `rebuild` on a rebuilt e-graph gives back the same e-graph: every field of it,
down to the order of the tables. -/
theorem c99_rebuild_exact {eg0 eg : EGraph Op D} {fuel k : Nat} (h0 : Hist (A.at depth) allow U eg0)
    (hr : EGraph.rebuild (A.at depth) fuel eg0 = .ok (eg, k)) (fuel' : Nat) :
    EGraph.rebuild (A.at depth) (fuel' + 1) eg = .ok (eg, 0) := rebuild_exact h0 hr fuel'

/-- A finished run leaves an e-graph that the `rebuild` at the start of the next run does not change. -/
theorem c99_run_rebuilt (hN : env.analysis = A.at depth) (hord : ∀ i eg, (env.ord i eg).OK eg) (hd : DiscContiguous Op)
    (hs : sch.Honest env) (hh : HooksOK (A.at depth) allow Q hooks) (hr : AreRules (A.at depth) rules eqs)
    {r r' : Runner Op D S H} (h : Hist (A.at depth) allow U r.egraph) {f : Nat} (hrun : r.run env sch hooks rules f = .ok r')
    (fuel' : Nat) : EGraph.rebuild (A.at depth) (fuel' + 1) r'.egraph = .ok (r'.egraph, 0) := by
  unfold Runner.run at hrun
  obtain ⟨⟨eg, n⟩, h1, h2⟩ := bind_eq_ok.1 hrun
  have hc := EGraph.rebuild_clean h1
  rw [hN] at h1
  obtain ⟨V, eg1, fuel, k, g1, g2⟩ := Runner.runLoop_last hN hord hd hs hh hr f _ _ _ (Steps.trans h (.single (.rebuild h1))) hc h2
  exact rebuild_exact g1 g2 fuel'

/-- **C99.**  With the simple scheduler, hooks that do not look at the records of iterations, and time to spare: if a
run stops because of its iteration limit, and a new runner goes on with its e-graph (`with_egraph`) for up to `m > 0`
iterations, then the two runs together do what one run does whose iteration limit is `m` higher: the same e-graph, the
same records of iterations, the same stop reason (up to the number of iterations), or the same panic. -/
theorem c99_resume (hN : env.analysis = A.at depth) (hord : ∀ i eg, (env.ord i eg).OK eg) (hd : DiscContiguous Op)
    (hh : HooksOK (A.at depth) allow Q hooks) (hb : BlindHooks hooks) (hr : AreRules (A.at depth) rules eqs)
    {r r1 : Runner Op D Unit H} (h : Hist (A.at depth) allow U r.egraph) (hits : r.iterations = []) (hpos : 0 < r.limits.iterLimit)
    {f k m : Nat} (hm : 0 < m) (hrun : r.run env simpleScheduler hooks rules f = .ok r1) (hst : r1.stopReason = some (.iterationLimit k))
    (he : RunEnv.Later r.limits.iterLimit env env') (hf : env.fuel ≠ 0)
    (ht : env.InTime r.limits.timeLimit) (ht' : env'.InTime r.limits.timeLimit) :
    r1.iterations.length = r.limits.iterLimit ∧ ∃ c ≤ f, ∀ f2,
      Runner.run env simpleScheduler hooks rules (c + f2) { r with limits := { r.limits with iterLimit := r.limits.iterLimit + m } } =
        (Runner.run env' simpleScheduler hooks rules f2 (r1.resume () { r.limits with iterLimit := m })).map
          (r1.followedBy { r.limits with iterLimit := r.limits.iterLimit + m }) := by
  have hreb : EGraph.rebuild env.analysis env.fuel r1.egraph = .ok (r1.egraph, 0) := by
    obtain ⟨g, hg⟩ := Nat.exists_eq_succ_of_ne_zero hf
    rw [hN, hg]
    exact c99_run_rebuilt hN hord hd simple_honest hh hr h hrun g
  unfold Runner.run at hrun
  obtain ⟨⟨eg, n⟩, h1, h2⟩ := bind_eq_ok.1 hrun
  set lim' : RunnerLimits := { r.limits with iterLimit := r.limits.iterLimit + m } with hlim'
  have hchk : ∀ (e : RunEnv Op D), e.InTime r.limits.timeLimit → ∀ l t i eg, RunnerLimits.check { r.limits with iterLimit := l } e t i eg =
      if r.limits.nodeLimit < eg.totalSize then some (.nodeLimit eg.totalSize) else if l ≤ i then some (.iterationLimit i) else none := by
    intro e hte l t i eg
    unfold RunnerLimits.check
    rw [if_neg (by have := hte t; dsimp only; omega)]
  obtain ⟨hlen, c, hc, hpre⟩ := runLoop_prefix (lim := r.limits) (lim' := lim') (env := env) (rules := rules) hb (by simp [hlim']; omega)
    (fun i hi t' t eg => by
      rw [Nat.zero_add, hlim', hchk env ht, Option.map_later_zero]
      have := hchk env ht r.limits.iterLimit t i eg
      rw [show ({ r.limits with iterLimit := r.limits.iterLimit } : RunnerLimits) = r.limits from rfl] at this
      rw [this, if_neg (show ¬ r.limits.iterLimit + m ≤ i by omega), if_neg (show ¬ r.limits.iterLimit ≤ i by omega)])
    (fun t t' eg hs => by
      rw [hlim', hchk env ht]
      have := hchk env ht r.limits.iterLimit t r.limits.iterLimit eg
      rw [show ({ r.limits with iterLimit := r.limits.iterLimit } : RunnerLimits) = r.limits from rfl] at this
      by_cases hn : r.limits.nodeLimit < eg.totalSize
      · rw [if_pos hn] at this
        obtain ⟨_, hk⟩ := hs _ this
        cases hk
      · rw [if_neg hn, if_neg (by omega)])
    f { r with egraph := eg } r1 k rfl (by dsimp only; rw [hits]; exact hpos) h2 hst
  refine ⟨hlen, c, hc, fun f2 => ?_⟩
  unfold Runner.run
  rw [h1, ok_bind]
  dsimp only
  rw [hpre f2, ← he.analysis, ← he.fuel]
  show _ = Except.map _ (EGraph.rebuild env.analysis env.fuel r1.egraph >>= _)
  rw [hreb, ok_bind]
  dsimp only
  have hs := runLoop_shift (its := r1.iterations) (dt := r1.tick) (lim' := lim') (ro := r1.roots) (lim := { r.limits with iterLimit := m })
    (env := env') (env' := env) (hooks := hooks) (rules := rules) (by rw [hlen]; exact he) hb
    (fun i t' t eg => by
      rw [hlim', hchk env ht, hchk env' ht', hlen]
      split
      · rfl
      · by_cases hi : m ≤ i
        · rw [if_pos hi, if_pos (by omega)]; rfl
        · rw [if_neg hi, if_neg (by omega)]; rfl) f2
    { r1.resume () { r.limits with iterLimit := m } with egraph := r1.egraph } rfl
  have e1 : ({ r1.resume () { r.limits with iterLimit := m } with egraph := r1.egraph } : Runner Op D Unit H).shift r1.iterations r1.tick lim' r1.roots =
      { r1 with limits := lim', stopReason := none } := by
    simp [Runner.shift, Runner.resume, Runner.new]
  rw [e1] at hs
  rw [hs]
  rfl

/-! ### Examples -/

namespace Ex

/-- The run of (f ?x) => (g ?x) from e6, stopped after one iteration; it would be saturated after two. -/
def cutLim (n : Nat) : RunnerLimits := ⟨n, 100, 100⟩
def cutRunner : Runner Ex.S Unit Unit Unit := { runner () with limits := cutLim 1 }
def cut1 : Runner Ex.S Unit Unit Unit := stR () (cutRunner.run renv simpleScheduler [] [ruleFG] 10)
def cut2 : Runner Ex.S Unit Unit Unit := stR () ((cut1.resume () (cutLim 3)).run renv simpleScheduler [] [ruleFG] 10)

example : cut1.stopReason = some (.iterationLimit 1) ∧ cut2.stopReason = some .saturated ∧ cut2.iterations.length = 1 := ⟨rfl, rfl, rfl⟩

/-- The hypotheses of C99 are met: the run with limit 4 is saturated after two iterations and has the same e-graph. -/
example : ∃ f r3, Runner.run renv simpleScheduler [] [ruleFG] f { cutRunner with limits := cutLim 4 } = .ok r3 ∧
    r3.stopReason = some .saturated ∧ r3.egraph = cut2.egraph ∧ r3.iterations.length = 2 := by
  obtain ⟨-, c, -, hc⟩ := c99_resume (A := U0) (depth := 1) (allow := .all) (env := renv) (env' := renv) (Q := fun _ _ => False) (rules := [ruleFG])
    (r := cutRunner) (r1 := cut1) (f := 10) (k := 1) (m := 3) rfl (fun _ eg => ordOK eg) discContiguous (hooksOK _ _) (fun k hk => by cases hk)
    (areRules' _) (hist6 _) rfl (by decide) (by decide) rfl rfl ⟨rfl, fun _ => rfl, rfl, rfl⟩ (by decide)
    (fun _ => Nat.zero_le _) (fun _ => Nat.zero_le _)
  refine ⟨c + 10, cut1.followedBy (cutLim 4) cut2, ?_, rfl, rfl, rfl⟩
  exact hc 10

/-- The back-off scheduler with match limit 1 and ban length 1, on the e-graph with f a and f b. -/
def bo11 : Backoff := (Backoff.default.withInitialMatchLimit 1).withBanLength 1
def boRunner (n : Nat) : Runner Ex.S Unit Backoff Unit := { runner bo11 with egraph := e4, limits := cutLim n }
def boCut1 : Runner Ex.S Unit Backoff Unit := stR bo11 ((boRunner 1).run renv Backoff.scheduler [] [ruleFG] 10)
def boCut2 : Runner Ex.S Unit Backoff Unit := stR bo11 ((boCut1.resume bo11 (cutLim 1)).run renv Backoff.scheduler [] [ruleFG] 10)
def boWhole : Runner Ex.S Unit Backoff Unit := stR bo11 ((boRunner 2).run renv Backoff.scheduler [] [ruleFG] 10)

end Ex

/-- **C99**, the restriction to the simple scheduler is needed: a new back-off scheduler does not know the bans of the old one.
Two runs of one iteration each only ban the rule; one run of two iterations applies it. -/
theorem c99_backoff_counterexample :
    Ex.boCut1.stopReason = some (.iterationLimit 1) ∧ Ex.boCut2.stopReason = some (.iterationLimit 1) ∧ Ex.boWhole.stopReason = some (.iterationLimit 2) ∧
    (Ex.boRunner 1).run Ex.renv Backoff.scheduler [] [Ex.ruleFG] 10 = .ok Ex.boCut1 ∧
    (Ex.boCut1.resume Ex.bo11 (Ex.cutLim 1)).run Ex.renv Backoff.scheduler [] [Ex.ruleFG] 10 = .ok Ex.boCut2 ∧
    (Ex.boRunner 2).run Ex.renv Backoff.scheduler [] [Ex.ruleFG] 10 = .ok Ex.boWhole ∧
    Ex.boCut2.egraph.nodes.length = 4 ∧ Ex.boWhole.egraph.nodes.length = 6 := ⟨rfl, rfl, rfl, rfl, rfl, rfl, rfl, rfl⟩

end Egg
