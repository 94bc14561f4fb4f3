import Verif.Lemmas.Still
import Verif.Props.Below
import Verif.Props.Least
/-
C80: an e-graph that is closed under the rules is recognised as saturated.
-/
namespace Egg
variable {Op D : Type} [DecidableEq Op] [Lang Op]
variable {A : UserAnalysis Op D} {depth : Nat} {allow : Caller Op D} {U : List (UnionRec Op)} {eg0 : EGraph Op D}

theorem simple_counting {env : RunEnv Op D} : (simpleScheduler : Scheduler Op D Unit).Counting env := by
  intro s i eg rw ms s' eg' n h
  obtain ⟨⟨eg1, ids⟩, h1, h2⟩ := bind_eq_ok.1 h
  cases h2
  exact ⟨ms, ids, h1, Part.refl' _, rfl⟩

theorem backoff_counting {env : RunEnv Op D} : (Backoff.scheduler : Scheduler Op D Backoff).Counting env := by
  intro s i eg rw ms s' eg' n h
  obtain ⟨⟨eg1, ids⟩, h1, h2⟩ := bind_eq_ok.1 h
  cases h2
  exact ⟨ms, ids, h1, Part.refl' _, rfl⟩

theorem Still.start (hA : ∀ i, A.modify i = .done) (h : Hist (A.at depth) allow U eg0) (hc : eg0.clean = true) (ha : eg0.apending.queue = []) :
    Still eg0 (Full.of_hist h hc) eg0 :=
  ⟨Under.of_below hA h (fun c s t h1 h2 => ⟨c, h1, h2⟩), (c47_clean_means_rebuilt h hc).pending, ha, fun _ _ h => h, rfl, rfl⟩

section
variable {S H : Type} {env : RunEnv Op D} {sch : Scheduler Op D S} {hooks : List (Hook Op D H)} {rules : List (Rewrite Op D)}
  {eqs : List (Term (PatOp Op) × Term (PatOp Op))} {r r' : Runner Op D S H} {k : Nat}

/-- **C80.**  Rules do nothing to an e-graph that is closed under them.  Let `eg0` be the rebuilt e-graph of the
runner, and closed under the rules.  Then no iteration of a run reports an application of a rule or a union during the rebuild,
every one starts with the size and number of classes of `eg0`, the final e-graph has them as well, and the same terms are
equal in it.  And the run does not end because of the node limit, unless `eg0` exceeds it. -/
theorem c80_nothing_happens (hA : ∀ i, A.modify i = .done) (hN : env.analysis = A.at depth) (hord : ∀ i eg, (env.ord i eg).OK eg)
    (hd : DiscContiguous Op) (hs : sch.Honest env) (hcount : sch.Counting env) (hlim : sch.Limited env) (hh : HooksRead hooks)
    (hr : ∀ rw' ∈ rules, ∃ tl t, (tl, t) ∈ eqs ∧ TightRule rw' tl t)
    (h : Hist (A.at depth) allow U r.egraph) (hreb : r.egraph.rebuild (A.at depth) env.fuel = .ok (eg0, k))
    (hcl : ∀ tl t, (tl, t) ∈ eqs → ClosedUnder eg0 tl t) {f : Nat} (hrun : r.run env sch hooks rules f = .ok r') :
    (∃ its, r'.iterations = r.iterations ++ its ∧ ∀ it ∈ its, it.applied = [] ∧ it.egraphNodes = eg0.totalSize ∧
      it.egraphClasses = eg0.numberOfClasses ∧ it.nRebuilds = 0) ∧
    r'.egraph.totalSize = eg0.totalSize ∧ r'.egraph.numberOfClasses = eg0.numberOfClasses ∧
    (∀ s t, (∃ c, Rep r'.egraph c s ∧ Rep r'.egraph c t) ↔ ∃ c, Rep eg0 c s ∧ Rep eg0 c t) ∧
    (eg0.totalSize ≤ r.limits.nodeLimit → ∀ n, r'.stopReason ≠ some (.nodeLimit n)) := by
  have h0 : Hist (A.at depth) allow ([] ++ U) eg0 := Steps.trans h (.single (.rebuild hreb))
  have hc0 := EGraph.rebuild_clean hreb
  have hF := Full.of_hist h0 hc0
  unfold Runner.run at hrun
  rw [hN, hreb] at hrun
  obtain ⟨u, its, h1, h2, reason, h3, h4, -⟩ := Runner.runLoop_still (M := eg0) (hM := hF) hA hN hord hd hs hcount hlim hh hr
    (fun tl t ht => closedTerms_of hF (hcl tl t ht)) f { r with egraph := eg0 } r' _ h0 hc0 (Still.start hA h0 hc0 (rebuilt_tidy h hreb).2.apending) hrun
  refine ⟨⟨its, h1, h2⟩, u.size, u.classes, fun s t => ⟨fun ⟨c, a, b⟩ => u.under.below c s t a b, fun ⟨c, a, b⟩ => ⟨c, u.kept _ _ a, u.kept _ _ b⟩⟩,
    fun hsz n hn => ?_⟩
  rw [h3] at hn
  cases hn
  rcases h4 with e | ⟨msg, e, -⟩ | ⟨k, i, eg, e1, e2⟩
  · cases e
  · cases e
  · unfold RunnerLimits.check at e2
    rw [e1] at e2
    split at e2
    · cases e2
    · rw [if_neg (by dsimp only; omega)] at e2
      split at e2 <;> cases e2

theorem saturates_of_closed (hA : ∀ i, A.modify i = .done) (hN : env.analysis = A.at depth) (hord : ∀ i eg, (env.ord i eg).OK eg)
    (hd : DiscContiguous Op) (hs : sch.Honest env) (hcount : sch.Counting env) (hlim : sch.Limited env) (hh : HooksRead hooks)
    (hr : ∀ rw' ∈ rules, ∃ tl t, (tl, t) ∈ eqs ∧ TightRule rw' tl t)
    (h : Hist (A.at depth) allow U r.egraph) (hreb : r.egraph.rebuild (A.at depth) env.fuel = .ok (eg0, k))
    (hcl : ∀ tl t, (tl, t) ∈ eqs → ClosedTerms eg0 tl t)
    (hstop : ∀ s i s' b, sch.canStop s i = .ok (s', b) → b = true)
    (hpass : ∀ k ∈ hooks, ∀ h eg its h' eg' msg, k h eg its ≠ .ok (h', eg', some msg))
    (htime : ∀ k, env.elapsed k ≤ r.limits.timeLimit) (hnode : eg0.totalSize ≤ r.limits.nodeLimit)
    (hiter : r.iterations.length < r.limits.iterLimit) {f : Nat} (hrun : r.run env sch hooks rules f = .ok r') :
    r'.stopReason = some .saturated ∧ r'.iterations.length = r.iterations.length + 1 := by
  have h0 : Hist (A.at depth) allow ([] ++ U) eg0 := Steps.trans h (.single (.rebuild hreb))
  have hc0 := EGraph.rebuild_clean hreb
  have hF := Full.of_hist h0 hc0
  unfold Runner.run at hrun
  rw [hN, hreb] at hrun
  obtain ⟨u, its, h1, h2, reason, h3, -, h4⟩ := Runner.runLoop_still (M := eg0) (hM := hF) hA hN hord hd hs hcount hlim hh hr
    (fun tl t ht => hcl tl t ht) f { r with egraph := eg0 } r' _ h0 hc0 (Still.start hA h0 hc0 (rebuilt_tidy h hreb).2.apending) hrun
  obtain ⟨h5, h6⟩ := h4 hstop
  refine ⟨?_, by rw [h1, List.length_append, h5]⟩
  rw [h3]
  rcases h6 with e | ⟨msg, e, k, hk, h0, eg, its, h', eg', q⟩ | ⟨k, eg, e1, e2⟩
  · rw [e]
  · exact absurd q (hpass k hk _ _ _ _ _ _)
  · unfold RunnerLimits.check at e2
    dsimp only at e2
    rw [if_neg (by have := htime k; omega), if_neg (by rw [e1]; omega), if_neg (by omega)] at e2
    cases e2

/-- **C80.**  An e-graph that is closed under the rules is recognised: with a scheduler that never refuses to stop,
such as the `SimpleScheduler`, and if no limit is exceeded at the start and no hook returns an error, the run stops after one
iteration with `Saturated`. -/
theorem c80_saturates (hA : ∀ i, A.modify i = .done) (hN : env.analysis = A.at depth) (hord : ∀ i eg, (env.ord i eg).OK eg)
    (hd : DiscContiguous Op) (hs : sch.Honest env) (hcount : sch.Counting env) (hlim : sch.Limited env) (hh : HooksRead hooks)
    (hr : ∀ rw' ∈ rules, ∃ tl t, (tl, t) ∈ eqs ∧ TightRule rw' tl t)
    (h : Hist (A.at depth) allow U r.egraph) (hreb : r.egraph.rebuild (A.at depth) env.fuel = .ok (eg0, k))
    (hcl : ∀ tl t, (tl, t) ∈ eqs → ClosedUnder eg0 tl t)
    (hstop : ∀ s i s' b, sch.canStop s i = .ok (s', b) → b = true)
    (hpass : ∀ k ∈ hooks, ∀ h eg its h' eg' msg, k h eg its ≠ .ok (h', eg', some msg))
    (htime : ∀ k, env.elapsed k ≤ r.limits.timeLimit) (hnode : eg0.totalSize ≤ r.limits.nodeLimit)
    (hiter : r.iterations.length < r.limits.iterLimit) {f : Nat} (hrun : r.run env sch hooks rules f = .ok r') :
    r'.stopReason = some .saturated ∧ r'.iterations.length = r.iterations.length + 1 := by
  have h0 : Hist (A.at depth) allow ([] ++ U) eg0 := Steps.trans h (.single (.rebuild hreb))
  exact saturates_of_closed hA hN hord hd hs hcount hlim hh hr h hreb
    (fun tl t ht => closedTerms_of (Full.of_hist h0 (EGraph.rebuild_clean hreb)) (hcl tl t ht)) hstop hpass htime hnode hiter hrun

end

section
variable {H : Type} {env : RunEnv Op D} {hooks : List (Hook Op D H)} {rules : List (Rewrite Op D)}
  {eqs : List (Term (PatOp Op) × Term (PatOp Op))} {r r' : Runner Op D Unit H} {eg1 : EGraph Op D}

theorem SaturatedRun.apending (hd : DiscContiguous Op) (h : Hist (A.at depth) allow U eg0) (hs : SaturatedRun A depth eqs eg0 eg1) :
    eg1.apending.queue = [] := by
  obtain ⟨k1, k2, k3, k4, k5, k6, k7, k8, rfl, k10, k11, k12⟩ := hs
  have ht : AreTightRules _ eqs := k8.1
  obtain ⟨V, eg2, fuel, n, h1, h2⟩ := Runner.run_last k1 k2 hd k3 (k7.ok (N := A.at depth) (allow := allow)) ht.areRules h k10
  exact (rebuilt_tidy h1 h2).2.apending

/-- **C80, C26.**  Running again: if a run, with whatever scheduler, ended with `Saturated`, then another run with the same
rules and the `SimpleScheduler`, in which no limit is exceeded at the start, stops after one iteration with `Saturated`. -/
theorem c80_again (hA : ∀ i, A.modify i = .done) (hcyc : (A.at depth).allowCycles = true) (hd : DiscContiguous Op)
    (h : Hist (A.at depth) allow U eg0) (hsat : SaturatedRun A depth eqs eg0 eg1)
    (hN : env.analysis = A.at depth) (hord : ∀ i eg, (env.ord i eg).OK eg) (hh : HooksRead hooks)
    (hr : ∀ rw' ∈ rules, ∃ tl t, (tl, t) ∈ eqs ∧ TightRule rw' tl t) (he : r.egraph = eg1)
    (hpass : ∀ k ∈ hooks, ∀ h eg its h' eg' msg, k h eg its ≠ .ok (h', eg', some msg))
    (htime : ∀ k, env.elapsed k ≤ r.limits.timeLimit) (hnode : eg1.totalSize ≤ r.limits.nodeLimit)
    (hiter : r.iterations.length < r.limits.iterLimit) {f : Nat} (hrun : r.run env simpleScheduler hooks rules f = .ok r') :
    r'.stopReason = some .saturated ∧ r'.iterations.length = r.iterations.length + 1 := by
  obtain ⟨⟨V, hV⟩, -, hc1, hcl⟩ := hsat.facts hcyc hd h
  subst he
  have hap := hsat.apending hd h
  have hrun' := hrun
  unfold Runner.run at hrun'
  obtain ⟨⟨eg2, n⟩, h1, -⟩ := bind_eq_ok.1 hrun'
  rw [hN] at h1
  have hst := ((Still.start hA hV hc1 hap).rebuild hA h1).1
  have h2 : Hist (A.at depth) allow ([] ++ V) eg2 := Steps.trans hV (.single (.rebuild h1))
  refine saturates_of_closed hA hN hord hd simple_honest simple_counting simple_limited hh hr hV h1 (fun tl t ht τ s w d hs hw hds => ?_) ?_ hpass htime
    (by rw [hst.size]; exact hnode) hiter hrun
  · obtain ⟨d', hd'⟩ := hst.under.rep hds
    have hw' := closedTerms_of (Full.of_hist hV hc1) (hcl tl t ht) τ s w d' hs hw hd'
    exact hst.under.good.inv.rep_congr (hst.under.good.inv.rep_lt hds)
      (EGraph.InvW.rep_unique hst.under.good.inv hst.pending s (hst.kept _ _ hd') hds) (hst.kept _ _ hw')
  · intro s i s' b hb; cases hb; rfl

end

/-! ### Examples -/

/-- The run of C75 with the rules `(f ?x) => (g ?x)` and `(f ?x) => ?x` took two iterations; the next run takes one. -/
def Ex.runnerC : Runner Ex.S Unit Unit Unit := { (Runner.new () () : Runner Ex.S Unit Unit Unit) with egraph := Ex.runA.egraph }
def Ex.runC : Runner Ex.S Unit Unit Unit := Ex.stR () (Ex.runnerC.run Ex.renv simpleScheduler [] [Ex.ruleFX, Ex.ruleFG] 10)

example : Ex.runA.iterations.map (fun it => (it.applied.length, it.egraphNodes, it.egraphClasses)) = [(2, 3, 3), (0, 5, 1)] := by decide +kernel

example : Ex.runC.stopReason = some .saturated ∧ Ex.runC.iterations.length = 1 :=
  c80_again (A := Ex.U0) (depth := 1) (eqs := Ex.eqs2) (env := Ex.renv) (hooks := []) (r := Ex.runnerC) (r' := Ex.runC) (f := 10) (fun _ => rfl) rfl Ex.discContiguous
    Ex.histS1 Ex.satA rfl (fun _ eg => Ex.ordOK eg) (fun k hk => by cases hk) Ex.rulesAre.2.1 rfl (fun k hk => by cases hk)
    (fun _ => Nat.zero_le _) (by decide +kernel) (by decide) rfl

/-- With the `BackoffScheduler`. -/
def Ex.runnerE : Runner Ex.S Unit Backoff Unit := { (Runner.new Ex.bo () : Runner Ex.S Unit Backoff Unit) with egraph := Ex.runA.egraph }
def Ex.runE : Runner Ex.S Unit Backoff Unit := Ex.stR .default (Ex.runnerE.run Ex.renv Backoff.scheduler [] [Ex.ruleFX, Ex.ruleFG] 10)

example : (∃ its, Ex.runE.iterations = [] ++ its ∧ ∀ it ∈ its, it.applied = [] ∧ it.egraphNodes = Ex.runA.egraph.totalSize ∧
      it.egraphClasses = Ex.runA.egraph.numberOfClasses ∧ it.nRebuilds = 0) ∧
    Ex.runE.egraph.totalSize = Ex.runA.egraph.totalSize ∧ Ex.runE.egraph.numberOfClasses = Ex.runA.egraph.numberOfClasses ∧
    (∀ s t, (∃ c, Rep Ex.runE.egraph c s ∧ Rep Ex.runE.egraph c t) ↔ ∃ c, Rep Ex.runA.egraph c s ∧ Rep Ex.runA.egraph c t) ∧
    (Ex.runA.egraph.totalSize ≤ 10000 → ∀ n, Ex.runE.stopReason ≠ some (.nodeLimit n)) := by
  obtain ⟨⟨V, hV⟩, -, hc1, hcl⟩ := Ex.satA.facts rfl Ex.discContiguous Ex.histS1
  exact c80_nothing_happens (A := Ex.U0) (depth := 1) (eqs := Ex.eqs2) (env := Ex.renv) (sch := Backoff.scheduler) (hooks := []) (rules := [Ex.ruleFX, Ex.ruleFG])
    (r := Ex.runnerE) (r' := Ex.runE) (f := 10) (k := 0) (fun _ => rfl) rfl
    (fun _ eg => Ex.ordOK eg) Ex.discContiguous backoff_honest backoff_counting backoff_limited (fun k hk => by cases hk) Ex.rulesAre.2.1 hV rfl hcl rfl

example : Ex.runE.iterations.length = 1 ∧ Ex.runE.stopReason = some .saturated := by decide +kernel


end Egg
