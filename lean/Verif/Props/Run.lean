import Verif.Lemmas.Run
import Verif.ExampleRun
/-
C25-C28: runs.
-/
namespace Egg
variable {Op D S H : Type} [DecidableEq Op] [Lang Op]
variable {A : UserAnalysis Op D} {depth : Nat} {allow : Caller Op D}
variable {env : RunEnv Op D} {sch : Scheduler Op D S} {hooks : List (Hook Op D H)} {rules : List (Rewrite Op D)}
  {eqs : List (Term (PatOp Op) × Term (PatOp Op))} {Q : Term Op → Term Op → Prop}
  {r r' : Runner Op D S H} {U : List (UnionRec Op)}

/-! ### C25 -/

/-- A run is a sequence of API calls; every union among them is one made by a hook or
equates the two sides of an instance of a rule. -/
theorem c25_run_reach (hN : env.analysis = A.at depth) (hord : ∀ i eg, (env.ord i eg).OK eg)
    (hd : DiscContiguous Op) (hs : sch.Honest env) (hh : HooksOK (A.at depth) allow Q hooks)
    (hr : AreRules (A.at depth) rules eqs) (h : Hist (A.at depth) allow U r.egraph) {f : Nat}
    (hrun : r.run env sch hooks rules f = .ok r') :
    r'.egraph.clean = true ∧ ∃ V, Steps (A.at depth) allow r.egraph V r'.egraph ∧
      ∀ u ∈ V, Q u.s u.t ∨ RuleInstance eqs u.s u.t ∨ RuleInstance eqs u.t u.s := by
  unfold Runner.run at hrun
  rw [bind_eq_ok] at hrun
  obtain ⟨⟨eg, n⟩, h1, h2⟩ := hrun
  rw [hN] at h1
  have rc : Reach (A.at depth) allow (RunEquation eqs Q) r.egraph eg := Reach.rebuild h1
  obtain ⟨c2, rc2⟩ := Runner.runLoop_reach hN hord hd hs hh hr f _ _ ([] ++ U) (Steps.trans h (.single (.rebuild h1))) (EGraph.rebuild_clean h1) h2
  exact ⟨c2, rc.trans rc2⟩

/-- **C25.**  Equality saturation is sound.  Take any e-graph `r.egraph` with a history of
unions `U`, any list of rules (with or without conditions), any scheduler that only selects
among found matches, any limits, any hooks that unite only terms related by `Q`.  If the run
returns, any two terms in the same class at the end are related by every congruence `R` that
contains the initial equalities, the instances of the rules and `Q` (and whatever the
analysis may unite in `modify`). -/
theorem c25_eqsat_sound {R : Term Op → Term Op → Prop} (hR : IsCongruence R) (hA : SoundFor A R hR)
    (hN : env.analysis = A.at depth) (hord : ∀ i eg, (env.ord i eg).OK eg)
    (hd : DiscContiguous Op) (hs : sch.Honest env) (hh : HooksOK (A.at depth) allow Q hooks)
    (hr : AreRules (A.at depth) rules eqs) (h : Hist (A.at depth) allow U r.egraph)
    (hU : ∀ s t, eqsOf U s t → R s t) (hI : ∀ s t, RuleInstance eqs s t → R s t) (hQ : ∀ s t, Q s t → R s t)
    {f : Nat} (hrun : r.run env sch hooks rules f = .ok r')
    {a b : Id} {s t : Term Op} (hab : SameClass r'.egraph a b) (ha : Rep r'.egraph a s) (hb : Rep r'.egraph b t) : R s t := by
  obtain ⟨_, V, s1, q1⟩ := c25_run_reach hN hord hd hs hh hr h hrun
  refine c02_no_spurious_equality hR hA (Steps.trans h s1) (fun s t hst => ?_) hab ha hb
  obtain ⟨u, hu, rfl, rfl⟩ := hst
  rcases List.mem_append.1 hu with hu | hu
  · rcases q1 u hu with hq | hq | hq
    · exact hQ _ _ hq
    · exact hI _ _ hq
    · exact hR.symm (hI _ _ hq)
  · exact hU _ _ ⟨u, hu, rfl, rfl⟩



/-- C25 on the example: any two terms equated by the run follow from `a = b` and the rule.
The run does equate `f a` and `g b`. -/
example {s t : Term Ex.S} {a b : Id} (hab : SameClass Ex.done1.egraph a b) (ha : Rep Ex.done1.egraph a s) (hb : Rep Ex.done1.egraph b t) :
    GEq (fun s t => eqsOf [Ex.un] s t ∨ RuleInstance [(Ex.termFx, Ex.termGx)] s t) s t :=
  c25_eqsat_sound (A := Ex.U0) (depth := 1) (allow := .all) (env := Ex.renv) (sch := simpleScheduler) (hooks := [])
    (Q := fun _ _ => False) (rules := [Ex.ruleFG]) (r := Ex.runner ()) (f := 10) .geq (soundFor_of_quiet (fun _ => rfl) _ _)
    rfl (fun _ eg => Ex.ordOK eg) Ex.discContiguous simple_honest (Ex.hooksOK _ _) (Ex.areRules' _) (Ex.hist6 _)
    (fun _ _ h => .ax (Or.inl h)) (fun _ _ h => .ax (Or.inr h)) (fun _ _ h => h.elim) (r' := Ex.done1) rfl hab ha hb

example : Rep Ex.done1.egraph 2 Ex.tfa ∧ Rep Ex.done1.egraph 2 (.node .g [Ex.tb]) :=
  ⟨Ex.rep_app1 (r := 4) (i := 0) rfl rfl (by decide) (Ex.rep_leaf (r := 0) rfl rfl (by decide)),
    Ex.rep_app1 (r := 4) (i := 0) rfl rfl (by decide) (Ex.rep_leaf (r := 0) rfl rfl (by decide))⟩

/-! ### C27 -/

/-- The loop, with what is known after it. -/
theorem Runner.runLoop_stops (hs : sch.Limited env) : ∀ (f : Nat) (r r' : Runner Op D S H), runLoop env sch hooks rules f r = .ok r' →
    ∃ reason new last, r'.stopReason = some reason ∧ r'.iterations = r.iterations ++ new ++ [last] ∧
      (∀ it ∈ new, it.stopReason = none) ∧
      r'.iterations.length ≤ max (r.iterations.length + 1) r.limits.iterLimit ∧
      (last.stopReason = some reason ∨ last.stopReason = none ∧ ∃ k, r.limits.check env k r'.iterations.length r'.egraph = some reason) ∧
      StopJustified env hooks r.limits r' last reason ∧ r'.limits = r.limits ∧ r'.roots = r.roots := by
  intro f
  induction f with
  | zero => intro r r' h; cases h
  | succ f ih =>
    intro r r' h
    unfold runLoop at h
    rw [bind_eq_ok] at h
    obtain ⟨⟨r1, it⟩, h1, h⟩ := h
    have fr := runOne_frame h1
    dsimp only at h
    split at h
    · next reason hr =>
      cases h
      refine ⟨reason, [], it, rfl, by simp [fr.its], by simp, by simp [fr.its], Or.inl hr, ?_, fr.lim, fr.roots⟩
      rcases runOne_reason hs h1 hr with ⟨rfl, k1, k2, k3⟩ | ⟨msg, rfl, k, hk, h0, eg, h', eg', q⟩ | ⟨k, eg, n, hk, hb⟩
      · exact ⟨k1, k2, k3⟩
      · exact ⟨k, hk, h0, eg, r.iterations, h', eg', q⟩
      · unfold RunnerLimits.check at hk
        split_ifs at hk with c1 c2 c3
        · cases hk; exact ⟨c1, k, rfl⟩
        · cases hk; exact ⟨c2, Or.inr ⟨eg, n, rfl, hb⟩⟩
        · cases hk; exact ⟨c3, by simp [fr.its]⟩
    · next hr =>
      split at h
      · next reason hk =>
        cases h
        have hk' : r.limits.check env r1.tick (r1.iterations ++ [it]).length r1.egraph = some reason := by rw [← fr.lim]; exact hk
        refine ⟨reason, [], it, rfl, by simp [fr.its], by simp, by simp [fr.its], Or.inr ⟨hr, r1.tick, hk'⟩, ?_, fr.lim, fr.roots⟩
        unfold RunnerLimits.check at hk'
        split_ifs at hk' with c1 c2 c3
        · cases hk'; exact ⟨c1, _, rfl⟩
        · cases hk'; exact ⟨c2, Or.inl rfl⟩
        · cases hk'; exact ⟨c3, le_refl _⟩
      · next hk =>
        obtain ⟨reason, new, last, k1, k2, k3, k4, k5, k6, k7, k8⟩ := ih _ _ h
        have hlim : (r1.iterations ++ [it]).length < r.limits.iterLimit := by
          rw [← fr.lim]
          unfold Runner.check RunnerLimits.check at hk
          split_ifs at hk with c1 c2 c3
          simpa using c3
        dsimp only at k2 k4 k5 k6 k7 k8
        rw [fr.lim] at k4 k5 k6 k7
        rw [fr.its] at k2 hlim k4
        refine ⟨reason, it :: new, last, k1, by rw [k2]; simp, ?_, ?_, k5, k6, k7, by rw [k8, fr.roots]⟩
        · intro it' hit
          rcases List.mem_cons.1 hit with rfl | hit
          · exact hr
          · exact k3 it' hit
        · simp only [List.length_append, List.length_singleton] at hlim k4
          omega

/-- **C27.**  Whatever the rules, the scheduler and the hooks do, a run that returns has
a stop reason; it has recorded at least one iteration, and no more than the iteration limit
(or one, if the limit was reached before it started); no iteration but the last has a
stop reason; the stop reason comes from the last iteration, or from exceeding a limit after
it; and the reason given is true:  `StopJustified`.  The roots and limits are untouched. -/
theorem c27_run_stops (hs : sch.Limited env) {f : Nat} (hrun : r.run env sch hooks rules f = .ok r') :
    ∃ reason new last, r'.stopReason = some reason ∧ r'.iterations = r.iterations ++ new ++ [last] ∧
      (∀ it ∈ new, it.stopReason = none) ∧
      r'.iterations.length ≤ max (r.iterations.length + 1) r.limits.iterLimit ∧
      (last.stopReason = some reason ∨ last.stopReason = none ∧ ∃ k, r.limits.check env k r'.iterations.length r'.egraph = some reason) ∧
      StopJustified env hooks r.limits r' last reason ∧ r'.limits = r.limits ∧ r'.roots = r.roots := by
  unfold Runner.run at hrun
  rw [bind_eq_ok] at hrun
  obtain ⟨⟨eg, n⟩, h1, h2⟩ := hrun
  have := Runner.runLoop_stops hs f _ _ h2
  exact this

theorem Runner.runLoop_bound : ∀ (n : Nat) (f f' : Nat) (r : Runner Op D S H), r.limits.iterLimit - r.iterations.length ≤ n →
    max 1 n ≤ f → max 1 n ≤ f' → runLoop env sch hooks rules f r = runLoop env sch hooks rules f' r := by
  intro n
  induction n with
  | zero =>
    intro f f' r hn hf hf'
    rcases f with _ | f
    · omega
    rcases f' with _ | f'
    · omega
    unfold runLoop
    cases ho : runOne env sch hooks rules r with
    | error e => rfl
    | ok x =>
      obtain ⟨r1, it⟩ := x
      have fr := runOne_frame ho
      rw [ok_bind, ok_bind]
      dsimp only
      split
      · rfl
      · split
        · rfl
        · next hk =>
          exfalso
          unfold Runner.check RunnerLimits.check at hk
          split_ifs at hk with c1 c2 c3
          dsimp only at c3
          rw [fr.lim, fr.its] at c3
          simp at c3
          omega
  | succ n ih =>
    intro f f' r hn hf hf'
    rcases f with _ | f
    · omega
    rcases f' with _ | f'
    · omega
    unfold runLoop
    cases ho : runOne env sch hooks rules r with
    | error e => rfl
    | ok x =>
      obtain ⟨r1, it⟩ := x
      have fr := runOne_frame ho
      rw [ok_bind, ok_bind]
      dsimp only
      split
      · rfl
      · split
        · rfl
        · next hk =>
          unfold Runner.check RunnerLimits.check at hk
          split_ifs at hk with c1 c2 c3
          dsimp only at c3
          rw [fr.lim, fr.its] at c3
          simp at c3
          refine ih f f' _ ?_ (by omega) (by omega)
          dsimp only
          rw [fr.lim, fr.its]
          simp
          omega

/-- **C27.**  The loop of `run` ends after at most `iter_limit` iterations: granting the model
more of them makes no difference. -/
theorem c27_bounded {f : Nat} (hf : max 1 (r.limits.iterLimit - r.iterations.length) ≤ f) :
    r.run env sch hooks rules f = r.run env sch hooks rules (max 1 (r.limits.iterLimit - r.iterations.length)) := by
  unfold Runner.run
  cases ho : r.egraph.rebuild env.analysis env.fuel with
  | error e => rfl
  | ok x =>
    rw [ok_bind, ok_bind]
    exact Runner.runLoop_bound _ _ _ _ (le_refl _) hf (le_refl _)

/-- C27 on the example: the run ends as saturated after two iterations; with iteration limit 1 it
ends for that reason, after one; and with limit 0 too. -/
example : Ex.done1.stopReason = some .saturated ∧ Ex.done1.iterations.length = 2 := ⟨rfl, rfl⟩
example : ∃ r', Runner.run Ex.renv simpleScheduler [] [Ex.ruleFG] 10 { Ex.runner () with limits := ⟨1, 100, 100⟩ } = .ok r' ∧
    r'.stopReason = some (.iterationLimit 1) ∧ r'.iterations.length = 1 := ⟨_, rfl, rfl, rfl⟩
example : ∃ r', Runner.run Ex.renv simpleScheduler [] [Ex.ruleFG] 10 { Ex.runner () with limits := ⟨0, 100, 100⟩ } = .ok r' ∧
    r'.stopReason = some (.iterationLimit 0) ∧ r'.iterations.length = 1 := ⟨_, rfl, rfl, rfl⟩
example : ∃ r', Runner.run Ex.renv simpleScheduler [] [Ex.ruleFG] 10 { Ex.runner () with limits := ⟨9, 4, 100⟩ } = .ok r' ∧
    r'.stopReason = some (.nodeLimit 5) := ⟨_, rfl, rfl⟩
example : ∃ r', Runner.run Ex.renv simpleScheduler [fun h eg its => .ok (h, eg, if its.length = 1 then some "stop" else none)] [Ex.ruleFG] 10
    (Ex.runner ()) = .ok r' ∧ r'.stopReason = some (.other "stop") ∧ r'.iterations.length = 2 := ⟨_, rfl, rfl, rfl⟩

end Egg
