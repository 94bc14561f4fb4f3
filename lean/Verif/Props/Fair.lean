import Verif.Lemmas.Debt
import Verif.Props.Finite
import Verif.Props.Resume
/-
C100: the back-off scheduler is fair, and with it runs saturate too.
-/
namespace Egg
variable {Op D H : Type} [DecidableEq Op] [Lang Op]
variable {A : UserAnalysis Op D} {depth : Nat} {allow : Caller Op D} {U : List (UnionRec Op)} {eg eg0 : EGraph Op D}
variable {env : RunEnv Op D} {hooks : List (Hook Op D H)} {rules : List (Rewrite Op D)}
  {eqs : List (Term (PatOp Op) × Term (PatOp Op))} {r r' : Runner Op D Backoff H}

/-- **C100.**  The back-off scheduler passes over a rule only finitely often, and one can say how often: consider a rule with match limit `m` and
ban length `len`, and a number `B` of matches that it never exceeds at the start of an iteration.  If `m`, doubled `d` times, is at least
`B`, then at most `max 1 len * (2 ^ d - 1)` iterations of the run, however long it is and whatever the other rules do, leave out an
instance of the rule. -/
theorem c100_fair (hN : env.analysis = A.at depth) (hord : ∀ i eg, (env.ord i eg).OK eg) (hd : DiscContiguous Op)
    (hcyc : (A.at depth).allowCycles = true) (hh : HooksRead hooks) (hr : ∀ rw' ∈ rules, ∃ tl t, (tl, t) ∈ eqs ∧ TightRule rw' tl t)
    (hnames : (rules.map (·.name)).Nodup) (h : Hist (A.at depth) allow U r.egraph) (hw : r.scheduler.WF)
    {n : Nat} (hreb : r.egraph.rebuild env.analysis env.fuel = .ok (eg, n))
    {rw' : Rewrite Op D} {tl t : Term (PatOp Op)} (hmem : rw' ∈ rules) (htr : TightRule rw' tl t)
    {m len d B : Nat} (hfresh : r.scheduler.Fresh rw'.name m len) (hcov : Covers env.bits m d B) (hB : B < env.usizeMax)
    (hmost : ∀ k rk, Runner.after env Backoff.scheduler hooks rules k { r with egraph := eg } = some rk → rk.AtMost env rw' B)
    (ks : List Nat) (hks : ks.Nodup) (hp : ∀ k ∈ ks, Runner.PassesOver env Backoff.scheduler hooks rules { r with egraph := eg } tl t k) :
    ks.length ≤ max 1 len * (2 ^ d - 1) := by
  rw [hN] at hreb
  have s1 : Steps (A.at depth) allow r.egraph ([] ++ []) eg := .single (.rebuild hreb)
  have hbound : ∀ ks : List Nat, (∀ k ∈ ks, Runner.PassesOver env Backoff.scheduler hooks rules { r with egraph := eg } tl t k) →
      ∃ n bn, Runner.after env Backoff.scheduler hooks rules n { r with egraph := eg } = some bn ∧ ∀ k ∈ ks, k < n := by
    intro ks
    induction ks with
    | nil => intro _; exact ⟨0, _, rfl, by simp⟩
    | cons k ks ih =>
      intro h
      obtain ⟨n, bn, h1, h2⟩ := ih (fun x hx => h x (by simp [hx]))
      obtain ⟨_, rk1, _, h3, _⟩ := h k (by simp)
      rcases Nat.lt_or_ge k n with hk | hk
      · exact ⟨n, bn, h1, fun x hx => by
          rcases List.mem_cons.1 hx with rfl | hx
          · exact hk
          · exact h2 x hx⟩
      · exact ⟨k + 1, rk1, h3, fun x hx => by
          rcases List.mem_cons.1 hx with rfl | hx
          · omega
          · have := h2 x hx; omega⟩
  obtain ⟨n, bn, h1, h2⟩ := hbound ks hp
  have hf : r.scheduler.ruleStats rw'.name = ⟨0, 0, 0, m, len⟩ := hfresh
  obtain ⟨-, -, -, -, -, hx⟩ := Runner.after_debt (b := { r with egraph := eg }) (d := d) (B := B) hN hord hd hcyc hh hr hnames (Steps.trans h s1)
    (EGraph.rebuild_clean hreb) hw hmem htr hB (by dsimp only; rw [hf]; exact hcov) (by dsimp only; rw [hf]; exact Nat.zero_le _) hmost n bn h1
  have := hx ks hks (fun k hk => ⟨h2 k hk, hp k hk⟩)
  dsimp only at this
  rw [hf] at this
  simp only [RuleStats.debt, Nat.pow_zero, Nat.zero_sub, Nat.zero_add] at this
  omega

/-- **C100.**  With the back-off scheduler, too, a run saturates if what the rules generate is finite (compare C95), provided that the numbers of their
matches are bounded: there is `N`, which depends only on the e-graph and the rules, such that no run, whatever the settings of the scheduler,
makes more than `N` iterations and those in which some rule is passed over.  So if this is below the iteration limit, the run ends with
`Saturated`, unless the time or the node limit is exceeded or a hook returns an error. -/
theorem c100_saturates (hA : ∀ i, A.modify i = .done) (hcyc : (A.at depth).allowCycles = true) (hd : DiscContiguous Op)
    (h : Hist (A.at depth) allow U eg0) (hfin : FinitelyGenerated eg0 eqs) :
    ∃ N, ∀ (H : Type) (env : RunEnv Op D) (hooks : List (Hook Op D H)) (rules : List (Rewrite Op D))
      (r r' : Runner Op D Backoff H) (f : Nat) (m len d B : Symbol → Nat), env.analysis = A.at depth → (∀ i eg, (env.ord i eg).OK eg) →
      HooksRead hooks → RulesAre rules eqs → (rules.map (·.name)).Nodup → r.egraph = eg0 → r.scheduler.WF →
      (∀ name, r.scheduler.Fresh name (m name) (len name)) →
      (∀ rw' ∈ rules, Covers env.bits (m rw'.name) (d rw'.name) (B rw'.name) ∧ B rw'.name < env.usizeMax) →
      (∀ eg n k rk, r.egraph.rebuild env.analysis env.fuel = .ok (eg, n) →
        Runner.after env Backoff.scheduler hooks rules k { r with egraph := eg } = some rk → ∀ rw' ∈ rules, rk.AtMost env rw' (B rw'.name)) →
      r.run env Backoff.scheduler hooks rules f = .ok r' →
      r'.iterations.length ≤ r.iterations.length + N + (rules.map fun rw' => max 1 (len rw'.name) * (2 ^ d rw'.name - 1)).sum ∧
      (r.iterations.length + N + (rules.map fun rw' => max 1 (len rw'.name) * (2 ^ d rw'.name - 1)).sum < r.limits.iterLimit →
        r'.stopReason = some .saturated ∨
        (∃ n, r'.stopReason = some (.nodeLimit n) ∧ r.limits.nodeLimit < n) ∨
        (∃ t k, r'.stopReason = some (.timeLimit t) ∧ r.limits.timeLimit < t ∧ env.elapsed k = t) ∨
        ∃ msg, r'.stopReason = some (.other msg) ∧ ∃ hook ∈ hooks, ∃ h eg its h' eg', hook h eg its = .ok (h', eg', some msg)) := by
  by_cases hv : ∀ tl t, (tl, t) ∈ eqs → ∀ v, Occurs v t → Occurs v tl
  swap
  · refine ⟨0, fun H env hooks rules r r' f m len d B _ _ _ hr => absurd ?_ hv⟩
    intro tl t hm v hv
    obtain ⟨rw', -, lp, rp, h1, -, h2, h3, -, h4⟩ := hr.2 tl t hm
    exact h2 v ((rewrite_new_inv h4).1 v (h3.occurs_vars hv))
  obtain ⟨k, hk⟩ := hfin.climbed (hist_good h) hv
  refine ⟨k + 1, fun H env hooks rules r r' f m len d B hN hord hh hr hnames he hw hfresh hcov hmost hrun => ?_⟩
  subst he
  have hlen : r'.iterations.length ≤ r.iterations.length + (k + 1) + (rules.map fun rw' => max 1 (len rw'.name) * (2 ^ d rw'.name - 1)).sum := by
    unfold Runner.run at hrun
    obtain ⟨⟨eg, n⟩, h1, h2⟩ := bind_eq_ok.1 hrun
    have hmost := fun k rk => hmost eg n k rk h1
    rw [hN] at h1
    have s1 : Steps (A.at depth) allow r.egraph ([] ++ []) eg := .single (.rebuild h1)
    have hf : ∀ name, r.scheduler.ruleStats name = ⟨0, 0, 0, m name, len name⟩ := hfresh
    have hb : BackoffAt A depth allow r.egraph eqs env hooks rules d { r with egraph := eg } :=
      ⟨hN, hord, hh, hr, hnames, ⟨_, Steps.trans h s1⟩, EGraph.rebuild_clean h1, (rebuilt_tidy h h1).2.apending,
        (Inside.start hA h).rebuild hA h1, hw, fun name _ => by dsimp only; rw [hf]; exact Nat.zero_le _, fun rw' hrw =>
          ⟨B rw'.name, (hcov rw' hrw).2, by dsimp only; rw [hf]; exact (hcov rw' hrw).1, by dsimp only; rw [hf]; exact Nat.zero_le _,
            fun k bk hk => hmost k bk hk rw' hrw⟩⟩
    have := Runner.runLoop_climb hA hd hcyc (fun c t => (steps_grow s1 (hist_good h)).2.rep c t) hk f 0 _ r' hb (.refl hb.full) h2
    have hdebt : Runner.debt rules d { r with egraph := eg } = (rules.map fun rw' => max 1 (len rw'.name) * (2 ^ d rw'.name - 1)).sum := by
      unfold Runner.debt
      dsimp only
      simp only [hf, RuleStats.debt, Nat.pow_zero, Nat.zero_sub, Nat.zero_add]
    rw [hdebt] at this
    dsimp only at this
    omega
  refine ⟨hlen, fun hl => ?_⟩
  obtain ⟨reason, new, last, h1, -, -, -, -, h2, -⟩ := c27_run_stops backoff_limited hrun
  rw [h1]
  cases reason with
  | saturated => exact Or.inl rfl
  | iterationLimit n =>
    have h2 : r.limits.iterLimit ≤ n ∧ n ≤ r'.iterations.length := h2
    omega
  | nodeLimit n => exact Or.inr (Or.inl ⟨n, rfl, h2.1⟩)
  | timeLimit t =>
    obtain ⟨h3, k, h4⟩ := h2
    exact Or.inr (Or.inr (Or.inl ⟨t, k, rfl, h3, h4⟩))
  | other msg => exact Or.inr (Or.inr (Or.inr ⟨msg, rfl, h2⟩))

/-! ### Examples -/

namespace Ex

/-- A runner with the rule `f(x) → g(x)`, two matches, match limit 1 and ban length 1. -/
def fairRunner : Runner Ex.S Unit Backoff Unit := boRunner 10
def fairStart : Runner Ex.S Unit Backoff Unit := { fairRunner with egraph := (match fairRunner.egraph.rebuild N0 20 with | .ok (eg, _) => eg | _ => e4) }
def fairAt (k : Nat) : Option (Runner Ex.S Unit Backoff Unit) := Runner.after renv Backoff.scheduler [] [ruleFG] k fairStart

def fair1 : Runner Ex.S Unit Backoff Unit := match fairAt 1 with | some r => r | none => fairStart
def fair2 : Runner Ex.S Unit Backoff Unit := match fairAt 2 with | some r => r | none => fairStart

theorem fairAt_0 : fairAt 0 = some fairStart := rfl
theorem fairAt_1 : fairAt 1 = some fair1 := rfl
theorem fairAt_2 : fairAt 2 = some fair2 := rfl
theorem fairAt_3 : ∀ k, fairAt (k + 3) = none := by
  intro k
  induction k with
  | zero => rfl
  | succ k ih =>
    cases h : fairAt (k + 4) with
    | none => exact h
    | some r =>
      obtain ⟨r1, h1, -⟩ := Runner.after_last (k := k + 3) h
      have h1 : fairAt (k + 3) = some r1 := h1
      rw [ih] at h1
      cases h1

/-- The rule always has two matches. -/
theorem fair_atMost : ∀ k rk, fairAt k = some rk → rk.AtMost renv ruleFG 2 := by
  intro k rk h
  have hk : k = 0 ∨ k = 1 ∨ k = 2 ∨ ∃ j, k = j + 3 := by
    rcases Nat.lt_or_ge k 3 with h | h
    · omega
    · exact Or.inr (Or.inr (Or.inr ⟨k - 3, by omega⟩))
  rcases hk with rfl | rfl | rfl | ⟨j, rfl⟩
  · rw [fairAt_0] at h
    cases h
    exact fun ms hm => by cases hm; decide +kernel
  · rw [fairAt_1] at h
    cases h
    exact fun ms hm => by cases hm; decide +kernel
  · rw [fairAt_2] at h
    cases h
    exact fun ms hm => by cases hm; decide +kernel
  · rw [fairAt_3] at h
    cases h

theorem fair_wf : fairRunner.scheduler.WF := List.nodup_nil

theorem fair_rules : RulesAre [ruleFG] [(termFx, termGx)] := by
  refine ⟨fun rw' h => ?_, fun tl t h => ?_⟩
  · rw [List.mem_singleton.1 h]; exact ⟨_, _, by simp, tightFG⟩
  · simp only [List.mem_singleton, Prod.mk.injEq] at h
    obtain ⟨rfl, rfl⟩ := h
    exact ⟨_, by simp, tightFG⟩

/-- The first iteration passes over the rule. -/
theorem fair_passes : Runner.PassesOver renv Backoff.scheduler [] [ruleFG] fairStart termFx termGx 0 := by
  refine ⟨_, _, fairAt_0, fairAt_1, fun _ => .node .a [], .node .f [.node .a []], .node .g [.node .a []], 2,
    inst_node_iff.2 ⟨_, rfl, .cons .var .nil⟩, inst_node_iff.2 ⟨_, rfl, .cons .var .nil⟩,
    rep_app1 (i := 0) rfl rfl (by decide) (rep_leaf rfl rfl (by decide)), fun h => ?_⟩
  obtain ⟨_, k, n, h1, h0, h2, h3, -⟩ := EGraph.rep_iff.1 h
  cases h1
  have : ∀ n ∈ (fair1.egraph.classes.get? 2).elim [] (·.nodes), n.op ≠ .g := by decide +kernel
  rw [h0] at this
  exact this n h2 h3

/-- A run with this rule saturates, so what it generates is finite. -/
def fairSimple : Runner Ex.S Unit Unit Unit := { runner () with egraph := e4 }
def fairDone : Runner Ex.S Unit Unit Unit := stR () (fairSimple.run renv simpleScheduler [] [ruleFG] 10)
theorem fair_sat : SaturatedRun U0 1 [(termFx, termGx)] e4 fairDone.egraph := by
  refine .mk (env := renv) (sch := simpleScheduler) (hooks := []) (rules := [ruleFG]) (I := fun _ _ => True) (r := fairSimple) (r' := fairDone) (f := 10)
    rfl (fun _ eg => ordOK eg) simple_honest simple_limited (simple_thorough _) trivial (fun k hk => by cases hk) fair_rules rfl rfl rfl ?_
  intro rw' h
  cases List.mem_singleton.1 h
  exact ⟨ord _, _, ordOK _, rfl, by decide⟩

end Ex

/-- The bound is reached: with match limit 1, ban length 1 and two matches one iteration may pass over the rule, and the first one does. -/
example : (∀ ks : List Nat, ks.Nodup → (∀ k ∈ ks, Runner.PassesOver Ex.renv Backoff.scheduler [] [Ex.ruleFG] Ex.fairStart Ex.termFx Ex.termGx k) → ks.length ≤ 1) ∧
    Runner.PassesOver Ex.renv Backoff.scheduler [] [Ex.ruleFG] Ex.fairStart Ex.termFx Ex.termGx 0 :=
  ⟨c100_fair (A := Ex.U0) (depth := 1) (allow := .all) (eqs := [(Ex.termFx, Ex.termGx)]) (r := Ex.fairRunner) (n := 0) (m := 1) (len := 1) (d := 1) (B := 2)
    rfl (fun _ eg => Ex.ordOK eg) Ex.discContiguous rfl (fun k hk => by cases hk) Ex.fair_rules.1 (by simp) (Ex.hist4 _) Ex.fair_wf rfl
    (List.mem_singleton.2 rfl) Ex.tightFG rfl ⟨by decide, by decide⟩ (by decide) Ex.fair_atMost, Ex.fair_passes⟩

/-- The runs of this rule with the back-off scheduler meet the hypotheses of `c100_saturates`; this one takes three iterations, one of which passes over the rule. -/
example : (∃ N, ∀ f r', Ex.fairRunner.run Ex.renv Backoff.scheduler [] [Ex.ruleFG] f = .ok r' → r'.iterations.length ≤ N + 1) ∧
    (Ex.stR Ex.bo11 (Ex.fairRunner.run Ex.renv Backoff.scheduler [] [Ex.ruleFG] 10)).iterations.length = 3 ∧
    (Ex.stR Ex.bo11 (Ex.fairRunner.run Ex.renv Backoff.scheduler [] [Ex.ruleFG] 10)).stopReason = some .saturated := by
  refine ⟨?_, rfl, rfl⟩
  obtain ⟨N, hN⟩ := c100_saturates (A := Ex.U0) (depth := 1) (fun _ => rfl) rfl Ex.discContiguous (Ex.hist4 .all)
    (c95_finite_of_saturated (A := Ex.U0) (depth := 1) (fun _ => rfl) rfl Ex.discContiguous (Ex.hist4 .all) Ex.fair_sat)
  refine ⟨N, fun f r' hrun => ?_⟩
  have := (hN Unit Ex.renv [] [Ex.ruleFG] Ex.fairRunner r' f (fun _ => 1) (fun _ => 1) (fun _ => 1) (fun _ => 2) rfl (fun _ eg => Ex.ordOK eg)
    (fun k hk => by cases hk) Ex.fair_rules (by simp) rfl Ex.fair_wf (fun _ => rfl) (fun _ _ => ⟨⟨by decide, by decide⟩, by decide⟩)
    (fun eg n k rk h1 h2 rw' hrw => by
      cases h1
      cases List.mem_singleton.1 hrw
      exact Ex.fair_atMost k rk h2) hrun).1
  have e : Ex.fairRunner.iterations.length = 0 := rfl
  rw [e] at this
  simp at this
  omega

end Egg
