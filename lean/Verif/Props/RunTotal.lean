import Verif.Lemmas.RunTotal
import Mathlib.Tactic.NormNum
/-
C94: a run does not panic, and it ends.
-/
namespace Egg
variable {Op D S H : Type} [DecidableEq Op] [Lang Op]
variable {A : UserAnalysis Op D} {depth : Nat} {allow : Caller Op D} {E : Err → Prop} {env : RunEnv Op D} {i : Nat}
variable {sch : Scheduler Op D S} {I : Nat → S → Prop} {hooks : List (Hook Op D H)} {rules : List (Rewrite Op D)}
  {r r' : Runner Op D S H} {U : List (UnionRec Op)} {Q : Term Op → Term Op → Prop}

namespace Runner

theorem runHooks_post {N : Analysis Op D} {its : List Iteration} : ∀ (ks : List (Hook Op D H)), HooksOK N allow Q ks →
    HooksErrorsIn E N allow ks → ∀ (h : H) (eg : EGraph Op D) (U : List (UnionRec Op)), Hist N allow U eg → eg.clean = true →
    Post E (runHooks its ks h eg) (fun _ => True) := by
  intro ks
  induction ks with
  | nil => intro _ _ h eg U _ _; trivial
  | cons k ks ih =>
    intro hk hk' h eg U hh hc
    unfold runHooks
    cases h1 : k h eg its with
    | error e => exact hk' k (by simp) U h eg its e hh hc h1
    | ok x =>
      obtain ⟨h', eg', o⟩ := x
      obtain ⟨c1, V, s1, _⟩ := hk k (by simp) _ _ _ _ _ _ hc h1
      rw [ok_bind]
      dsimp only
      cases o with
      | some msg => trivial
      | none => exact ih (fun k h => hk k (by simp [h])) (fun k h => hk' k (by simp [h])) _ _ _ (Steps.trans hh s1) c1

theorem hookPhase_post (hh : HooksOK (A.at depth) allow Q hooks) (he : HooksErrorsIn E (A.at depth) allow hooks)
    (h : Hist (A.at depth) allow U r.egraph) (hc : r.egraph.clean = true) :
    Post E (hookPhase env hooks r) (fun x => (∃ U', Hist (A.at depth) allow U' x.1.egraph) ∧ x.1.egraph.clean = true ∧ Frame r x.1 ∧
      x.1.scheduler = r.scheduler ∧ (x.2 = none → r.iterations.length < r.limits.iterLimit)) := by
  have hp : Post E (hookPhase env hooks r) (fun _ => True) := by
    unfold hookPhase
    split
    · trivial
    · refine Post.bind (runHooks_post hooks hh he _ _ _ h hc) ?_
      rintro ⟨h1, eg, o⟩ _
      trivial
  refine Post.mono (EGraph.Post.and hp (Q := fun x => (∃ U', Hist (A.at depth) allow U' x.1.egraph) ∧ x.1.egraph.clean = true ∧ Frame r x.1 ∧
      x.1.scheduler = r.scheduler ∧ (x.2 = none → r.iterations.length < r.limits.iterLimit)) ?_) (fun x h => h.2)
  rintro ⟨r1, o⟩ h1
  obtain ⟨c1, V, s1, _⟩ := hookPhase_reach hh hc h1
  obtain ⟨f1, f2⟩ := hookPhase_frame h1
  refine ⟨⟨_, Steps.trans h s1⟩, c1, f1, f2, ?_⟩
  intro ho
  dsimp only at ho
  unfold hookPhase at h1
  split at h1
  · cases h1; cases ho
  · next hck =>
    unfold check RunnerLimits.check at hck
    split at hck
    · cases hck
    · split at hck
      · cases hck
      · split at hck
        · cases hck
        · omega

theorem searchPhase_post (hs : sch.AddsNoError env r.limits I) {j : Nat} (hI : I r.iterations.length r.scheduler)
    (hr : ∀ rw' ∈ rules, ∀ limit, ∃ ms, rw'.searcher.search env.analysis r.egraph (env.ord r.iterations.length r.egraph) limit = .ok ms)
    {o : Option StopReason} (ho : o = none → r.iterations.length < r.limits.iterLimit) :
    Post E (searchPhase env sch rules r o) (fun x => Frame r x.1 ∧ x.1.egraph = r.egraph ∧
      ∃ j, I j x.1.scheduler ∧ ∀ mss, x.2 = .ok mss → o = none ∧ j = r.iterations.length + 1) := by
  unfold searchPhase
  cases o with
  | some s => exact ⟨⟨rfl, rfl, rfl, rfl⟩, rfl, _, hI, fun _ h => by cases h⟩
  | none =>
    obtain ⟨s', tick', res, h1, h2⟩ := hs.search r.scheduler r.tick _ r.egraph rules hI (ho rfl) hr
    dsimp only
    rw [h1]
    exact ⟨⟨rfl, rfl, rfl, rfl⟩, rfl, _, h2, fun _ _ => ⟨rfl, rfl⟩⟩

theorem applyEachRule_post (hN : env.analysis = A.at depth) {lim : RunnerLimits} (hs : sch.AddsNoError env lim I) {egS : EGraph Op D} {j i : Nat}
    (h : Hist (A.at depth) allow U egS) (hc : egS.clean = true) :
    ∀ (l : List (Rewrite Op D × List (SearchMatches Op))) (r : Runner Op D S H) (ap : AMap Symbol Nat) (V : List (UnionRec Op)),
    (∀ rw' ms, (rw', ms) ∈ l → Found env i egS rw' ms ∧ RuleRuns E env (A.at depth) allow rw') →
    Steps (A.at depth) allow egS V r.egraph → I j r.scheduler →
    Post E (applyEachRule env sch l r ap) (fun x => Frame r x.1 ∧ I j x.1.scheduler ∧ ∃ W, Steps (A.at depth) allow egS W x.1.egraph) := by
  intro l
  induction l with
  | nil => intro r ap V _ hst hI; exact ⟨⟨rfl, rfl, rfl, rfl⟩, hI, V, hst⟩
  | cons x l ih =>
    intro r ap V hl hst hI
    obtain ⟨rw', ms⟩ := x
    obtain ⟨hf, hrr⟩ := hl rw' ms (by simp)
    unfold applyEachRule
    obtain ⟨ms', hp, k1, k2⟩ := hs.apply r.scheduler j r.iterations.length r.egraph rw' ms hI
    have hpost := hrr.apply U egS i ms ms' V r.egraph h hc hf hp hst
    rw [hN] at k1 k2
    have : Post E (sch.applyRewrite env r.scheduler r.iterations.length r.egraph rw' ms) (fun x => I j x.1 ∧
        ∃ W, Steps (A.at depth) allow egS W x.2.1) := by
      cases ha : rw'.applier.applyMatches (A.at depth) r.egraph ms' rw'.name with
      | error e => rw [k1 e ha]; rw [ha] at hpost; exact hpost
      | ok y =>
        obtain ⟨eg', ids⟩ := y
        obtain ⟨s', n, q1, q2⟩ := k2 eg' ids ha
        rw [q1]
        rw [ha] at hpost
        obtain ⟨W, hW⟩ := hpost
        exact ⟨q2, _, Steps.trans hst hW⟩
    refine Post.bind this ?_
    rintro ⟨s, eg, n⟩ ⟨i1, W, s1⟩
    dsimp only
    split
    · exact ⟨⟨rfl, rfl, rfl, rfl⟩, i1, W, s1⟩
    · refine Post.mono (ih _ _ W (fun a b hab => hl a b (by simp [hab])) s1 i1) ?_
      rintro x ⟨f1, f2, f3⟩
      exact ⟨⟨f1.its, f1.lim, f1.stop, f1.roots⟩, f2, f3⟩

/-- An iteration up to the rebuild. -/
def prepare (env : RunEnv Op D) (sch : Scheduler Op D S) (hooks : List (Hook Op D H)) (rules : List (Rewrite Op D))
    (r : Runner Op D S H) : Res (Runner Op D S H × Runner Op D S H × AMap Symbol Nat × Option StopReason) := do
  let (r1, res1) ← hookPhase env hooks r
  let (r2, ms) ← searchPhase env sch rules r1 res1
  let (r3, applied, res3) ← applyPhase env sch rules r2 ms
  return (r1, r3, applied, res3)

/-- The end of an iteration, after the rebuild. -/
def finish (sch : Scheduler Op D S) (r r1 r3 : Runner Op D S H) (applied : AMap Symbol Nat) (res3 : Option StopReason)
    (eg : EGraph Op D) (nRebuilds : Nat) : Res (Runner Op D S H × Iteration) := do
  let (r4, quiet) ← quietPhase sch applied { r3 with egraph := eg }
  let saturated := quiet
    && decide (r.egraph.totalSize = r1.egraph.totalSize) && decide (r.egraph.numberOfClasses = r1.egraph.numberOfClasses)
    && decide (r.egraph.totalSize = r4.egraph.totalSize) && decide (r.egraph.numberOfClasses = r4.egraph.numberOfClasses)
  let result := match res3 with
    | some s => some s
    | none => if saturated then some .saturated else none
  return (r4, { applied := applied, egraphNodes := r.egraph.totalSize, egraphClasses := r.egraph.numberOfClasses
                nRebuilds := nRebuilds, stopReason := result })

theorem runOne_eq (hst : r.stopReason = none) : runOne env sch hooks rules r = (do
    let (r1, r3, applied, res3) ← prepare env sch hooks rules r
    let (eg, nRebuilds) ← r3.egraph.rebuild env.analysis env.fuel
    finish sch r r1 r3 applied res3 eg nRebuilds) := by
  unfold runOne prepare finish
  rw [hst]
  simp only [Option.isSome_none, Bool.false_eq_true, if_false, bind_assoc, pure_bind]
  rfl

theorem prepare_post (hA : EGraph.HookOK anyCfg E (A.at depth)) (hN : env.analysis = A.at depth) (hord : ∀ i eg, (env.ord i eg).OK eg) (hd : DiscContiguous Op)
    (hs : sch.AddsNoError env r.limits I) (hh1 : sch.Honest env)
    (hh : HooksOK (A.at depth) allow Q hooks) (he : HooksErrorsIn E (A.at depth) allow hooks)
    (hr : ∀ rw' ∈ rules, RuleErrorsIn E (A.at depth) allow rw')
    (h : Hist (A.at depth) allow U r.egraph) (hc : r.egraph.clean = true) (hI : I r.iterations.length r.scheduler) :
    Post E (prepare env sch hooks rules r) (fun x => Frame r x.2.1 ∧ (∃ U', Hist (A.at depth) allow U' x.2.1.egraph) ∧
      ∃ j, I j x.2.1.scheduler ∧ (x.2.2.2 = none → j = r.iterations.length + 1 ∧ r.iterations.length < r.limits.iterLimit)) := by
  unfold prepare
  refine Post.bind (hookPhase_post hh he h hc) ?_
  rintro ⟨r1, res1⟩ ⟨⟨U1, h1⟩, c1, f1, e1, l1⟩
  dsimp only at h1 c1 f1 e1 l1 ⊢
  have hs1 : sch.AddsNoError env r1.limits I := by rw [f1.lim]; exact hs
  have hsp : Post E (searchPhase env sch rules r1 res1) _ := EGraph.Post.and (searchPhase_post (E := E) (j := 0) hs1 (o := res1) (by rw [f1.its, e1]; exact hI)
    (fun rw' hrw limit => ((hr rw' hrw).runs hA hN hord hd).search _ _ _ h1 c1 limit) (by rw [f1.its, f1.lim]; exact l1))
    (fun x hx => (show ∀ mss, x.2 = .ok mss → ∀ rw' ms, (rw', ms) ∈ rules.zip mss → Found env r1.iterations.length r1.egraph rw' ms from by
      intro mss hm rw' ms hz
      unfold searchPhase at hx
      split at hx
      · cases hx; cases hm
      · rw [bind_eq_ok] at hx
        obtain ⟨⟨s, tick, ms0⟩, k1, k2⟩ := hx
        cases k2
        dsimp only at hm
        subst hm
        exact hh1.search _ _ _ _ _ _ _ _ _ k1 rw' ms hz))
  refine Post.bind hsp ?_
  rintro ⟨r2, ms⟩ ⟨⟨f2, e2, j, i2, hj⟩, hfound⟩
  dsimp only at f2 e2 i2 hj hfound ⊢
  have hap : Post E (applyPhase env sch rules r2 ms) (fun x => Frame r2 x.1 ∧ I j x.1.scheduler ∧ (∃ W, Steps (A.at depth) allow r1.egraph W x.1.egraph) ∧
      (x.2.2 = none → ∃ mss, ms = .ok mss)) := by
    unfold applyPhase
    split
    · exact ⟨⟨rfl, rfl, rfl, rfl⟩, i2, ⟨[], by rw [e2]; exact .refl⟩, fun h => by cases h⟩
    · next mss =>
      refine Post.mono (applyEachRule_post (E := E) (i := r1.iterations.length) hN hs h1 c1 (rules.zip mss) r2 [] [] (fun rw' ms' hm => ⟨hfound mss rfl rw' ms' hm,
        (hr rw' (List.of_mem_zip hm).1).runs hA hN hord hd⟩) (by rw [e2]; exact .refl) i2) ?_
      rintro x ⟨k1, k2, k3⟩
      exact ⟨k1, k2, k3, fun _ => ⟨mss, rfl⟩⟩
  refine Post.bind hap ?_
  rintro ⟨r3, applied, res3⟩ ⟨f3, i3, ⟨W, s3⟩, hn⟩
  dsimp only at f3 i3 s3 hn
  refine ⟨f1.trans (f2.trans f3), ⟨_, Steps.trans h1 s3⟩, j, i3, fun hr3 => ?_⟩
  obtain ⟨mss, hm⟩ := hn hr3
  obtain ⟨g1, g2⟩ := hj mss hm
  exact ⟨by rw [g2, f1.its], l1 g1⟩

theorem finish_ok {lim : RunnerLimits} (hs : sch.AddsNoError env lim I) {r1 r3 : Runner Op D S H} {applied : AMap Symbol Nat} {res3 : Option StopReason}
    {eg : EGraph Op D} {n j : Nat} (hI : I j r3.scheduler) :
    ∃ r4 it, finish sch r r1 r3 applied res3 eg n = .ok (r4, it) ∧ I j r4.scheduler ∧ Frame r3 r4 ∧ r4.egraph = eg ∧
      (it.stopReason = none → res3 = none) := by
  unfold finish quietPhase
  have hres : ∀ b : Bool, (match res3 with
    | some s => some s
    | none => if b then some StopReason.saturated else none) = none → res3 = none := by
    intro b hb
    cases res3 with
    | none => rfl
    | some s => cases hb
  by_cases ha : applied.isEmpty = true
  · rw [if_pos ha]
    obtain ⟨s', b, h1, h2⟩ := hs.stop r3.scheduler j r3.iterations.length hI
    dsimp only
    rw [h1]
    exact ⟨_, _, rfl, h2, ⟨rfl, rfl, rfl, rfl⟩, rfl, hres _⟩
  · rw [if_neg ha]
    exact ⟨_, _, rfl, hI, ⟨rfl, rfl, rfl, rfl⟩, rfl, hres _⟩

theorem runLoop_post (hE : E .fuel) (hA : EGraph.HookOK anyCfg E (A.at depth)) (hN : env.analysis = A.at depth) (hord : ∀ i eg, (env.ord i eg).OK eg) (hd : DiscContiguous Op)
    {lim : RunnerLimits} (hs : sch.AddsNoError env lim I) (hh1 : sch.Honest env)
    (hh : HooksOK (A.at depth) allow Q hooks) (he : HooksErrorsIn E (A.at depth) allow hooks)
    (hr : ∀ rw' ∈ rules, RuleErrorsIn E (A.at depth) allow rw') : ∀ (f : Nat) (r : Runner Op D S H) (U : List (UnionRec Op)),
    Hist (A.at depth) allow U r.egraph → r.egraph.clean = true → r.limits = lim → r.stopReason = none → I r.iterations.length r.scheduler →
    Post E (runLoop env sch hooks rules f r) (fun _ => True) := by
  intro f
  induction f with
  | zero => intro r U _ _ _ _ _; exact hE
  | succ f ih =>
    intro r U h hc hlim hst hI
    unfold runLoop
    rw [runOne_eq hst]
    refine Post.bind (P := fun x : Runner Op D S H × Iteration => (∃ U', Hist (A.at depth) allow U' x.1.egraph) ∧ x.1.egraph.clean = true ∧ Frame r x.1 ∧
      (x.2.stopReason = none → I (r.iterations.length + 1) x.1.scheduler)) ?_ ?_
    · refine Post.bind (prepare_post hA hN hord hd (by rw [hlim]; exact hs) hh1 hh he hr h hc hI) ?_
      rintro ⟨r1, r3, applied, res3⟩ ⟨f3, ⟨U3, h3⟩, j, i3, hj⟩
      dsimp only at f3 h3 i3 hj ⊢
      rw [hN]
      have hreb := EGraph.Post.and (EGraph.rebuild_post hE hA env.fuel (hist_good h3)) (Q := fun x => EGraph.rebuild (A.at depth) env.fuel r3.egraph = .ok x) (fun a h => h)
      refine Post.bind hreb ?_
      rintro ⟨eg, n⟩ ⟨⟨_, _, _, k1⟩, k2⟩
      dsimp only at k1 k2 ⊢
      obtain ⟨r4, it, q1, q2, q3, q4, q5⟩ := finish_ok (r := r) (r1 := r1) (applied := applied) (res3 := res3) (eg := eg) (n := n) hs i3
      rw [q1]
      refine ⟨⟨[] ++ U3, ?_⟩, by rw [q4]; exact k1, f3.trans q3, fun hit => ?_⟩
      · dsimp only; rw [q4]; exact Steps.trans h3 (.single (.rebuild k2))
      · rw [← (hj (q5 hit)).1]; exact q2
    · rintro ⟨r4, it⟩ ⟨⟨U4, h4⟩, c4, f4, i4⟩
      dsimp only at h4 c4 f4 i4 ⊢
      split
      · trivial
      · next hit =>
        split
        · trivial
        · refine ih _ U4 h4 c4 (f4.lim.trans hlim) (f4.stop.trans hst) ?_
          dsimp only
          rw [List.length_append, f4.its]
          exact i4 hit

end Runner

/-- **C94, no panic.**  A run of pattern rules, conditional rules and multi-pattern rules accepted by `Rewrite::new`
does not panic, from any reachable e-graph (rebuilt or not) and in any iteration, provided that the code of the
user does not: the analysis, the conditions and the hooks; and the scheduler adds no errors of its own (see
`c94_simple`, `c94_backoff` for those of the library).  It may only run on. -/
theorem c94_no_panic (hA : NoUserPanic A) (hN : env.analysis = A.at depth) (hord : ∀ i eg, (env.ord i eg).OK eg) (hd : DiscContiguous Op)
    (hs : sch.AddsNoError env r.limits I) (hI : I r.iterations.length r.scheduler) (hh1 : sch.Honest env)
    (hh : HooksOK (A.at depth) allow Q hooks) (he : HooksErrorsIn OnlyFuel (A.at depth) allow hooks)
    (hr : ∀ rw' ∈ rules, RuleErrorsIn OnlyFuel (A.at depth) allow rw')
    (h : Hist (A.at depth) allow U r.egraph) (hst : r.stopReason = none) (f : Nat) :
    r.run env sch hooks rules f ≠ .error .panic := by
  have hA' : EGraph.HookOK anyCfg OnlyFuel (A.at depth) := UserAnalysis.OK.hookOK (E := fun e => e = .fuel) rfl hA depth
  have hp : Post OnlyFuel (r.run env sch hooks rules f) (fun _ => True) := by
    unfold Runner.run
    rw [hN]
    have hreb := EGraph.Post.and (EGraph.rebuild_post (show OnlyFuel .fuel from rfl) hA' env.fuel (hist_good h))
      (Q := fun x => EGraph.rebuild (A.at depth) env.fuel r.egraph = .ok x) (fun a h => h)
    refine Post.bind hreb ?_
    rintro ⟨eg, n⟩ ⟨⟨_, _, _, k1⟩, k2⟩
    exact Runner.runLoop_post (E := OnlyFuel) rfl hA' hN hord hd hs hh1 hh he hr f _ _ (Steps.trans h (.single (.rebuild k2))) k1 rfl hst hI
  intro hx
  rw [hx] at hp
  cases hp

/-! ### The end of a run -/

theorem Runner.prepare_fuel (hf : sch.IgnoresFuel) (fuel : Nat) (r : Runner Op D S H) :
    Runner.prepare { env with fuel := fuel } sch hooks rules r = Runner.prepare env sch hooks rules r := by
  obtain ⟨h1, h2⟩ := hf env fuel
  have key : ∀ (l : List (Rewrite Op D × List (SearchMatches Op))) (r : Runner Op D S H) (ap : AMap Symbol Nat),
      Runner.applyEachRule { env with fuel := fuel } sch l r ap = Runner.applyEachRule env sch l r ap := by
    intro l
    induction l with
    | nil => intro r ap; rfl
    | cons x l ih =>
      intro r ap
      obtain ⟨rw', ms⟩ := x
      unfold Runner.applyEachRule
      rw [h2]
      congr 1
      funext y
      obtain ⟨s, eg, n⟩ := y
      dsimp only
      have hc : ∀ r : Runner Op D S H, Runner.check { env with fuel := fuel } r = Runner.check env r := fun _ => rfl
      rw [hc]
      split
      · rfl
      · exact ih _ _
  have e1 : ∀ r : Runner Op D S H, Runner.hookPhase { env with fuel := fuel } hooks r = Runner.hookPhase env hooks r := fun _ => rfl
  have e2 : ∀ (r : Runner Op D S H) o, Runner.searchPhase { env with fuel := fuel } sch rules r o = Runner.searchPhase env sch rules r o := by
    intro r o
    unfold Runner.searchPhase
    rw [h1]
  have e3 : ∀ (r : Runner Op D S H) ms, Runner.applyPhase { env with fuel := fuel } sch rules r ms = Runner.applyPhase env sch rules r ms := by
    intro r ms
    unfold Runner.applyPhase
    cases ms with
    | error s => rfl
    | ok mss => exact key _ _ _
  unfold Runner.prepare
  rw [e1]
  simp only [e2, e3]

theorem Runner.runLoop_total {α : Type} [Preorder α] [WellFoundedLT α] {rank : D → α} (hA : FiniteImprovement A rank)
    (hN : env.analysis = A.at (depth + 1)) (hord : ∀ i eg, (env.ord i eg).OK eg) (hd : DiscContiguous Op)
    {lim : RunnerLimits} (hs : sch.AddsNoError env lim I) (hh1 : sch.Honest env) (hf : sch.IgnoresFuel)
    (hh : HooksOK (A.at (depth + 1)) allow Q hooks) (he : HooksErrorsIn NoError (A.at (depth + 1)) allow hooks)
    (hr : ∀ rw' ∈ rules, RuleErrorsIn NoError (A.at (depth + 1)) allow rw') : ∀ (n : Nat) (r : Runner Op D S H) (U : List (UnionRec Op)),
    lim.iterLimit - r.iterations.length ≤ n →
    Hist (A.at (depth + 1)) allow U r.egraph → r.egraph.clean = true → r.limits = lim → r.stopReason = none → I r.iterations.length r.scheduler →
    ∃ f0 r', ∀ fuel f, f0 ≤ fuel → max 1 (lim.iterLimit - r.iterations.length) ≤ f →
      runLoop { env with fuel := fuel } sch hooks rules f r = .ok r' := by
  intro n
  induction n with
  | zero => ?_
  | succ n ih => ?_
  all_goals
    intro r U hn h hc hlim hst hI
    obtain ⟨⟨r1, r3, applied, res3⟩, hb, f3, ⟨U3, h3⟩, j, i3, hj⟩ := Post.exists_ok
      (prepare_post (E := NoError) hA.hookOK hN hord hd (by rw [hlim]; exact hs) hh1 hh he hr h hc hI)
    dsimp only at f3 h3 i3 hj
    obtain ⟨f0, ⟨eg, k⟩, hreb⟩ := c09_rebuild_terminates hA h3
    obtain ⟨r4, it, q1, q2, q3, q4, q5⟩ := finish_ok (r := r) (r1 := r1) (applied := applied) (res3 := res3) (eg := eg) (n := k) hs i3
    have hone : ∀ fuel, f0 ≤ fuel → runOne { env with fuel := fuel } sch hooks rules r = .ok (r4, it) := by
      intro fuel hfuel
      rw [runOne_eq hst, prepare_fuel hf, hb, ok_bind]
      dsimp only
      rw [hN, hreb fuel hfuel, ok_bind]
      exact q1
    have hchk : ∀ (fuel : Nat) (r : Runner Op D S H), Runner.check { env with fuel := fuel } r = Runner.check env r := fun _ _ => rfl
    cases hit : it.stopReason with
    | some s =>
      refine ⟨f0, { r4 with iterations := r4.iterations ++ [it], stopReason := some s }, fun fuel f hfuel hff => ?_⟩
      obtain ⟨f, rfl⟩ : ∃ f', f = f' + 1 := ⟨f - 1, by omega⟩
      unfold runLoop
      rw [hone fuel hfuel, ok_bind]
      dsimp only
      rw [hit]
      rfl
    | none => ?_
    obtain ⟨hj1, hj2⟩ := hj (q5 hit)
    rw [hlim] at hj2
  · omega
  · have f4 := f3.trans q3
    cases hck : Runner.check env { r4 with iterations := r4.iterations ++ [it] } with
    | some s =>
      refine ⟨f0, { r4 with iterations := r4.iterations ++ [it], tick := r4.tick + 1, stopReason := some s }, fun fuel f hfuel hff => ?_⟩
      obtain ⟨f, rfl⟩ : ∃ f', f = f' + 1 := ⟨f - 1, by omega⟩
      unfold runLoop
      rw [hone fuel hfuel, ok_bind]
      dsimp only
      rw [hit, hchk]
      dsimp only
      rw [hck]
      rfl
    | none =>
      have hlen : (r4.iterations ++ [it]).length = r.iterations.length + 1 := by rw [List.length_append, f4.its]; rfl
      have hlt : r.iterations.length + 1 < lim.iterLimit := by
        unfold check RunnerLimits.check at hck
        dsimp only at hck
        rw [hlen, f4.lim, hlim] at hck
        split at hck
        · cases hck
        · split at hck
          · cases hck
          · split at hck
            · cases hck
            · omega
      have hreb0 := hreb f0 (Nat.le_refl _)
      obtain ⟨f1, r', hrec⟩ := ih { r4 with iterations := r4.iterations ++ [it], tick := r4.tick + 1 } ([] ++ U3) (by dsimp only; omega)
        (by dsimp only; rw [q4]; exact Steps.trans h3 (.single (.rebuild hreb0)))
        (by dsimp only; rw [q4]; exact EGraph.rebuild_clean hreb0) (f4.lim.trans hlim) (f4.stop.trans hst)
        (by dsimp only; rw [hlen, ← hj1]; exact q2)
      refine ⟨max f0 f1, r', fun fuel f hfuel hff => ?_⟩
      obtain ⟨f, rfl⟩ : ∃ f', f = f' + 1 := ⟨f - 1, by omega⟩
      unfold runLoop
      rw [hone fuel (by omega), ok_bind]
      dsimp only
      rw [hit, hchk]
      dsimp only
      rw [hck]
      exact hrec fuel f (by omega) (by dsimp only; omega)

theorem Runner.runLoop_stopped : ∀ (f : Nat) (r r' : Runner Op D S H), Runner.runLoop env sch hooks rules f r = .ok r' → r'.stopReason.isSome := by
  intro f
  induction f with
  | zero => intro r r' h; cases h
  | succ f ih =>
    intro r r' h
    unfold Runner.runLoop at h
    obtain ⟨⟨r1, it⟩, _, h⟩ := bind_eq_ok.1 h
    dsimp only at h
    split at h
    · cases h; rfl
    · split at h
      · cases h; rfl
      · exact ih _ _ h

/-- **C94, a run ends.**  With an analysis that can improve a datum only finitely often and changes nothing in
`modify`, and conditions and hooks that return, every run of pattern rules, conditional rules and multi-pattern
rules returns: there is a result `r'` and a number of rounds of `rebuild` from which on, with as many iterations as
the limit allows, the run returns `r'`. -/
theorem c94_terminates {α : Type} [Preorder α] [WellFoundedLT α] {rank : D → α} (hA : FiniteImprovement A rank)
    (hN : env.analysis = A.at (depth + 1)) (hord : ∀ i eg, (env.ord i eg).OK eg) (hd : DiscContiguous Op)
    (hs : sch.AddsNoError env r.limits I) (hI : I r.iterations.length r.scheduler) (hh1 : sch.Honest env) (hf : sch.IgnoresFuel)
    (hh : HooksOK (A.at (depth + 1)) allow Q hooks) (he : HooksErrorsIn NoError (A.at (depth + 1)) allow hooks)
    (hr : ∀ rw' ∈ rules, RuleErrorsIn NoError (A.at (depth + 1)) allow rw')
    (h : Hist (A.at (depth + 1)) allow U r.egraph) (hst : r.stopReason = none) :
    ∃ f0 r', r'.stopReason.isSome ∧ ∀ fuel f, f0 ≤ fuel → max 1 (r.limits.iterLimit - r.iterations.length) ≤ f →
      r.run { env with fuel := fuel } sch hooks rules f = .ok r' := by
  obtain ⟨f0, ⟨eg, k⟩, hreb⟩ := c09_rebuild_terminates hA h
  have hreb0 := hreb f0 (Nat.le_refl _)
  obtain ⟨f1, r', hrun⟩ := Runner.runLoop_total hA hN hord hd hs hh1 hf hh he hr _ { r with egraph := eg } _ (Nat.le_refl _)
    (Steps.trans h (.single (.rebuild hreb0))) (EGraph.rebuild_clean hreb0) rfl hst hI
  have hall : ∀ fuel f, max f0 f1 ≤ fuel → max 1 (r.limits.iterLimit - r.iterations.length) ≤ f →
      r.run { env with fuel := fuel } sch hooks rules f = .ok r' := by
    intro fuel f h1 h2
    unfold Runner.run
    have hreb' : r.egraph.rebuild env.analysis fuel = .ok (eg, k) := by rw [hN]; exact hreb fuel (by omega)
    dsimp only
    rw [hreb', ok_bind]
    exact hrun fuel f (by omega) h2
  refine ⟨max f0 f1, r', ?_, hall⟩
  exact Runner.runLoop_stopped _ _ _ (hrun f1 _ (Nat.le_refl _) (Nat.le_refl _))

/-- **C94, once.**  A runner whose stop reason is set cannot be run again: `run` panics (unless its first `rebuild`
already runs on), also if there is nothing to do. -/
theorem c94_again_panics (hs : r.stopReason.isSome) (f : Nat) :
    ∀ eg n, r.egraph.rebuild env.analysis env.fuel = .ok (eg, n) → r.run env sch hooks rules (f + 1) = .error .panic := by
  intro eg n hreb
  unfold Runner.run
  rw [hreb, ok_bind]
  unfold Runner.runLoop Runner.runOne
  dsimp only
  rw [if_pos hs]
  rfl

/-- Hence running twice panics: the result of a run has a stop reason. -/
theorem c94_twice_panics {f f' : Nat} (hrun : r.run env sch hooks rules f = .ok r') {eg : EGraph Op D} {n : Nat}
    (hreb : r'.egraph.rebuild env.analysis env.fuel = .ok (eg, n)) : r'.run env sch hooks rules (f' + 1) = .error .panic := by
  refine c94_again_panics ?_ f' eg n hreb
  unfold Runner.run at hrun
  obtain ⟨⟨eg0, n0⟩, _, hl⟩ := bind_eq_ok.1 hrun
  exact Runner.runLoop_stopped f _ _ hl

/-! ### Conditions and schedulers of the library -/

/-- **C94.**  `ConditionEqual` does not panic if the analysis does not. -/
theorem c94_equal {p1 p2 : Pattern Op} {t1 t2 : Term (PatOp Op)} (h1 : IsPattern p1 t1) (h2 : IsPattern p2 t2) :
    (NoUserPanic A → (Condition.equal p1 p2).ErrorsIn OnlyFuel (A.at depth) allow) ∧
    (∀ {α : Type} [Preorder α] [WellFoundedLT α] {rank : D → α}, FiniteImprovement A rank →
      (Condition.equal p1 p2).ErrorsIn NoError (A.at (depth + 1)) allow) := by
  have key : ∀ (E : Err → Prop) (dp : Nat), EGraph.HookOK anyCfg E (A.at dp) → (Condition.equal p1 p2).ErrorsIn E (A.at dp) allow := by
    intro E dp hA U eg c s e h hc hv hb he
    have hg : EGraph.Good anyCfg eg := hist_good h
    have hb1 := binds_of (p := p1) hg hv (fun v hv' => hb v (List.mem_append.2 (Or.inl hv')))
    have hb2 := binds_of (p := p2) hg hv (fun v hv' => hb v (List.mem_append.2 (Or.inr hv')))
    have : Post E ((Condition.equal p1 p2).check (A.at dp) eg c s) (fun _ => True) := by
      show Post E (do
        let (eg, _, a1) ← applyPat (A.at dp) (List.replicate p1.ast.length 0) p1.ast eg s
        let (eg, _, a2) ← applyPat (A.at dp) (List.replicate p2.ast.length 0) p2.ast eg s
        return (eg, decide (a1 = a2)) : Res (EGraph Op D × Bool)) _
      refine Post.bind (EGraph.applyPat_post hA h1.wf.1 hg hb1 (by simp)) ?_
      rintro ⟨eg1, b1, a1⟩ ⟨k1, k2, -⟩
      refine Post.bind (EGraph.applyPat_post hA h2.wf.1 k1 (hb2.ext k2) (by simp)) ?_
      rintro ⟨eg2, b2, a2⟩ _
      trivial
    rw [he] at this
    exact this
  exact ⟨fun hA => key _ _ (UserAnalysis.OK.hookOK (E := fun e => e = .fuel) rfl hA depth), fun hA => key _ _ hA.hookOK⟩

theorem searchEach_total {search : S → EGraph Op D → Rewrite Op D → Res (S × List (SearchMatches Op))} {lim : RunnerLimits} {eg : EGraph Op D}
    {J : S → Prop} : ∀ (rules : List (Rewrite Op D)), (∀ s, J s → ∀ rw' ∈ rules, ∃ s' ms, search s eg rw' = .ok (s', ms) ∧ J s') →
    ∀ s tick done, J s → ∃ s' tick' res, searchEach search env lim i eg s tick rules done = .ok (s', tick', res) ∧ J s' := by
  intro rules
  induction rules with
  | nil => intro _ s tick done h; exact ⟨s, tick, _, rfl, h⟩
  | cons rw' rules ih =>
    intro hr s tick done h
    obtain ⟨s1, ms, h1, h2⟩ := hr s h rw' (by simp)
    unfold searchEach
    rw [h1, ok_bind]
    dsimp only
    split
    · exact ⟨_, _, _, rfl, h2⟩
    · exact ih (fun s hs rw' hm => hr s hs rw' (by simp [hm])) _ _ _ h2

theorem applyDefault_total {s : S} {eg : EGraph Op D} {rw' : Rewrite Op D} {ms : List (SearchMatches Op)} {P : S → Prop} (h : P s) :
    ∃ ms', Part ms' ms ∧
    (∀ e, rw'.applier.applyMatches env.analysis eg ms' rw'.name = .error e → applyDefault env s eg rw' ms = .error e) ∧
    ∀ eg' ids, rw'.applier.applyMatches env.analysis eg ms' rw'.name = .ok (eg', ids) →
      ∃ s' n, applyDefault env s eg rw' ms = .ok (s', eg', n) ∧ P s' := by
  refine ⟨ms, Part.refl' _, fun e he => ?_, fun eg' ids ho => ⟨s, ids.length, ?_, h⟩⟩
  · unfold applyDefault; rw [he]; rfl
  · unfold applyDefault; rw [ho]; rfl

theorem searchEach_fuel {search : S → EGraph Op D → Rewrite Op D → Res (S × List (SearchMatches Op))} {lim : RunnerLimits} {eg : EGraph Op D} {fuel : Nat} :
    ∀ (rules : List (Rewrite Op D)) s tick done,
    searchEach search { env with fuel := fuel } lim i eg s tick rules done = searchEach search env lim i eg s tick rules done := by
  intro rules
  induction rules with
  | nil => intro s tick done; rfl
  | cons rw' rules ih =>
    intro s tick done
    unfold searchEach
    have hc : ∀ t, lim.check { env with fuel := fuel } t i eg = lim.check env t i eg := fun _ => rfl
    simp only [hc, ih]

/-- **C94.**  `SimpleScheduler` adds no errors. -/
theorem c94_simple (lim : RunnerLimits) : (simpleScheduler : Scheduler Op D Unit).AddsNoError env lim (fun _ _ => True) ∧
    (simpleScheduler : Scheduler Op D Unit).IgnoresFuel where
  left := {
    search := fun s tick i eg rules _ _ hr => searchEach_total (J := fun _ => True) rules (fun s _ rw' hm => by
      obtain ⟨ms, h⟩ := hr rw' hm env.usizeMax
      refine ⟨s, ms, ?_, trivial⟩
      unfold searchDefault
      rw [h]; rfl) s tick [] trivial
    apply := fun s j i eg rw' ms _ => applyDefault_total trivial
    stop := fun s j i _ => ⟨s, true, rfl, trivial⟩ }
  right := fun env fuel => ⟨by
    funext lim s tick i eg rules
    exact searchEach_fuel (search := searchDefault env i) rules s tick [], rfl⟩

/-- **C94.**  `BackoffScheduler` adds no errors in runs of as many iterations as its ban lengths allow; the default
one allows 30 (the default limit of a runner) on machines with at least 33 bits. -/
theorem c94_backoff (lim : RunnerLimits) :
    (Backoff.scheduler : Scheduler Op D Backoff).AddsNoError env lim (Backoff.Moderate env.bits lim.iterLimit) ∧
    (Backoff.scheduler : Scheduler Op D Backoff).IgnoresFuel ∧
    ∀ bits, 33 ≤ bits → Backoff.default.Moderate bits 30 0 := by
  refine ⟨⟨?_, fun s j i eg rw' ms h => applyDefault_total h, ?_⟩, fun env fuel => ⟨by
    funext lim s tick i eg rules
    exact searchEach_fuel (search := Backoff.searchRewrite env i) rules s tick [], rfl⟩, ?_⟩
  · intro b tick i eg rules hI hi hr
    -- during the search a rule banned in this iteration stays banned
    have := searchEach_total (env := env) (lim := lim) (i := i) (eg := eg) (search := Backoff.searchRewrite env i)
      (J := fun b : Backoff => b.WF ∧ ∀ name, (b.ruleStats name).timesBanned ≤ i + 1 ∧
        ((b.ruleStats name).bannedUntil ≤ i → (b.ruleStats name).timesBanned ≤ i) ∧ 1 ≤ (b.ruleStats name).banLength ∧
        lim.iterLimit + (b.ruleStats name).banLength * 2 ^ lim.iterLimit ≤ 2 ^ env.bits) rules ?_ b tick []
      ⟨hI.2.1, fun name => ⟨by have := (hI.2.2 name).1; omega, fun _ => (hI.2.2 name).1, (hI.2.2 name).2⟩⟩
    · obtain ⟨s', tick', res, h1, h2, h3⟩ := this
      exact ⟨s', tick', res, h1, hI.1, h2, fun name => ⟨(h3 name).1, (h3 name).2.2⟩⟩
    · rintro b ⟨hw, hb⟩ rw' hm
      obtain ⟨k1, k2, k3, k4⟩ := hb rw'.name
      have set : ∀ st : RuleStats, st.timesBanned ≤ i + 1 → (st.bannedUntil ≤ i → st.timesBanned ≤ i) → st.banLength = (b.ruleStats rw'.name).banLength →
          (b.setStats rw'.name st).WF ∧ ∀ name, ((b.setStats rw'.name st).ruleStats name).timesBanned ≤ i + 1 ∧
          (((b.setStats rw'.name st).ruleStats name).bannedUntil ≤ i → ((b.setStats rw'.name st).ruleStats name).timesBanned ≤ i) ∧
          1 ≤ ((b.setStats rw'.name st).ruleStats name).banLength ∧
          lim.iterLimit + ((b.setStats rw'.name st).ruleStats name).banLength * 2 ^ lim.iterLimit ≤ 2 ^ env.bits := by
        intro st h1 h2 h3
        refine ⟨Backoff.wf_setStats hw _ _, fun name => ?_⟩
        rw [Backoff.ruleStats_setStats]
        split
        · exact ⟨h1, h2, by rw [h3]; exact k3, by rw [h3]; exact k4⟩
        · exact hb name
      unfold Backoff.searchRewrite
      dsimp only
      by_cases hban : i < (b.ruleStats rw'.name).bannedUntil
      · rw [if_pos hban]
        exact ⟨_, _, rfl, set _ k1 k2 rfl⟩
      · rw [if_neg hban]
        have ht : (b.ruleStats rw'.name).timesBanned ≤ i := k2 (by omega)
        have hbits := hI.1
        have hsh : ∀ x, Backoff.shl env.bits x (b.ruleStats rw'.name).timesBanned = .ok ((x * 2 ^ (b.ruleStats rw'.name).timesBanned) % 2 ^ env.bits) := by
          intro x
          unfold Backoff.shl
          rw [if_pos (by omega)]
        rw [hsh, ok_bind]
        obtain ⟨ms, hms⟩ := hr rw' hm (min ((b.ruleStats rw'.name).matchLimit * 2 ^ (b.ruleStats rw'.name).timesBanned % 2 ^ env.bits + 1) env.usizeMax)
        rw [hms, ok_bind]
        split
        · rw [hsh, ok_bind]
          have hpow : 2 ^ (b.ruleStats rw'.name).timesBanned ≤ 2 ^ lim.iterLimit := Nat.pow_le_pow_right (by omega) (by omega)
          have hmul : (b.ruleStats rw'.name).banLength * 2 ^ (b.ruleStats rw'.name).timesBanned ≤ (b.ruleStats rw'.name).banLength * 2 ^ lim.iterLimit :=
            Nat.mul_le_mul_left _ hpow
          have hpos : 1 ≤ (b.ruleStats rw'.name).banLength * 2 ^ (b.ruleStats rw'.name).timesBanned :=
            Nat.mul_pos k3 (Nat.pow_pos (by omega))
          rw [Nat.mod_eq_of_lt (by omega)]
          unfold Backoff.addUsize
          rw [if_pos (by omega), ok_bind]
          refine ⟨_, _, rfl, set _ ?_ ?_ rfl⟩
          · dsimp only; omega
          · dsimp only; omega
        · exact ⟨_, _, rfl, set _ k1 k2 rfl⟩
  · intro b j i hI
    rcases c28_can_stop (b := b) hI.2.1 i with ⟨_, h⟩ | ⟨b', delta, h1, _, h3, _, h5⟩
    · exact ⟨b, true, h, hI⟩
    · refine ⟨b', false, h1, hI.1, h3, fun name => ?_⟩
      have := h5 name
      split at this
      · rw [this.2]; exact hI.2.2 name
      · rw [this]; exact hI.2.2 name
  · intro bits hb
    refine ⟨by omega, List.nodup_nil, fun name => ⟨Nat.le_refl _, (by show 1 ≤ 5; omega), ?_⟩⟩
    have : 2 ^ 33 ≤ 2 ^ bits := Nat.pow_le_pow_right (by omega) hb
    show 30 + 5 * 2 ^ 30 ≤ 2 ^ bits
    have e1 : (30 + 5 * 2 ^ 30 : Nat) ≤ 2 ^ 33 := by norm_num
    exact Nat.le_trans e1 this

/-! ### Examples -/

theorem equal_onlyAdds {N : Analysis Op D} (p1 p2 : Pattern Op) : OnlyAdds N (Condition.equal p1 p2) := by
  intro eg c s eg' b h
  have he : (do
    let (eg, _, a1) ← applyPat N (List.replicate p1.ast.length 0) p1.ast eg s
    let (eg, _, a2) ← applyPat N (List.replicate p2.ast.length 0) p2.ast eg s
    return (eg, decide (a1 = a2)) : Res (EGraph Op D × Bool)) = .ok (eg', b) := h
  rw [bind_eq_ok] at he
  obtain ⟨⟨eg1, b1, a1⟩, e1, he⟩ := he
  rw [bind_eq_ok] at he
  obtain ⟨⟨eg2, b2, a2⟩, e2, he⟩ := he
  cases he
  exact AddSteps.trans (EGraph.applyPat_steps e1) (EGraph.applyPat_steps e2)

namespace Ex

theorem finU0 : FiniteImprovement U0 (fun _ : Unit => 0) where
  le := fun _ _ => Nat.le_refl _
  lt := fun _ _ h => by cases h
  make := fun _ _ _ _ _ => ⟨_, rfl⟩
  remake := fun _ _ _ _ _ => ⟨_, rfl⟩
  quiet := fun _ => rfl

theorem npU0 : NoUserPanic U0 where
  make := fun _ _ _ _ _ => ⟨trivial, fun _ _ => trivial, fun _ _ => trivial⟩
  remake := fun _ _ _ _ _ => ⟨trivial, fun _ _ => trivial, fun _ _ => trivial⟩
  mergeV := fun _ _ => trivial
  mergeL := fun _ _ => trivial
  mergeR := fun _ _ => trivial
  mergeLub := fun _ _ => trivial
  flagL := fun _ _ _ => trivial
  flagR := fun _ _ _ => trivial
  modify := fun _ _ _ _ _ => trivial

/-- `(f ?x) => (g ?x) if (f ?x) = (g ?x)`. -/
def ruleC : Rewrite Ex.S Unit := ⟨12, patFx.searcher, Applier.conditional (Condition.equal patFx patGx) patGx.applier⟩

/-- A pattern rule, a conditional rule and a multi-pattern rule. -/
theorem threeRules {E : Err → Prop} {N : Analysis Ex.S Unit} {allow : Caller Ex.S Unit}
    (he : (Condition.equal patFx patGx).ErrorsIn E N allow) : ∀ rw' ∈ [ruleFG, ruleC, ruleM], RuleErrorsIn E N allow rw' := by
  intro rw' h
  simp only [List.mem_cons, List.not_mem_nil, or_false] at h
  rcases h with rfl | rfl | rfl
  · exact Or.inl ⟨_, _, patternRule⟩
  · refine Or.inr (Or.inl ⟨patFx, patGx, _, _, _, isPatFx, live, isPatGx, equal_onlyAdds _ _, he, rfl⟩)
  · exact Or.inr (Or.inr ⟨_, _, multiRule⟩)

def runner3 : Runner Ex.S Unit Backoff Unit := { (runner Backoff.default) with limits := ⟨30, 1000, 5⟩ }
def renv64 : RunEnv Ex.S Unit := { renv with bits := 64 }

end Ex

/-- C94 on the example: the run of the three rules with the back-off scheduler neither panics nor goes on for ever. -/
example : (∀ f, Ex.runner3.run Ex.renv64 Backoff.scheduler [] [Ex.ruleFG, Ex.ruleC, Ex.ruleM] f ≠ .error .panic) ∧
    ∃ f0 r', r'.stopReason.isSome ∧ ∀ fuel f, f0 ≤ fuel → 30 ≤ f →
      Ex.runner3.run { Ex.renv64 with fuel := fuel } Backoff.scheduler [] [Ex.ruleFG, Ex.ruleC, Ex.ruleM] f = .ok r' :=
  ⟨fun f => c94_no_panic (A := Ex.U0) (depth := 1) (allow := .all) (env := Ex.renv64) (r := Ex.runner3) (Q := fun _ _ => False) Ex.npU0 rfl (fun _ eg => Ex.ordOK eg) Ex.discContiguous
    (c94_backoff _).1 ((c94_backoff (Op := Ex.S) (D := Unit) (env := Ex.renv64) ⟨30, 0, 0⟩).2.2 64 (by omega)) backoff_honest (Ex.hooksOK _ _) (fun k hk => by cases hk)
    (Ex.threeRules ((c94_equal Ex.isPatFx Ex.isPatGx).1 Ex.npU0)) (Ex.hist6 _) rfl f,
   c94_terminates (A := Ex.U0) (depth := 0) (allow := .all) (env := Ex.renv64) (r := Ex.runner3) (Q := fun _ _ => False) Ex.finU0 rfl (fun _ eg => Ex.ordOK eg) Ex.discContiguous
    (c94_backoff _).1 ((c94_backoff (Op := Ex.S) (D := Unit) (env := Ex.renv64) ⟨30, 0, 0⟩).2.2 64 (by omega)) backoff_honest (c94_backoff (env := Ex.renv64) ⟨30, 0, 0⟩).2.1
    (Ex.hooksOK _ _) (fun k hk => by cases hk)
    (Ex.threeRules ((c94_equal Ex.isPatFx Ex.isPatGx).2 Ex.finU0)) (Ex.hist6 _) rfl⟩

/-- Running twice: the result of the example run, which has saturated, panics when run again. -/
example : Ex.done1.stopReason = some .saturated ∧ Ex.done1.run Ex.renv simpleScheduler [] [Ex.ruleFG] 10 = .error .panic :=
  ⟨rfl, c94_again_panics rfl 9 _ _ rfl⟩

end Egg
