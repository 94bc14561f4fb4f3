import Verif.Lemmas.ChaseBackoff
import Verif.Lemmas.ChaseFinite
import Verif.Props.ChaseFinite
import Verif.Props.Fair
/-
C104: forward chaining with pattern rules and multi-pattern rules under the back-off scheduler, and runs that end as saturated.
-/
namespace Egg
variable {Op D S H : Type} [DecidableEq Op] [Lang Op]
variable {A : UserAnalysis Op D} {depth : Nat} {allow : Caller Op D} {U : List (UnionRec Op)} {eg0 : EGraph Op D}
variable {env : RunEnv Op D} {hooks : List (Hook Op D H)} {rules : List (Rewrite Op D)} {cs : List (Clause Op)}

section
variable {r r' : Runner Op D Backoff H} {f : Nat}

/-- **C104.**  A run with a new back-off scheduler, the last iteration of which is not cut short.  The rule `rw` has match limit `m`, ban length `len` and never more than `B` matches, and its limit reaches
`B` when it is doubled `d` times.  Then the bans cost at most `max 1 len * (2 ^ d - 1)` iterations per rule: every equality that the rules
derive from the first e-graph in `k` rounds holds in the last e-graph, if there are that many iterations and `k` more. -/
theorem c104_backoff (hN : env.analysis = A.at depth) (hord : ∀ i eg, (env.ord i eg).OK eg) (hd : DiscContiguous Op)
    (hcyc : (A.at depth).allowCycles = true) (hh : HooksRead hooks) (hr : AreClauses rules cs) (hnames : (rules.map (·.name)).Nodup)
    (h : Hist (A.at depth) allow U r.egraph) (hw : r.scheduler.WF) {m len d B : Symbol → Nat}
    (hfresh : ∀ rw' ∈ rules, r.scheduler.Fresh rw'.name (m rw'.name) (len rw'.name))
    (hcov : ∀ rw' ∈ rules, Covers env.bits (m rw'.name) (d rw'.name) (B rw'.name) ∧ B rw'.name < env.usizeMax)
    (hmost : ∀ eg n k rk, r.egraph.rebuild env.analysis env.fuel = .ok (eg, n) →
      Runner.after env Backoff.scheduler hooks rules k { r with egraph := eg } = some rk → ∀ rw' ∈ rules, rk.AtMost env rw' (B rw'.name))
    (hrun : r.run env Backoff.scheduler hooks rules f = .ok r') (hlast : ∀ it, r'.iterations.getLast? = some it → it.Completed)
    {k : Nat} (hk : k + (rules.map fun rw' => max 1 (len rw'.name) * (2 ^ d rw'.name - 1)).sum ≤ r'.iterations.length - r.iterations.length)
    {s t : Term Op} (hst : Chase cs (Equal r.egraph) k s t) : Equal r'.egraph s t := by
  unfold Runner.run at hrun
  obtain ⟨⟨eg, n⟩, h1, h2⟩ := bind_eq_ok.1 hrun
  have hmost := fun k rk => hmost eg n k rk h1
  have hgr := Runner.runLoop_grows _ h2
  rw [hN] at h1
  have s1 : Steps (A.at depth) allow r.egraph ([] ++ []) eg := .single (.rebuild h1)
  have k1 : Hist (A.at depth) allow ([] ++ [] ++ U) eg := Steps.trans h s1
  have hdebt : Runner.debt rules d { r with egraph := eg } = (rules.map fun rw' => max 1 (len rw'.name) * (2 ^ d rw'.name - 1)).sum := by
    unfold Runner.debt
    refine congrArg List.sum (List.map_congr_left fun rw' hrw => ?_)
    dsimp only
    rw [hfresh rw' hrw]
    simp [RuleStats.debt]
  refine (Runner.runLoop_backoff (d := d) hN hord hd hcyc hh hr hnames f { r with egraph := eg } r' _ k1 (EGraph.rebuild_clean h1) hw (fun rw' hrw => ?_) h2 hlast).2 k s t ?_
    (Chase.mono (fun s t => (steps_grow s1 (hist_good h)).2.equal) k hst)
  · refine ⟨B rw'.name, (hcov rw' hrw).2, ?_, ?_, fun j bj hj => hmost j bj hj rw' hrw⟩
    · dsimp only; rw [hfresh rw' hrw]; exact (hcov rw' hrw).1
    · dsimp only; rw [hfresh rw' hrw]; exact Nat.zero_le _
  · rw [hdebt]
    dsimp only at hgr ⊢
    by_cases hz : r'.iterations.length ≤ r.iterations.length
    · omega
    · omega

/-- **C104.**  If the rules derive nothing new after `k` rounds, such a run decides what can be derived: it is the least model of the rules over the first e-graph. -/
theorem c104_decides (hA : ∀ i, A.modify i = .done) (hN : env.analysis = A.at depth) (hord : ∀ i eg, (env.ord i eg).OK eg) (hd : DiscContiguous Op)
    (hcyc : (A.at depth).allowCycles = true) (hh : HooksRead hooks) (hr : AreTightClauses rules cs) (hnames : (rules.map (·.name)).Nodup)
    (h : Hist (A.at depth) allow U r.egraph) (hw : r.scheduler.WF) {m len d B : Symbol → Nat}
    (hfresh : ∀ rw' ∈ rules, r.scheduler.Fresh rw'.name (m rw'.name) (len rw'.name))
    (hcov : ∀ rw' ∈ rules, Covers env.bits (m rw'.name) (d rw'.name) (B rw'.name) ∧ B rw'.name < env.usizeMax)
    (hmost : ∀ eg n k rk, r.egraph.rebuild env.analysis env.fuel = .ok (eg, n) →
      Runner.after env Backoff.scheduler hooks rules k { r with egraph := eg } = some rk → ∀ rw' ∈ rules, rk.AtMost env rw' (B rw'.name))
    (hrun : r.run env Backoff.scheduler hooks rules f = .ok r') (hlast : ∀ it, r'.iterations.getLast? = some it → it.Completed)
    {k : Nat} (hcl : ∀ s t, Chase cs (Equal r.egraph) (k + 1) s t → Chase cs (Equal r.egraph) k s t)
    (hk : k + (rules.map fun rw' => max 1 (len rw'.name) * (2 ^ d rw'.name - 1)).sum ≤ r'.iterations.length - r.iterations.length) (s t : Term Op) :
    Equal r'.egraph s t ↔ ∃ k, Chase cs (Equal r.egraph) k s t := by
  refine ⟨fun hst => ⟨_, c102_sound hA hN hord hd backoff_honest hh hr.1 h hrun hst⟩, fun ⟨j, hj⟩ => ?_⟩
  have hdown : ∀ d s t, Chase cs (Equal r.egraph) (k + d) s t → Chase cs (Equal r.egraph) k s t := by
    have hup : ∀ d s t, Chase cs (Equal r.egraph) (k + d + 1) s t → Chase cs (Equal r.egraph) (k + d) s t := by
      intro d
      induction d with
      | zero => exact hcl
      | succ d ih => exact Chase.stable ih
    intro d
    induction d with
    | zero => exact fun _ _ h => h
    | succ d ih => exact fun s t h => ih s t (hup d s t h)
  have hgrow : ∀ d s t, Chase cs (Equal r.egraph) j s t → Chase cs (Equal r.egraph) (j + d) s t := by
    intro d
    induction d with
    | zero => exact fun _ _ h => h
    | succ d ih => exact fun s t h => (ih s t h).step
  refine c104_backoff hN hord hd hcyc hh hr.areClauses hnames h hw hfresh hcov hmost hrun hlast hk (hdown j s t ?_)
  rw [Nat.add_comm]
  exact hgrow k s t hj

/-- **C104.**  And if what the rules derive is finite, there is a number of iterations, besides those that the bans cost, after which any such run decides what can be derived. -/
theorem c104_reaches (hA : ∀ i, A.modify i = .done) (hcyc : (A.at depth).allowCycles = true) (hd : DiscContiguous Op)
    (h : Hist (A.at depth) allow U eg0) (hfin : FinitelyDerived cs (Equal eg0)) :
    ∃ N, ∀ (H : Type) (env : RunEnv Op D) (hooks : List (Hook Op D H)) (rules : List (Rewrite Op D))
      (r r' : Runner Op D Backoff H) (f : Nat) (m len d B : Symbol → Nat), env.analysis = A.at depth → (∀ i eg, (env.ord i eg).OK eg) →
      HooksRead hooks → AreTightClauses rules cs → (rules.map (·.name)).Nodup → r.egraph = eg0 → r.scheduler.WF →
      (∀ rw' ∈ rules, r.scheduler.Fresh rw'.name (m rw'.name) (len rw'.name)) →
      (∀ rw' ∈ rules, Covers env.bits (m rw'.name) (d rw'.name) (B rw'.name) ∧ B rw'.name < env.usizeMax) →
      (∀ eg n k rk, r.egraph.rebuild env.analysis env.fuel = .ok (eg, n) →
        Runner.after env Backoff.scheduler hooks rules k { r with egraph := eg } = some rk → ∀ rw' ∈ rules, rk.AtMost env rw' (B rw'.name)) →
      r.run env Backoff.scheduler hooks rules f = .ok r' → (∀ it, r'.iterations.getLast? = some it → it.Completed) →
      N + (rules.map fun rw' => max 1 (len rw'.name) * (2 ^ d rw'.name - 1)).sum ≤ r'.iterations.length - r.iterations.length →
      ∀ s t, Equal r'.egraph s t ↔ ∃ k, Chase cs (Equal eg0) k s t := by
  by_cases hsc : ∀ c ∈ cs, c.Scoped
  swap
  · refine ⟨0, fun H env hooks rules r r' f m len d B _ _ _ hr => absurd (fun c hc => ?_) hsc⟩
    obtain ⟨rw', -, q⟩ := hr.2 c hc
    exact q.isClause.scoped
  obtain ⟨k, hk⟩ := hfin.rounds (hist_good h) hsc
  refine ⟨k, fun H env hooks rules r r' f m len d B hN hord hh hr hnames he hw hfresh hcov hmost hrun hlast hlen => ?_⟩
  subst he
  exact c104_decides hA hN hord hd hcyc hh hr hnames h hw hfresh hcov hmost hrun hlast (fun s t h => hk s t ⟨_, h⟩) hlen

end

section
variable {sch : Scheduler Op D S} {I : Nat → S → Prop} {r r' : Runner Op D S H} {f : Nat}

/-- **C104.**  A run that stops with the reason `Saturated` has reached a fixpoint of all rules, multi-pattern rules included, with any
thorough scheduler: no rule derives anything from the last e-graph that does not hold there already, in any number of rounds. -/
theorem c104_saturated (hN : env.analysis = A.at depth) (hord : ∀ i eg, (env.ord i eg).OK eg) (hd : DiscContiguous Op)
    (hcyc : (A.at depth).allowCycles = true) (hsh : sch.Honest env) (hlim : sch.Limited env) (hs : sch.Thorough env r.limits I)
    (hh : HooksRead hooks) (hr : AreClauses rules cs) (h : Hist (A.at depth) allow U r.egraph) (hI : I r.iterations.length r.scheduler)
    (hfit : r.AlwaysFitsAny env sch hooks rules) (hrun : r.run env sch hooks rules f = .ok r') (hsat : r'.stopReason = some .saturated) :
    (∀ c ∈ cs, ∀ s t, c.Derives (Equal r'.egraph) s t → Equal r'.egraph s t) ∧
    ∀ k s t, Chase cs (Equal r'.egraph) k s t ↔ Equal r'.egraph s t := by
  unfold Runner.run at hrun
  obtain ⟨⟨eg, n⟩, h1, h2⟩ := bind_eq_ok.1 hrun
  have hfit := fun k rk => hfit eg n k rk h1
  rw [hN] at h1
  have k1 : Hist (A.at depth) allow ([] ++ [] ++ U) eg := Steps.trans h (.single (.rebuild h1))
  obtain ⟨rk, V, W, q1, q2, q3, q4, q5, hD⟩ := Runner.runLoop_thorough hN hord hd hcyc hsh hlim hh hr f { r with egraph := eg } r' _ hs k1
    (EGraph.rebuild_clean h1) hI hfit h2 hsat
  have hcl : ∀ c ∈ cs, ∀ s t, c.Derives (Equal r'.egraph) s t → Equal r'.egraph s t := fun c hc s t hst =>
    hD c hc s t (hst.mono (fun s t => Equal.back q1 q2 q3 q4 q5))
  have hF := Full.of_hist (Steps.trans q1 q2) q3
  refine ⟨hcl, fun k => ?_⟩
  induction k with
  | zero => exact fun s t => ⟨fun h => hF.known (fun _ _ h => h) h, .base⟩
  | succ k ih =>
    refine fun s t => ⟨fun h => hF.known (fun s t hst => ?_) h, fun h => .base (.inl ((ih s t).2 h))⟩
    rcases hst with hst | ⟨c, hc, hst⟩
    · exact (ih s t).1 hst
    · exact hcl c hc s t (hst.mono (fun s t => (ih s t).1))

/-- **C104.**  So after a saturated run two terms are there and equal exactly if the rules derive it from the first e-graph. -/
theorem c104_saturated_decides (hA : ∀ i, A.modify i = .done) (hN : env.analysis = A.at depth) (hord : ∀ i eg, (env.ord i eg).OK eg) (hd : DiscContiguous Op)
    (hcyc : (A.at depth).allowCycles = true) (hsh : sch.Honest env) (hlim : sch.Limited env) (hs : sch.Thorough env r.limits I)
    (hh : HooksRead hooks) (hr : AreTightClauses rules cs) (h : Hist (A.at depth) allow U r.egraph) (hI : I r.iterations.length r.scheduler)
    (hfit : r.AlwaysFitsAny env sch hooks rules) (hrun : r.run env sch hooks rules f = .ok r') (hsat : r'.stopReason = some .saturated) (s t : Term Op) :
    Equal r'.egraph s t ↔ ∃ k, Chase cs (Equal r.egraph) k s t := by
  refine ⟨fun hst => ⟨_, c102_sound hA hN hord hd hsh hh hr.1 h hrun hst⟩, fun ⟨k, hk⟩ => ?_⟩
  refine ((c104_saturated hN hord hd hcyc hsh hlim hs hh hr.areClauses h hI hfit hrun hsat).2 k s t).1 (Chase.mono (fun s t => ?_) k hk)
  unfold Runner.run at hrun
  obtain ⟨⟨eg, n⟩, h1, h2⟩ := bind_eq_ok.1 hrun
  rw [hN] at h1
  have s1 : Steps (A.at depth) allow r.egraph ([] ++ []) eg := .single (.rebuild h1)
  have k1 : Hist (A.at depth) allow ([] ++ [] ++ U) eg := Steps.trans h s1
  obtain ⟨V, s2, -⟩ := Runner.runLoop_sound (R := fun _ _ => True) hN hsh (fun k hk h0 eg its h' eg' o hc he => by
      obtain ⟨q1, V, q2, q3⟩ := (hh.ok (N := A.at depth) (allow := allow)) k hk h0 eg its h' eg' o hc he
      exact ⟨q1, V, q2, fun _ _ => trivial⟩)
    (fun rw' hrw => by
      obtain ⟨c, -, q⟩ := hr.1 rw' hrw
      exact q.isClause.sound hN hord hd) f { r with egraph := eg } r' _ k1 (fun _ _ => trivial) (EGraph.rebuild_clean h1) h2
  exact fun hst => (steps_grow s2 (hist_good k1)).2.equal ((steps_grow s1 (hist_good h)).2.equal hst)

end

/-! ### Examples -/

namespace Ex

/-- The rules of C102 on `a`, `b`, `f a`, `f b`, with match limit 1 and ban length 1: each rule is banned once. -/
def runnerChB (n : Nat) : Runner Ex.S Unit Backoff Unit := { boRunner 10 with limits := ⟨n, 1000, 5⟩ }
def doneChB3 : Runner Ex.S Unit Backoff Unit := stR bo11 ((runnerChB 3).run renv Backoff.scheduler [] rulesM 10)
def doneChB4 : Runner Ex.S Unit Backoff Unit := stR bo11 ((runnerChB 4).run renv Backoff.scheduler [] rulesM 10)

theorem mostChB : ∀ eg n k rk, (runnerChB 4).egraph.rebuild renv.analysis renv.fuel = .ok (eg, n) →
    Runner.after renv Backoff.scheduler ([] : List (Hook Ex.S Unit Unit)) rulesM k { runnerChB 4 with egraph := eg } = some rk →
    ∀ rw' ∈ rulesM, rk.AtMost renv rw' 2 := by
  intro eg n k rk hreb hk rw' hrw ms hms
  cases hreb
  simp only [rulesM, List.mem_cons, List.not_mem_nil, or_false] at hrw
  rcases k with _ | _ | _ | _ | k
  · cases hk
    rcases hrw with rfl | rfl <;> (cases hms; decide +kernel)
  · cases hk
    rcases hrw with rfl | rfl <;> (cases hms; decide +kernel)
  · cases hk
    rcases hrw with rfl | rfl <;> (cases hms; decide +kernel)
  · cases hk
    rcases hrw with rfl | rfl <;> (cases hms; decide +kernel)
  · cases hk

/-- What is derived in two rounds is there after four iterations, two of which are lost to bans. -/
theorem chasedChB {s t : Term Ex.S} (h : Chase clausesM (Equal e4) 2 s t) : Equal doneChB4.egraph s t :=
  c104_backoff (A := U0) (depth := 1) (allow := .all) (env := renv) (hooks := []) (rules := rulesM) (r := runnerChB 4) (f := 10) (m := fun _ => 1) (len := fun _ => 1)
    (d := fun _ => 1) (B := fun _ => 2)
    rfl (fun _ eg => ordOK eg) discContiguous rfl (fun k hk => by cases hk) areM (by decide) (hist4 _) List.nodup_nil (fun _ _ => rfl)
    (fun _ _ => ⟨⟨by decide, by decide⟩, by decide⟩) mostChB (r' := doneChB4) rfl (fun it h => by cases h; exact .inl rfl) (k := 2) (by decide) h

/-- The bound is met exactly: `f a = a` is derived in two rounds, so it holds after four iterations; it does not hold after three. -/
example : Equal doneChB4.egraph tfa ta ∧ doneChB3.egraph.find 2 = .ok 4 ∧ doneChB3.egraph.find 0 = .ok 0 := by
  refine ⟨chasedChB ?_, rfl, rfl⟩
  have hfa : Equal e4 tfa tfa :=
    ⟨2, rep_app1 (i := 0) rfl rfl (by decide) (rep_leaf rfl rfl (by decide)), rep_app1 (i := 0) rfl rfl (by decide) (rep_leaf rfl rfl (by decide))⟩
  have h1 : Chase clausesM (Equal e4) 1 tfa (.node .g [ta]) := .base (.inr ⟨_, by simp [clausesM], derM _ (.base hfa)⟩)
  have h2 : Chase clausesM (Equal e4) 2 (.node .g [ta]) ta := .base (.inr ⟨_, by simp [clausesM], derG _ (.trans (.symm h1) h1)⟩)
  exact .trans (.base (.inl h1)) h2

/-- Three rounds derive all there is, as a run with the simple scheduler shows … -/
def simpleChB : Runner Ex.S Unit Unit Unit := { runnerM with egraph := e4 }
def doneChS : Runner Ex.S Unit Unit Unit := stR () (simpleChB.run renv simpleScheduler [] rulesM 10)

theorem fitsChS : simpleChB.AlwaysFitsAny renv simpleScheduler ([] : List (Hook Ex.S Unit Unit)) rulesM := by
  intro eg n k rk hreb hk rw' hrw i ms hms
  cases hreb
  simp only [rulesM, List.mem_cons, List.not_mem_nil, or_false] at hrw
  rcases k with _ | _ | _ | k
  · cases hk
    rcases hrw with rfl | rfl <;> (cases hms; decide +kernel)
  · cases hk
    rcases hrw with rfl | rfl <;> (cases hms; decide +kernel)
  · cases hk
    rcases hrw with rfl | rfl <;> (cases hms; decide +kernel)
  · cases hk

theorem closesChB (s t : Term Ex.S) (h : Chase clausesM (Equal e4) 4 s t) : Chase clausesM (Equal e4) 3 s t :=
  c102_sound (A := U0) (depth := 1) (allow := .all) (env := renv) (sch := simpleScheduler) (hooks := []) (rules := rulesM) (r := simpleChB) (f := 10)
    (fun _ => rfl) rfl (fun _ eg => ordOK eg) discContiguous simple_honest (fun k hk => by cases hk) tightClauses.1 (hist4 _) (r' := doneChS) rfl
    ((c102_decides (A := U0) (depth := 1) (allow := .all) (env := renv) (sch := simpleScheduler) (hooks := []) (rules := rulesM) (r := simpleChB) (f := 10)
      (fun _ => rfl) rfl (fun _ eg => ordOK eg) discContiguous rfl simple_eager simple_limited (fun k hk => by cases hk) tightClauses (hist4 _) fitsChS (r' := doneChS) rfl
      (it := _) rfl (.inl rfl) rfl rfl s t).2 ⟨4, h⟩)

def doneChB5 : Runner Ex.S Unit Backoff Unit := stR bo11 ((runnerChB 5).run renv Backoff.scheduler [] rulesM 10)

theorem mostChB5 : ∀ eg n k rk, (runnerChB 5).egraph.rebuild renv.analysis renv.fuel = .ok (eg, n) →
    Runner.after renv Backoff.scheduler ([] : List (Hook Ex.S Unit Unit)) rulesM k { runnerChB 5 with egraph := eg } = some rk →
    ∀ rw' ∈ rulesM, rk.AtMost renv rw' 2 := by
  intro eg n k rk hreb hk rw' hrw ms hms
  cases hreb
  simp only [rulesM, List.mem_cons, List.not_mem_nil, or_false] at hrw
  rcases k with _ | _ | _ | _ | _ | k
  · cases hk
    rcases hrw with rfl | rfl <;> (cases hms; decide +kernel)
  · cases hk
    rcases hrw with rfl | rfl <;> (cases hms; decide +kernel)
  · cases hk
    rcases hrw with rfl | rfl <;> (cases hms; decide +kernel)
  · cases hk
    rcases hrw with rfl | rfl <;> (cases hms; decide +kernel)
  · cases hk
    rcases hrw with rfl | rfl <;> (cases hms; decide +kernel)
  · cases hk

/-- … so five iterations with the back-off scheduler decide what can be derived. -/
theorem decidesChB (s t : Term Ex.S) : Equal doneChB5.egraph s t ↔ ∃ k, Chase clausesM (Equal e4) k s t :=
  c104_decides (A := U0) (depth := 1) (allow := .all) (env := renv) (hooks := []) (rules := rulesM) (r := runnerChB 5) (f := 10) (m := fun _ => 1) (len := fun _ => 1)
    (d := fun _ => 1) (B := fun _ => 2)
    (fun _ => rfl) rfl (fun _ eg => ordOK eg) discContiguous rfl (fun k hk => by cases hk) tightClauses (by decide) (hist4 _) List.nodup_nil (fun _ _ => rfl)
    (fun _ _ => ⟨⟨by decide, by decide⟩, by decide⟩) mostChB5 (r' := doneChB5) rfl (fun it h => by cases h; exact .inl rfl) (k := 3) closesChB (by decide) s t

/-- What the rules derive is finite, so `c104_reaches` applies to them. -/
example : ∃ N, ∀ (n f : Nat) (r' : Runner Ex.S Unit Backoff Unit), (∀ eg n' k rk, (runnerChB n).egraph.rebuild renv.analysis renv.fuel = .ok (eg, n') →
      Runner.after renv Backoff.scheduler ([] : List (Hook Ex.S Unit Unit)) rulesM k { runnerChB n with egraph := eg } = some rk → ∀ rw' ∈ rulesM, rk.AtMost renv rw' 2) →
    (runnerChB n).run renv Backoff.scheduler [] rulesM f = .ok r' → (∀ it, r'.iterations.getLast? = some it → it.Completed) → N + 2 ≤ r'.iterations.length →
    ∀ s t, Equal r'.egraph s t ↔ ∃ k, Chase clausesM (Equal e4) k s t := by
  obtain ⟨N, hN⟩ := c104_reaches (A := U0) (depth := 1) (cs := clausesM) (fun _ => rfl) rfl discContiguous (hist4 .all)
    (c103_finite (A := U0) (depth := 1) (allow := .all) (env := renv) (sch := simpleScheduler) (hooks := []) (rules := rulesM) (r := simpleChB) (f := 10)
      (fun _ => rfl) rfl (fun _ eg => ordOK eg) discContiguous rfl simple_eager simple_limited (fun k hk => by cases hk) tightClauses (hist4 _) fitsChS (r' := doneChS) rfl
      (it := _) rfl (.inl rfl) rfl rfl)
  exact ⟨N, fun n f r' hm hrun hlast hlen => hN Unit renv [] rulesM (runnerChB n) r' f (fun _ => 1) (fun _ => 1) (fun _ => 1) (fun _ => 2) rfl (fun _ eg => ordOK eg)
    (fun k hk => by cases hk) tightClauses (by decide) rfl List.nodup_nil (fun _ _ => rfl) (fun _ _ => ⟨⟨by decide, by decide⟩, by decide⟩) hm hrun hlast hlen⟩

/-- `?p = (g (g ?x)) => ?p = (g ?x)`, which has no match, together with `(f ?x) => (g ?x)`. -/
def ggAst : PatternAst Ex.S := [⟨.var vx, []⟩, ⟨.op .g, [0]⟩, ⟨.op .g, [1]⟩]
def ggTerm : Term (PatOp Ex.S) := .node (.op .g) [termGx]
def ruleGG : Rewrite Ex.S Unit := ⟨12, (multiOf [(vp, ggAst)]).searcher, (multiOf [(vp, astGx)]).applier⟩
def clausesGG : List (Clause Ex.S) := [.rewrite termFx termGx, .horn [(vp, ggTerm)] [(vp, termGx)]]
def rulesGG : List (Rewrite Ex.S Unit) := [ruleFG, ruleGG]
def doneGG : Runner Ex.S Unit Backoff Unit := stR .default ((runner bo).run renv Backoff.scheduler [] rulesGG 10)

theorem tightGG : TightMulti ruleGG [(vp, ggTerm)] [(vp, termGx)] := by
  refine ⟨multiOf [(vp, ggAst)], multiOf [(vp, astGx)], ⟨ordc, 10, ordcOK, rfl, .cons ⟨rfl, patWF_of rfl rfl rfl, exprTerm_of (f := 5) rfl rfl⟩ .nil⟩,
    ⟨_, _, _, _, rfl⟩, ?_, ⟨ordc, 10, ordcOK, rfl, .cons ⟨rfl, patWF_of rfl rfl rfl, exprTerm_of (f := 5) rfl rfl⟩ .nil⟩, ?_, rfl⟩
  · intro v hv
    have : v ∈ [vp, vx] := hv
    simp only [List.mem_cons, List.not_mem_nil, or_false] at this
    rcases this with rfl | rfl
    · exact ⟨_, _, List.mem_singleton.2 rfl, .inl rfl⟩
    · exact ⟨_, _, List.mem_singleton.2 rfl, .inr (.arg (List.mem_singleton.2 rfl) (.arg (List.mem_singleton.2 rfl) .refl))⟩
  · intro w p hm k hk
    have : (w, p) ∈ [(vp, astGx)] := hm
    simp only [List.mem_singleton, Prod.mk.injEq] at this
    obtain ⟨rfl, rfl⟩ := this
    exact liveGx k hk

theorem areGG : AreTightClauses rulesGG clausesGG := by
  refine ⟨fun rw' h => ?_, fun c h => ?_⟩
  all_goals simp only [rulesGG, clausesGG, List.mem_cons, List.not_mem_nil, or_false] at h
  all_goals rcases h with rfl | rfl
  · exact ⟨.rewrite termFx termGx, by simp [clausesGG], tightFG⟩
  · exact ⟨.horn [(vp, ggTerm)] [(vp, termGx)], by simp [clausesGG], tightGG⟩
  · exact ⟨ruleFG, by simp [rulesGG], tightFG⟩
  · exact ⟨ruleGG, by simp [rulesGG], tightGG⟩

theorem fitsGG : (runner bo).AlwaysFitsAny renv Backoff.scheduler ([] : List (Hook Ex.S Unit Unit)) rulesGG := by
  intro eg n k rk hreb hk rw' hrw i ms hms
  cases hreb
  simp only [rulesGG, List.mem_cons, List.not_mem_nil, or_false] at hrw
  rcases k with _ | _ | k
  · cases hk
    rcases hrw with rfl | rfl <;> (cases hms; decide +kernel)
  · cases hk
    rcases hrw with rfl | rfl <;> (cases hms; decide +kernel)
  · cases hk

/-- The run with the back-off scheduler saturates, so its e-graph decides what can be derived. -/
example : (∀ s t, Equal doneGG.egraph s t ↔ ∃ k, Chase clausesGG (Equal e6) k s t) ∧ doneGG.iterations.length = 2 :=
  ⟨c104_saturated_decides (A := U0) (depth := 1) (allow := .all) (env := renv) (sch := Backoff.scheduler) (hooks := []) (rules := rulesGG) (r := runner bo)
    (I := BackoffOK 8 30) (f := 10)
    (fun _ => rfl) rfl (fun _ eg => ordOK eg) discContiguous rfl backoff_honest backoff_limited (backoff_thorough _) (fun k hk => by cases hk) areGG (hist6 _) bo_ok
    fitsGG (r' := doneGG) rfl rfl, rfl⟩

end Ex

end Egg
