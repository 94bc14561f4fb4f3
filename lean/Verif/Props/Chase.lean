import Verif.Lemmas.ChaseStill
import Verif.Props.Round
/-
C102: a runner with pattern rules and multi-pattern rules derives exactly what the rules, read as Horn clauses, derive in as many
rounds as it has iterations.
-/
namespace Egg
variable {Op D S H : Type} [DecidableEq Op] [Lang Op]
variable {A : UserAnalysis Op D} {depth : Nat} {allow : Caller Op D} {U : List (UnionRec Op)}
variable {env : RunEnv Op D} {sch : Scheduler Op D S} {hooks : List (Hook Op D H)} {rules : List (Rewrite Op D)} {cs : List (Clause Op)}
variable {r r' : Runner Op D S H} {f : Nat}

/-- **C102.**  A run with an eager scheduler, the last iteration of which is not cut short: every equality that the rules derive from the terms of the first
e-graph in at most as many rounds as there are iterations holds in the last e-graph (in particular, both terms are there). -/
theorem c102_chase (hN : env.analysis = A.at depth) (hord : ∀ i eg, (env.ord i eg).OK eg) (hd : DiscContiguous Op)
    (hcyc : (A.at depth).allowCycles = true) (hs : sch.Eager env) (hlim : sch.Limited env) (hh : HooksRead hooks) (hr : AreClauses rules cs)
    (h : Hist (A.at depth) allow U r.egraph) (hfit : r.AlwaysFitsAny env sch hooks rules)
    (hrun : r.run env sch hooks rules f = .ok r') (hlast : ∀ it, r'.iterations.getLast? = some it → it.Completed)
    {k : Nat} (hk : k ≤ r'.iterations.length - r.iterations.length) {s t : Term Op} (hst : Chase cs (Equal r.egraph) k s t) :
    Equal r'.egraph s t := by
  unfold Runner.run at hrun
  obtain ⟨⟨eg, n⟩, h1, h2⟩ := bind_eq_ok.1 hrun
  have hfit := fun k rk => hfit eg n k rk h1
  have hgr := Runner.runLoop_grows _ h2
  rw [hN] at h1
  have s1 : Steps (A.at depth) allow r.egraph ([] ++ []) eg := .single (.rebuild h1)
  have k1 : Hist (A.at depth) allow ([] ++ [] ++ U) eg := Steps.trans h s1
  refine (Runner.runLoop_chase hN hord hd hcyc hs hlim hh hr f _ r' _ k1 (EGraph.rebuild_clean h1) hfit h2 hlast).2 k s t ?_
    (Chase.mono (fun s t => (steps_grow s1 (hist_good h)).2.equal) k hst)
  dsimp only at hgr ⊢
  omega

/-- **C102.**  When the last iteration is not cut short and the numbers of e-nodes and of classes after it are those that it recorded at its start, the run has reached a fixpoint,
whatever its stop reason: no rule derives anything from the last e-graph that does not hold there already, in any number of rounds. -/
theorem c102_fixpoint (hN : env.analysis = A.at depth) (hord : ∀ i eg, (env.ord i eg).OK eg) (hd : DiscContiguous Op)
    (hcyc : (A.at depth).allowCycles = true) (hs : sch.Eager env) (hlim : sch.Limited env) (hh : HooksRead hooks) (hr : AreClauses rules cs)
    (h : Hist (A.at depth) allow U r.egraph) (hfit : r.AlwaysFitsAny env sch hooks rules)
    (hrun : r.run env sch hooks rules f = .ok r') {it : Iteration} (hlast : r'.iterations.getLast? = some it) (hcpl : it.Completed)
    (hnodes : r'.egraph.totalSize = it.egraphNodes) (hcls : r'.egraph.numberOfClasses = it.egraphClasses) :
    (∀ c ∈ cs, ∀ s t, c.Derives (Equal r'.egraph) s t → Equal r'.egraph s t) ∧
    ∀ k s t, Chase cs (Equal r'.egraph) k s t ↔ Equal r'.egraph s t := by
  unfold Runner.run at hrun
  obtain ⟨⟨eg, n⟩, h1, h2⟩ := bind_eq_ok.1 hrun
  have hfit := fun k rk => hfit eg n k rk h1
  rw [hN] at h1
  have k1 : Hist (A.at depth) allow ([] ++ [] ++ U) eg := Steps.trans h (.single (.rebuild h1))
  obtain ⟨rk, r4, it', V, q1, q2, q3, q4, q5, q6⟩ := Runner.runLoop_lastOne hN hord hd hcyc hs hlim hh hr f _ r' _ k1 (EGraph.rebuild_clean h1) hfit h2
  rw [q6] at hlast
  cases hlast
  obtain ⟨c1, ⟨W, s1⟩, hD⟩ := Runner.runOne_derives hN hord hd hcyc hs hlim hh hr q1 q2 q3 q4
  obtain ⟨-, -, -, -, -, -, -, -, -, -, -, -, -, -, -, -, -, e1, e2, -⟩ := Runner.runOne_inv q4
  rw [q5] at hnodes hcls ⊢
  have hcl : ∀ c ∈ cs, ∀ s t, c.Derives (Equal r4.egraph) s t → Equal r4.egraph s t := fun c hc s t hst =>
    hD hcpl c hc s t (hst.mono (fun s t => Equal.back q1 s1 c1 (by rw [hnodes, e1]) (by rw [hcls, e2])))
  have hF := Full.of_hist (Steps.trans q1 s1) c1
  refine ⟨hcl, fun k => ?_⟩
  induction k with
  | zero => exact fun s t => ⟨fun h => hF.known (fun _ _ h => h) h, .base⟩
  | succ k ih =>
    refine fun s t => ⟨fun h => hF.known (fun s t hst => ?_) h, fun h => .base (.inl ((ih s t).2 h))⟩
    rcases hst with hst | ⟨c, hc, hst⟩
    · exact (ih s t).1 hst
    · exact hcl c hc s t (hst.mono (fun s t => (ih s t).1))

/-- **C102.**  Conversely, whatever the scheduler and however the run ends: what is there and equal after a run is derived
by the rules from the terms of the first e-graph, in as many rounds as there are iterations.  (The analysis does not modify the e-graph.) -/
theorem c102_sound (hA : ∀ i, A.modify i = .done) (hN : env.analysis = A.at depth) (hord : ∀ i eg, (env.ord i eg).OK eg) (hd : DiscContiguous Op)
    (hs : sch.Honest env) (hh : HooksRead hooks) (hr : ∀ rw' ∈ rules, ∃ c ∈ cs, IsTightClause rw' c)
    (h : Hist (A.at depth) allow U r.egraph) (hrun : r.run env sch hooks rules f = .ok r') {s t : Term Op} (hst : Equal r'.egraph s t) :
    Chase cs (Equal r.egraph) (r'.iterations.length - r.iterations.length) s t := by
  unfold Runner.run at hrun
  obtain ⟨⟨eg, n⟩, h1, h2⟩ := bind_eq_ok.1 hrun
  rw [hN] at h1
  have k1 : Hist (A.at depth) allow ([] ++ [] ++ U) eg := Steps.trans h (.single (.rebuild h1))
  have q := Runner.runLoop_inHull hA hN hord hd hs hh hr f _ r' _ k1 (EGraph.rebuild_clean h1) h2 s t hst
  exact Chase.start (fun s t hst => ((InHull.start (K := EqHull (Equal r.egraph)) (hK := EqHull.pcong) hA h (fun _ _ h => .base h)).rebuild hA h1).equal hst) _ q

/-- **C102.**  So after a run that is not cut short two terms are there and equal exactly if the rules derive it, in as many rounds as there are iterations. -/
theorem c102_exact (hA : ∀ i, A.modify i = .done) (hN : env.analysis = A.at depth) (hord : ∀ i eg, (env.ord i eg).OK eg) (hd : DiscContiguous Op)
    (hcyc : (A.at depth).allowCycles = true) (hs : sch.Eager env) (hlim : sch.Limited env) (hh : HooksRead hooks) (hr : AreTightClauses rules cs)
    (h : Hist (A.at depth) allow U r.egraph) (hfit : r.AlwaysFitsAny env sch hooks rules)
    (hrun : r.run env sch hooks rules f = .ok r') (hlast : ∀ it, r'.iterations.getLast? = some it → it.Completed) (s t : Term Op) :
    Equal r'.egraph s t ↔ Chase cs (Equal r.egraph) (r'.iterations.length - r.iterations.length) s t :=
  ⟨c102_sound hA hN hord hd hs.honest hh hr.1 h hrun, c102_chase hN hord hd hcyc hs hlim hh hr.areClauses h hfit hrun hlast (Nat.le_refl _)⟩

/-- **C102.**  And after a run that has reached a fixpoint two terms are there and equal exactly if the rules derive it in any number of rounds: the
e-graph is the least model of the rules over the first e-graph. -/
theorem c102_decides (hA : ∀ i, A.modify i = .done) (hN : env.analysis = A.at depth) (hord : ∀ i eg, (env.ord i eg).OK eg) (hd : DiscContiguous Op)
    (hcyc : (A.at depth).allowCycles = true) (hs : sch.Eager env) (hlim : sch.Limited env) (hh : HooksRead hooks) (hr : AreTightClauses rules cs)
    (h : Hist (A.at depth) allow U r.egraph) (hfit : r.AlwaysFitsAny env sch hooks rules)
    (hrun : r.run env sch hooks rules f = .ok r') {it : Iteration} (hlast : r'.iterations.getLast? = some it) (hcpl : it.Completed)
    (hnodes : r'.egraph.totalSize = it.egraphNodes) (hcls : r'.egraph.numberOfClasses = it.egraphClasses) (s t : Term Op) :
    Equal r'.egraph s t ↔ ∃ k, Chase cs (Equal r.egraph) k s t := by
  refine ⟨fun hst => ⟨_, c102_sound hA hN hord hd hs.honest hh hr.1 h hrun hst⟩, fun ⟨k, hk⟩ => ?_⟩
  refine ((c102_fixpoint hN hord hd hcyc hs hlim hh hr.areClauses h hfit hrun hlast hcpl hnodes hcls).2 k s t).1 (Chase.mono (fun s t hst => ?_) k hk)
  refine c102_chase hN hord hd hcyc hs hlim hh hr.areClauses h hfit hrun (fun it' h' => ?_) (k := 0) (Nat.zero_le _) (.base hst)
  rw [hlast] at h'
  cases h'
  exact hcpl

/-- **C102.**  If the rules derive nothing new after `k` rounds, then a run of more than `k` iterations, however it ends, reaches this fixpoint, and the numbers tell so: what is there and equal
is what can be derived, and the numbers of e-nodes and of classes are those that the last iteration recorded at its start. -/
theorem c102_closes (hA : ∀ i, A.modify i = .done) (hN : env.analysis = A.at depth) (hord : ∀ i eg, (env.ord i eg).OK eg) (hd : DiscContiguous Op)
    (hcyc : (A.at depth).allowCycles = true) (hs : sch.Eager env) (hlim : sch.Limited env) (hh : HooksRead hooks) (hr : AreTightClauses rules cs)
    (h : Hist (A.at depth) allow U r.egraph) (hfit : r.AlwaysFitsAny env sch hooks rules)
    (hrun : r.run env sch hooks rules f = .ok r') {k : Nat} (hcl : ∀ s t, Chase cs (Equal r.egraph) (k + 1) s t → Chase cs (Equal r.egraph) k s t)
    (hk : k < r'.iterations.length - r.iterations.length) :
    (∀ s t, Equal r'.egraph s t ↔ ∃ k, Chase cs (Equal r.egraph) k s t) ∧
    ∃ it, r'.iterations.getLast? = some it ∧ r'.egraph.totalSize = it.egraphNodes ∧ r'.egraph.numberOfClasses = it.egraphClasses := by
  unfold Runner.run at hrun
  obtain ⟨⟨eg, n⟩, h1, h2⟩ := bind_eq_ok.1 hrun
  have hfit := fun k rk => hfit eg n k rk h1
  rw [hN] at h1
  have s1 : Steps (A.at depth) allow r.egraph ([] ++ []) eg := .single (.rebuild h1)
  have k1 : Hist (A.at depth) allow ([] ++ [] ++ U) eg := Steps.trans h s1
  have up : ∀ s t, Equal eg s t → EqHull (Equal r.egraph) s t := fun s t hst =>
    ((InHull.start (K := EqHull (Equal r.egraph)) (hK := EqHull.pcong) hA h (fun _ _ h => .base h)).rebuild hA h1).equal hst
  have same : ∀ j s t, Chase cs (Equal eg) j s t ↔ Chase cs (Equal r.egraph) j s t := fun j s t =>
    ⟨Chase.start up j, Chase.mono (fun s t => (steps_grow s1 (hist_good h)).2.equal) j⟩
  obtain ⟨q1, it, q2, q3, q4⟩ := Runner.runLoop_closes hA hN hord hd hcyc hs hlim hh hr f k { r with egraph := eg } r' _ k1 (EGraph.rebuild_clean h1)
    (rebuilt_tidy h h1).2.apending hfit h2 (fun s t hst => (same k s t).2 (hcl s t ((same (k + 1) s t).1 hst))) (by dsimp only; omega)
  refine ⟨fun s t => ((q1 s t).trans (same k s t)).trans ⟨fun h => ⟨k, h⟩, fun ⟨j, hj⟩ => ?_⟩, it, q2, q3.symm, q4.symm⟩
  have hup : ∀ d s t, Chase cs (Equal r.egraph) (k + d + 1) s t → Chase cs (Equal r.egraph) (k + d) s t := by
    intro d
    induction d with
    | zero => exact hcl
    | succ d ih => exact Chase.stable ih
  have hdown : ∀ d s t, Chase cs (Equal r.egraph) (k + d) s t → Chase cs (Equal r.egraph) k s t := by
    intro d
    induction d with
    | zero => exact fun _ _ h => h
    | succ d ih => exact fun s t h => ih s t (hup d s t h)
  have hgrow : ∀ d s t, Chase cs (Equal r.egraph) j s t → Chase cs (Equal r.egraph) (j + d) s t := by
    intro d
    induction d with
    | zero => exact fun _ _ h => h
    | succ d ih => exact fun s t h => (ih s t h).step
  refine hdown j s t ?_
  have := hgrow k s t hj
  rwa [Nat.add_comm] at this

/-! ### Example: the rule `?p = (f ?x) => ?q = (g ?x), ?p = ?q` together with `(g ?x) => ?x` -/

namespace Ex

def clausesM : List (Clause Ex.S) := [.horn mlTerms mrTerms, .rewrite termGx (.node (.var vx) [])]
def rulesM : List (Rewrite Ex.S Unit) := [ruleM, ruleGX]
def runnerM : Runner Ex.S Unit Unit Unit := { (Ex.runner ()) with limits := ⟨3, 1000, 5⟩ }
def doneM2 : Runner Ex.S Unit Unit Unit := Ex.stR () (runnerM.run Ex.renv simpleScheduler [] rulesM 10)

theorem patternGX : PatternRule ruleGX termGx (.node (.var vx) []) := ⟨patGx, patX, isPatGx, liveG, isPatX, rfl⟩

theorem areM : AreClauses rulesM clausesM := by
  refine ⟨fun rw' h => ?_, fun c h => ?_⟩
  all_goals simp only [rulesM, clausesM, List.mem_cons, List.not_mem_nil, or_false] at h
  all_goals rcases h with rfl | rfl
  · exact ⟨.horn mlTerms mrTerms, by simp [clausesM], multiRule⟩
  · exact ⟨.rewrite termGx (.node (.var vx) []), by simp [clausesM], patternGX⟩
  · exact ⟨ruleM, by simp [rulesM], multiRule⟩
  · exact ⟨ruleGX, by simp [rulesM], patternGX⟩

theorem fitsM : runnerM.AlwaysFitsAny Ex.renv simpleScheduler ([] : List (Hook Ex.S Unit Unit)) rulesM := by
  intro eg n k rk hreb hk rw' hrw i ms hms
  cases hreb
  simp only [rulesM, List.mem_cons, List.not_mem_nil, or_false] at hrw
  rcases k with _ | _ | _ | k
  · cases hk
    rcases hrw with rfl | rfl <;> (cases hms; decide +kernel)
  · cases hk
    rcases hrw with rfl | rfl <;> (cases hms; decide +kernel)
  · cases hk
    rcases hrw with rfl | rfl <;> (cases hms; decide +kernel)
  · cases hk

/-- What is derived in three rounds is there after the three iterations of the run. -/
theorem chased {k : Nat} (hk : k ≤ 3) {s t : Term Ex.S} (h : Chase clausesM (Equal Ex.e6) k s t) : Equal doneM2.egraph s t :=
  c102_chase (A := Ex.U0) (depth := 1) (allow := .all) (env := Ex.renv) (sch := simpleScheduler) (hooks := []) (rules := rulesM) (r := runnerM) (f := 10)
    rfl (fun _ eg => Ex.ordOK eg) Ex.discContiguous rfl simple_eager simple_limited (fun k hk => by cases hk) areM (Ex.hist6 _) fitsM (r' := doneM2) rfl
    (fun it h => by cases h; exact .inl rfl) hk h

/-- The multi-pattern rule derives `f t = g t` if `f t` is there … -/
theorem derM (E : Term Ex.S → Term Ex.S → Prop) {t : Term Ex.S} (h : E (.node .f [t]) (.node .f [t])) :
    (Clause.horn mlTerms mrTerms).Derives E (.node .f [t]) (.node .g [t]) := by
  refine ⟨fun v => if v = vp then .node .f [t] else t, fun v p hvp => ?_, ?_⟩
  · simp only [mlTerms, List.mem_singleton, Prod.mk.injEq] at hvp
    obtain ⟨rfl, rfl⟩ := hvp
    refine ⟨.node .f [t], inst_node_iff.2 ⟨_, rfl, .cons (inst_var_iff.2 ⟨rfl, by rw [if_neg (by decide)]⟩) .nil⟩, by simpa using h⟩
  · refine ⟨.node .g [t], inst_node_iff.2 ⟨_, rfl, .cons (inst_var_iff.2 ⟨rfl, by rw [if_neg (by decide)]⟩) .nil⟩, .inr (.inr (.inr ⟨?_, ?_⟩))⟩
    · exact fun hb => absurd ((mlOccurs _).1 hb) (by decide)
    · exact ⟨.node .g [t], inst_var_iff.2 ⟨rfl, by rw [if_pos rfl]⟩, .inr (.inl ⟨.inl ((mlOccurs _).2 (.inl rfl)), rfl, rfl⟩)⟩

/-- … and the other rule `g t = t` if `g t` is there. -/
theorem derG (E : Term Ex.S → Term Ex.S → Prop) {t : Term Ex.S} (h : E (.node .g [t]) (.node .g [t])) :
    (Clause.rewrite termGx (.node (.var vx) [])).Derives E (.node .g [t]) t := ⟨fun _ => t, inst1, .var, h⟩

/-- So `f a = b` after two rounds, and therefore after the run. -/
example : Equal doneM2.egraph tfa tb := by
  have hfa : Equal Ex.e6 tfa tfa := ⟨2, rep_e6_fa, rep_e6_fa⟩
  have hab : Equal Ex.e6 ta tb := ⟨0, rep_e6_a, rep_leaf rfl rfl (by decide)⟩
  have h1 : Chase clausesM (Equal Ex.e6) 1 tfa (.node .g [ta]) :=
    .base (.inr ⟨_, by simp [clausesM], derM _ (.base hfa)⟩)
  have h2 : Chase clausesM (Equal Ex.e6) 2 (.node .g [ta]) ta :=
    .base (.inr ⟨_, by simp [clausesM], derG _ (.trans (.symm h1) h1)⟩)
  have h3 : Chase clausesM (Equal Ex.e6) 2 tfa tb :=
    .trans (.trans (.base (.inl h1)) h2) (.base (.inl (.base (.inl (.base hab)))))
  exact chased (by decide) h3

/-- The last of the three iterations changes nothing (although it reports that it has applied a rule), so nothing more can be derived. -/
theorem fixM {k : Nat} {s t : Term Ex.S} : Chase clausesM (Equal doneM2.egraph) k s t ↔ Equal doneM2.egraph s t :=
  (c102_fixpoint (A := Ex.U0) (depth := 1) (allow := .all) (env := Ex.renv) (sch := simpleScheduler) (hooks := []) (rules := rulesM) (r := runnerM) (f := 10)
    rfl (fun _ eg => Ex.ordOK eg) Ex.discContiguous rfl simple_eager simple_limited (fun k hk => by cases hk) areM (Ex.hist6 _) fitsM (r' := doneM2) rfl
    (it := _) rfl (.inl rfl) rfl rfl).2 k s t

theorem tightM : TightMulti ruleM mlTerms mrTerms := by
  obtain ⟨lp, rp, h1, h2, h3, h4, h5⟩ := multiRule
  refine ⟨multiOf mlAsts, multiOf mrAsts, isMl, ⟨_, _, _, _, rfl⟩, ?_, isMr, ?_, rfl⟩
  · intro v hv
    rw [mlOccurs]
    have : v ∈ [vp, vx] := hv
    simpa using this
  · intro w p hm k hk
    have : (w, p) ∈ mrAsts := hm
    simp only [mrAsts, List.mem_cons, List.not_mem_nil, or_false, Prod.mk.injEq] at this
    rcases this with ⟨rfl, rfl⟩ | ⟨rfl, rfl⟩
    · exact liveGx k hk
    · have : k = 0 := by simpa using hk
      subst this
      exact .root

theorem tightClauses : AreTightClauses rulesM clausesM := by
  have hGX : TightRule ruleGX termGx (.node (.var vx) []) := ⟨patGx, patX, isPatGx, liveGx, liveG, isPatX, liveX, rfl⟩
  refine ⟨fun rw' h => ?_, fun c h => ?_⟩
  all_goals simp only [rulesM, clausesM, List.mem_cons, List.not_mem_nil, or_false] at h
  all_goals rcases h with rfl | rfl
  · exact ⟨.horn mlTerms mrTerms, by simp [clausesM], tightM⟩
  · exact ⟨.rewrite termGx (.node (.var vx) []), by simp [clausesM], hGX⟩
  · exact ⟨ruleM, by simp [rulesM], tightM⟩
  · exact ⟨ruleGX, by simp [rulesM], hGX⟩

/-- The e-graph decides what can be derived. -/
theorem decidesM (s t : Term Ex.S) : Equal doneM2.egraph s t ↔ ∃ k, Chase clausesM (Equal Ex.e6) k s t :=
  c102_decides (A := Ex.U0) (depth := 1) (allow := .all) (env := Ex.renv) (sch := simpleScheduler) (hooks := []) (rules := rulesM) (r := runnerM) (f := 10)
    (fun _ => rfl) rfl (fun _ eg => Ex.ordOK eg) Ex.discContiguous rfl simple_eager simple_limited (fun k hk => by cases hk) tightClauses (Ex.hist6 _) fitsM (r' := doneM2) rfl
    (it := _) rfl (.inl rfl) rfl rfl s t

/-- Nothing new is derived after three rounds, so one more iteration reaches the fixpoint and tells so. -/
theorem closesM (s t : Term Ex.S) (h : Chase clausesM (Equal Ex.e6) 4 s t) : Chase clausesM (Equal Ex.e6) 3 s t :=
  c102_sound (A := Ex.U0) (depth := 1) (allow := .all) (env := Ex.renv) (sch := simpleScheduler) (hooks := []) (rules := rulesM) (r := runnerM) (f := 10)
    (fun _ => rfl) rfl (fun _ eg => Ex.ordOK eg) Ex.discContiguous simple_honest (fun k hk => by cases hk) tightClauses.1 (Ex.hist6 _) (r' := doneM2) rfl
    ((decidesM s t).2 ⟨4, h⟩)

def runnerM4 : Runner Ex.S Unit Unit Unit := { runnerM with limits := ⟨4, 1000, 5⟩ }
def doneM4 : Runner Ex.S Unit Unit Unit := Ex.stR () (runnerM4.run Ex.renv simpleScheduler [] rulesM 10)

theorem fitsM4 : runnerM4.AlwaysFitsAny Ex.renv simpleScheduler ([] : List (Hook Ex.S Unit Unit)) rulesM := by
  intro eg n k rk hreb hk rw' hrw i ms hms
  cases hreb
  simp only [rulesM, List.mem_cons, List.not_mem_nil, or_false] at hrw
  rcases k with _ | _ | _ | _ | k
  · cases hk
    rcases hrw with rfl | rfl <;> (cases hms; decide +kernel)
  · cases hk
    rcases hrw with rfl | rfl <;> (cases hms; decide +kernel)
  · cases hk
    rcases hrw with rfl | rfl <;> (cases hms; decide +kernel)
  · cases hk
    rcases hrw with rfl | rfl <;> (cases hms; decide +kernel)
  · cases hk

example (s t : Term Ex.S) : Equal doneM4.egraph s t ↔ ∃ k, Chase clausesM (Equal Ex.e6) k s t :=
  (c102_closes (A := Ex.U0) (depth := 1) (allow := .all) (env := Ex.renv) (sch := simpleScheduler) (hooks := []) (rules := rulesM) (r := runnerM4) (f := 10)
    (fun _ => rfl) rfl (fun _ eg => Ex.ordOK eg) Ex.discContiguous rfl simple_eager simple_limited (fun k hk => by cases hk) tightClauses (Ex.hist6 _) fitsM4
    (r' := doneM4) rfl (k := 3) closesM (by decide)).1 s t

/-- And after one iteration, before the fixpoint: exactly what is derived in one round. -/
def doneM3 : Runner Ex.S Unit Unit Unit := Ex.stR () (({ runnerM with limits := ⟨1, 1000, 5⟩ }).run Ex.renv simpleScheduler [] rulesM 10)

theorem fitsM3 : ({ runnerM with limits := ⟨1, 1000, 5⟩ }).AlwaysFitsAny Ex.renv simpleScheduler ([] : List (Hook Ex.S Unit Unit)) rulesM := by
  intro eg n k rk hreb hk rw' hrw i ms hms
  cases hreb
  simp only [rulesM, List.mem_cons, List.not_mem_nil, or_false] at hrw
  rcases k with _ | k
  · cases hk
    rcases hrw with rfl | rfl <;> (cases hms; decide +kernel)
  · cases hk

theorem exactM (s t : Term Ex.S) : Equal doneM3.egraph s t ↔ Chase clausesM (Equal Ex.e6) 1 s t :=
  c102_exact (A := Ex.U0) (depth := 1) (allow := .all) (env := Ex.renv) (sch := simpleScheduler) (hooks := []) (rules := rulesM)
    (r := { runnerM with limits := ⟨1, 1000, 5⟩ }) (f := 10)
    (fun _ => rfl) rfl (fun _ eg => Ex.ordOK eg) Ex.discContiguous rfl simple_eager simple_limited (fun k hk => by cases hk) tightClauses (Ex.hist6 _) fitsM3
    (r' := doneM3) rfl (fun it h => by cases h; exact .inl rfl) s t

theorem histM3 : ∃ V, Hist (Ex.U0.at 1) .all V doneM3.egraph := by
  obtain ⟨V, s1, -⟩ := Runner.runLoop_sound (A := Ex.U0) (depth := 1) (allow := .all) (R := fun _ _ => True) (env := Ex.renv) (sch := simpleScheduler) (hooks := [])
    (rules := rulesM) rfl simple_honest (Ex.hooksOK _ _)
    (fun rw' h => by obtain ⟨c, -, q⟩ := areM.1 rw' h; exact q.sound rfl (fun _ eg => Ex.ordOK eg) Ex.discContiguous)
    10 { runnerM with limits := ⟨1, 1000, 5⟩, egraph := Ex.st (Ex.e6.rebuild Ex.N0 20) } doneM3 _
    (Steps.tail (V := []) (Ex.hist6 _) (.rebuild (fuel := 20) (n := 0) rfl)) (fun _ _ => trivial) rfl rfl
  exact ⟨_, Steps.trans (Steps.tail (V := []) (Ex.hist6 _) (.rebuild (fuel := 20) (n := 0) rfl)) s1⟩

/-- One round derives `f a = g b`, but not `f a = a`. -/
example : Chase clausesM (Equal Ex.e6) 1 tfa (.node .g [tb]) ∧ ¬ Chase clausesM (Equal Ex.e6) 1 tfa ta := by
  have h1 : Rep doneM3.egraph 2 tfa := rep_app1 (r := 4) (i := 0) rfl rfl (by decide) (rep_leaf (r := 0) rfl rfl (by decide))
  have h2 : Rep doneM3.egraph 0 ta := rep_leaf (r := 0) rfl rfl (by decide)
  have h3 : Rep doneM3.egraph 2 (.node .g [tb]) := rep_app1 (r := 4) (i := 0) rfl rfl (by decide) (rep_leaf (r := 0) rfl rfl (by decide))
  refine ⟨(exactM _ _).1 ⟨2, h1, h3⟩, fun h => ?_⟩
  obtain ⟨c, k1, k2⟩ := (exactM _ _).2 h
  obtain ⟨V, hV⟩ := histM3
  have hF := Full.of_hist hV rfl
  have e1 := EGraph.InvW.rep_unique hF.good.inv hF.pending _ h1 k1
  have e2 := EGraph.InvW.rep_unique hF.good.inv hF.pending _ h2 k2
  have : doneM3.egraph.rt 2 ≠ doneM3.egraph.rt 0 := by decide +kernel
  exact this (e1.trans e2.symm)

example : doneM2.stopReason = some (.iterationLimit 3) := rfl

end Ex

end Egg
