import Verif.Lemmas.Eager
/-
C82: the `SimpleScheduler` needs no more iterations than any other, and what is there after each of its iterations
does not depend on the order of anything.
-/
namespace Egg
variable {Op D S H S' H' : Type} [DecidableEq Op] [Lang Op]
variable {A : UserAnalysis Op D} {depth : Nat} {allow : Caller Op D} {U U' : List (UnionRec Op)}
variable {env env' : RunEnv Op D} {sch : Scheduler Op D S} {sch' : Scheduler Op D S'} {hooks : List (Hook Op D H)}
  {hooks' : List (Hook Op D H')} {rules rules' : List (Rewrite Op D)} {eqs : List (Term (PatOp Op) × Term (PatOp Op))}
  {r r' : Runner Op D S H} {q q' : Runner Op D S' H'} {f f' : Nat}

theorem simple_eager : (simpleScheduler : Scheduler Op D Unit).Eager env where
  search := fun lim s tick i eg rules s' tick' mss h => by
    have := searchEach_spec (I := fun _ => True) (T := fun _ rw' ms => rw'.searcher.search env.analysis eg (env.ord i eg) env.usizeMax = .ok ms) (by
      intro s rw' s' ms _ h
      unfold searchDefault at h
      rw [bind_eq_ok] at h
      obtain ⟨ms1, h1, h⟩ := h
      cases h
      exact ⟨trivial, h1⟩) (fun _ _ _ _ _ _ _ _ h => h) rules s tick [] [] s' tick' _ trivial .nil h
    exact this.2.1 mss rfl
  apply := fun s i eg rw ms s' eg' n h => by
    obtain ⟨⟨eg1, ids⟩, h1, h2⟩ := bind_eq_ok.1 h
    cases h2
    exact ⟨rfl, ids, h1, rfl⟩
  stop := fun s i s' b h => by cases h; rfl

/-- **C82.**  In each iteration an eager scheduler, such as the `SimpleScheduler`, finds all that any other finds.
Take two runs with the same rules, the second of them with an eager scheduler, started with an e-graph that contains the
e-graph of the first.  If the second makes at least as many iterations as the first, and its last is
not cut short, then its e-graph contains the one with which the first ends. -/
theorem c82_more (hA : ∀ i, A.modify i = .done) (hN : env.analysis = A.at depth) (hord : ∀ i eg, (env.ord i eg).OK eg)
    (hN' : env'.analysis = A.at depth) (hord' : ∀ i eg, (env'.ord i eg).OK eg)
    (hd : DiscContiguous Op) (hcyc : (A.at depth).allowCycles = true) (hs : sch.Honest env) (hs' : sch'.Eager env') (hh : HooksRead hooks)
    (hh' : HooksRead hooks') (hr : ∀ rw' ∈ rules, ∃ tl t, (tl, t) ∈ eqs ∧ TightRule rw' tl t) (hr' : RulesAre rules' eqs)
    (h : Hist (A.at depth) allow U r.egraph) (h' : Hist (A.at depth) allow U' q.egraph) (hw : Within r.egraph q.egraph)
    (hfit : q.AlwaysFits env' sch' hooks' rules')
    (hrun : r.run env sch hooks rules f = .ok r') (hrun' : q.run env' sch' hooks' rules' f' = .ok q')
    (hlen : r'.iterations.length - r.iterations.length ≤ q'.iterations.length - q.iterations.length)
    (hlast : ∀ it, q'.iterations.getLast? = some it → it.stopReason = none) : Within r'.egraph q'.egraph := by
  unfold Runner.run at hrun hrun'
  obtain ⟨⟨eg, n⟩, h1, h2⟩ := bind_eq_ok.1 hrun
  obtain ⟨⟨eg', n'⟩, h1', h2'⟩ := bind_eq_ok.1 hrun'
  have hfit := hfit eg' n'
  have g1 := Runner.runLoop_grows _ h2
  have g2 := Runner.runLoop_grows _ h2'
  dsimp only at g1 g2
  rw [hN] at h1
  have hfit := fun k rk => hfit k rk h1'
  rw [hN'] at h1'
  have k1 : Hist (A.at depth) allow ([] ++ U) eg := Steps.trans h (.single (.rebuild h1))
  have s1' : Steps (A.at depth) allow q.egraph ([] ++ []) eg' := .single (.rebuild h1')
  have k1' : Hist (A.at depth) allow _ eg' := Steps.trans h' s1'
  have hc' := EGraph.rebuild_clean h1'
  have gr := (steps_grow s1' (hist_good h')).2
  have hw1 : Within eg eg' := ((Under.of_below (hM := Full.of_hist k1' hc') hA h (hw.trans gr.within)).rebuild hA h1).below
  exact Runner.runLoop_within hA hN hord hN' hord' hd hcyc hs hs' hh hh' hr hr' f f' _ r' _ q' _ _ k1 (EGraph.rebuild_clean h1) k1' hc' hfit hw1 h2 h2'
    (by dsimp only; omega) hlast

/-- **C82.**  What an eager scheduler has after a number of iterations does not depend on the order of the rules, nor on that in which
the hash maps are visited: after equally many iterations of two runs with the same rules on the same e-graph the
e-graphs are the same up to the names of the classes, and what became of an id of the first e-graph is the same class in both. -/
theorem c82_deterministic (hA : ∀ i, A.modify i = .done) (hN : env.analysis = A.at depth) (hord : ∀ i eg, (env.ord i eg).OK eg)
    (hN' : env'.analysis = A.at depth) (hord' : ∀ i eg, (env'.ord i eg).OK eg)
    (hd : DiscContiguous Op) (hcyc : (A.at depth).allowCycles = true) (hs : sch.Eager env) (hs' : sch'.Eager env') (hh : HooksRead hooks)
    (hh' : HooksRead hooks') (hr : RulesAre rules eqs) (hr' : RulesAre rules' eqs)
    (h : Hist (A.at depth) allow U r.egraph) (he : q.egraph = r.egraph)
    (hfit : r.AlwaysFits env sch hooks rules) (hfit' : q.AlwaysFits env' sch' hooks' rules')
    (hrun : r.run env sch hooks rules f = .ok r') (hrun' : q.run env' sch' hooks' rules' f' = .ok q')
    (hlen : r'.iterations.length - r.iterations.length = q'.iterations.length - q.iterations.length)
    (hlast : ∀ it, r'.iterations.getLast? = some it → it.stopReason = none)
    (hlast' : ∀ it, q'.iterations.getLast? = some it → it.stopReason = none) :
    ∃ φ, SameUpTo φ r'.egraph q'.egraph ∧ (∀ i c, Valid r.egraph i → r'.egraph.find i = .ok c → q'.egraph.find i = .ok (φ c)) ∧
      r'.egraph.numberOfClasses = q'.egraph.numberOfClasses ∧ r'.egraph.totalNumberOfNodes = q'.egraph.totalNumberOfNodes := by
  have h' : Hist (A.at depth) allow U q.egraph := by rw [he]; exact h
  have w1 := c82_more hA hN hord hN' hord' hd hcyc hs.honest hs' hh hh' hr.1 hr' h h' (by rw [he]; exact (EGraph.Grow.refl _).within) hfit' hrun hrun' hlen.le hlast'
  have w2 := c82_more hA hN' hord' hN hord hd hcyc hs'.honest hs hh' hh hr'.1 hr h' h (by rw [he]; exact (EGraph.Grow.refl _).within) hfit hrun' hrun hlen.ge hlast
  have ht : AreTightRules rules eqs := hr.1
  have ht' : AreTightRules rules' eqs := hr'.1
  obtain ⟨c1, V, s1, -⟩ := c25_run_reach hN hord hd hs.honest (hh.ok (N := A.at depth) (allow := allow)) ht.areRules h hrun
  obtain ⟨c2, V', s2, -⟩ := c25_run_reach hN' hord' hd hs'.honest (hh'.ok (N := A.at depth) (allow := allow)) ht'.areRules h' hrun'
  have k1 := Steps.trans h s1
  have k2 := Steps.trans h' s2
  have F1 := Full.of_hist k1 c1
  have F2 := Full.of_hist k2 c2
  have hsm := sameUpTo F1 F2 (c47_clean_means_rebuilt k1 c1) (c47_clean_means_rebuilt k2 c2) w1 w2
  have g2 := (steps_grow s2 (hist_good h')).2
  rw [he] at g2
  exact ⟨_, hsm, fun i c hi hf => hsm.find F1 F2 (hist_good h) (steps_grow s1 (hist_good h)).2 g2 hi hf,
    hsm.numberOfClasses F1 F2, hsm.total F1 F2⟩

/-- **C82.**  No scheduler saturates in fewer iterations.  If some run ends with `Saturated`, then a run with the same rules and an eager
scheduler on the same e-graph, if it returns, makes at most as many iterations; so it stops for the iteration limit only if
that limit is at most this number. -/
theorem c82_fastest (hA : ∀ i, A.modify i = .done) (hN : env.analysis = A.at depth) (hord : ∀ i eg, (env.ord i eg).OK eg)
    (hN' : env'.analysis = A.at depth) (hord' : ∀ i eg, (env'.ord i eg).OK eg)
    (hd : DiscContiguous Op) (hcyc : (A.at depth).allowCycles = true) (hs : sch.Honest env) (hlim : sch.Limited env)
    {I : Nat → S → Prop} (hth : sch.Thorough env r.limits I) (hI : I r.iterations.length r.scheduler)
    (hs' : sch'.Eager env') (hlim' : sch'.Limited env') (hh : HooksRead hooks)
    (hh' : HooksRead hooks') (hr : RulesAre rules eqs) (hr' : RulesAre rules' eqs)
    (h : Hist (A.at depth) allow U r.egraph) (he : q.egraph = r.egraph)
    (hfit : ∀ rw' ∈ rules, Fits env r'.egraph rw') (hfit' : q.AlwaysFits env' sch' hooks' rules')
    (hrun : r.run env sch hooks rules f = .ok r') (hsat : r'.stopReason = some .saturated)
    (hrun' : q.run env' sch' hooks' rules' f' = .ok q') :
    q'.iterations.length - q.iterations.length ≤ r'.iterations.length - r.iterations.length ∧
    (q.iterations.length + (r'.iterations.length - r.iterations.length) < q.limits.iterLimit → ∀ n, q'.stopReason ≠ some (.iterationLimit n)) := by
  have h' : Hist (A.at depth) allow U q.egraph := by rw [he]; exact h
  have ht : AreTightRules rules eqs := hr.1
  have hcount : q'.iterations.length - q.iterations.length ≤ r'.iterations.length - r.iterations.length := by
    obtain ⟨⟨V, hV⟩, g0, hc0, hcl⟩ := SaturatedRun.facts hcyc hd h
      (.mk hN hord hs hlim hth hI hh hr rfl hrun hsat hfit : SaturatedRun A depth eqs r.egraph r'.egraph)
    unfold Runner.run at hrun hrun'
    obtain ⟨⟨eg, n⟩, h1, h2⟩ := bind_eq_ok.1 hrun
    obtain ⟨⟨eg', n'⟩, h1', h2'⟩ := bind_eq_ok.1 hrun'
    have hfit' := hfit' eg' n'
    have hfit' := fun k rk => hfit' k rk h1'
    rw [hN] at h1
    rw [hN'] at h1'
    have k1 : Hist (A.at depth) allow ([] ++ U) eg := Steps.trans h (.single (.rebuild h1))
    have s1' : Steps (A.at depth) allow q.egraph ([] ++ []) eg' := .single (.rebuild h1')
    have k1' : Hist (A.at depth) allow _ eg' := Steps.trans h' s1'
    have hc' := EGraph.rebuild_clean h1'
    have gr := (steps_grow s1' (hist_good h')).2
    have hw1 : Within eg eg' := ((Under.of_below (hM := Full.of_hist k1' hc') hA h (by rw [← he]; exact gr.within)).rebuild hA h1).below
    have hw2 : Within eg' r'.egraph := ((Under.of_below (hM := Full.of_hist hV hc0) hA h' (by rw [he]; exact g0.within)).rebuild hA h1').below
    have := Runner.runLoop_fastest hA hN hord hN' hord' hd hcyc hs hlim hs' hlim' hh hh' hr.1 hr' f f' _ r' _ q' _ _ k1 (EGraph.rebuild_clean h1) k1' hc'
      (rebuilt_tidy h' h1').2.apending hfit' hw1 hcl hw2 h2 hsat h2'
    dsimp only at this
    omega
  refine ⟨hcount, fun hl n hn => ?_⟩
  obtain ⟨reason, new, last, h1, -, -, -, -, h2, -⟩ := c27_run_stops hlim' hrun'
  rw [hn] at h1
  cases h1
  have h2 : q.limits.iterLimit ≤ n ∧ n ≤ q'.iterations.length := h2
  omega

/-- **C82.**  The number of iterations until saturation does not depend on the order of the rules, nor on that in which the hash maps are visited:
two runs with the same rules and eager schedulers on the same e-graph that end with `Saturated` make the same number of
iterations. -/
theorem c82_same_number (hA : ∀ i, A.modify i = .done) (hN : env.analysis = A.at depth) (hord : ∀ i eg, (env.ord i eg).OK eg)
    (hN' : env'.analysis = A.at depth) (hord' : ∀ i eg, (env'.ord i eg).OK eg)
    (hd : DiscContiguous Op) (hcyc : (A.at depth).allowCycles = true) (hs : sch.Eager env) (hlim : sch.Limited env)
    (hs' : sch'.Eager env') (hlim' : sch'.Limited env') (hh : HooksRead hooks)
    (hh' : HooksRead hooks') (hr : RulesAre rules eqs) (hr' : RulesAre rules' eqs)
    (h : Hist (A.at depth) allow U r.egraph) (he : q.egraph = r.egraph)
    (hfit : r.AlwaysFits env sch hooks rules) (hfit' : q.AlwaysFits env' sch' hooks' rules')
    (hfin : ∀ rw' ∈ rules, Fits env r'.egraph rw') (hfin' : ∀ rw' ∈ rules', Fits env' q'.egraph rw')
    (hrun : r.run env sch hooks rules f = .ok r') (hsat : r'.stopReason = some .saturated)
    (hrun' : q.run env' sch' hooks' rules' f' = .ok q') (hsat' : q'.stopReason = some .saturated) :
    q'.iterations.length - q.iterations.length = r'.iterations.length - r.iterations.length := by
  have h' : Hist (A.at depth) allow U q.egraph := by rw [he]; exact h
  have h1 := (c82_fastest hA hN hord hN' hord' hd hcyc hs.honest hlim (hs.thorough _) trivial hs' hlim' hh hh' hr hr' h he hfin hfit' hrun hsat hrun').1
  have h2 := (c82_fastest hA hN' hord' hN hord hd hcyc hs'.honest hlim' (hs'.thorough _) trivial hs hlim hh' hh hr' hr h' he.symm hfin' hfit hrun' hsat' hrun).1
  omega

/-! ### Examples -/

theorem Ex.fits2 (l : List (Rewrite Ex.S Unit)) (hl : l = [Ex.ruleFG, Ex.ruleFX] ∨ l = [Ex.ruleFX, Ex.ruleFG]) :
    Runner.AlwaysFits Ex.renv simpleScheduler ([] : List (Hook Ex.S Unit Unit)) l Ex.runnerS1 := by
  intro eg n k rk hreb hk rw' hrw
  cases hreb
  rcases hl with rfl | rfl
  all_goals
    simp only [List.mem_cons, List.not_mem_nil, or_false] at hrw
    rcases k with _ | _ | k
    · cases hk
      rcases hrw with rfl | rfl
      · exact ⟨Ex.ord _, _, Ex.ordOK _, rfl, by decide⟩
      · exact ⟨Ex.ord _, _, Ex.ordOK _, rfl, by decide⟩
    · cases hk
      rcases hrw with rfl | rfl
      · exact ⟨Ex.ord _, _, Ex.ordOK _, rfl, by decide +kernel⟩
      · exact ⟨Ex.ord _, _, Ex.ordOK _, rfl, by decide +kernel⟩
    · cases hk

/-- The back-off scheduler takes four iterations, so the simple one takes at most four. -/
example : Ex.runA.iterations.length - 0 ≤ Ex.runB.iterations.length - 0 :=
  (c82_fastest (A := Ex.U0) (depth := 1) (env := Ex.renv) (env' := Ex.renv) (sch := Backoff.scheduler) (sch' := simpleScheduler) (hooks := [])
    (hooks' := []) (rules := [Ex.ruleFX, Ex.ruleFG]) (rules' := [Ex.ruleFG, Ex.ruleFX]) (I := BackoffOK 8 30) (r := Ex.runnerB) (r' := Ex.runB)
    (q := Ex.runnerS1) (q' := Ex.runA) (f := 10) (f' := 10)
    (fun _ => rfl) rfl (fun _ eg => Ex.ordOK eg) rfl (fun _ eg => Ex.ordOK eg) Ex.discContiguous rfl backoff_honest backoff_limited (backoff_thorough _) Ex.bo_ok
    simple_eager simple_limited (fun k hk => by cases hk) (fun k hk => by cases hk) Ex.rulesAre.2 Ex.rulesAre.1 Ex.histS1 rfl
    (by
      intro rw' h
      simp only [List.mem_cons, List.not_mem_nil, or_false] at h
      rcases h with rfl | rfl
      · exact ⟨Ex.ord _, _, Ex.ordOK _, rfl, by decide⟩
      · exact ⟨Ex.ord _, _, Ex.ordOK _, rfl, by decide⟩) (Ex.fits2 _ (Or.inl rfl)) rfl rfl rfl).1

/-- The simple scheduler with the rules in the other order. -/
def Ex.runA' : Runner Ex.S Unit Unit Unit := Ex.stR () (Ex.runnerS1.run Ex.renv simpleScheduler [] [Ex.ruleFX, Ex.ruleFG] 10)

example : Ex.runA'.iterations.length - 0 = Ex.runA.iterations.length - 0 :=
  c82_same_number (A := Ex.U0) (depth := 1) (env := Ex.renv) (env' := Ex.renv) (sch := simpleScheduler) (sch' := simpleScheduler) (hooks := [])
    (hooks' := []) (rules := [Ex.ruleFG, Ex.ruleFX]) (rules' := [Ex.ruleFX, Ex.ruleFG]) (r := Ex.runnerS1) (r' := Ex.runA)
    (q := Ex.runnerS1) (q' := Ex.runA') (f := 10) (f' := 10)
    (fun _ => rfl) rfl (fun _ eg => Ex.ordOK eg) rfl (fun _ eg => Ex.ordOK eg) Ex.discContiguous rfl
    simple_eager simple_limited simple_eager simple_limited (fun k hk => by cases hk) (fun k hk => by cases hk) Ex.rulesAre.1 Ex.rulesAre.2 Ex.histS1 rfl
    (Ex.fits2 _ (Or.inl rfl)) (Ex.fits2 _ (Or.inr rfl))
    (by
      intro rw' h
      simp only [List.mem_cons, List.not_mem_nil, or_false] at h
      rcases h with rfl | rfl
      · exact ⟨Ex.ord _, _, Ex.ordOK _, rfl, by decide⟩
      · exact ⟨Ex.ord _, _, Ex.ordOK _, rfl, by decide⟩)
    (by
      intro rw' h
      simp only [List.mem_cons, List.not_mem_nil, or_false] at h
      rcases h with rfl | rfl
      · exact ⟨Ex.ord _, _, Ex.ordOK _, rfl, by decide⟩
      · exact ⟨Ex.ord _, _, Ex.ordOK _, rfl, by decide⟩) rfl rfl rfl rfl

/-- One iteration: the run is cut short by the iteration limit, after an iteration that is not. -/
def Ex.runner1 : Runner Ex.S Unit Unit Unit := { Ex.runnerS1 with limits := { Ex.runnerS1.limits with iterLimit := 1 } }
def Ex.run1 : Runner Ex.S Unit Unit Unit := Ex.stR () (Ex.runner1.run Ex.renv simpleScheduler [] [Ex.ruleFG, Ex.ruleFX] 10)
def Ex.run1' : Runner Ex.S Unit Unit Unit := Ex.stR () (Ex.runner1.run Ex.renv simpleScheduler [] [Ex.ruleFX, Ex.ruleFG] 10)

theorem Ex.fits1 (l : List (Rewrite Ex.S Unit)) (hl : l = [Ex.ruleFG, Ex.ruleFX] ∨ l = [Ex.ruleFX, Ex.ruleFG]) :
    Runner.AlwaysFits Ex.renv simpleScheduler ([] : List (Hook Ex.S Unit Unit)) l Ex.runner1 := by
  intro eg n k rk hreb hk rw' hrw
  cases hreb
  rcases hl with rfl | rfl
  all_goals
    simp only [List.mem_cons, List.not_mem_nil, or_false] at hrw
    rcases k with _ | k
    · cases hk
      rcases hrw with rfl | rfl
      · exact ⟨Ex.ord _, _, Ex.ordOK _, rfl, by decide⟩
      · exact ⟨Ex.ord _, _, Ex.ordOK _, rfl, by decide⟩
    · cases hk

example : ∃ φ, SameUpTo φ Ex.run1.egraph Ex.run1'.egraph ∧ (∀ i c, Valid Ex.runner1.egraph i → Ex.run1.egraph.find i = .ok c → Ex.run1'.egraph.find i = .ok (φ c)) ∧
      Ex.run1.egraph.numberOfClasses = Ex.run1'.egraph.numberOfClasses ∧ Ex.run1.egraph.totalNumberOfNodes = Ex.run1'.egraph.totalNumberOfNodes :=
  c82_deterministic (A := Ex.U0) (depth := 1) (env := Ex.renv) (env' := Ex.renv) (sch := simpleScheduler) (sch' := simpleScheduler) (hooks := [])
    (hooks' := []) (rules := [Ex.ruleFG, Ex.ruleFX]) (rules' := [Ex.ruleFX, Ex.ruleFG]) (r := Ex.runner1) (r' := Ex.run1)
    (q := Ex.runner1) (q' := Ex.run1') (f := 10) (f' := 10)
    (fun _ => rfl) rfl (fun _ eg => Ex.ordOK eg) rfl (fun _ eg => Ex.ordOK eg) Ex.discContiguous rfl
    simple_eager simple_eager (fun k hk => by cases hk) (fun k hk => by cases hk) Ex.rulesAre.1 Ex.rulesAre.2 Ex.histS1 rfl
    (Ex.fits1 _ (Or.inl rfl)) (Ex.fits1 _ (Or.inr rfl)) rfl rfl rfl (fun it h => by cases h; rfl) (fun it h => by cases h; rfl)

/-- With the rules in different orders the numbers of ids that were handed out are different, though. -/
example : (Ex.runA.iterations.length, Ex.runA'.iterations.length, Ex.runB.iterations.length) = (2, 2, 4) ∧
    Ex.run1.stopReason = some (.iterationLimit 1) ∧ (Ex.run1.egraph.nodes.length, Ex.run1'.egraph.nodes.length) = (5, 4) := by decide +kernel

end Egg
