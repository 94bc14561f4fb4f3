import Verif.Lemmas.Records
import Verif.Props.Still
/-
C81: what the iterations of a run and its report say.
-/
namespace Egg
variable {Op D : Type} [DecidableEq Op] [Lang Op]
variable {A : UserAnalysis Op D} {depth : Nat} {allow : Caller Op D} {U : List (UnionRec Op)}

theorem EGraph.node_mem {C : Cfg Op D} {eg : EGraph Op D} (h : EGraph.Inv C eg) (hp : eg.pending = []) {c : Id} {k : EClass Op D} {n : ENode Op}
    (hk : eg.classes.get? c = some k) (hn : n ∈ k.nodes) (hcan : n.mapChildren eg.rt = n) : ∃ j, eg.mem n = some j ∧ eg.rt j = c := by
  obtain ⟨i, m, h1, h2, h3⟩ := h.core.clsNodes _ _ (EGraph.sk_eq hk) n hn
  obtain ⟨r, nr, h4, h5, h6, h7⟩ := h.core.cov i m h1
  rcases h.core.congr r nr h4 h5 with hin | ⟨j, h8, h9⟩
  · rw [hp] at hin; simp at hin
  · refine ⟨j, ?_, ?_⟩
    · rw [← h8, ← hcan, cong_iff_canon.1 (h3.trans h6)]
    · rw [← h2]
      exact h9.trans h7

/-- **C81, sizes.**  After `rebuild` there are at least as many e-nodes as classes, and at least as many entries of the
hash-cons (`total_size`) as e-nodes. -/
theorem c81_sizes {eg eg' : EGraph Op D} {fuel k : Nat} (h : Hist (A.at depth) allow U eg) (hr : eg.rebuild (A.at depth) fuel = .ok (eg', k)) :
    eg'.numberOfClasses ≤ eg'.totalNumberOfNodes ∧ eg'.totalNumberOfNodes ≤ eg'.totalSize := by
  obtain ⟨hg, ht⟩ := rebuilt_tidy h hr
  have hget : ∀ x ∈ eg'.classes, eg'.classes.get? x.1 = some x.2 := fun x hx => AMap.get?_of_mem hg.inv.clsNodup hx
  constructor
  · unfold EGraph.numberOfClasses EGraph.totalNumberOfNodes
    have hpos : ∀ x ∈ eg'.classes, 1 ≤ x.2.nodes.length := by
      intro x hx
      have hk := hget x hx
      have hkey := (hg.inv.core.clsKey x.1).1 (by simp [EGraph.sk, hk])
      obtain ⟨t, hrep⟩ := hg.inv.exists_rep hkey.1
      cases t
      rw [hg.inv.rep_iff] at hrep
      obtain ⟨_, k', n, h1, h2, _⟩ := hrep
      rw [hkey.2, hk] at h1
      cases h1
      exact List.length_pos_of_mem h2
    generalize eg'.classes = l at hpos
    induction l with
    | nil => simp
    | cons x l ih =>
      have h1 := hpos x (by simp)
      have h2 := ih (fun y hy => hpos y (by simp [hy]))
      simp only [List.length_cons, List.map_cons, List.sum_cons]
      omega
  · have hlen : eg'.totalNumberOfNodes = (eg'.classes.flatMap (fun x => x.2.nodes)).length := by
      simp [EGraph.totalNumberOfNodes, List.length_flatMap]
    have hsub : ∀ n ∈ eg'.classes.flatMap (fun x => x.2.nodes), n ∈ AMap.keys eg'.memo := by
      intro n hn
      obtain ⟨x, hx, hn⟩ := List.mem_flatMap.1 hn
      obtain ⟨j, hj, -⟩ := EGraph.node_mem hg.inv ht.pending (hget x hx) hn (ht.canon _ _ (hget x hx) n hn)
      rw [← AMap.get?_isSome_iff]
      unfold EGraph.mem at hj
      rw [hj]; rfl
    have hnd : (eg'.classes.flatMap (fun x => x.2.nodes)).Nodup := by
      rw [List.nodup_flatMap]
      refine ⟨fun x hx => (ht.sorted _ _ (hget x hx)).imp (fun h => h.2), ?_⟩
      have hk := hg.inv.clsNodup
      unfold AMap.keys at hk
      rw [List.Nodup, List.pairwise_map] at hk
      refine hk.imp_of_mem (fun {x y} hx hy hne => ?_)
      intro n h1 h2
      obtain ⟨j, hj, e1⟩ := EGraph.node_mem hg.inv ht.pending (hget x hx) h1 (ht.canon _ _ (hget x hx) n h1)
      obtain ⟨j', hj', e2⟩ := EGraph.node_mem hg.inv ht.pending (hget y hy) h2 (ht.canon _ _ (hget y hy) n h2)
      rw [hj] at hj'
      cases hj'
      exact hne (e1.symm.trans e2)
    have := (List.subperm_of_subset hnd hsub).length_le
    rw [hlen]
    simpa [AMap.keys, EGraph.totalSize] using this

section
variable {S H : Type} {env : RunEnv Op D} {sch : Scheduler Op D S} {hooks : List (Hook Op D H)} {rules : List (Rewrite Op D)}
  {r r' : Runner Op D S H}

/-- **C81, records.**  A run that returns has rebuilt the e-graph and appended records, one per iteration, at least one.
Every record shows the size and the number of classes with which its iteration started, which is the result of the iteration before it.
Its counts are positive, and for different names, which are names of rules.  Only the last record can have a reason for stopping, and then it is
that of the runner. -/
theorem c81_records {f : Nat} (hrun : r.run env sch hooks rules f = .ok r') :
    ∃ eg0 k its last, r.egraph.rebuild env.analysis env.fuel = .ok (eg0, k) ∧ r'.iterations = r.iterations ++ its ++ [last] ∧
      Recorded (StartRecord rules) eg0 (its ++ [last]) r'.egraph ∧
      (∀ it ∈ its, it.stopReason = none) ∧ (last.stopReason = none ∨ last.stopReason = r'.stopReason) := by
  unfold Runner.run at hrun
  obtain ⟨⟨eg0, k⟩, h1, h2⟩ := bind_eq_ok.1 hrun
  obtain ⟨its, last, k1, k2, k3, k4⟩ := Runner.runLoop_recorded (P := StartRecord rules) (I := fun _ => True)
    (fun r r4 it _ ho => ⟨Runner.runOne_start ho, trivial⟩) f _ _ trivial h2
  exact ⟨eg0, k, its, last, h1, k1, k2, k3, k4⟩

/-- **C81, accounting.**  With an analysis whose `modify` does nothing, rules between patterns, hooks that only read, and a
scheduler that counts what the appliers return: in every iteration the number of classes grows by the number of ids that are created and
shrinks by the recorded applications and by the recorded unions of the rebuild, and by nothing else.  (With explanations some new ids belong to
existing classes, and there is an inequality.)  So the same holds of the whole run. -/
theorem c81_accounting (hA : ∀ i, A.modify i = .done) (hN : env.analysis = A.at depth) (hord : ∀ i eg, (env.ord i eg).OK eg)
    (hd : DiscContiguous Op) (hs : sch.Honest env) (hcount : sch.Counting env) (hh : HooksRead hooks)
    (hr : ∀ rw' ∈ rules, ∃ tl t, PatternRule rw' tl t)
    (h : Hist (A.at depth) allow U r.egraph) {f : Nat} (hrun : r.run env sch hooks rules f = .ok r') :
    ∃ eg0 k its, r.egraph.rebuild env.analysis env.fuel = .ok (eg0, k) ∧ r'.iterations = r.iterations ++ its ∧
      Recorded Balanced eg0 its r'.egraph ∧
      (r.egraph.explain = none → r'.egraph.numberOfClasses + (its.map Iteration.total).sum + (its.map (fun it => it.nRebuilds)).sum + eg0.nodes.length =
        eg0.numberOfClasses + r'.egraph.nodes.length) := by
  unfold Runner.run at hrun
  obtain ⟨⟨eg0, k⟩, h1, h2⟩ := bind_eq_ok.1 hrun
  rw [hN] at h1
  have h0 : Hist (A.at depth) allow ([] ++ U) eg0 := Steps.trans h (.single (.rebuild h1))
  have key : ∀ (r r4 : Runner Op D S H) it, ((∃ V, Hist (A.at depth) allow V r.egraph) ∧ r.egraph.clean = true) →
      Runner.runOne env sch hooks rules r = .ok (r4, it) →
      (Balanced r.egraph it r4.egraph ∧ r4.egraph.explain.isSome = r.egraph.explain.isSome) ∧ (∃ V, Hist (A.at depth) allow V r4.egraph) ∧ r4.egraph.clean = true := by
    rintro r r4 it ⟨⟨V, hV⟩, hc⟩ ho
    obtain ⟨b, hx, V', hV'⟩ := Runner.runOne_balanced hA hN hord hd hs hcount hh hr hV hc ho
    exact ⟨⟨b, hx⟩, ⟨_, Steps.trans hV hV'⟩, (Runner.runOne_start ho).clean⟩
  obtain ⟨its, last, k1, k2, -⟩ := Runner.runLoop_recorded
    (P := fun g it g' => Balanced g it g' ∧ g'.explain.isSome = g.explain.isSome)
    (I := fun g => (∃ V, Hist (A.at depth) allow V g) ∧ g.clean = true) key f _ _ ⟨⟨_, h0⟩, EGraph.rebuild_clean h1⟩ h2
  have hx0 : eg0.explain.isSome = r.egraph.explain.isSome :=
    (Bal.rebuild hA (hist_good h) h1).expl
  have hsum : ∀ (g g' : EGraph Op D) (l : List Iteration),
      Recorded (fun g it g' => Balanced g it g' ∧ g'.explain.isSome = g.explain.isSome) g l g' → Recorded Balanced g l g' ∧ (g.explain = none →
        g'.numberOfClasses + (l.map Iteration.total).sum + (l.map (fun it => it.nRebuilds)).sum + g.nodes.length = g.numberOfClasses + g'.nodes.length) := by
    intro g g' l hl
    induction hl with
    | nil => exact ⟨.nil, fun _ => by simp⟩
    | cons hp _ ih =>
      refine ⟨.cons hp.1 ih.1, fun hx => ?_⟩
      have e1 := hp.1.2 hx
      have e2 := ih.2 (Bal.none hp.2 hx)
      simp only [List.map_cons, List.sum_cons]
      omega
  obtain ⟨q1, q2⟩ := hsum _ _ _ k2
  exact ⟨eg0, k, its ++ [last], by rw [hN]; exact h1, by rw [k1]; simp, q1, fun hx => q2 (Bal.none hx0 hx)⟩

/-- **C81, report.**  `report` panics before the run.  After a run it shows the reason for stopping, the number of iterations,
and the sizes of the final e-graph, and the sum of the unions of the rebuilds of the iterations. -/
theorem c81_report :
    (r.stopReason = none → r.report = .error .panic) ∧
    ∀ {f : Nat}, r.run env sch hooks rules f = .ok r' → ∃ rep, r'.report = .ok rep ∧ r'.stopReason = some rep.stopReason ∧
      rep.iterations = r'.iterations.length ∧ r.iterations.length < rep.iterations ∧ rep.egraphNodes = r'.egraph.totalNumberOfNodes ∧
      rep.egraphClasses = r'.egraph.numberOfClasses ∧ rep.memoSize = r'.egraph.totalSize ∧
      rep.rebuilds = (r'.iterations.map (fun it => it.nRebuilds)).sum := by
  refine ⟨fun hn => by unfold Runner.report; rw [hn]; rfl, fun {f} hrun => ?_⟩
  obtain ⟨eg0, k, its, last, -, h2, -⟩ := c81_records hrun
  have hstop : ∃ reason, r'.stopReason = some reason := by
    unfold Runner.run at hrun
    obtain ⟨⟨eg0, k⟩, _, h2⟩ := bind_eq_ok.1 hrun
    have : ∀ (f : Nat) (r r' : Runner Op D S H), Runner.runLoop env sch hooks rules f r = .ok r' → ∃ reason, r'.stopReason = some reason := by
      intro f
      induction f with
      | zero => intro r r' h; cases h
      | succ f ih =>
        intro r r' h
        unfold Runner.runLoop at h
        obtain ⟨⟨r1, it⟩, _, h⟩ := bind_eq_ok.1 h
        dsimp only at h
        split at h
        · cases h; exact ⟨_, rfl⟩
        · split at h
          · cases h; exact ⟨_, rfl⟩
          · exact ih _ _ h
    exact this _ _ _ h2
  obtain ⟨reason, hre⟩ := hstop
  refine ⟨⟨r'.iterations.length, reason, _, _, _, _⟩, by unfold Runner.report; rw [hre]; rfl, hre, rfl, ?_, rfl, rfl, rfl, rfl⟩
  simp [h2]

/-- **C81, one run only.**  A runner that has run can not run again: `run` panics (after it rebuilt the e-graph), whatever the rules. -/
theorem c81_second_run {f : Nat} (hrun : r.run env sch hooks rules f = .ok r') {env' : RunEnv Op D} {sch' : Scheduler Op D S}
    {hooks' : List (Hook Op D H)} {rules' : List (Rewrite Op D)} (f' : Nat) :
    (∀ r'', r'.run env' sch' hooks' rules' f' ≠ .ok r'') ∧
    (∀ eg k, r'.egraph.rebuild env'.analysis env'.fuel = .ok (eg, k) → r'.run env' sch' hooks' rules' (f' + 1) = .error .panic) := by
  obtain ⟨rep, -, hs, -⟩ := c81_report.2 hrun
  have key : ∀ (g : EGraph Op D) f', Runner.runLoop env' sch' hooks' rules' (f' + 1) { r' with egraph := g } = .error .panic := by
    intro g f'
    unfold Runner.runLoop Runner.runOne
    rw [if_pos (by simp [hs])]
    rfl
  constructor
  · intro r'' h
    unfold Runner.run at h
    obtain ⟨⟨eg0, k⟩, _, h2⟩ := bind_eq_ok.1 h
    cases f' with
    | zero => cases h2
    | succ f' => dsimp only at h2; rw [key] at h2; cases h2
  · intro eg k he
    unfold Runner.run
    rw [he]
    exact key eg f'

end

/-! ### A run with two rules on `f (f a)` -/

example : ∃ eg0 k its last, Ex.runnerS1.egraph.rebuild Ex.renv.analysis Ex.renv.fuel = .ok (eg0, k) ∧ Ex.runA.iterations = [] ++ its ++ [last] ∧
    Recorded (StartRecord [Ex.ruleFG, Ex.ruleFX]) eg0 (its ++ [last]) Ex.runA.egraph ∧
    (∀ it ∈ its, it.stopReason = none) ∧ (last.stopReason = none ∨ last.stopReason = Ex.runA.stopReason) :=
  c81_records (r := Ex.runnerS1) (env := Ex.renv) (sch := simpleScheduler) (hooks := []) (f := 10) rfl

example : ∃ eg0 k its, Ex.runnerS1.egraph.rebuild Ex.renv.analysis Ex.renv.fuel = .ok (eg0, k) ∧ Ex.runA.iterations = [] ++ its ∧
      Recorded Balanced eg0 its Ex.runA.egraph ∧
      (Ex.runnerS1.egraph.explain = none → Ex.runA.egraph.numberOfClasses + (its.map Iteration.total).sum + (its.map (fun it => it.nRebuilds)).sum + eg0.nodes.length =
        eg0.numberOfClasses + Ex.runA.egraph.nodes.length) :=
  c81_accounting (A := Ex.U0) (depth := 1) (env := Ex.renv) (sch := simpleScheduler) (hooks := []) (rules := [Ex.ruleFG, Ex.ruleFX]) (r := Ex.runnerS1) (f := 10)
    (fun _ => rfl) rfl (fun _ eg => Ex.ordOK eg) Ex.discContiguous simple_honest simple_counting (fun k hk => by cases hk)
    (fun rw' h => by obtain ⟨tl, t, _, h⟩ := Ex.rulesAre.1.1 rw' h; exact ⟨tl, t, h.pattern⟩) Ex.histS1 rfl

example : Ex.e6.numberOfClasses ≤ Ex.e6.totalNumberOfNodes ∧ Ex.e6.totalNumberOfNodes ≤ Ex.e6.totalSize :=
  c81_sizes (Ex.hist5 .all) (fuel := 20) (k := 1) rfl

example : ∃ rep, Ex.runA.report = .ok rep ∧ (rep.iterations, rep.egraphNodes, rep.egraphClasses, rep.memoSize, rep.rebuilds) = (2, 3, 1, 5, 0) :=
  ⟨_, rfl, by decide +kernel⟩

example (f : Nat) : ∀ r'', Ex.runA.run Ex.renv simpleScheduler [] [Ex.ruleFG] f ≠ .ok r'' :=
  (c81_second_run (r := Ex.runnerS1) (env := Ex.renv) (sch := simpleScheduler) (hooks := []) (rules := [Ex.ruleFG, Ex.ruleFX]) (f := 10) rfl f).1

/-- Three classes and two new ids: four applications leave one class. -/
example : Ex.runA.iterations.map (fun it => (it.egraphClasses, it.total, it.nRebuilds)) = [(3, 4, 0), (1, 0, 0)] ∧
    Ex.runA.egraph.nodes.length = 5 ∧ Ex.runA.egraph.numberOfClasses = 1 := by decide +kernel

/-- The record of the second iteration says that there are five e-nodes; there are three. -/
example : Ex.runA.iterations.map (fun it => it.egraphNodes) = [3, 5] ∧ Ex.runA.egraph.totalNumberOfNodes = 3 := by decide +kernel

end Egg
