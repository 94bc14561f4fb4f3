import Verif.Lemmas.Round
import Verif.Props.Eager
/-
C88: what one round of rewriting adds, exactly; and what is there after `k` iterations.
-/
namespace Egg
variable {Op D S H : Type} [DecidableEq Op] [Lang Op]
variable {A : UserAnalysis Op D} {depth : Nat} {allow : Caller Op D} {U : List (UnionRec Op)}
variable {rules : List (Rewrite Op D)} {eqs : List (Term (PatOp Op) × Term (PatOp Op))}

section
variable {eg eg' : EGraph Op D} {max fuel : Nat}

/-- **C88.**  Run the rules by hand on a rebuilt e-graph: search all of them, apply all of them, rebuild.  Then every term that
is reached by one parallel rewrite step from a term of the e-graph is there, in the class of that term. -/
theorem c88_round_adds (hd : DiscContiguous Op) (hcyc : (A.at depth).allowCycles = true) (hr : RulesAre rules eqs)
    (h : Hist (A.at depth) allow U eg) (hc : eg.clean = true) (hfit : AllFit (A.at depth) max rules eg)
    (hR : Round (A.at depth) max fuel rules eg eg') {c : Id} {s t : Term Op} (hs : Rep eg c s) (hst : Par (RuleInstance eqs) s t) : Rep eg' c t := by
  obtain ⟨eg1, V, n, s1, hreb, -, hcl⟩ := Round.closes hd hcyc hr h hc hfit hR
  have s2 : Steps (A.at depth) allow eg _ eg' := Steps.trans s1 (.single (.rebuild hreb))
  refine Par.closed (hist_good h).inv (Full.of_hist (Steps.trans h s2) (EGraph.rebuild_clean hreb)) (steps_grow s2 (hist_good h)).2 ?_ s hst hs
  rintro s w c ⟨tl, t, hm, τ, h1, h2⟩ h3
  exact hcl tl t hm τ s w c h1 h2 h3

/-- **C88.**  And nothing else is equal after the round: two ids are in the same class exactly if the terms they represent are
equal by ground equational reasoning from the unions made before and the instances of the rules whose left
sides were terms of the e-graph when the rules were searched. -/
theorem c88_round_exact (hd : DiscContiguous Op) (hcyc : (A.at depth).allowCycles = true) (hr : RulesAre rules eqs)
    (hA : SoundFor A (GEq (fun s t => eqsOf U s t ∨ LeftIn eg eqs s t)) .geq)
    (h : Hist (A.at depth) allow U eg) (hc : eg.clean = true) (hfit : AllFit (A.at depth) max rules eg)
    (hR : Round (A.at depth) max fuel rules eg eg') {a b : Id} {s t : Term Op} (ha : Rep eg' a s) (hb : Rep eg' b t) :
    SameClass eg' a b ↔ GEq (fun s t => eqsOf U s t ∨ LeftIn eg eqs s t) s t := by
  obtain ⟨eg1, V, n, s1, hreb, hV, hcl⟩ := Round.closes hd hcyc hr h hc hfit hR
  have s2 : Steps (A.at depth) allow eg ([] ++ [] ++ V) eg' := Steps.trans s1 (.single (.rebuild hreb))
  have h2 := Steps.trans h s2
  have hc' := EGraph.rebuild_clean hreb
  constructor
  · intro hab
    refine c02_no_spurious_equality .geq hA h2 ?_ hab ha hb
    rintro s t ⟨u, hu, rfl, rfl⟩
    rcases List.mem_append.1 hu with hu | hu
    · rcases hV u (by simpa using hu) with h3 | h3
      · exact .ax (Or.inr h3)
      · exact .symm (.ax (Or.inr h3))
    · exact .ax (Or.inl ⟨u, hu, rfl, rfl⟩)
  · intro hst
    obtain ⟨hg, hU⟩ := hist_good_of_sound (soundFor_true A) h2 (fun _ _ _ => trivial)
    have hp := (c47_clean_means_rebuilt h2 hc').pending
    have := (rebuilt_closed_rel hg hp (Q := fun s t => eqsOf U s t ∨ LeftIn eg eqs s t) (by
      rintro s t (⟨u, hu, rfl, rfl⟩ | ⟨⟨tl, t', hm, τ, i1, i2⟩, c, h3⟩)
      · exact ⟨u.a, u.b, hU u (List.mem_append.2 (Or.inr hu))⟩
      · exact ⟨c, c, (steps_grow s2 (hist_good h)).2.rep _ _ h3, hcl tl t' hm τ _ _ c i1 i2 h3, rfl⟩) hst a).1 ha
    rw [hg.inv.sameClass_iff]
    exact ⟨hg.inv.rep_lt ha, hg.inv.rep_lt hb, EGraph.InvW.rep_unique hg.inv hp t this hb⟩

/-- **C88.**  `Rewrite::run` is a round with the one rule. -/
theorem c88_run_is_round {N : Analysis Op D} {rw' : Rewrite Op D} {ord : EGraph Op D → IterOrd} (ho : (ord eg).OK eg) {ids : List Id}
    (h : rw'.run N ord max fuel eg = .ok (eg', ids)) : Round N max fuel [rw'] eg eg' := by
  unfold Rewrite.run at h
  obtain ⟨ms, h1, h⟩ := bind_eq_ok.1 h
  obtain ⟨⟨eg1, ids1⟩, h2, h⟩ := bind_eq_ok.1 h
  obtain ⟨⟨eg2, n⟩, h3, h⟩ := bind_eq_ok.1 h
  cases h
  exact ⟨[ms], eg1, n, .cons ⟨_, ho, h1⟩ .nil, .cons h2 .nil, h3⟩

end

section
variable {env : RunEnv Op D} {sch : Scheduler Op D S} {hooks : List (Hook Op D H)} {r r' : Runner Op D S H} {f : Nat}

/-- **C88.**  The `SimpleScheduler` (or any eager one) misses nothing: after a run of `n` iterations, the last of which is not cut short,
each term that can be reached from a term of the first e-graph by at most `n` parallel rewrite steps is there, in the class
of the term from which it is reached.  Replacing terms by others that the unions before the run made equal is free. -/
theorem c88_reach (hN : env.analysis = A.at depth) (hord : ∀ i eg, (env.ord i eg).OK eg) (hd : DiscContiguous Op)
    (hcyc : (A.at depth).allowCycles = true) (hs : sch.Eager env) (hh : HooksRead hooks) (hr : RulesAre rules eqs)
    (h : Hist (A.at depth) allow U r.egraph) (hfit : r.AlwaysFits env sch hooks rules)
    (hrun : r.run env sch hooks rules f = .ok r') (hlast : ∀ it, r'.iterations.getLast? = some it → it.stopReason = none)
    {k : Nat} (hk : k ≤ r'.iterations.length - r.iterations.length) {c : Id} {s t : Term Op} (hcs : Rep r.egraph c s)
    (hst : ReachedIn (RuleInstance eqs) (GEq (eqsOf U)) k s t) : Rep r'.egraph c t := by
  unfold Runner.run at hrun
  obtain ⟨⟨eg, n⟩, h1, h2⟩ := bind_eq_ok.1 hrun
  have hfit := fun k rk => hfit eg n k rk h1
  have hgr := Runner.runLoop_grows _ h2
  rw [hN] at h1
  have s1 : Steps (A.at depth) allow r.egraph ([] ++ []) eg := .single (.rebuild h1)
  have k1 : Hist (A.at depth) allow ([] ++ [] ++ U) eg := Steps.trans h s1
  refine Runner.runLoop_reached hN hord hd hcyc hs hh hr f _ r' _ k1 (EGraph.rebuild_clean h1) hfit h2 hlast (known := GEq (eqsOf U))
    (fun s t h => by simpa using h) k c s t ?_ ((steps_grow s1 (hist_good h)).2.rep _ _ hcs) hst
  dsimp only at hgr ⊢
  omega

/-- **C88.**  So two terms of the first e-graph that can be rewritten to a common term, each by at most `n` parallel steps, are equal after `n` iterations. -/
theorem c88_join (hN : env.analysis = A.at depth) (hord : ∀ i eg, (env.ord i eg).OK eg) (hd : DiscContiguous Op)
    (hcyc : (A.at depth).allowCycles = true) (hs : sch.Eager env) (hh : HooksRead hooks) (hr : RulesAre rules eqs)
    (h : Hist (A.at depth) allow U r.egraph) (hfit : r.AlwaysFits env sch hooks rules)
    (hrun : r.run env sch hooks rules f = .ok r') (hlast : ∀ it, r'.iterations.getLast? = some it → it.stopReason = none)
    {j k : Nat} (hj : j ≤ r'.iterations.length - r.iterations.length) (hk : k ≤ r'.iterations.length - r.iterations.length)
    {a b : Id} {s t u : Term Op} (ha : Rep r.egraph a s) (hb : Rep r.egraph b t)
    (hsu : ReachedIn (RuleInstance eqs) (GEq (eqsOf U)) j s u) (htu : ReachedIn (RuleInstance eqs) (GEq (eqsOf U)) k t u) :
    SameClass r'.egraph a b := by
  have ht : AreTightRules rules eqs := hr.1
  have h1 := c88_reach hN hord hd hcyc hs hh hr h hfit hrun hlast hj ha hsu
  have h2 := c88_reach hN hord hd hcyc hs hh hr h hfit hrun hlast hk hb htu
  obtain ⟨hc, V, s1, -⟩ := c25_run_reach hN hord hd hs.honest (hh.ok (N := A.at depth) (allow := allow)) ht.areRules h hrun
  have hF := Full.of_hist (Steps.trans h s1) hc
  rw [hF.good.inv.sameClass_iff]
  exact ⟨hF.good.inv.rep_lt h1, hF.good.inv.rep_lt h2, EGraph.InvW.rep_unique hF.good.inv hF.pending _ h1 h2⟩

end

/-! ### Examples: `f (f a)` with the rules `(f ?x) => (g ?x)` and `(g ?x) => ?x` -/

namespace Ex

def ruleGX : Rewrite Ex.S Unit := ⟨9, Ex.patGx.searcher, Ex.patX.applier⟩
def eqsR : List (Term (PatOp Ex.S) × Term (PatOp Ex.S)) := [(Ex.termFx, Ex.termGx), (Ex.termGx, .node (.var Ex.vx) [])]
def runner2 : Runner Ex.S Unit Unit Unit := { Ex.runnerS1 with limits := { Ex.runnerS1.limits with iterLimit := 2 } }
def run2 : Runner Ex.S Unit Unit Unit := Ex.stR () (runner2.run Ex.renv simpleScheduler [] [Ex.ruleFG, ruleGX] 10)

theorem liveG : ∀ v ∈ Ex.patGx.vars, Occurs v Ex.termGx := by
  intro v hv
  have : v = Ex.vx := by simpa [Pattern.vars, patVars, Ex.patGx, Ex.astGx] using hv
  subst this
  exact .arg (t := .node (.var Ex.vx) []) (by simp) .refl

theorem rulesR : RulesAre [Ex.ruleFG, ruleGX] eqsR := by
  have hGX : TightRule ruleGX Ex.termGx (.node (.var Ex.vx) []) := ⟨Ex.patGx, Ex.patX, Ex.isPatGx, Ex.liveGx, liveG, Ex.isPatX, Ex.liveX, rfl⟩
  refine ⟨fun rw' h => ?_, fun tl t h => ?_⟩
  all_goals simp only [List.mem_cons, List.not_mem_nil, or_false, eqsR, Prod.mk.injEq] at h
  · rcases h with rfl | rfl
    · exact ⟨_, _, by simp [eqsR], Ex.tightFG⟩
    · exact ⟨_, _, by simp [eqsR], hGX⟩
  · rcases h with ⟨rfl, rfl⟩ | ⟨rfl, rfl⟩
    · exact ⟨_, by simp, Ex.tightFG⟩
    · exact ⟨_, by simp, hGX⟩

theorem fitsR : Runner.AlwaysFits Ex.renv simpleScheduler ([] : List (Hook Ex.S Unit Unit)) [Ex.ruleFG, ruleGX] runner2 := by
  intro eg n k rk hreb hk rw' hrw
  cases hreb
  simp only [List.mem_cons, List.not_mem_nil, or_false] at hrw
  rcases k with _ | _ | k
  · cases hk
    rcases hrw with rfl | rfl
    · exact ⟨Ex.ord _, _, Ex.ordOK _, rfl, by decide⟩
    · exact ⟨Ex.ord _, _, Ex.ordOK _, rfl, by decide⟩
  · cases hk
    rcases hrw with rfl | rfl
    · exact ⟨Ex.ord _, _, Ex.ordOK _, rfl, by decide +kernel⟩
    · exact ⟨Ex.ord _, _, Ex.ordOK _, rfl, by decide +kernel⟩
  · cases hk

theorem inst1 {x : Term Ex.S} {o : Ex.S} : Inst (fun _ => x) (.node (.op o) [.node (.var Ex.vx) []]) (.node o [x]) := by
  refine .node rfl (fun j q t h1 h2 => ?_)
  cases j with
  | zero => cases h1; cases h2; exact .var
  | succ j => cases h1

/-- `f x => g x` and `g x => x`. -/
theorem stepFG (x : Term Ex.S) : RuleInstance eqsR (.node .f [x]) (.node .g [x]) :=
  ⟨Ex.termFx, Ex.termGx, by simp [eqsR], fun _ => x, inst1, inst1⟩
theorem stepGX (x : Term Ex.S) : RuleInstance eqsR (.node .g [x]) x :=
  ⟨Ex.termGx, .node (.var Ex.vx) [], by simp [eqsR], fun _ => x, inst1, .var⟩

theorem repFa : Rep runner2.egraph 1 Ex.tfa := Ex.repApp (d := 0) rfl rfl (by decide +kernel) (Ex.repLeaf (r := 0) rfl rfl (by decide +kernel))
theorem repFfa : Rep runner2.egraph 2 (.node .f [Ex.tfa]) := Ex.repApp rfl rfl (by decide +kernel) repFa

theorem reachF : ReachedIn (RuleInstance eqsR) (GEq (eqsOf [])) 2 (.node .f [Ex.tfa]) Ex.tfa :=
  .step (.refl _) (.congr (.cons (.rule (stepFG _)) .nil)) (.step (.refl _) (.congr (.cons (.rule (stepGX _)) .nil)) (.zero (.refl _)))

/-- Two steps take `f (f a)` to `f a`, and two iterations make them equal (one iteration does not). -/
example : SameClass run2.egraph 2 1 :=
  c88_join (A := Ex.U0) (depth := 1) (allow := .all) (U := []) (env := Ex.renv) (sch := simpleScheduler) (hooks := []) (rules := [Ex.ruleFG, ruleGX]) (eqs := eqsR)
    (r := runner2) (r' := run2) (f := 10) rfl (fun _ eg => Ex.ordOK eg) Ex.discContiguous rfl simple_eager (fun k hk => by cases hk) rulesR Ex.histS1 fitsR
    rfl (fun it h => by cases h; rfl) (j := 2) (k := 0) (by decide +kernel) (by decide +kernel) (s := .node .f [Ex.tfa]) (t := Ex.tfa) (u := Ex.tfa)
    repFfa repFa reachF (.zero (.refl _))

/-- A round by hand: `f (g a)` and `g (f a)` are found at once, in the class of `f (f a)`; and `f (f a)`
is not yet equal to `f a`. -/
def rd0 : EGraph Ex.S Unit := Ex.st (runner2.egraph.rebuild Ex.N0 20)
def msF : List (SearchMatches Ex.S) := [⟨1, [[(Ex.vx, 0)]], some Ex.astFx⟩, ⟨2, [[(Ex.vx, 1)]], some Ex.astFx⟩]
def rd1 : EGraph Ex.S Unit := Ex.st (Ex.ruleFG.apply Ex.N0 rd0 msF)
def rd2 : EGraph Ex.S Unit := Ex.st (ruleGX.apply Ex.N0 rd1 [])
def rd3 : EGraph Ex.S Unit := Ex.st (rd2.rebuild Ex.N0 20)

theorem hist0 : Hist (Ex.U0.at 1) .all [] rd0 := Steps.tail (V := []) Ex.histS1 (.rebuild (fuel := 20) (n := 0) rfl)
theorem rep0 {c : Id} {t : Term Ex.S} (h : Rep runner2.egraph c t) : Rep rd0 c t :=
  (steps_grow (A := Ex.U0) (depth := 1) (allow := .all) (.single (.rebuild (fuel := 20) (n := 0) rfl)) (hist_good Ex.histS1)).2.rep _ _ h

theorem roundR : Round (Ex.U0.at 1) 100 20 [Ex.ruleFG, ruleGX] rd0 rd3 :=
  ⟨[msF, []], rd2, 0, .cons ⟨Ex.ord rd0, Ex.ordOK rd0, rfl⟩ (.cons ⟨Ex.ord rd0, Ex.ordOK rd0, rfl⟩ .nil), .cons (eg1 := rd1) rfl (.cons (eg1 := rd2) rfl .nil), rfl⟩

theorem fitR : AllFit (Ex.U0.at 1) 100 [Ex.ruleFG, ruleGX] rd0 := by
  intro rw' hrw
  simp only [List.mem_cons, List.not_mem_nil, or_false] at hrw
  rcases hrw with rfl | rfl
  · exact ⟨Ex.ord rd0, msF, Ex.ordOK _, rfl, by decide⟩
  · exact ⟨Ex.ord rd0, [], Ex.ordOK _, rfl, by decide⟩

theorem added {c : Id} {s t : Term Ex.S} (hs : Rep rd0 c s) (hst : Par (RuleInstance eqsR) s t) : Rep rd3 c t :=
  c88_round_adds (A := Ex.U0) (depth := 1) (allow := .all) Ex.discContiguous rfl rulesR hist0 rfl fitR roundR hs hst

example : Rep rd3 2 (.node .f [.node .g [Ex.ta]]) := added (rep0 repFfa) (.congr (.cons (.rule (stepFG _)) .nil))

example : ¬ GEq (fun s t => eqsOf [] s t ∨ LeftIn rd0 eqsR s t) (.node .f [Ex.tfa]) Ex.tfa := by
  have hgr := c88_round_exact (A := Ex.U0) (depth := 1) (allow := .all) (U := []) (eg := rd0) (eg' := rd3) Ex.discContiguous rfl rulesR
    (soundFor_of_quiet (fun _ => rfl) _ _) hist0 rfl fitR roundR (a := 2) (b := 1) (s := .node .f [Ex.tfa]) (t := Ex.tfa)
    (added (rep0 repFfa) (.refl _)) (added (rep0 repFa) (.refl _))
  rw [← hgr]
  rintro ⟨r, h1, h2⟩
  have : rd3.find 2 ≠ rd3.find 1 := by decide +kernel
  exact this (h1.trans h2.symm)

/-- One rule by itself. -/
example : Round Ex.N0 100 20 [Ex.ruleFG] rd0 (Ex.st (Ex.ruleFG.run Ex.N0 (fun eg => Ex.ord eg) 100 20 rd0)) :=
  c88_run_is_round (ids := [3, 4]) (Ex.ordOK rd0) rfl

end Ex
end Egg
