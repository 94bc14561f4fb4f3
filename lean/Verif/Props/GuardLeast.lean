import Verif.Lemmas.GuardLeast
/-
C108: a saturated run with rules that may have `ConditionEqual`s has derived exactly what follows from the rules.
-/
namespace Egg
variable {Op D S H : Type} [DecidableEq Op] [Lang Op]
variable {A : UserAnalysis Op D} {depth : Nat} {allow : Caller Op D} {U : List (UnionRec Op)}
variable {env : RunEnv Op D} {sch : Scheduler Op D S} {hooks : List (Hook Op D H)} {rules : List (Rewrite Op D)}
variable {r r' : Runner Op D S H} {f : Nat} {s t : Term Op} {K : Term Op → Term Op → Prop} {cs : List (EqRule Op)} {I : Nat → S → Prop}

/-- **C108, soundness.**  However a run ends, all terms and equalities of its e-graph follow from those of the first e-graph by the rules. -/
theorem c108_sound (hA : ∀ i, A.modify i = .done) (hN : env.analysis = A.at depth) (hord : ∀ i eg, (env.ord i eg).OK eg)
    (hd : DiscContiguous Op) (hs : sch.Honest env) (hh : HooksRead hooks) (hr : AreEqRules rules cs)
    (h : Hist (A.at depth) allow U r.egraph) (hrun : r.run env sch hooks rules f = .ok r') (hst : Equal r'.egraph s t) :
    Entailed cs (Equal r.egraph) s t := fun K hK h0 hcl =>
  c107_sound hK hA hN hord hd hs hh (fun rw' hrw => by
    obtain ⟨c, hc, hrc⟩ := hr.1 rw' hrw
    exact EqRule.holdsIn hK hA hrc (hcl c hc)) h h0 hrun hst

/-- **C108, the final e-graph is a model.**  The equality of the final e-graph of a run that saturates is itself closed under the rules. -/
theorem c108_closed (hA : ∀ i, A.modify i = .done) (hN : env.analysis = A.at depth) (hord : ∀ i eg, (env.ord i eg).OK eg) (hd : DiscContiguous Op)
    (hcyc : (A.at depth).allowCycles = true) (hsh : sch.Honest env) (hlim : sch.Limited env) (hs : sch.Thorough env r.limits I)
    (hh : HooksRead hooks) (hr : AreEqRules rules cs) (h : Hist (A.at depth) allow U r.egraph) (hI : I r.iterations.length r.scheduler)
    (hfit : ∀ rw' ∈ rules, Fits env r'.egraph rw') (hrun : r.run env sch hooks rules f = .ok r') (hsat : r'.stopReason = some .saturated) :
    PCong (Equal r'.egraph) ∧ (∀ s t, Equal r.egraph s t → Equal r'.egraph s t) ∧ ∀ c ∈ cs, c.Closes (Equal r'.egraph) := by
  classical
  have hh' : HooksOK (A.at depth) allow (fun _ _ => True) hooks := fun k hk h0 eg its h' eg' o hc he => by
    obtain ⟨q1, V, q2, q3⟩ := (hh.ok (N := A.at depth) (allow := allow)) k hk h0 eg its h' eg' o hc he
    exact ⟨q1, V, q2, fun _ _ => trivial⟩
  have hapi : ∀ rw' ∈ rules, UsesApi env (A.at depth) allow rw' := fun rw' hrw => by
    obtain ⟨c, -, hc⟩ := hr.1 rw' hrw
    exact hc.usesApi hA hN hord hd
  obtain ⟨-, hcl, V, hV⟩ := run_guarded (hK := pcong_true) hA hN hord hd hsh hh (fun rw' hrw => by
    obtain ⟨c, -, hc⟩ := hr.1 rw' hrw
    exact EqRule.holdsIn pcong_true hA hc hc.closes_true) h (InHull.start hA h (fun _ _ _ => trivial)) hrun
  have hfin : Hist (A.at depth) allow _ r'.egraph := Steps.trans h hV
  have hF := Full.of_hist hfin hcl
  have hi := hF.good.inv
  refine ⟨hF.pcong, fun s t hst => (steps_grow hV (hist_good h)).2.equal hst, fun c hc => ?_⟩
  obtain ⟨rw', hrw, hrc⟩ := hr.2 c hc
  intro τ u hu hk
  obtain ⟨x, hx, -⟩ := hk
  obtain ⟨lp, rp, ps, hl, hlive, hrp, hps, hnew⟩ := hrc
  let σ : Var → Option Id := fun v => if hx : ∃ x, Rep r'.egraph x (τ v) then some hx.choose else none
  have hσ1 : ∀ v x, σ v = some x → Rep r'.egraph x (τ v) := by
    intro v x hx
    simp only [σ] at hx
    split at hx
    · next he => cases hx; exact he.choose_spec
    · cases hx
  have hσ2 : ∀ v, Occurs v c.lhs → (σ v).isSome := by
    intro v hv
    have := rep_subterm hi (inst_subterm hu v hv) hx
    simp [σ, this]
  have hm : PMatch r'.egraph σ x c.lhs := EGraph.InvW.rep_pmatch hi hF.pending hσ1 c.lhs hx hu hσ2
  by_cases hne : ps = []
  · subst hne
    obtain ⟨lhs, rhs, conds⟩ := c
    cases hps
    intro w hw
    have := plain_closed hN hord hd hcyc hsh hlim hs hh' hapi h hI hrun hsat hrw (hfit rw' hrw) hl.1 hlive hrp.1 hnew hm
    exact ⟨x, hx, hi.pmatch_rep _ this (fun v y _ hy => hσ1 v y hy) hw⟩
  obtain ⟨c', sub, hcm, hck⟩ := sides_there hne hN hord hd hcyc hsh hlim hs hh' hapi h hI hrun hsat hrw (hfit rw' hrw) hl.1 hlive hrp.1 hps hnew hm
  have rep : ∀ {y : Id} {p : Term (PatOp Op)} {a : Term Op}, PMatch r'.egraph sub.get y p → Inst τ p a → Rep r'.egraph y a := fun hp ha =>
    hi.pmatch_rep _ (hcm.back hF.good hp) (fun v y _ hy => hσ1 v y hy) ha
  clear hnew hne
  generalize c.conds = ts at hps hck ⊢
  induction hps with
  | nil => exact fun w hw => ⟨x, hx, hi.pmatch_rep _ (hi.pmatch_congr (hcm.same hF.good) (hcm.back hF.good hck)) (fun v y _ hy => hσ1 v y hy) hw⟩
  | @cons p t ps ts hp _ ih =>
    obtain ⟨t1, t2⟩ := t
    obtain ⟨⟨y, hy⟩, ⟨z, hz⟩, hck⟩ := hck
    obtain ⟨a, ha⟩ := inst_exists hp.1.1.wf.1 τ _ _ hp.1.1.wf.2.2
    obtain ⟨b, hb⟩ := inst_exists hp.2.1.wf.1 τ _ _ hp.2.1.wf.2.2
    have ra := rep hy ha
    have rb := rep hz hb
    refine ⟨a, b, ha, hb, ⟨y, ra, ra⟩, ⟨z, rb, rb⟩, fun hab => ?_⟩
    obtain ⟨d, da, db⟩ := hab
    have conv : ∀ {y : Id} {a : Term Op} {t0 : Term (PatOp Op)}, PMatch r'.egraph sub.get y t0 → Rep r'.egraph y a → Rep r'.egraph d a → PMatch r'.egraph sub.get d t0 :=
      fun hy r1 r2 => hi.pmatch_congr (hi.sameClass_iff.2 ⟨hi.rep_lt r1, hi.rep_lt r2, EGraph.InvW.rep_unique hi hF.pending _ r1 r2⟩) hy
    have hck := hck ⟨d, conv hy ra da, conv hz rb db⟩
    exact ih hck

/-- **C108.**  After a run that saturates two terms are there and in one class exactly if this follows from the first e-graph by the rules, where a rule with `ConditionEqual`s counts only for instances for which
the two sides of each follow to be equal. -/
theorem c108_exact (hA : ∀ i, A.modify i = .done) (hN : env.analysis = A.at depth) (hord : ∀ i eg, (env.ord i eg).OK eg) (hd : DiscContiguous Op)
    (hcyc : (A.at depth).allowCycles = true) (hsh : sch.Honest env) (hlim : sch.Limited env) (hs : sch.Thorough env r.limits I)
    (hh : HooksRead hooks) (hr : AreEqRules rules cs) (h : Hist (A.at depth) allow U r.egraph) (hI : I r.iterations.length r.scheduler)
    (hfit : ∀ rw' ∈ rules, Fits env r'.egraph rw') (hrun : r.run env sch hooks rules f = .ok r') (hsat : r'.stopReason = some .saturated) (s t : Term Op) :
    Equal r'.egraph s t ↔ Entailed cs (Equal r.egraph) s t := by
  obtain ⟨k1, k2, k3⟩ := c108_closed hA hN hord hd hcyc hsh hlim hs hh hr h hI hfit hrun hsat
  exact ⟨c108_sound hA hN hord hd hsh hh hr h hrun, fun he => he _ k1 k2 k3⟩

/-- **C108, the result is unique.**  Two saturated runs with these rules, from e-graphs with the same terms and equalities, end with the same terms and equalities: whatever the order of the
rules and of the hash tables, the schedulers, the analyses and the read-only hooks are. -/
theorem c108_unique {D' S' H' : Type} {A' : UserAnalysis Op D'} {depth' : Nat} {allow' : Caller Op D'} {U' : List (UnionRec Op)}
    {env' : RunEnv Op D'} {sch' : Scheduler Op D' S'} {hooks' : List (Hook Op D' H')} {rules' : List (Rewrite Op D')}
    {x x' : Runner Op D' S' H'} {f' : Nat} {I' : Nat → S' → Prop}
    (hA : ∀ i, A.modify i = .done) (hN : env.analysis = A.at depth) (hord : ∀ i eg, (env.ord i eg).OK eg) (hd : DiscContiguous Op)
    (hcyc : (A.at depth).allowCycles = true) (hsh : sch.Honest env) (hlim : sch.Limited env) (hs : sch.Thorough env r.limits I)
    (hh : HooksRead hooks) (hr : AreEqRules rules cs) (h : Hist (A.at depth) allow U r.egraph) (hI : I r.iterations.length r.scheduler)
    (hfit : ∀ rw' ∈ rules, Fits env r'.egraph rw') (hrun : r.run env sch hooks rules f = .ok r') (hsat : r'.stopReason = some .saturated)
    (hA' : ∀ i, A'.modify i = .done) (hN' : env'.analysis = A'.at depth') (hord' : ∀ i eg, (env'.ord i eg).OK eg)
    (hcyc' : (A'.at depth').allowCycles = true) (hsh' : sch'.Honest env') (hlim' : sch'.Limited env') (hs' : sch'.Thorough env' x.limits I')
    (hh' : HooksRead hooks') (hr' : AreEqRules rules' cs) (h' : Hist (A'.at depth') allow' U' x.egraph) (hI' : I' x.iterations.length x.scheduler)
    (hfit' : ∀ rw' ∈ rules', Fits env' x'.egraph rw') (hrun' : x.run env' sch' hooks' rules' f' = .ok x') (hsat' : x'.stopReason = some .saturated)
    (h0 : ∀ s t, Equal r.egraph s t ↔ Equal x.egraph s t) (s t : Term Op) : Equal r'.egraph s t ↔ Equal x'.egraph s t := by
  rw [c108_exact hA hN hord hd hcyc hsh hlim hs hh hr h hI hfit hrun hsat, c108_exact hA' hN' hord' hd hcyc' hsh' hlim' hs' hh' hr' h' hI' hfit' hrun' hsat']
  rw [show Equal r.egraph = Equal x.egraph from funext fun s => funext fun t => propext (h0 s t)]

/-! ### Examples -/

namespace Ex

/-- The rules `(f ?x) => (g ?x) if ?x = a` and `(g ?x) => ?x`. -/
def ruleUnG : Rewrite Ex.S Unit := ⟨10, patGx.searcher, patX.applier⟩
def csL : List (EqRule Ex.S) := [⟨termFx, termGx, [(.node (.var vx) [], termA)]⟩, ⟨termGx, .node (.var vx) [], []⟩]
theorem areL : AreEqRules [ruleIfA, ruleUnG] csL := by
  have h1 : IsEqRule ruleIfA ⟨termFx, termGx, [(.node (.var vx) [], termA)]⟩ :=
    ⟨patFx, patGx, [(patX, patA)], ⟨isPatFx, liveFx⟩, live, ⟨isPatGx, liveGx⟩, .cons ⟨⟨isPatX, liveX⟩, isPatA, liveA⟩ .nil, rfl⟩
  have h2 : IsEqRule ruleUnG ⟨termGx, .node (.var vx) [], []⟩ := ⟨patGx, patX, [], ⟨isPatGx, liveGx⟩, liveG, ⟨isPatX, liveX⟩, .nil, rfl⟩
  constructor
  · intro rw' h
    rcases List.mem_cons.1 h with rfl | h
    · exact ⟨_, List.mem_cons_self, h1⟩
    · rw [List.mem_singleton.1 h]; exact ⟨_, List.mem_cons_of_mem _ (List.mem_singleton.2 rfl), h2⟩
  · intro c h
    rcases List.mem_cons.1 h with rfl | h
    · exact ⟨_, List.mem_cons_self, h1⟩
    · rw [List.mem_singleton.1 h]; exact ⟨_, List.mem_cons_of_mem _ (List.mem_singleton.2 rfl), h2⟩

/-- Run on the e-graph with a = b, f a, c and f c. -/
def doneL : Runner Ex.S Unit Unit Unit := stR () (runnerQi.run renv simpleScheduler [] [ruleIfA, ruleUnG] 10)

theorem exactL (s t : Term Ex.S) : Equal doneL.egraph s t ↔ Entailed csL (Equal q2) s t :=
  c108_exact (A := U0) (depth := 1) (allow := .all) (env := renv) (sch := simpleScheduler) (hooks := []) (rules := [ruleIfA, ruleUnG]) (I := fun _ _ => True)
    (r := runnerQi) (r' := doneL) (f := 10) (fun _ => rfl) rfl (fun _ eg => ordOK eg) discContiguous rfl simple_honest simple_limited (simple_thorough _)
    (fun k hk => by cases hk) areL (histQi _) trivial
    (fun rw' h => by
      rcases List.mem_cons.1 h with rfl | h
      · exact ⟨ord _, _, ordOK _, rfl, by decide⟩
      · rw [List.mem_singleton.1 h]; exact ⟨ord _, _, ordOK _, rfl, by decide⟩) rfl rfl s t

/-- The run found f a = g a = a, .. -/
example : doneL.stopReason = some .saturated ∧
    doneL.egraph.classes.map (fun k => k.2.nodes) = [[leaf .a, leaf .b, app .f [0], app .g [0]], [leaf .c], [app .f [4]]] := ⟨rfl, rfl⟩

/-- .. so f (f b) = a follows from the rules; -/
example : Entailed csL (Equal q2) (.node .f [tfb]) ta := by
  have hb : Rep doneL.egraph 0 tb := rep_leaf rfl rfl (by decide)
  have hfb : Rep doneL.egraph 0 tfb := rep_app1 (i := 0) rfl rfl (by decide) hb
  exact (exactL _ _).1 ⟨0, rep_app1 (i := 0) rfl rfl (by decide) hfb, rep_leaf rfl rfl (by decide)⟩

/-- but f c = g c does not: the condition fails for c, and no g c comes into being. -/
example : ¬ Entailed csL (Equal q2) (.node .f [.node .c []]) (.node .g [.node .c []]) := by
  intro h
  obtain ⟨x, -, hx⟩ := (exactL _ _).2 h
  obtain ⟨r, k, n, -, h2, h3, h4, h5⟩ := EGraph.rep_iff.1 hx
  have hch : ∀ p ∈ doneL.egraph.classes, ∀ n ∈ p.2.nodes, n.op = .g → n.children = [0] := by decide
  rw [hch _ (AMap.mem_of_get? h2) n h3 h4] at h5
  cases h5 with
  | cons hc _ =>
    obtain ⟨r, k, n, e1, e2, e3, e4, -⟩ := EGraph.rep_iff.1 hc
    have e1 : (.ok 0 : Res Id) = .ok r := e1
    cases e1
    have hno : ∀ p ∈ doneL.egraph.classes, p.1 = 0 → ∀ n ∈ p.2.nodes, n.op ≠ .c := by decide
    exact hno _ (AMap.mem_of_get? e2) rfl n e3 e4

/-- With the rules in the other order the result is the same. -/
def doneLr : Runner Ex.S Unit Unit Unit := stR () (runnerQi.run renv simpleScheduler [] [ruleUnG, ruleIfA] 10)
example (s t : Term Ex.S) : Equal doneL.egraph s t ↔ Equal doneLr.egraph s t :=
  c108_unique (A := U0) (depth := 1) (allow := .all) (env := renv) (sch := simpleScheduler) (hooks := []) (rules := [ruleIfA, ruleUnG]) (I := fun _ _ => True)
    (r := runnerQi) (r' := doneL) (f := 10) (A' := U0) (depth' := 1) (allow' := .all) (env' := renv) (sch' := simpleScheduler) (hooks' := [])
    (rules' := [ruleUnG, ruleIfA]) (I' := fun _ _ => True) (x := runnerQi) (x' := doneLr) (f' := 10)
    (fun _ => rfl) rfl (fun _ eg => ordOK eg) discContiguous rfl simple_honest simple_limited (simple_thorough _)
    (fun k hk => by cases hk) areL (histQi _) trivial
    (fun rw' h => by
      rcases List.mem_cons.1 h with rfl | h
      · exact ⟨ord _, _, ordOK _, rfl, by decide⟩
      · rw [List.mem_singleton.1 h]; exact ⟨ord _, _, ordOK _, rfl, by decide⟩) rfl rfl
    (fun _ => rfl) rfl (fun _ eg => ordOK eg) rfl simple_honest simple_limited (simple_thorough _)
    (fun k hk => by cases hk) ⟨fun rw' h => areL.1 rw' (by simpa [or_comm] using h), fun c h => by
      obtain ⟨rw', h1, h2⟩ := areL.2 c h
      exact ⟨rw', by simpa [or_comm] using h1, h2⟩⟩ (histQi _) trivial
    (fun rw' h => by
      rcases List.mem_cons.1 h with rfl | h
      · exact ⟨ord _, _, ordOK _, rfl, by decide⟩
      · rw [List.mem_singleton.1 h]; exact ⟨ord _, _, ordOK _, rfl, by decide⟩) rfl rfl (fun _ _ => Iff.rfl) s t

/-- The rules `(f ?x) => (g ?x) if ?x = a if (f ?x) = ?x` and `(f ?x) => ?x`. -/
def ruleIf2 : Rewrite Ex.S Unit := ⟨11, patFx.searcher, condApplier patGx.applier [Condition.equal patX patA, Condition.equal patFx patX]⟩
def ruleUnF : Rewrite Ex.S Unit := ⟨12, patFx.searcher, patX.applier⟩
def cs2 : List (EqRule Ex.S) := [⟨termFx, termGx, [(.node (.var vx) [], termA), (termFx, .node (.var vx) [])]⟩, ⟨termFx, .node (.var vx) [], []⟩]
theorem are2 : AreEqRules [ruleIf2, ruleUnF] cs2 := by
  have h1 : IsEqRule ruleIf2 ⟨termFx, termGx, [(.node (.var vx) [], termA), (termFx, .node (.var vx) [])]⟩ :=
    ⟨patFx, patGx, [(patX, patA), (patFx, patX)], ⟨isPatFx, liveFx⟩, live, ⟨isPatGx, liveGx⟩,
      .cons ⟨⟨isPatX, liveX⟩, isPatA, liveA⟩ (.cons ⟨⟨isPatFx, liveFx⟩, isPatX, liveX⟩ .nil), rfl⟩
  have h2 : IsEqRule ruleUnF ⟨termFx, .node (.var vx) [], []⟩ := ⟨patFx, patX, [], ⟨isPatFx, liveFx⟩, live, ⟨isPatX, liveX⟩, .nil, rfl⟩
  constructor
  · intro rw' h
    rcases List.mem_cons.1 h with rfl | h
    · exact ⟨_, List.mem_cons_self, h1⟩
    · rw [List.mem_singleton.1 h]; exact ⟨_, List.mem_cons_of_mem _ (List.mem_singleton.2 rfl), h2⟩
  · intro c h
    rcases List.mem_cons.1 h with rfl | h
    · exact ⟨_, List.mem_cons_self, h1⟩
    · rw [List.mem_singleton.1 h]; exact ⟨_, List.mem_cons_of_mem _ (List.mem_singleton.2 rfl), h2⟩
def doneIf2 : Runner Ex.S Unit Unit Unit := stR () (runnerQi.run renv simpleScheduler [] [ruleIf2, ruleUnF] 10)

/-- Both conditions hold for a, in the end; the first one fails for c. -/
example : (∀ s t, Equal doneIf2.egraph s t ↔ Entailed cs2 (Equal q2) s t) ∧
    doneIf2.egraph.classes.map (fun k => k.2.nodes) = [[leaf .a, leaf .b, app .f [0], app .g [0]], [leaf .c, app .f [4]]] :=
  ⟨c108_exact (A := U0) (depth := 1) (allow := .all) (env := renv) (sch := simpleScheduler) (hooks := []) (rules := [ruleIf2, ruleUnF]) (I := fun _ _ => True)
    (r := runnerQi) (r' := doneIf2) (f := 10) (fun _ => rfl) rfl (fun _ eg => ordOK eg) discContiguous rfl simple_honest simple_limited (simple_thorough _)
    (fun k hk => by cases hk) are2 (histQi _) trivial
    (fun rw' h => by
      rcases List.mem_cons.1 h with rfl | h
      · exact ⟨ord _, _, ordOK _, rfl, by decide⟩
      · rw [List.mem_singleton.1 h]; exact ⟨ord _, _, ordOK _, rfl, by decide⟩) rfl rfl, rfl⟩

end Ex

end Egg
