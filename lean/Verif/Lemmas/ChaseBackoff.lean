import Verif.Lemmas.ChaseStill
import Verif.Lemmas.Debt
/-
Forward chaining with the back-off scheduler.
-/
namespace Egg
variable {Op D H : Type} [DecidableEq Op] [Lang Op]
variable {A : UserAnalysis Op D} {depth : Nat} {allow : Caller Op D} {U : List (UnionRec Op)}
variable {env : RunEnv Op D} {hooks : List (Hook Op D H)} {rules : List (Rewrite Op D)} {cs : List (Clause Op)}

/-- A limit on the search of a rule truncates its matches. -/
theorem IsClause.truncates {rw' : Rewrite Op D} {c : Clause Op} (hr : IsClause rw' c) (hd : DiscContiguous Op) {eg : EGraph Op D} {ord : IterOrd}
    (ho : ord.OK eg) (h : Hist (A.at depth) allow U eg) (hc : eg.clean = true) :
    ∃ F : List (Id × Subst), ∀ limit, ∃ ms, rw'.searcher.search (A.at depth) eg ord limit = .ok ms ∧ flat ms = F.take limit := by
  cases c with
  | rewrite tl t =>
    obtain ⟨lp, rp, hl, -, -, hnew⟩ := hr
    obtain ⟨-, hrw⟩ := rewrite_new_inv hnew
    rw [hrw]
    exact (c20_limit_truncates h hc hd ho hl).2
  | horn ls rs =>
    obtain ⟨lp, rp, hl, hfn, -, -, hnew⟩ := hr
    obtain ⟨-, hrw⟩ := rewrite_new_inv hnew
    rw [hrw]
    obtain ⟨F, hF, -⟩ := c22_search h hc hd ho hl hfn
    exact ⟨F, hF⟩

/-- Applying rules one after the other. -/
theorem Runner.applyEachRule_did {S : Type} {sch : Scheduler Op D S} {lim : RunnerLimits} {I : Nat → S → Prop} {i : Nat} (hN : env.analysis = A.at depth)
    (hs : sch.Thorough env lim I) {egS : EGraph Op D}
    (h : Hist (A.at depth) allow U egS) (hc : egS.clean = true) :
    ∀ (l : List (Rewrite Op D × List (SearchMatches Op))) (r r1 : Runner Op D S H) (ap ap' : AMap Symbol Nat) (o : Option StopReason)
      (V : List (UnionRec Op)),
    (∀ rw' ms, (rw', ms) ∈ l → Found env i egS rw' ms ∧ SoundRule env (A.at depth) allow (fun _ _ => True) rw') →
    Steps (A.at depth) allow egS V r.egraph →
    applyEachRule env sch l r ap = .ok (r1, ap', o) → r1.scheduler = r.scheduler ∧ (∃ W, Steps (A.at depth) allow r.egraph W r1.egraph) ∧
      (o = none → ∀ rw' ms, (rw', ms) ∈ l → ∃ V1 eg eg' ids W1, Steps (A.at depth) allow egS V1 eg ∧
        rw'.applier.applyMatches (A.at depth) eg ms rw'.name = .ok (eg', ids) ∧ Steps (A.at depth) allow eg' W1 r1.egraph) := by
  intro l
  induction l with
  | nil => intro r r1 ap ap' o V _ _ h; cases h; exact ⟨rfl, ⟨[], .refl⟩, by simp⟩
  | cons x l ih =>
    intro r r1 ap ap' o V hl hst ha
    obtain ⟨rw', ms⟩ := x
    unfold applyEachRule at ha
    rw [bind_eq_ok] at ha
    obtain ⟨⟨s, eg, n⟩, h1, ha⟩ := ha
    obtain ⟨rfl, ids, h2⟩ := hs.apply _ _ _ _ _ _ _ _ h1
    obtain ⟨hf, hr⟩ := hl rw' ms (by simp)
    rw [hN] at h2
    obtain ⟨W, s1, -⟩ := hr _ egS i ms _ _ ms _ _ h (fun _ _ => trivial) hc hf hst (fun _ _ => trivial) (Part.refl' _) h2
    dsimp only at ha
    split at ha
    · cases ha; exact ⟨rfl, ⟨W, s1⟩, by intro h; cases h⟩
    · obtain ⟨e1, ⟨W2, s2⟩, k⟩ := ih _ r1 _ ap' o _ (fun a b hab => hl a b (by simp [hab])) (Steps.trans hst s1) ha
      refine ⟨e1, ⟨_, Steps.trans s1 s2⟩, fun ho rw2 ms2 hm => ?_⟩
      rcases List.mem_cons.1 hm with e | hm
      · cases e
        exact ⟨_, _, _, _, _, hst, h2, s2⟩
      · exact k ho rw2 ms2 hm

/-- What an iteration that is not cut short does. -/
theorem Runner.runOne_backoff {b r4 : Runner Op D Backoff H} {it : Iteration} (hN : env.analysis = A.at depth) (hord : ∀ i eg, (env.ord i eg).OK eg)
    (hd : DiscContiguous Op) (hcyc : (A.at depth).allowCycles = true) (hh : HooksRead hooks) (hr : ∀ rw' ∈ rules, ∃ c ∈ cs, IsClause rw' c)
    (hnd : (rules.map (·.name)).Nodup) (h : Hist (A.at depth) allow U b.egraph) (hc : b.egraph.clean = true) (hw : b.scheduler.WF)
    (ho : runOne env Backoff.scheduler hooks rules b = .ok (r4, it)) (hcpl : it.Completed) :
    ∃ V, Steps (A.at depth) allow b.egraph V r4.egraph ∧ r4.egraph.clean = true ∧ r4.scheduler.WF ∧
      ∀ rw' ∈ rules, ∀ c, IsClause rw' c → ∀ B, B < env.usizeMax → b.AtMost env rw' B →
        Outcome env.bits b.iterations.length B (b.scheduler.ruleStats rw'.name) (r4.scheduler.ruleStats rw'.name)
          (∀ s t, c.Derives (Equal b.egraph) s t → Equal r4.egraph s t) := by
  obtain ⟨_, r1, res1, r2, ms, r3, applied, res3, eg, nReb, quiet, p1, p2, p3, p4, p5, -, -, -, e2⟩ := runOne_inv ho
  obtain ⟨f1, fs1⟩ := hookPhase_frame p1
  obtain ⟨f2, g2⟩ := searchPhase_frame p2
  have f3 := applyPhase_frame p3
  obtain ⟨f4, g4⟩ := quietPhase_frame p5
  have g4 : r4.egraph = eg := g4
  have g1 := hookPhase_read hh p1
  rw [hN] at p4
  cases ms with
  | error reason =>
    exfalso
    cases p3
    unfold Iteration.Completed at hcpl
    rw [e2] at hcpl
    rcases hcpl with h | h
    · cases h
    injection h with h
    subst h
    unfold searchPhase at p2
    split at p2
    · cases p2
      unfold hookPhase at p1
      split at p1
      · next hk => cases p1; exact check_ne_saturated hk
      · rw [bind_eq_ok] at p1
        obtain ⟨⟨h1, eg1, o⟩, k1, k2⟩ := p1
        cases o <;> cases k2
    · rw [bind_eq_ok] at p2
      obtain ⟨⟨s1, tick, ms0⟩, k1, k2⟩ := p2
      cases k2
      obtain ⟨k, hk⟩ := backoff_limited _ _ _ _ _ _ _ _ _ k1
      exact check_ne_saturated hk
  | ok mss =>
    have hres : res3 = none := by
      cases res3 with
      | none => rfl
      | some s =>
        exfalso
        unfold Iteration.Completed at hcpl
        rw [e2] at hcpl
        rcases hcpl with h | h
        · cases h
        injection h with h
        subst h
        obtain ⟨k, hk⟩ := applyEachRule_reason _ p3
        exact check_ne_saturated hk
    subst hres
    unfold searchPhase at p2
    split at p2
    · cases p2
    rw [bind_eq_ok] at p2
    obtain ⟨⟨sS, tick, ms0⟩, k1, k2⟩ := p2
    cases k2
    have hfound := backoff_honest.search _ _ _ _ _ _ _ _ _ k1
    have k1 : searchEach (Backoff.searchRewrite env r1.iterations.length) env r1.limits r1.iterations.length r1.egraph r1.scheduler r1.tick rules [] =
      .ok (sS, tick, .ok mss) := k1
    obtain ⟨w1, w2, new, w3, w4⟩ := Backoff.searchEach_searched rules _ _ _ _ _ _ hnd k1
    rw [List.nil_append] at w3
    subst w3
    have hi : r1.iterations.length = b.iterations.length := by rw [f1.its]
    rw [hi, g1, fs1] at w4
    rw [hi, g1] at hfound
    rw [fs1] at w1 w2
    unfold applyPhase at p3
    dsimp only at p3
    obtain ⟨es, ⟨W, s2⟩, hall⟩ := applyEachRule_did (i := b.iterations.length) hN (backoff_thorough b.limits) h hc _ _ r3 _ _ _ []
      (fun rw' ms hm => ⟨hfound rw' ms hm, by
        obtain ⟨c, -, q2⟩ := hr rw' (List.of_mem_zip hm).1
        exact q2.sound hN hord hd⟩) (by dsimp only; rw [g1]; exact .refl) p3
    dsimp only at es s2
    rw [g1] at s2
    have hst3 : Steps (A.at depth) allow r3.egraph ([] ++ []) eg := Steps.single (.rebuild p4)
    have hst : Steps (A.at depth) allow b.egraph _ eg := Steps.trans s2 hst3
    have hce : eg.clean = true := EGraph.rebuild_clean p4
    obtain ⟨v1, v2, -⟩ := quietPhase_backoff (r := { r3 with egraph := eg }) (by dsimp only; rw [es]; exact w1 hw) p5
    dsimp only at v2
    rw [es] at v2
    rw [g4]
    refine ⟨_, hst, hce, v1, fun rw' hrw c hcl B hB hmost => ?_⟩
    obtain ⟨ms, hms⟩ : ∃ ms, (rw', ms) ∈ rules.zip mss := exists_mem_zip w4 hrw
    obtain ⟨u1, u2, u3, u4⟩ := v2 rw'.name
    obtain ⟨F, hF⟩ := hcl.truncates hd (hord b.iterations.length b.egraph) h hc
    rw [← hN] at hF
    have hFB : F.length ≤ B := by
      obtain ⟨m0, q1, q2⟩ := hF env.usizeMax
      have := hmost m0 q1
      rw [q2, List.length_take] at this
      omega
    rcases mem_zip_forall₂ w4 hms with ⟨y1, y2, y3⟩ | ⟨th, ms0, y1, y2, y3, ⟨y4, y5, len, y6, y7⟩ | ⟨y4, y5, y6⟩⟩
    · rw [y3] at u1 u2 u3 u4
      exact ⟨u1, u2, Or.inl ⟨y1, u3, u4⟩⟩
    · rw [y7] at u1 u2 u3 u4
      refine ⟨u1, u2, Or.inr (Or.inl ⟨by omega, ?_, u3, ?_⟩)⟩
      · obtain ⟨m0, q1, q2⟩ := hF (min (th + 1) env.usizeMax)
        rw [y3] at q1
        cases q1
        rw [Backoff.totalLen_flat, q2, List.length_take] at y4
        unfold Backoff.shl at y2
        split at y2
        · cases y2; omega
        · cases y2
      · unfold Backoff.shl at y6
        split at y6
        · cases y6
          have := Nat.mod_le ((b.scheduler.ruleStats rw'.name).banLength * 2 ^ (b.scheduler.ruleStats rw'.name).timesBanned) (2 ^ env.bits)
          dsimp only at u4
          omega
        · cases y6
    · rw [y6] at u1 u2 u3 u4
      subst y5
      refine ⟨u1, u2, Or.inr (Or.inr ⟨by omega, u3, le_trans u4 (by dsimp only; omega), fun s t hD => ?_⟩)⟩
      have hmax : (flat ms).length < min (th + 1) env.usizeMax := by
        obtain ⟨m0, q1, q2⟩ := hF (min (th + 1) env.usizeMax)
        rw [y3] at q1
        cases q1
        rw [Backoff.totalLen_flat] at y4
        have : (flat ms).length ≤ F.length := by rw [q2, List.length_take]; omega
        omega
      rw [hN] at y3
      obtain ⟨V1, ega, egb, ids, W1, t1, t2, t3⟩ := hall rfl rw' ms hms
      have t4 : Steps (A.at depth) allow egb _ eg := Steps.trans t3 hst3
      cases c with
      | rewrite tl t =>
        exact PatternRule.performs hcl hd hcyc (hord _ _) h hc y3 hmax t1 t2 t4 hce (Steps.trans h hst) (steps_grow hst (hist_good h)).2 hD
      | horn ls rs => exact MultiRule.performs hcl hN hord hd hcyc h hc y3 hmax t1 t2 t4 hce hD

/-- A bound on the matches of each rule that its doubled limit reaches. -/
def Runner.Bounded (env : RunEnv Op D) (hooks : List (Hook Op D H)) (rules : List (Rewrite Op D)) (d : Symbol → Nat) (b : Runner Op D Backoff H) : Prop :=
  ∀ rw' ∈ rules, ∃ B, B < env.usizeMax ∧ Covers env.bits (b.scheduler.ruleStats rw'.name).matchLimit (d rw'.name) B ∧
    (b.scheduler.ruleStats rw'.name).timesBanned ≤ d rw'.name ∧
    ∀ k bk, Runner.after env Backoff.scheduler hooks rules k b = some bk → bk.AtMost env rw' B

theorem Runner.runLoop_backoff (hN : env.analysis = A.at depth) (hord : ∀ i eg, (env.ord i eg).OK eg) (hd : DiscContiguous Op)
    (hcyc : (A.at depth).allowCycles = true) (hh : HooksRead hooks) (hr : AreClauses rules cs) (hnd : (rules.map (·.name)).Nodup) {d : Symbol → Nat} :
    ∀ (f : Nat) (b r' : Runner Op D Backoff H) (U : List (UnionRec Op)), Hist (A.at depth) allow U b.egraph → b.egraph.clean = true →
    b.scheduler.WF → b.Bounded env hooks rules d →
    runLoop env Backoff.scheduler hooks rules f b = .ok r' → (∀ it, r'.iterations.getLast? = some it → it.Completed) →
    (r'.egraph.clean = true ∧ ∃ V, Steps (A.at depth) allow b.egraph V r'.egraph) ∧
    ∀ k s t, b.iterations.length + k + b.debt rules d ≤ r'.iterations.length → Chase cs (Equal b.egraph) k s t → Equal r'.egraph s t := by
  intro f
  induction f with
  | zero => intro r r' U _ _ _ _ h; cases h
  | succ f ih =>
    intro b r' U h hc hw hbd hl hlast
    obtain ⟨fb, r1, it, e, hb1, hb2, hb3⟩ := runLoop_step hl
    cases e
    have hcpl : it.Completed := by
      rcases hb3 with ⟨s, h1, h2⟩ | ⟨h1, _⟩ | ⟨h1, _⟩
      · exact hlast it (by rw [h2]; simp)
      · exact .inl h1
      · exact .inl h1
    obtain ⟨Vb, sb, cb, w1, hO⟩ := runOne_backoff hN hord hd hcyc hh hr.1 hnd h hc hw hb1 hcpl
    have h1 : Hist (A.at depth) allow _ r1.egraph := Steps.trans h sb
    have hF := Full.of_hist h1 cb
    have hF0 := Full.of_hist h hc
    have gr := (steps_grow sb (hist_good h)).2
    have hE0 : ∀ s t, EqHull (Equal b.egraph) s t → Equal b.egraph s t := fun s t hst => hF0.known (fun _ _ h => h) hst
    have hout : ∀ rw' ∈ rules, ∀ c, IsClause rw' c → ∃ B, B < env.usizeMax ∧
        (∀ k bk, Runner.after env Backoff.scheduler hooks rules k b = some bk → bk.AtMost env rw' B) ∧
        (r1.scheduler.ruleStats rw'.name).timesBanned ≤ d rw'.name ∧ Covers env.bits (r1.scheduler.ruleStats rw'.name).matchLimit (d rw'.name) B ∧
        ((r1.scheduler.ruleStats rw'.name).debt (d rw'.name) (b.iterations.length + 1) + 1 ≤ (b.scheduler.ruleStats rw'.name).debt (d rw'.name) b.iterations.length ∨
        ((r1.scheduler.ruleStats rw'.name).debt (d rw'.name) (b.iterations.length + 1) ≤ (b.scheduler.ruleStats rw'.name).debt (d rw'.name) b.iterations.length ∧
          ∀ s t, c.Derives (Equal b.egraph) s t → Equal r1.egraph s t)) := by
      intro rw' hrw c hcl
      obtain ⟨B, q1, q2, q3, q4⟩ := hbd rw' hrw
      obtain ⟨o1, o2, o3⟩ := (hO rw' hrw c hcl B q1 (q4 0 b rfl)).debt q3 q2
      exact ⟨B, q1, q4, o1, o2, o3.imp id (fun o => ⟨o.1, o.2.2.2⟩)⟩
    have hle : ∀ rw' ∈ rules, (r1.scheduler.ruleStats rw'.name).debt (d rw'.name) (b.iterations.length + 1) ≤
        (b.scheduler.ruleStats rw'.name).debt (d rw'.name) b.iterations.length := by
      intro rw' hrw
      obtain ⟨c, -, hcl⟩ := hr.1 rw' hrw
      obtain ⟨B, -, -, -, -, o | ⟨o, -⟩⟩ := hout rw' hrw c hcl <;> omega
    let D1 := (rules.map fun rw' => (r1.scheduler.ruleStats rw'.name).debt (d rw'.name) (b.iterations.length + 1)).sum
    have hstep : D1 + 1 ≤ b.debt rules d ∨ (D1 ≤ b.debt rules d ∧ ∀ c ∈ cs, ∀ s t, c.Derives (Equal b.egraph) s t → Equal r1.egraph s t) := by
      by_cases hex : ∃ rw' ∈ rules, (r1.scheduler.ruleStats rw'.name).debt (d rw'.name) (b.iterations.length + 1) + 1 ≤
          (b.scheduler.ruleStats rw'.name).debt (d rw'.name) b.iterations.length
      · exact .inl (sum_lt_of hle hex)
      · refine .inr ⟨sum_le_of hle, fun c hcm => ?_⟩
        obtain ⟨rw', hrw, hcl⟩ := hr.2 c hcm
        obtain ⟨B, -, -, -, -, o | ⟨-, o⟩⟩ := hout rw' hrw c hcl
        · exact absurd ⟨rw', hrw, o⟩ hex
        · exact o
    have one : (∀ c ∈ cs, ∀ s t, c.Derives (Equal b.egraph) s t → Equal r1.egraph s t) → ∀ s t, Chase cs (Equal b.egraph) 1 s t → Equal r1.egraph s t := by
      intro hD s t hst
      refine hF.known (fun s t hst => ?_) hst
      rcases hst with hst | ⟨c, hcm, hst⟩
      · exact gr.equal (hE0 s t hst)
      · exact hD c hcm s t (hst.mono hE0)
    have last : ∀ k s t, b.iterations.length + k + b.debt rules d ≤ b.iterations.length + 1 → Chase cs (Equal b.egraph) k s t → Equal r1.egraph s t := by
      intro k s t hlen hch
      match k, hlen with
      | 0, _ => exact gr.equal (hE0 s t hch)
      | 1, hlen =>
        rcases hstep with hs | ⟨-, hs⟩
        · omega
        · exact one hs s t hch
      | k + 2, hlen => omega
    rcases hb3 with ⟨s, h2, rfl⟩ | ⟨_, _, _, _, _, _, _, e1, e2⟩ | ⟨_, hb4, hb5⟩
    · refine ⟨⟨cb, _, sb⟩, fun k s t hlen hch => last k s t ?_ hch⟩
      simpa only [List.length_append, List.length_singleton, hb2] using hlen
    · rw [e1]
      refine ⟨⟨cb, _, sb⟩, fun k s t hlen hch => last k s t ?_ hch⟩
      rwa [e2, hb2, List.length_append, List.length_singleton] at hlen
    · obtain ⟨⟨q1, V2, q2⟩, q3⟩ := ih _ r' _ (by exact h1) (by exact cb) (by exact w1) (fun rw' hrw => by
        obtain ⟨c, -, hcl⟩ := hr.1 rw' hrw
        obtain ⟨B, o1, o2, o3, o4, -⟩ := hout rw' hrw c hcl
        exact ⟨B, o1, o4, o3, fun k bk hk => o2 (k + 1) bk (after_succ hb4 hk)⟩) hb5 hlast
      refine ⟨⟨q1, _, Steps.trans sb q2⟩, fun k s t hlen hch => ?_⟩
      have eD : Runner.debt rules d { r1 with iterations := r1.iterations ++ [it], tick := r1.tick + 1 } = D1 := by
        unfold Runner.debt
        simp only [List.length_append, List.length_singleton, hb2]
        rfl
      rcases hstep with hs | ⟨hs, hD⟩
      · refine q3 k s t ?_ (Chase.mono (fun s t => gr.equal) k hch)
        rw [eD]
        simp only [List.length_append, List.length_singleton, hb2]
        omega
      · cases k with
        | zero => exact (steps_grow q2 (hist_good h1)).2.equal (gr.equal (hE0 s t hch))
        | succ k =>
          refine q3 k s t ?_ (Chase.shift (fun s t h => .base (one hD s t h)) k hch)
          rw [eD]
          simp only [List.length_append, List.length_singleton, hb2]
          omega

/-! ### Saturated runs -/

/-- What an iteration that ends as saturated has found and applied. -/
theorem Runner.runOne_thorough {S : Type} {sch : Scheduler Op D S} {I : Nat → S → Prop} {r r4 : Runner Op D S H} {it : Iteration}
    (hN : env.analysis = A.at depth) (hord : ∀ i eg, (env.ord i eg).OK eg)
    (hd : DiscContiguous Op) (hcyc : (A.at depth).allowCycles = true) (hlim : sch.Limited env) (hs : sch.Thorough env r.limits I) (hh : HooksRead hooks)
    (hr : AreClauses rules cs) (h : Hist (A.at depth) allow U r.egraph) (hc : r.egraph.clean = true)
    (hI : I r.iterations.length r.scheduler) (ho : runOne env sch hooks rules r = .ok (r4, it)) :
    (it.stopReason = none → I (r.iterations.length + 1) r4.scheduler) ∧
    (it.stopReason = some .saturated → (∀ rw' ∈ rules, FitsAny env r.egraph rw') →
      (∃ V, Steps (A.at depth) allow r.egraph V r4.egraph) ∧ r4.egraph.clean = true ∧ r4.egraph.totalSize = r.egraph.totalSize ∧
      r4.egraph.numberOfClasses = r.egraph.numberOfClasses ∧ ∀ c ∈ cs, ∀ s t, c.Derives (Equal r.egraph) s t → Equal r4.egraph s t) := by
  obtain ⟨_, r1, res1, r2, ms, r3, applied, res3, eg, nReb, quiet, p1, p2, p3, p4, p5, -, -, -, e2⟩ := runOne_inv ho
  obtain ⟨f1, fs1⟩ := hookPhase_frame p1
  obtain ⟨f2, g2⟩ := searchPhase_frame p2
  have f3 := applyPhase_frame p3
  obtain ⟨f4, g4⟩ := quietPhase_frame p5
  have g4 : r4.egraph = eg := g4
  have g1 := hookPhase_read hh p1
  rw [hN] at p4
  cases ms with
  | error reason =>
    cases p3
    rw [e2]
    refine ⟨fun h => (by cases h), fun h => ?_⟩
    injection h with h
    subst h
    exfalso
    unfold searchPhase at p2
    split at p2
    · cases p2
      unfold hookPhase at p1
      split at p1
      · next hk => cases p1; exact check_ne_saturated hk
      · rw [bind_eq_ok] at p1
        obtain ⟨⟨h1, eg1, o⟩, k1, k2⟩ := p1
        cases o <;> cases k2
    · rw [bind_eq_ok] at p2
      obtain ⟨⟨s1, tick, ms0⟩, k1, k2⟩ := p2
      cases k2
      obtain ⟨k, hk⟩ := hlim _ _ _ _ _ _ _ _ _ k1
      exact check_ne_saturated hk
  | ok mss =>
    unfold searchPhase at p2
    split at p2
    · cases p2
    rw [bind_eq_ok] at p2
    obtain ⟨⟨sS, tick, ms0⟩, k1, k2⟩ := p2
    cases k2
    have hit : r.iterations.length < r.limits.iterLimit := by
      unfold hookPhase at p1
      split at p1
      · cases p1
      next hk =>
      unfold Runner.check RunnerLimits.check at hk
      split_ifs at hk with q1 q2 q3
      omega
    rw [f1.lim, f1.its, fs1, g1] at k1
    obtain ⟨i1, i2⟩ := hs.search _ _ _ _ _ _ _ _ hI hit k1
    unfold applyPhase at p3
    dsimp only at p3
    have hsched : r3.scheduler = sS := by
      have key : ∀ (l : List (Rewrite Op D × List (SearchMatches Op))) (r r1 : Runner Op D S H) (ap ap' : AMap Symbol Nat)
          (o : Option StopReason), applyEachRule env sch l r ap = .ok (r1, ap', o) → r1.scheduler = r.scheduler := by
        intro l
        induction l with
        | nil => intro r r1 ap ap' o h; cases h; rfl
        | cons x l ih =>
          intro r r1 ap ap' o ha
          unfold applyEachRule at ha
          rw [bind_eq_ok] at ha
          obtain ⟨⟨s, eg, n⟩, h1, ha⟩ := ha
          obtain ⟨rfl, _⟩ := hs.apply _ _ _ _ _ _ _ _ h1
          dsimp only at ha
          split at ha
          · cases ha; rfl
          · have := ih _ _ _ _ _ ha
            exact this
      exact key _ _ _ _ _ _ p3
    have hstop : I (r.iterations.length + 1) r4.scheduler ∧ (quiet = true → ∃ s'', sch.canStop sS r.iterations.length = .ok (s'', true)) := by
      have hq := p5
      unfold quietPhase at hq
      split at hq
      · rw [bind_eq_ok] at hq
        obtain ⟨⟨s'', bb⟩, q1, q2⟩ := hq
        cases q2
        dsimp only at q1 ⊢
        rw [hsched, f3.its] at q1
        have q1 : sch.canStop sS r.iterations.length = .ok (s'', quiet) := by rw [← f1.its]; exact q1
        exact ⟨hs.stop _ _ _ _ i1 q1, fun hb => ⟨s'', by rw [← hb]; exact q1⟩⟩
      · cases hq
        exact ⟨by rw [hsched]; exact i1, fun h => by cases h⟩
    obtain ⟨j1, j2⟩ := hstop
    refine ⟨fun _ => j1, fun hsat hfit => ?_⟩
    rw [e2] at hsat
    cases res3 with
    | some reason =>
      exfalso
      injection hsat with hsat
      subst hsat
      obtain ⟨k, hk⟩ := applyEachRule_reason _ p3
      exact check_ne_saturated hk
    | none =>
      simp only [] at hsat
      split at hsat
      swap
      · cases hsat
      next hq =>
      simp only [Bool.and_eq_true, decide_eq_true_eq] at hq
      obtain ⟨⟨⟨⟨q1, q2⟩, q3⟩, q4⟩, q5⟩ := hq
      obtain ⟨s'', hstop⟩ := j2 q1
      have full := i2 mss rfl s'' hstop
      have h1 : Hist (A.at depth) allow U r.egraph := h
      obtain ⟨-, ⟨W, s2⟩, hall⟩ := applyEachRule_did (i := r.iterations.length) hN hs h hc _ _ r3 _ _ _ []
        (fun rw' ms hm => ⟨by
          obtain ⟨l, hl, -⟩ := mem_zip_forall₂ full hm
          exact .inr ⟨l, ms, hl, Part.refl' _⟩, by
          obtain ⟨c, -, q2⟩ := hr.1 rw' (List.of_mem_zip hm).1
          exact q2.sound hN hord hd⟩) (by dsimp only; rw [g1]; exact .refl) p3
      dsimp only at s2
      rw [g1] at s2
      have hst3 : Steps (A.at depth) allow r3.egraph ([] ++ []) eg := Steps.single (.rebuild p4)
      have hst : Steps (A.at depth) allow r.egraph _ eg := Steps.trans s2 hst3
      have hce : eg.clean = true := EGraph.rebuild_clean p4
      rw [g4]
      rw [g1] at q2 q3
      rw [g4] at q4 q5
      refine ⟨⟨_, hst⟩, hce, by rw [← q4, q2], by rw [← q5, q3], fun c hcm s t hD => ?_⟩
      obtain ⟨rw', hrw, hcl⟩ := hr.2 c hcm
      obtain ⟨ms, hms⟩ : ∃ ms, (rw', ms) ∈ rules.zip mss := exists_mem_zip full hrw
      obtain ⟨limit, hlimit, hfull⟩ := mem_zip_forall₂ full hms
      have hmax : (flat ms).length < limit := by
        rcases hfull with rfl | hfull
        · exact hfit rw' hrw _ ms hlimit
        · exact hfull
      rw [hN] at hlimit
      obtain ⟨V1, ega, egb, ids, W1, t1, t2, t3⟩ := hall rfl rw' ms hms
      have t4 : Steps (A.at depth) allow egb _ eg := Steps.trans t3 hst3
      cases c with
      | rewrite tl t =>
        exact PatternRule.performs hcl hd hcyc (hord _ _) h hc hlimit hmax t1 t2 t4 hce (Steps.trans h hst) (steps_grow hst (hist_good h)).2 hD
      | horn ls rs => exact MultiRule.performs hcl hN hord hd hcyc h hc hlimit hmax t1 t2 t4 hce hD

theorem Runner.runLoop_thorough {S : Type} {sch : Scheduler Op D S} {I : Nat → S → Prop}
    (hN : env.analysis = A.at depth) (hord : ∀ i eg, (env.ord i eg).OK eg)
    (hd : DiscContiguous Op) (hcyc : (A.at depth).allowCycles = true) (hsh : sch.Honest env) (hlim : sch.Limited env) (hh : HooksRead hooks)
    (hr : AreClauses rules cs) :
    ∀ (f : Nat) (r r' : Runner Op D S H) (U : List (UnionRec Op)), sch.Thorough env r.limits I → Hist (A.at depth) allow U r.egraph → r.egraph.clean = true →
    I r.iterations.length r.scheduler →
    (∀ k rk, Runner.after env sch hooks rules k r = some rk → ∀ rw' ∈ rules, FitsAny env rk.egraph rw') →
    runLoop env sch hooks rules f r = .ok r' → r'.stopReason = some .saturated →
    ∃ (rk : Runner Op D S H) (V W : List (UnionRec Op)), Hist (A.at depth) allow V rk.egraph ∧ Steps (A.at depth) allow rk.egraph W r'.egraph ∧
      r'.egraph.clean = true ∧ r'.egraph.totalSize = rk.egraph.totalSize ∧
      r'.egraph.numberOfClasses = rk.egraph.numberOfClasses ∧ ∀ c ∈ cs, ∀ s t, c.Derives (Equal rk.egraph) s t → Equal r'.egraph s t := by
  intro f
  induction f with
  | zero => intro r r' U _ _ _ _ _ h; cases h
  | succ f ih =>
    intro r r' U hs h hc hI hfit hl hsat
    have hl0 := hl
    unfold runLoop at hl
    rw [bind_eq_ok] at hl
    obtain ⟨⟨r1, it⟩, h1, hl⟩ := hl
    obtain ⟨c1, V, s1, -⟩ := runOne_sound (R := fun _ _ => True) hN hsh (fun k hk => by
        intro h0 eg its h' eg' o hc he
        obtain ⟨q1, V, q2, q3⟩ := (hh.ok (N := A.at depth) (allow := allow)) k hk h0 eg its h' eg' o hc he
        exact ⟨q1, V, q2, fun _ _ => trivial⟩)
      (fun rw' hrw => by
        obtain ⟨c, -, q⟩ := hr.1 rw' hrw
        exact q.sound hN hord hd) h (fun _ _ => trivial) hc h1
    obtain ⟨k1, k2⟩ := runOne_thorough hN hord hd hcyc hlim hs hh hr h hc hI h1
    have fr : Frame r r1 := runOne_frame h1
    dsimp only at hl
    split at hl
    · next reason hreason =>
      cases hl
      cases hsat
      obtain ⟨⟨W, q1⟩, q2, q3, q4, q5⟩ := k2 hreason (hfit 0 r rfl)
      exact ⟨r, _, _, h, q1, q2, q3, q4, q5⟩
    · next hnone =>
      split at hl
      · next reason hk =>
        cases hl
        cases hsat
        exact absurd hk check_ne_saturated
      · next hk =>
        refine ih _ r' _ (by dsimp only; rw [fr.lim]; exact hs) (by exact Steps.trans h s1) (by exact c1) ?_ ?_ hl hsat
        · dsimp only
          rw [fr.its, List.length_append, List.length_singleton]
          exact k1 hnone
        · intro k bk hk'
          refine hfit (k + 1) bk (after_succ ?_ hk')
          unfold Runner.after
          rw [h1]
          dsimp only
          rw [hnone, hk]
          rfl

end Egg
