import Verif.Lemmas.Saturated
import Verif.ExampleRun
/-
C26: saturation.
-/
namespace Egg
variable {Op D S H : Type} [DecidableEq Op] [Lang Op]
variable {A : UserAnalysis Op D} {depth : Nat} {allow : Caller Op D}
variable {env : RunEnv Op D} {sch : Scheduler Op D S} {hooks : List (Hook Op D H)} {rules : List (Rewrite Op D)}
  {eqs : List (Term (PatOp Op) × Term (PatOp Op))} {Q : Term Op → Term Op → Prop}
  {r r' r4 : Runner Op D S H} {U : List (UnionRec Op)} {I : Nat → S → Prop}

theorem check_ne_saturated {lim : RunnerLimits} {k i : Nat} {eg : EGraph Op D} : lim.check env k i eg ≠ some .saturated := by
  unfold RunnerLimits.check
  split_ifs <;> simp

theorem Runner.runOne_saturated (hN : env.analysis = A.at depth) (hord : ∀ i eg, (env.ord i eg).OK eg) (hd : DiscContiguous Op)
    (hcyc : (A.at depth).allowCycles = true) (hlim : sch.Limited env) (hs : sch.Thorough env r.limits I)
    (hh : HooksOK (A.at depth) allow Q hooks)
    (hr : ArePatternRules rules eqs) {it : Iteration} (h : Hist (A.at depth) allow U r.egraph) (hc : r.egraph.clean = true)
    (hI : I r.iterations.length r.scheduler)
    (ho : runOne env sch hooks rules r = .ok (r4, it)) :
    (it.stopReason = none → I (r.iterations.length + 1) r4.scheduler) ∧
    (it.stopReason = some .saturated → (∀ rw' ∈ rules, Fits env r4.egraph rw') →
      ∀ rw' ∈ rules, ∀ tl t, PatternRule rw' tl t → ClosedUnder r4.egraph tl t) := by
  obtain ⟨_, r1, res1, r2, ms, r3, applied, res3, eg, nReb, quiet, p1, p2, p3, p4, p5, -, -, -, e2⟩ := runOne_inv ho
  obtain ⟨f1, fs1⟩ := hookPhase_frame p1
  obtain ⟨f2, g2⟩ := searchPhase_frame p2
  have f3 := applyPhase_frame p3
  obtain ⟨f4, g4⟩ := quietPhase_frame p5
  have g4 : r4.egraph = eg := g4
  obtain ⟨c1, V1, s1, -⟩ := hookPhase_reach hh hc p1
  have h1 : Hist (A.at depth) allow _ r1.egraph := Steps.trans h s1
  rw [hN] at p4
  cases ms with
  | error reason =>
    -- no search: the iteration has another stop reason
    cases p3
    rw [e2]
    refine ⟨fun h => (by cases h), fun h => ?_⟩
    injection h with h
    subst h
    exfalso
    unfold searchPhase at p2
    split at p2
    · cases p2
      unfold hookPhase at p1
      split at p1
      · next hk => cases p1; exact check_ne_saturated hk
      · rw [bind_eq_ok] at p1
        obtain ⟨⟨h1, eg1, o⟩, k1, k2⟩ := p1
        cases o <;> cases k2
    · rw [bind_eq_ok] at p2
      obtain ⟨⟨s1, tick, ms0⟩, k1, k2⟩ := p2
      cases k2
      obtain ⟨k, hk⟩ := hlim _ _ _ _ _ _ _ _ _ k1
      exact check_ne_saturated hk
  | ok mss =>
    unfold searchPhase at p2
    split at p2
    · cases p2
    rw [bind_eq_ok] at p2
    obtain ⟨⟨sS, tick, ms0⟩, k1, k2⟩ := p2
    cases k2
    -- the iteration limit was not reached
    have hit : r.iterations.length < r.limits.iterLimit := by
      unfold hookPhase at p1
      split at p1
      · cases p1
      next hk =>
      unfold Runner.check RunnerLimits.check at hk
      split_ifs at hk with q1 q2 q3
      omega
    rw [f1.lim, f1.its, fs1] at k1
    obtain ⟨i1, i2⟩ := hs.search _ _ _ _ _ _ _ _ hI hit k1
    unfold applyPhase at p3
    dsimp only at p3
    have hstop : ∀ b, quietPhase sch applied { r3 with egraph := eg } = .ok (r4, b) → r3.scheduler = sS →
        I (r.iterations.length + 1) r4.scheduler ∧ (b = true → ∃ s'', sch.canStop sS r.iterations.length = .ok (s'', true)) := by
      intro b hq es
      unfold quietPhase at hq
      split at hq
      · rw [bind_eq_ok] at hq
        obtain ⟨⟨s'', bb⟩, q1, q2⟩ := hq
        cases q2
        dsimp only at q1 ⊢
        rw [es, f3.its] at q1
        have q1 : sch.canStop sS r.iterations.length = .ok (s'', b) := by rw [← f1.its]; exact q1
        exact ⟨hs.stop _ _ _ _ i1 q1, fun hb => ⟨s'', by rw [← hb]; exact q1⟩⟩
      · cases hq
        exact ⟨by rw [es]; exact i1, fun h => by cases h⟩
    have hsched : r3.scheduler = sS := by
      have key : ∀ (l : List (Rewrite Op D × List (SearchMatches Op))) (r r1 : Runner Op D S H) (ap ap' : AMap Symbol Nat)
          (o : Option StopReason), applyEachRule env sch l r ap = .ok (r1, ap', o) → r1.scheduler = r.scheduler := by
        intro l
        induction l with
        | nil => intro r r1 ap ap' o h; cases h; rfl
        | cons x l ih =>
          intro r r1 ap ap' o ha
          unfold applyEachRule at ha
          rw [bind_eq_ok] at ha
          obtain ⟨⟨s, eg, n⟩, h1, ha⟩ := ha
          obtain ⟨rfl, _⟩ := hs.apply _ _ _ _ _ _ _ _ h1
          dsimp only at ha
          split at ha
          · cases ha; rfl
          · have := ih _ _ _ _ _ ha
            exact this
      exact key _ _ _ _ _ _ p3
    obtain ⟨j1, j2⟩ := hstop quiet p5 hsched
    refine ⟨fun _ => j1, fun hsat hfit => ?_⟩
    rw [e2] at hsat
    cases res3 with
    | some reason =>
      exfalso
      injection hsat with hsat
      subst hsat
      obtain ⟨k, hk⟩ := applyEachRule_reason _ p3
      exact check_ne_saturated hk
    | none =>
      simp only [] at hsat
      split at hsat
      swap
      · cases hsat
      next hq =>
      simp only [Bool.and_eq_true, decide_eq_true_eq] at hq
      obtain ⟨⟨⟨⟨q1, q2⟩, q3⟩, q4⟩, q5⟩ := hq
      obtain ⟨s'', hstop⟩ := j2 q1
      have full := i2 mss rfl s'' hstop
      rw [hN] at full
      intro rw' hrw tl t hpr
      have hall := applyEachRule_thorough (eqs := eqs) (i := r.iterations.length) hN hord hd hs h1 c1 _ _ r3 _ _ _ []
        (fun rw' ms hm => ⟨(mem_zip_forall₂ full hm).imp (fun _ h => h.1), hr rw' (List.of_mem_zip hm).1⟩) (by exact .refl) p3
      obtain ⟨-, ⟨W, s2, -⟩, hall⟩ := hall
      -- the matches of this rule
      obtain ⟨ms, hmem⟩ : ∃ ms, (rw', ms) ∈ rules.zip mss := by
        clear hfit hr p3 hall i2 k1 ho
        induction full with
        | nil => cases hrw
        | @cons a b l l' hab _ ih =>
          rcases List.mem_cons.1 hrw with rfl | hrw
          · exact ⟨b, by simp⟩
          · obtain ⟨ms, hm⟩ := ih hrw
            exact ⟨ms, by simp [hm]⟩
      obtain ⟨limit, hlimit, hfull⟩ := mem_zip_forall₂ full hmem
      have hst3 : Steps (A.at depth) allow r3.egraph ([] ++ []) eg := Steps.single (.rebuild p4)
      have hst : Steps (A.at depth) allow r1.egraph _ eg := Steps.trans s2 hst3
      have hce : eg.clean = true := EGraph.rebuild_clean p4
      have hpe : eg.pending = [] := (c47_clean_means_rebuilt (Steps.trans h1 hst) hce).pending
      have happ := hall rfl rw' ms tl t hmem hpr _ eg hst3 hpe
      obtain ⟨lp, rp, hl, hlive, hrp, hnew⟩ := hpr
      obtain ⟨hv, hrw'⟩ := rewrite_new_inv hnew
      obtain ⟨ord', ms', w1, w2, w3⟩ := hfit rw' hrw
      rw [hrw'] at hlimit
      rw [hrw', hN, g4] at w2
      rw [g4] at w1
      unfold ClosedUnder
      rw [g4] at q4 q5 ⊢
      exact closed_of_quiet hd (hord _ _) w1 hcyc h1 c1 hst hce (by rw [← q4, q2]) (by rw [← q5, q3]) hl hlive hrp hv hlimit hfull w2 w3 happ

theorem Runner.runLoop_saturated (hN : env.analysis = A.at depth) (hord : ∀ i eg, (env.ord i eg).OK eg) (hd : DiscContiguous Op)
    (hcyc : (A.at depth).allowCycles = true) (hsh : sch.Honest env) (hlim : sch.Limited env) 
    (hh : HooksOK (A.at depth) allow Q hooks) (hr : ArePatternRules rules eqs) :
    ∀ (f : Nat) (r r' : Runner Op D S H) (U : List (UnionRec Op)), sch.Thorough env r.limits I →
    Hist (A.at depth) allow U r.egraph → r.egraph.clean = true → I r.iterations.length r.scheduler →
    runLoop env sch hooks rules f r = .ok r' → r'.stopReason = some .saturated → (∀ rw' ∈ rules, Fits env r'.egraph rw') →
      ∀ rw' ∈ rules, ∀ tl t, PatternRule rw' tl t → ClosedUnder r'.egraph tl t := by
  intro f
  induction f with
  | zero => intro r r' U _ _ _ _ h; cases h
  | succ f ih =>
    intro r r' U hs h hc hI hl hsat hfit
    unfold runLoop at hl
    rw [bind_eq_ok] at hl
    obtain ⟨⟨r1, it⟩, h1, hl⟩ := hl
    obtain ⟨c1, ⟨V, s1, -⟩, fr⟩ := runOne_reach (eqs := eqs) hN hord hd hsh hh
      (fun rw' hrw => (hr rw' hrw).imp fun tl h => h.imp fun t h => ⟨h.1, Or.inl h.2⟩) h hc h1
    obtain ⟨k1, k2⟩ := runOne_saturated hN hord hd hcyc hlim hs hh hr h hc hI h1
    dsimp only at hl
    split at hl
    · next reason hreason =>
      cases hl
      cases hsat
      exact k2 hreason hfit
    · next hnone =>
      split at hl
      · next reason hk =>
        cases hl
        cases hsat
        exact absurd hk check_ne_saturated
      · refine ih _ r' _ (by dsimp only; rw [fr.lim]; exact hs) (by exact Steps.trans h s1) (by exact c1) ?_ hl hsat hfit
        dsimp only
        rw [fr.its, List.length_append, List.length_singleton]
        exact k1 hnone

/-- **C26.**  If a run stops with the reason `Saturated`, its e-graph is closed under the rules:
wherever the left side of a rule matches, so does the right side, in the same class and under
the same assignment.  For any rules between patterns, hooks, limits and any thorough scheduler
(see the instances below), with or without explanations. -/
theorem c26_saturated_closed (hN : env.analysis = A.at depth) (hord : ∀ i eg, (env.ord i eg).OK eg) (hd : DiscContiguous Op)
    (hcyc : (A.at depth).allowCycles = true) (hsh : sch.Honest env) (hlim : sch.Limited env) (hs : sch.Thorough env r.limits I)
    (hh : HooksOK (A.at depth) allow Q hooks) (hr : ArePatternRules rules eqs)
    (h : Hist (A.at depth) allow U r.egraph) (hI : I r.iterations.length r.scheduler) {f : Nat}
    (hrun : r.run env sch hooks rules f = .ok r') (hsat : r'.stopReason = some .saturated)
    (hfit : ∀ rw' ∈ rules, Fits env r'.egraph rw') :
    ∀ rw' ∈ rules, ∀ tl t, PatternRule rw' tl t → ClosedUnder r'.egraph tl t := by
  unfold Runner.run at hrun
  rw [bind_eq_ok] at hrun
  obtain ⟨⟨eg, n⟩, h1, h2⟩ := hrun
  rw [hN] at h1
  exact Runner.runLoop_saturated hN hord hd hcyc hsh hlim hh hr f { r with egraph := eg } r' ([] ++ U) hs (Steps.trans h (.single (.rebuild h1)))
    (EGraph.rebuild_clean h1) hI h2 hsat hfit

/-- **C26**, in terms of terms: if an instance of a left side is represented in a class of a
saturated e-graph, so is the corresponding instance of the right side, in the same class. -/
theorem c26_closed_terms {eg : EGraph Op D} (h : Hist (A.at depth) allow U eg) (hc : eg.clean = true) {rw' : Rewrite Op D}
    {tl t : Term (PatOp Op)} (hr : PatternRule rw' tl t) (hcl : ClosedUnder eg tl t)
    {τ : Var → Term Op} {s w : Term Op} (hs : Inst τ tl s) (hw : Inst τ t w) {c : Id} (hcs : Rep eg c s) : Rep eg c w := by
  classical
  obtain ⟨lp, rp, hl, hlive, hrp, hnew⟩ := hr
  obtain ⟨hv, -⟩ := rewrite_new_inv hnew
  have hi := (hist_good h).inv
  have hr := c47_clean_means_rebuilt h hc
  let σ : Var → Option Id := fun v => if hx : ∃ x, Rep eg x (τ v) then some hx.choose else none
  have hσ1 : ∀ v x, σ v = some x → Rep eg x (τ v) := by
    intro v x hx
    simp only [σ] at hx
    split at hx
    · next he => cases hx; exact he.choose_spec
    · cases hx
  have hσ2 : ∀ v, Occurs v tl → (σ v).isSome := by
    intro v hv
    have := rep_subterm hi (inst_subterm hs v hv) hcs
    simp [σ, this]
  exact hi.pmatch_rep _ (hcl σ c (EGraph.InvW.rep_pmatch hi hr.pending hσ1 tl hcs hs hσ2)) (fun v x _ hx => hσ1 v x hx) hw

/-! ### The schedulers of the library are thorough -/

/-- `SimpleScheduler` is thorough. -/
theorem simple_thorough (lim : RunnerLimits) : (simpleScheduler : Scheduler Op D Unit).Thorough env lim (fun _ _ => True) where
  search := fun s tick i eg rules s' tick' res _ _ h => by
    have := searchEach_spec (I := fun _ => True) (T := fun _ rw' ms => rw'.searcher.search env.analysis eg (env.ord i eg) env.usizeMax = .ok ms) (by
      intro s rw' s' ms _ h
      unfold searchDefault at h
      rw [bind_eq_ok] at h
      obtain ⟨ms1, h1, h⟩ := h
      cases h
      exact ⟨trivial, h1⟩) (fun _ _ _ _ _ _ _ _ h => h) rules s tick [] [] s' tick' _ trivial .nil h
    exact ⟨trivial, fun mss hm s'' _ => (this.2.1 mss hm).imp fun _ _ h => ⟨_, h, Or.inl rfl⟩⟩
  apply := fun s i eg rw' ms s' eg' n h => by
    obtain ⟨h0, ids, h1, _⟩ := applyDefault_inv h
    exact ⟨h0, ids, h1⟩
  stop := fun _ _ _ _ _ _ => trivial

/-- What is required of a ban length: that it does not become zero when it is shifted to the
left by the number of bans so far.  This is so if it is odd (like the default, 5); or if it is
positive and small enough that shifting by the iteration limit loses no bits. -/
def GoodBan (bits iterLimit len : Nat) : Prop := len % 2 = 1 ∨ (0 < len ∧ len * 2 ^ iterLimit < 2 ^ bits)

/-- Invariant of the back-off scheduler before iteration `i`. -/
def BackoffOK (bits iterLimit i : Nat) (b : Backoff) : Prop :=
  b.WF ∧ ∀ name, GoodBan bits iterLimit (b.ruleStats name).banLength ∧ (b.ruleStats name).timesBanned ≤ i

theorem shl_ne_zero {bits L len k x : Nat} (h : GoodBan bits L len) (hk : k ≤ L) (hs : Backoff.shl bits len k = .ok x) : 0 < x := by
  unfold Backoff.shl at hs
  split at hs
  swap
  · cases hs
  next hkb =>
  injection hs with hs
  subst hs
  rcases h with h | ⟨h1, h2⟩
  · rw [Nat.pos_iff_ne_zero]
    intro h0
    have hd := Nat.dvd_of_mod_eq_zero h0
    have e : 2 ^ bits = 2 ^ (bits - k) * 2 ^ k := by rw [← pow_add]; congr 1; omega
    rw [e] at hd
    have hd := Nat.dvd_of_mul_dvd_mul_right (Nat.two_pow_pos k) hd
    have : 2 ∣ 2 ^ (bits - k) := dvd_pow_self 2 (by omega)
    have := dvd_trans this hd
    omega
  · have : len * 2 ^ k ≤ len * 2 ^ L := Nat.mul_le_mul_left _ (Nat.pow_le_pow_right (by omega) hk)
    rw [Nat.mod_eq_of_lt (by omega)]
    have := Nat.two_pow_pos k
    exact Nat.mul_pos h1 this

/-- `BackoffScheduler` is thorough, if the ban lengths are good. -/
theorem backoff_thorough (lim : RunnerLimits) :
    (Backoff.scheduler : Scheduler Op D Backoff).Thorough env lim (BackoffOK env.bits lim.iterLimit) where
  search := fun s tick i eg rules s' tick' res hI hi h => by
    have step : ∀ (s : Backoff) (rw' : Rewrite Op D) (s' : Backoff) (ms : List (SearchMatches Op)),
        (s.WF ∧ ∀ name, GoodBan env.bits lim.iterLimit (s.ruleStats name).banLength ∧
          ((s.ruleStats name).timesBanned ≤ i ∨ ((s.ruleStats name).timesBanned = i + 1 ∧ i < (s.ruleStats name).bannedUntil))) →
        s.searchRewrite env i eg rw' = .ok (s', ms) →
        (s'.WF ∧ ∀ name, GoodBan env.bits lim.iterLimit (s'.ruleStats name).banLength ∧
          ((s'.ruleStats name).timesBanned ≤ i ∨ ((s'.ruleStats name).timesBanned = i + 1 ∧ i < (s'.ruleStats name).bannedUntil))) ∧
        (∀ name, i < (s.ruleStats name).bannedUntil → i < (s'.ruleStats name).bannedUntil) ∧
        (i < (s'.ruleStats rw'.name).bannedUntil ∨ ∃ limit, rw'.searcher.search env.analysis eg (env.ord i eg) limit = .ok ms ∧
          (limit = env.usizeMax ∨ (flat ms).length < limit)) := by
      intro s rw' s' ms ⟨hw, hI⟩ h
      rcases Backoff.searchRewrite_inv h with ⟨k1, k2, rfl⟩ | ⟨th, ms0, k1, k2, k3, ⟨k4, k5, len, k6, k7, rfl⟩ | ⟨k4, rfl, rfl⟩⟩
      · refine ⟨⟨Backoff.wf_setStats hw _ _, fun name => ?_⟩, fun name hn => ?_, Or.inl ?_⟩
        · rw [Backoff.ruleStats_setStats_self]; exact hI name
        · rw [Backoff.ruleStats_setStats_self]; exact hn
        · rw [Backoff.ruleStats_setStats_self]; exact k1
      · have htb : (s.ruleStats rw'.name).timesBanned ≤ i := by
          rcases (hI rw'.name).2 with h | h
          · exact h
          · exact absurd h.2 k1
        have hpos := shl_ne_zero (hI rw'.name).1 (by omega) k6
        refine ⟨⟨Backoff.wf_setStats hw _ _, fun name => ?_⟩, fun name hn => ?_, Or.inl ?_⟩
        · rw [Backoff.ruleStats_setStats]
          split
          · refine ⟨(hI rw'.name).1, ?_⟩
            dsimp only
            omega
          · exact hI name
        · rw [Backoff.ruleStats_setStats]
          split
          · dsimp only; omega
          · exact hn
        · rw [Backoff.ruleStats_setStats, if_pos rfl]
          dsimp only; omega
      · refine ⟨⟨Backoff.wf_setStats hw _ _, fun name => ?_⟩, fun name hn => ?_, Or.inr ⟨_, k3, ?_⟩⟩
        · rw [Backoff.ruleStats_setStats]
          split
          · exact hI rw'.name
          · exact hI name
        · rw [Backoff.ruleStats_setStats]
          split
          · next e => rw [← e] at hn; exact hn
          · exact hn
        · rw [← Backoff.totalLen_flat]
          rcases Nat.le_total (th + 1) env.usizeMax with hle | hle
          · right; rw [min_eq_left hle]; omega
          · left; rw [min_eq_right hle]
    have := searchEach_spec
      (I := fun s => s.WF ∧ ∀ name, GoodBan env.bits lim.iterLimit (s.ruleStats name).banLength ∧
          ((s.ruleStats name).timesBanned ≤ i ∨ ((s.ruleStats name).timesBanned = i + 1 ∧ i < (s.ruleStats name).bannedUntil)))
      (T := fun s' rw' ms => i < (s'.ruleStats rw'.name).bannedUntil ∨ ∃ limit, rw'.searcher.search env.analysis eg (env.ord i eg) limit = .ok ms ∧
          (limit = env.usizeMax ∨ (flat ms).length < limit))
      (fun s rw' s' ms h1 h2 => ⟨(step s rw' s' ms h1 h2).1, (step s rw' s' ms h1 h2).2.2⟩)
      (fun s rw' s' ms rw1 ms1 h1 h2 h3 => h3.imp ((step s rw' s' ms h1 h2).2.1 rw1.name) (fun h => h))
      rules s tick [] [] s' tick' res ⟨hI.1, fun name => ⟨(hI.2 name).1, Or.inl (hI.2 name).2⟩⟩ .nil h
    obtain ⟨⟨w1, w2⟩, w3, -⟩ := this
    refine ⟨⟨w1, fun name => ⟨(w2 name).1, by have := (w2 name).2; omega⟩⟩, fun mss hm s'' hstop => (w3 mss hm).imp fun rw1 ms1 hT => ?_⟩
    rcases hT with hb | hT
    · exfalso
      rcases c28_can_stop w1 i with ⟨k, _⟩ | ⟨b', delta, k, _⟩
      · have := k rw1.name; omega
      · have hstop : Backoff.canStop s' i = .ok (s'', true) := hstop
        rw [k] at hstop; cases hstop
    · exact hT
  apply := fun s i eg rw' ms s' eg' n h => by
    obtain ⟨h0, ids, h1, _⟩ := applyDefault_inv h
    exact ⟨h0, ids, h1⟩
  stop := fun s i s' x hI h => by
    have h : Backoff.canStop s i = .ok (s', x) := h
    rcases c28_can_stop hI.1 i with ⟨_, k⟩ | ⟨b', delta, k, _, kw, _, k4⟩
    · rw [k] at h; cases h; exact hI
    · rw [k] at h; cases h
      refine ⟨kw, fun name => ?_⟩
      have := k4 name
      split at this
      · rw [this.2]; exact hI.2 name
      · rw [this]; exact hI.2 name

/-- The default back-off scheduler satisfies the requirement. -/
theorem backoff_default_ok (bits iterLimit : Nat) : BackoffOK bits iterLimit 0 Backoff.default :=
  ⟨List.nodup_nil, fun _ => ⟨Or.inl (by simp [Backoff.ruleStats, Backoff.default, AMap.get?]), by simp [Backoff.ruleStats, Backoff.default, AMap.get?]⟩⟩


/-! ### Examples -/

def Ex.bo : Backoff := Backoff.default.ruleMatchLimit 9 1

theorem Ex.bo_ok : BackoffOK 8 30 0 Ex.bo := by
  refine ⟨Backoff.wf_setStats (b := Backoff.default) List.nodup_nil _ _, fun name => ?_⟩
  unfold Ex.bo Backoff.ruleMatchLimit
  rw [Backoff.ruleStats_setStats]
  split
  · exact ⟨Or.inl (by decide), by decide⟩
  · exact (backoff_default_ok 8 30).2 name

def Ex.done2 : Runner Ex.S Unit Backoff Unit :=
  Ex.stR .default ((Ex.runner Ex.bo).run Ex.renv Backoff.scheduler [] [Ex.ruleFG] 10)

theorem Ex.areRules : ArePatternRules [Ex.ruleFG] [(Ex.termFx, Ex.termGx)] := by
  intro rw' h
  simp only [List.mem_singleton] at h
  subst h
  exact ⟨_, _, by simp, Ex.patternRule⟩

/-- C25, C26: the run of the rule with the simple scheduler saturates after two iterations, and
the result is closed under the rule. -/
example : ClosedUnder Ex.done1.egraph Ex.termFx Ex.termGx ∧ Ex.done1.iterations.length = 2 :=
  ⟨c26_saturated_closed (A := Ex.U0) (depth := 1) (allow := .all) (env := Ex.renv) (sch := simpleScheduler) (hooks := [])
    (Q := fun _ _ => False) (rules := [Ex.ruleFG]) (r := Ex.runner ()) (I := fun _ _ => True) (f := 10)
    rfl (fun _ eg => Ex.ordOK eg) Ex.discContiguous rfl simple_honest simple_limited (simple_thorough _) (Ex.hooksOK _ _) Ex.areRules
    (Ex.hist6 _) trivial (r' := Ex.done1) rfl rfl (by
      intro rw' h
      simp only [List.mem_singleton] at h
      subst h
      exact ⟨Ex.ord _, _, Ex.ordOK _, rfl, by decide⟩) Ex.ruleFG (by simp) _ _ Ex.patternRule, rfl⟩

/-- The same with the back-off scheduler, where the rule may have one match only. -/
example : ClosedUnder Ex.done2.egraph Ex.termFx Ex.termGx ∧ Ex.done2.iterations.length = 2 :=
  ⟨c26_saturated_closed (A := Ex.U0) (depth := 1) (allow := .all) (env := Ex.renv) (sch := Backoff.scheduler) (hooks := [])
    (Q := fun _ _ => False) (rules := [Ex.ruleFG])
    (r := Ex.runner Ex.bo) (I := BackoffOK 8 30) (f := 10)
    rfl (fun _ eg => Ex.ordOK eg) Ex.discContiguous rfl backoff_honest backoff_limited (backoff_thorough _) (Ex.hooksOK _ _) Ex.areRules
    (Ex.hist6 _) Ex.bo_ok (r' := Ex.done2) rfl rfl (by
      intro rw' h
      simp only [List.mem_singleton] at h
      subst h
      exact ⟨Ex.ord _, _, Ex.ordOK _, rfl, by decide⟩) Ex.ruleFG (by simp) _ _ Ex.patternRule, rfl⟩

def Ex.done3 : Runner Ex.S Unit Backoff Unit :=
  Ex.stR .default ((Ex.runner ((Backoff.default.withInitialMatchLimit 0).withBanLength 0)).run Ex.renv Backoff.scheduler [] [Ex.ruleFG] 10)

/-- **C26, finding.**  With ban length 0 the back-off scheduler lets a run end as `Saturated`
although the only rule was banned in the only iteration, and the e-graph is not closed under it. -/
theorem c26_zero_ban_length_counterexample : ∃ r' : Runner Ex.S Unit Backoff Unit,
    (Ex.runner ((Backoff.default.withInitialMatchLimit 0).withBanLength 0)).run Ex.renv Backoff.scheduler [] [Ex.ruleFG] 10 = .ok r' ∧
    r'.stopReason = some .saturated ∧ r'.iterations.length = 1 ∧ ¬ ClosedUnder r'.egraph Ex.termFx Ex.termGx := by
  refine ⟨Ex.done3, rfl, rfl, rfl, fun h => ?_⟩
  have h1 : PMatch Ex.done3.egraph (fun _ => some 0) 2 Ex.termFx :=
    pmatch_node_iff.2 ⟨_, ⟨.f, [0]⟩, rfl, by decide, rfl, .cons (pmatch_var_iff.2 ⟨rfl, 0, rfl, ⟨0, rfl, rfl⟩⟩) .nil⟩
  obtain ⟨k, n, h2, h3, h4, _⟩ := pmatch_node_iff.1 (h _ _ h1)
  have h2 : Ex.done3.egraph.index 2 = .ok k := h2
  have e : k.nodes = [⟨.f, [0]⟩] := by cases h2; rfl
  rw [e, List.mem_singleton] at h3
  subst h3
  cases h4

/-- **C28, finding.**  With match limit 0 the threshold stays 0; once the rule was banned as often
as `usize` has bits, computing it panics (here with 8 bits, at the ninth ban). -/
theorem c28_zero_match_limit_counterexample :
    (Ex.runner (Backoff.default.withInitialMatchLimit 0)).run Ex.renv Backoff.scheduler [] [Ex.ruleFG] 30 = .error .panic := rfl

end Egg
