import Verif.Spec.Fair
import Verif.Lemmas.Stages
import Verif.Props.Saturate
/-
The back-off scheduler passes over a rule only finitely often.
-/
namespace Egg
variable {Op D S H : Type} [DecidableEq Op] [Lang Op]
variable {A : UserAnalysis Op D} {depth : Nat} {allow : Caller Op D} {eqs : List (Term (PatOp Op) × Term (PatOp Op))}

/-! ### One search -/

/-- What a search does to the entry of a rule, from `st` to `st'`. -/
def Searched (env : RunEnv Op D) (i : Nat) (eg : EGraph Op D) (rw' : Rewrite Op D) (st st' : RuleStats) (ms : List (SearchMatches Op)) : Prop :=
  (i < st.bannedUntil ∧ ms = [] ∧ st' = st) ∨
  ∃ threshold ms0, ¬ i < st.bannedUntil ∧ Backoff.shl env.bits st.matchLimit st.timesBanned = .ok threshold ∧
    rw'.searcher.search env.analysis eg (env.ord i eg) (min (threshold + 1) env.usizeMax) = .ok ms0 ∧
    ((threshold < Backoff.totalLen ms0 ∧ ms = [] ∧ ∃ len, Backoff.shl env.bits st.banLength st.timesBanned = .ok len ∧
        st' = { st with timesBanned := st.timesBanned + 1, bannedUntil := i + len }) ∨
      (Backoff.totalLen ms0 ≤ threshold ∧ ms = ms0 ∧ st' = { st with timesApplied := st.timesApplied + 1 }))

theorem Backoff.searchRewrite_searched {env : RunEnv Op D} {i : Nat} {b b' : Backoff} {eg : EGraph Op D} {rw' : Rewrite Op D} {ms}
    (h : b.searchRewrite env i eg rw' = .ok (b', ms)) :
    Searched env i eg rw' (b.ruleStats rw'.name) (b'.ruleStats rw'.name) ms ∧ (∀ name, name ≠ rw'.name → b'.ruleStats name = b.ruleStats name) ∧
      (b.WF → b'.WF) := by
  rcases Backoff.searchRewrite_inv h with ⟨k1, k2, rfl⟩ | ⟨th, ms0, k1, k2, k3, ⟨k4, k5, len, k6, k7, rfl⟩ | ⟨k4, k5, rfl⟩⟩
  · refine ⟨Or.inl ⟨k1, k2, ?_⟩, fun name hn => ?_, fun hw => Backoff.wf_setStats hw _ _⟩
    · rw [Backoff.ruleStats_setStats, if_pos rfl]
    · rw [Backoff.ruleStats_setStats, if_neg (fun e => hn e.symm)]
  · refine ⟨Or.inr ⟨th, ms0, k1, k2, k3, Or.inl ⟨k4, k5, len, k6, ?_⟩⟩, fun name hn => ?_, fun hw => Backoff.wf_setStats hw _ _⟩
    · rw [Backoff.ruleStats_setStats, if_pos rfl]
    · rw [Backoff.ruleStats_setStats, if_neg (fun e => hn e.symm)]
  · refine ⟨Or.inr ⟨th, ms0, k1, k2, k3, Or.inr ⟨k4, k5, ?_⟩⟩, fun name hn => ?_, fun hw => Backoff.wf_setStats hw _ _⟩
    · rw [Backoff.ruleStats_setStats, if_pos rfl]
    · rw [Backoff.ruleStats_setStats, if_neg (fun e => hn e.symm)]

/-- What the search phase does to the entries of the rules. -/
theorem Backoff.searchEach_searched {env : RunEnv Op D} {lim : RunnerLimits} {i : Nat} {eg : EGraph Op D} :
    ∀ (rules : List (Rewrite Op D)) (b : Backoff) (tick : Nat) (done : List (List (SearchMatches Op))) (b' : Backoff) (tick' : Nat)
      (mss : List (List (SearchMatches Op))), (rules.map (·.name)).Nodup →
    searchEach (searchRewrite env i) env lim i eg b tick rules done = .ok (b', tick', .ok mss) →
    (b.WF → b'.WF) ∧ (∀ name, name ∉ rules.map (·.name) → b'.ruleStats name = b.ruleStats name) ∧
    ∃ new, mss = done ++ new ∧
      List.Forall₂ (fun rw' ms => Searched env i eg rw' (b.ruleStats rw'.name) (b'.ruleStats rw'.name) ms) rules new := by
  intro rules
  induction rules with
  | nil => intro b tick done b' tick' mss _ h; cases h; exact ⟨id, fun _ _ => rfl, [], by simp, .nil⟩
  | cons rw' rest ih =>
    intro b tick done b' tick' mss hnd h
    unfold searchEach at h
    rw [bind_eq_ok] at h
    obtain ⟨⟨b1, ms⟩, h1, h⟩ := h
    dsimp only at h
    split at h
    · cases h
    · rw [List.map_cons, List.nodup_cons] at hnd
      obtain ⟨k1, k2, k3⟩ := searchRewrite_searched h1
      obtain ⟨q1, q2, new, q3, q4⟩ := ih _ _ _ _ _ _ hnd.2 h
      refine ⟨fun hw => q1 (k3 hw), fun name hn => ?_, ms :: new, by rw [q3]; simp, .cons ?_ ?_⟩
      · rw [List.map_cons, List.mem_cons, not_or] at hn
        rw [q2 name hn.2, k2 name hn.1]
      · rw [q2 _ hnd.1]; exact k1
      · have : ∀ x ∈ rest, x.name ≠ rw'.name := fun x hx e => hnd.1 (e ▸ List.mem_map_of_mem hx)
        exact forall₂_mono_mem q4 (fun x hx ms hms hs => by rw [← k2 _ (this x hx)]; exact hs)

/-! ### Applying -/

/-- `applyEachRule_thorough` for matches that need not be all. -/
theorem Runner.applyEachRule_found {env : RunEnv Op D} {sch : Scheduler Op D S} {lim : RunnerLimits} {I : Nat → S → Prop} {U : List (UnionRec Op)}
    {i : Nat} (hN : env.analysis = A.at depth) (hord : ∀ i eg, (env.ord i eg).OK eg)
    (hd : DiscContiguous Op) (hs : sch.Thorough env lim I) {egS : EGraph Op D} (h : Hist (A.at depth) allow U egS) (hc : egS.clean = true) :
    ∀ (l : List (Rewrite Op D × List (SearchMatches Op))) (r r1 : Runner Op D S H) (ap ap' : AMap Symbol Nat) (o : Option StopReason)
      (V : List (UnionRec Op)),
    (∀ rw' ms, (rw', ms) ∈ l → Found env i egS rw' ms ∧ ∃ tl t, (tl, t) ∈ eqs ∧ PatternRule rw' tl t) →
    Steps (A.at depth) allow egS V r.egraph →
    applyEachRule env sch l r ap = .ok (r1, ap', o) →
    r1.scheduler = r.scheduler ∧ Reach (A.at depth) allow (RunEquation eqs fun _ _ => False) r.egraph r1.egraph ∧
    (o = none → ∀ rw' ms tl t, (rw', ms) ∈ l → PatternRule rw' tl t → ∀ W g, Steps (A.at depth) allow r1.egraph W g → g.pending = [] →
      ∀ c s, (c, s) ∈ flat ms → PMatch g s.get c t) := by
  intro l
  induction l with
  | nil => intro r r1 ap ap' o V _ _ h; cases h; exact ⟨rfl, Reach.rfl', by simp⟩
  | cons x l ih =>
    intro r r1 ap ap' o V hl hst ha
    obtain ⟨rw0, ms0⟩ := x
    unfold applyEachRule at ha
    rw [bind_eq_ok] at ha
    obtain ⟨⟨s, eg, n⟩, h1, ha⟩ := ha
    obtain ⟨rfl, ids, h2⟩ := hs.apply _ _ _ _ _ _ _ _ h1
    obtain ⟨hf, tl, t, hm, hr⟩ := hl rw0 ms0 (by simp)
    rw [hN] at h2
    have rc : Reach (A.at depth) allow (RunEquation eqs fun _ _ => False) r.egraph eg :=
      (hr.reach hN hord hd h hc hf (Part.refl' _) hst h2).mono (fun _ _ h => h.run hm)
    dsimp only at ha
    split at ha
    · cases ha; exact ⟨rfl, rc, by simp⟩
    · obtain ⟨W0, s1, q1⟩ := rc
      obtain ⟨e1, ⟨W1, s2, q2⟩, k⟩ := ih _ r1 _ ap' o _ (fun a b hab => hl a b (by simp [hab])) (Steps.trans hst s1) ha
      refine ⟨e1, Reach.trans ⟨W0, s1, q1⟩ ⟨W1, s2, q2⟩, fun ho rw' ms tl' t' hmem hr' W g hg hp => ?_⟩
      rcases List.mem_cons.1 hmem with e | hmem
      · cases e
        obtain ⟨lp, rp, hl', hlive, hrp, hnew⟩ := hr'
        obtain ⟨hv, hrw⟩ := rewrite_new_inv hnew
        have hap := found_applicable hN hord hd hl' hlive hv (by rw [hrw]) h hc hf (Part.refl' _) hst
        rw [hrw] at h2
        exact apply_later (Steps.trans h hst) hrp hap (rule := rw0.name) h2 (Steps.trans s2 hg) hp
      · exact k ho rw' ms tl' t' hmem hr' W g hg hp

/-- If all matches of a rule at the state `egS` have been applied when `eg` is reached, the results of the rule on the terms of `egS` are in `eg`. -/
theorem closedFrom_of_matches {U : List (UnionRec Op)} {egS eg : EGraph Op D} {ord : IterOrd} (hord : ord.OK egS) (hd : DiscContiguous Op)
    (hcyc : (A.at depth).allowCycles = true) (h1 : Hist (A.at depth) allow U egS) (c1 : egS.clean = true)
    {V : List (UnionRec Op)} (hst : Steps (A.at depth) allow egS V eg)
    {rw' : Rewrite Op D} {tl t : Term (PatOp Op)} (hr : PatternRule rw' tl t) {limit : Nat} {ms : List (SearchMatches Op)}
    (hsearch : rw'.searcher.search (A.at depth) egS ord limit = .ok ms) (hall : (flat ms).length < limit)
    (happ : ∀ c s, (c, s) ∈ flat ms → PMatch eg s.get c t) : ClosedFrom egS eg tl t := by
  classical
  intro τ s w c hsi hwi hcs
  obtain ⟨lp, rp, hl, hlive, hrp, hnew⟩ := hr
  obtain ⟨hv, hrw'⟩ := rewrite_new_inv hnew
  rw [hrw'] at hsearch
  have hgS := hist_good h1
  obtain ⟨hge, gr⟩ := steps_grow hst hgS
  have hpS := (c47_clean_means_rebuilt h1 c1).pending
  let σ : Var → Option Id := fun v => if hx : ∃ x, Rep egS x (τ v) then some hx.choose else none
  have hσ1 : ∀ v x, σ v = some x → Rep egS x (τ v) := by
    intro v x hx
    simp only [σ] at hx
    split at hx
    · next he => cases hx; exact he.choose_spec
    · cases hx
  have hσ2 : ∀ v, Occurs v tl → (σ v).isSome := by
    intro v hv
    have := rep_subterm hgS.inv (inst_subterm hsi v hv) hcs
    simp [σ, this]
  have hm := EGraph.InvW.rep_pmatch hgS.inv hpS hσ1 tl hcs hsi hσ2
  obtain ⟨rr, sb, q1, q2, q3⟩ := search_full hd hord hord hcyc h1 c1 hl hsearch hsearch hall σ c hm
  have hrep : Rep eg rr w := hge.inv.pmatch_rep _ (happ rr sb q2) (fun v x hvo hx => by
    obtain ⟨a, b, y1, y2, y3⟩ := q3 v (hlive v (hv v (hrp.occurs_vars hvo)))
    rw [hx] at y3
    cases y3
    have y2 := hgS.inv.find_iff.1 y2
    have := hσ1 v a y1
    exact gr.rep _ _ (hgS.inv.rep_congr (y2.2 ▸ hgS.inv.core.rtLt _ y2.1) (by rw [← y2.2, hgS.inv.core.rtIdem]) this)) hwi
  have q1 := hgS.inv.find_iff.1 q1
  have hcl : c < eg.nodes.length := lt_of_lt_of_le q1.1 gr.len
  exact ⟨c, gr.rep _ _ hcs,
    hge.inv.rep_congr hcl (gr.rt _ _ (q1.2 ▸ hgS.inv.core.rtLt _ q1.1) q1.1 (by rw [← q1.2, hgS.inv.core.rtIdem])) hrep⟩

/-! ### One iteration -/

/-- What an iteration does to the entry of a rule: it was banned and remains so at most as long; or it becomes banned, as it has too many
matches; or it is not banned and `P` holds. -/
def Outcome (bits i B : Nat) (st st1 : RuleStats) (P : Prop) : Prop :=
  st1.matchLimit = st.matchLimit ∧ st1.banLength = st.banLength ∧
  ((i < st.bannedUntil ∧ st1.timesBanned = st.timesBanned ∧ st1.bannedUntil ≤ st.bannedUntil) ∨
   (st.bannedUntil ≤ i ∧ st.matchLimit * 2 ^ st.timesBanned % 2 ^ bits < B ∧ st1.timesBanned = st.timesBanned + 1 ∧
      st1.bannedUntil ≤ i + st.banLength * 2 ^ st.timesBanned) ∨
   (st.bannedUntil ≤ i ∧ st1.timesBanned = st.timesBanned ∧ st1.bannedUntil ≤ i ∧ P))

theorem exists_mem_zip {α β : Type _} {R : α → β → Prop} {l : List α} {l' : List β} (h : List.Forall₂ R l l') {a : α} (ha : a ∈ l) :
    ∃ x, (a, x) ∈ l.zip l' := by
  induction h with
  | nil => cases ha
  | @cons c x l l' _ _ ih =>
    rcases List.mem_cons.1 ha with rfl | ha
    · exact ⟨x, by simp⟩
    · obtain ⟨y, hy⟩ := ih ha
      exact ⟨y, by simp [hy]⟩

/-- `can_stop` only shortens bans. -/
theorem Backoff.canStop_le {b b' : Backoff} {i : Nat} {x : Bool} (hw : b.WF) (h : b.canStop i = .ok (b', x)) :
    b'.WF ∧ ∀ name, (b'.ruleStats name).matchLimit = (b.ruleStats name).matchLimit ∧ (b'.ruleStats name).banLength = (b.ruleStats name).banLength ∧
      (b'.ruleStats name).timesBanned = (b.ruleStats name).timesBanned ∧ (b'.ruleStats name).bannedUntil ≤ (b.ruleStats name).bannedUntil := by
  rcases c28_can_stop hw i with ⟨_, k⟩ | ⟨b1, delta, k, _, kw, _, k4⟩
  · rw [k] at h; cases h; exact ⟨hw, fun _ => ⟨rfl, rfl, rfl, Nat.le_refl _⟩⟩
  · rw [k] at h
    cases h
    refine ⟨kw, fun name => ?_⟩
    have := k4 name
    split at this
    · rw [this.2]; exact ⟨rfl, rfl, rfl, Nat.sub_le _ _⟩
    · rw [this]; exact ⟨rfl, rfl, rfl, Nat.le_refl _⟩

section
variable {env : RunEnv Op D} {hooks : List (Hook Op D H)} {rules : List (Rewrite Op D)} {b b1 : Runner Op D Backoff H} {U : List (UnionRec Op)}

theorem Runner.quietPhase_backoff {r r1 : Runner Op D Backoff H} {ap : AMap Symbol Nat} {q : Bool} (hw : r.scheduler.WF)
    (h : quietPhase Backoff.scheduler ap r = .ok (r1, q)) :
    r1.scheduler.WF ∧ (∀ name, (r1.scheduler.ruleStats name).matchLimit = (r.scheduler.ruleStats name).matchLimit ∧
      (r1.scheduler.ruleStats name).banLength = (r.scheduler.ruleStats name).banLength ∧
      (r1.scheduler.ruleStats name).timesBanned = (r.scheduler.ruleStats name).timesBanned ∧
      (r1.scheduler.ruleStats name).bannedUntil ≤ (r.scheduler.ruleStats name).bannedUntil) ∧
    (ap = [] → (∀ name, (r.scheduler.ruleStats name).bannedUntil ≤ r.iterations.length) → q = true) := by
  unfold quietPhase at h
  split at h
  · rw [bind_eq_ok] at h
    obtain ⟨⟨s, x⟩, k, h⟩ := h
    have k : Backoff.canStop r.scheduler r.iterations.length = .ok (s, x) := k
    cases h
    obtain ⟨k1, k2⟩ := Backoff.canStop_le hw k
    refine ⟨k1, k2, fun _ hn => ?_⟩
    rcases c28_can_stop hw r.iterations.length with ⟨_, q⟩ | ⟨b1, delta, _, _, _, ⟨name, q, _⟩, _⟩
    · rw [q] at k; cases k; rfl
    · have := hn name; omega
  · next hne =>
    cases h
    refine ⟨hw, fun _ => ⟨rfl, rfl, rfl, Nat.le_refl _⟩, fun e => ?_⟩
    subst e
    exact absurd rfl hne

theorem Runner.backoff_step (hN : env.analysis = A.at depth) (hord : ∀ i eg, (env.ord i eg).OK eg) (hd : DiscContiguous Op)
    (hcyc : (A.at depth).allowCycles = true) (hh : HooksRead hooks) (hr : AreTightRules rules eqs) (hnd : (rules.map (·.name)).Nodup)
    (h : Hist (A.at depth) allow U b.egraph) (hc : b.egraph.clean = true) (hw : b.scheduler.WF)
    (h1 : Runner.after env Backoff.scheduler hooks rules 1 b = some b1) :
    ∃ V, Steps (A.at depth) allow b.egraph V b1.egraph ∧ b1.egraph.clean = true ∧ b1.iterations.length = b.iterations.length + 1 ∧ b1.scheduler.WF ∧
      (∀ name, name ∉ rules.map (·.name) → (b1.scheduler.ruleStats name).bannedUntil ≤ (b.scheduler.ruleStats name).bannedUntil) ∧
      (∀ rw' ∈ rules, ∀ tl t, TightRule rw' tl t → ∀ B, B < env.usizeMax → b.AtMost env rw' B →
        Outcome env.bits b.iterations.length B (b.scheduler.ruleStats rw'.name) (b1.scheduler.ruleStats rw'.name) (ClosedFrom b.egraph b1.egraph tl t)) ∧
      ((∀ r4 it, runOne env Backoff.scheduler hooks rules b = .ok (r4, it) → it.applied = [] ∧ r4.egraph.totalSize = b.egraph.totalSize ∧
          r4.egraph.numberOfClasses = b.egraph.numberOfClasses) →
        (∀ name, name ∉ rules.map (·.name) → (b.scheduler.ruleStats name).bannedUntil ≤ b.iterations.length) →
        ∃ rw' ∈ rules, b.iterations.length < (b.scheduler.ruleStats rw'.name).bannedUntil ∨
          (b1.scheduler.ruleStats rw'.name).timesBanned ≠ (b.scheduler.ruleStats rw'.name).timesBanned) := by
  have h2 := h1
  unfold Runner.after at h2
  split at h2
  · cases h2
  next r4 it ho =>
  dsimp only at h2
  split at h2
  · cases h2
  next hn =>
  cases h2
  have hnone : it.stopReason = none := by
    simp only [Bool.or_eq_true, not_or, Option.not_isSome_iff_eq_none] at hn
    exact hn.1
  obtain ⟨_, r1, res1, r2, ms, r3, applied, res3, eg, nReb, quiet, p1, p2, p3, p4, p5, a1, -, -, e2⟩ := runOne_inv ho
  obtain ⟨f1, fs1⟩ := hookPhase_frame p1
  obtain ⟨f2, g2⟩ := searchPhase_frame p2
  have f3 := applyPhase_frame p3
  obtain ⟨f4, g4⟩ := quietPhase_frame p5
  have g4 : r4.egraph = eg := g4
  have g1 := hookPhase_read hh p1
  rw [hN] at p4
  cases ms with
  | error reason =>
    cases p3
    rw [e2] at hnone
    cases hnone
  | ok mss =>
    have hres : res3 = none := by
      cases res3 with
      | none => rfl
      | some s => rw [e2] at hnone; cases hnone
    subst hres
    unfold searchPhase at p2
    split at p2
    · cases p2
    rw [bind_eq_ok] at p2
    obtain ⟨⟨sS, tick, ms0⟩, k1, k2⟩ := p2
    cases k2
    have hfound := backoff_honest.search _ _ _ _ _ _ _ _ _ k1
    have k1 : searchEach (Backoff.searchRewrite env r1.iterations.length) env r1.limits r1.iterations.length r1.egraph r1.scheduler r1.tick rules [] =
      .ok (sS, tick, .ok mss) := k1
    obtain ⟨w1, w2, new, w3, w4⟩ := Backoff.searchEach_searched rules _ _ _ _ _ _ hnd k1
    rw [List.nil_append] at w3
    subst w3
    have hi : r1.iterations.length = b.iterations.length := by rw [f1.its]
    rw [hi, g1, fs1] at w4
    rw [hi, g1] at hfound
    rw [fs1] at w1 w2
    unfold applyPhase at p3
    dsimp only at p3
    have hall := applyEachRule_found (eqs := eqs) (i := b.iterations.length) hN hord hd (backoff_thorough r1.limits) h hc _ _ r3 _ _ _ []
      (fun rw' ms hm => ⟨hfound rw' ms hm, by
        obtain ⟨tl, t, q1, q2⟩ := hr rw' (List.of_mem_zip hm).1
        exact ⟨tl, t, q1, q2.pattern⟩⟩) (by dsimp only; rw [g1]; exact .refl) p3
    obtain ⟨es, ⟨W, s2, -⟩, hall⟩ := hall
    dsimp only at es s2
    rw [g1] at s2
    have hst3 : Steps (A.at depth) allow r3.egraph ([] ++ []) eg := Steps.single (.rebuild p4)
    have hst : Steps (A.at depth) allow b.egraph _ eg := Steps.trans s2 hst3
    have hce : eg.clean = true := EGraph.rebuild_clean p4
    have hpe : eg.pending = [] := (c47_clean_means_rebuilt (Steps.trans h hst) hce).pending
    have hi3 : r3.iterations.length = b.iterations.length := by rw [f3.its, f2.its, f1.its]
    obtain ⟨v1, v2, v3⟩ := quietPhase_backoff (r := { r3 with egraph := eg }) (by dsimp only; rw [es]; exact w1 hw) p5
    dsimp only at v2 v3
    rw [es] at v2 v3
    rw [hi3] at v3
    refine ⟨_, by dsimp only; rw [g4]; exact hst, by dsimp only; rw [g4]; exact hce, ?_, v1, fun name hname => ?_, fun rw' hrw tl t htr B hB hmost => ?_, fun hidle hothers => ?_⟩
    · dsimp only
      rw [List.length_append, List.length_singleton, f4.its, hi3]
    · have := (v2 name).2.2.2
      rw [w2 name hname] at this
      exact this
    · obtain ⟨ms, hms⟩ : ∃ ms, (rw', ms) ∈ rules.zip mss := exists_mem_zip w4 hrw
      obtain ⟨u1, u2, u3, u4⟩ := v2 rw'.name
      have hpat := htr.pattern
      obtain ⟨lp, rp, hl, -, -, hnew⟩ := hpat
      obtain ⟨-, hrw'⟩ := rewrite_new_inv hnew
      obtain ⟨F, hF, -⟩ := c28_search_rule (rw' := rw') hN (hord b.iterations.length b.egraph) hd h hc hl (by rw [hrw'])
      have hFB : F.length ≤ B := by
        obtain ⟨m0, q1, q2⟩ := hF env.usizeMax
        have := hmost m0 q1
        rw [q2, List.length_take] at this
        omega
      rcases mem_zip_forall₂ w4 hms with ⟨y1, y2, y3⟩ | ⟨th, ms0, y1, y2, y3, ⟨y4, y5, len, y6, y7⟩ | ⟨y4, y5, y6⟩⟩
      · rw [y3] at u1 u2 u3 u4
        exact ⟨u1, u2, Or.inl ⟨y1, u3, u4⟩⟩
      · rw [y7] at u1 u2 u3 u4
        refine ⟨u1, u2, Or.inr (Or.inl ⟨by omega, ?_, u3, ?_⟩)⟩
        · obtain ⟨m0, q1, q2⟩ := hF (min (th + 1) env.usizeMax)
          rw [y3] at q1
          cases q1
          rw [Backoff.totalLen_flat, q2, List.length_take] at y4
          unfold Backoff.shl at y2
          split at y2
          · cases y2; omega
          · cases y2
        · unfold Backoff.shl at y6
          split at y6
          · cases y6
            have := Nat.mod_le ((b.scheduler.ruleStats rw'.name).banLength * 2 ^ (b.scheduler.ruleStats rw'.name).timesBanned) (2 ^ env.bits)
            dsimp only at u4
            dsimp only
            omega
          · cases y6
      · rw [y6] at u1 u2 u3 u4
        subst y5
        refine ⟨u1, u2, Or.inr (Or.inr ⟨by omega, u3, le_trans u4 (by dsimp only; omega), ?_⟩)⟩
        dsimp only
        rw [g4]
        rw [hN] at y3
        refine closedFrom_of_matches (hord b.iterations.length b.egraph) hd hcyc h hc hst htr.pattern y3 ?_
          (fun c s hcs => hall rfl rw' ms tl t hms htr.pattern _ eg hst3 hpe c s hcs)
        obtain ⟨m0, q1, q2⟩ := hF (min (th + 1) env.usizeMax)
        rw [hN, y3] at q1
        cases q1
        rw [Backoff.totalLen_flat] at y4
        have : (flat ms).length ≤ F.length := by rw [q2, List.length_take]; omega
        omega
    · by_contra hcon
      push Not at hcon
      obtain ⟨i1, i2, i3⟩ := hidle r4 it ho
      have hq : quiet = true := by
        refine v3 (by rw [← a1]; exact i1) (fun name => ?_)
        by_cases hname : name ∈ rules.map (·.name)
        · obtain ⟨rw', hrw, rfl⟩ := List.mem_map.1 hname
          obtain ⟨n1, n2⟩ := hcon rw' hrw
          obtain ⟨ms, hms⟩ : ∃ ms, (rw', ms) ∈ rules.zip mss := exists_mem_zip w4 hrw
          have u3 := (v2 rw'.name).2.2.1
          rcases mem_zip_forall₂ w4 hms with ⟨y1, y2, y3⟩ | ⟨th, ms0, y1, y2, y3, ⟨y4, y5, len, y6, y7⟩ | ⟨y4, y5, y6⟩⟩
          · omega
          · rw [y7] at u3
            dsimp only at n2 u3
            omega
          · rw [y6]
            exact n1
        · rw [w2 name hname]
          exact hothers name hname
      rw [e2, hq, g1, i2, i3] at hnone
      simp at hnone

end

end Egg
