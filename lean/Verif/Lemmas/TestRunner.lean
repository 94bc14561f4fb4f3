import Verif.Model.TestRunner
import Verif.Lemmas.ChaseBackoff
import Verif.Lemmas.ChaseSound
import Verif.Props.Convert
/-
Lemmas for C105.
-/
namespace Egg
variable {Op D S H : Type} [DecidableEq Op] [Lang Op]
variable {A : UserAnalysis Op D} {depth : Nat} {allow : Caller Op D} {U : List (UnionRec Op)} {eg eg' : EGraph Op D}
variable {env : RunEnv Op D} {hooks : List (Hook Op D H)} {rules : List (Rewrite Op D)} {cs : List (Clause Op)}
variable {K : Term Op → Term Op → Prop} {hK : PCong K}

/-- Adding an expression whose term exists in `K`. -/
theorem InHull.addExpr (hA : ∀ i, A.modify i = .done) (h : InHull K hK eg) {e : List (ENode Op)} (hwf : WFExpr e) {s : Term Op} (hs : ExprTerm e s)
    (hlive : ∀ k, k < e.length → Live e k) (hK' : K s s) {i : Id} (ha : EGraph.addExpr (A.at depth) eg e = .ok (eg', i)) : InHull K hK eg' := by
  have hN := (soundFor_of_quiet hA (Completion K) hK.total).hookOK trivial depth
  have go : ∀ (rest : List (ENode Op)) (eg : EGraph Op D) (pre : List (ENode Op)) (ids : List Id), e = pre ++ rest → ids.length = pre.length →
      InHull K hK eg → EGraph.IdsOK eg e ids → ∀ {eg' : EGraph Op D} {ids' : List Id},
      EGraph.addExprGo (A.at depth) eg rest ids = .ok (eg', ids') → InHull K hK eg' := by
    intro rest
    induction rest with
    | nil => intro eg pre ids _ _ h _ eg' ids' ha; cases ha; exact h
    | cons n rest ih =>
      intro eg pre ids he hl h hi eg' ids' ha
      have hnk : e[ids.length]? = some n := by rw [he, hl]; simp
      unfold EGraph.addExprGo at ha
      obtain ⟨m, hm, ha⟩ := bind_eq_ok.1 ha
      obtain ⟨⟨eg1, j⟩, h1, ha⟩ := bind_eq_ok.1 ha
      rw [mapChildrenM_getIdx] at hm
      have hlt : ids.length < e.length := by rw [he, hl]; simp
      obtain ⟨t, ht⟩ := Dag.exists_term hwf.2 ids.length hlt
      have hsub := live_subterm hwf.2 hs (hlive _ hlt) t ht
      have hkt : K t t := hK.subterm hsub hK'
      cases t with
      | node op ts =>
        obtain ⟨n', g1, g2, g3⟩ := termOf_iff.1 ht
        rw [hnk] at g1; cases g1
        have hrep : List.Forall₂ (Rep eg) m.children ts :=
          forall₂_comp (forall₂_flip hm.2) g3 (fun a b c _ _ _ hab hbc => (hi _ _ hab).2 c hbc)
        have hop : m.op = op := by rw [hm.1, g2]
        obtain ⟨u1, -⟩ := h.add hA hrep (by rw [hop]; exact hkt) h1
        have hi1 : EGraph.IdsOK eg1 e (ids ++ [j]) := by
          have hml : ∀ c ∈ m.children, c < eg.nodes.length := by
            intro c hc
            obtain ⟨b, _, hb⟩ := forall₂_mem_left (forall₂_flip hm.2) hc
            exact (hi _ _ hb).1
          obtain ⟨k1, k2, ni, k3, k4, -⟩ := (EGraph.addUncanonical_post hN h.good hml).elim h1
          have hgrow := k2.grow h.good k1
          intro k x hx
          rw [List.getElem?_append] at hx
          split at hx
          · exact (hi.grow hgrow) k x hx
          · rename_i hk
            have hkk : k = ids.length := by
              rcases Nat.eq_or_lt_of_le (not_lt.1 hk) with h | h
              · exact h.symm
              · rw [List.getElem?_eq_none (by simp; omega)] at hx; cases hx
            subst hkk
            simp at hx
            subst hx
            refine ⟨getElem?_lt k3, fun t' ht' => ?_⟩
            cases t' with
            | node op' ts' =>
              obtain ⟨n', g1', g2', g3'⟩ := termOf_iff.1 ht'
              rw [hnk] at g1'; cases g1'
              have hrep1 : List.Forall₂ (Rep eg1) m.children ts' :=
                forall₂_comp (forall₂_flip hm.2) g3' (fun a b c _ _ _ hab hbc => hgrow.rep _ _ ((hi _ _ hab).2 c hbc))
              have hnl : ∀ c ∈ ni.children, c < eg1.nodes.length := fun c hc => k1.inv.core.childLt k3 hc
              have hrep' := k1.inv.rep_children hnl k4.symm hrep1
              obtain ⟨sk, n2, q1, q2, q3⟩ := k1.inv.core.nodesCls _ ni k3
              obtain ⟨kc, hkc, rfl⟩ := EGraph.cls_of_sk q1
              rw [k1.inv.rep_iff]
              refine ⟨getElem?_lt k3, kc, n2, hkc, q2, ?_, ?_⟩
              · rw [q3.1, k4.1, hm.1, g2']
              · exact k1.inv.rep_children (k1.inv.core.clsNodeLt q1 q2) q3.symm hrep'
        exact ih eg1 (pre ++ [n]) (ids ++ [j]) (by simp [he]) (by simp [hl]) u1 hi1 ha
  unfold EGraph.addExpr at ha
  obtain ⟨⟨eg1, ids⟩, h1, ha⟩ := bind_eq_ok.1 ha
  obtain ⟨j, _, ha⟩ := bind_eq_ok.1 ha
  cases ha
  unfold EGraph.addExprUncanonical at h1
  obtain ⟨⟨eg2, ids2⟩, h2, h3⟩ := bind_eq_ok.1 h1
  obtain ⟨j, _, h3⟩ := bind_eq_ok.1 h3
  cases h3
  exact go e eg [] [] rfl rfl h (by intro k i hi; simp at hi) h2

/-! ### Searching for the goals -/

/-- A search in a class with a limit of at least one finds something exactly if there is a match. -/
theorem searchEclass_some (h : Hist (A.at depth) allow U eg) (hc : eg.clean = true) (hd : DiscContiguous Op)
    {ord : IterOrd} (ho : ord.OK eg) (hcyc : (A.at depth).allowCycles = true) {p : Pattern Op} {t : Term (PatOp Op)} (hp : IsPattern p t)
    {c : Id} (hcv : Valid eg c) {limit : Nat} (hl : 1 ≤ limit) :
    ∃ o, p.searchEclassWithLimit (A.at depth) eg ord c limit = .ok o ∧ (o.isSome ↔ ∃ σ, PMatch eg σ c t) := by
  have hp0 := hp
  obtain ⟨ordc, fuel, ast, hoc, hw, hnew, ht⟩ := hp
  have hi := (hist_good h).inv
  have hr := c47_clean_means_rebuilt h hc
  obtain ⟨cc, e1, -, hf⟩ := pattern_fin hi hr hd hoc ord.classes hw hnew ht
  have hcl := (valid_iff hi).1 hcv
  have hq := searchEclass_eq hi hr hd hc (A.at depth) ho e1 hf hcl limit
  refine ⟨_, hq, fun hs => ?_, fun ⟨σ, hσ⟩ => ?_⟩
  · obtain ⟨m, hm⟩ := Option.isSome_iff_exists.1 hs
    rw [hm] at hq
    obtain ⟨_, g2, g3⟩ := c17_search_eclass_sound h hc hd ho hp0 hcv hq
    obtain ⟨s, hs⟩ := List.exists_mem_of_ne_nil _ g2
    exact ⟨_, (g3 s hs).2.2.1⟩
  · obtain ⟨l0, h0⟩ := c18_search_eclass_complete h hc hd ho hp0 hcyc hcv
    obtain ⟨m, s, g1, g2, _⟩ := h0 (max l0 1) (le_max_left _ _) σ hσ
    rw [searchEclass_eq hi hr hd hc (A.at depth) ho e1 hf hcl] at g1
    cases hmo : matchesOf (A.at depth).allowCycles eg ord.classes p.program c with
    | nil => rw [hmo] at g1; simp at g1
    | cons x l =>
      obtain ⟨n, rfl⟩ : ∃ n, limit = n + 1 := ⟨limit - 1, by omega⟩
      simp

/-- The class contains an instance of each goal. -/
def GoalsIn (eg : EGraph Op D) (c : Id) (ts : List (Term (PatOp Op))) : Prop := ∀ t ∈ ts, ∃ (τ : Var → Term Op) (u : Term Op), Inst τ t u ∧ Rep eg c u

theorem match_iff (h : Hist (A.at depth) allow U eg) (hc : eg.clean = true) {c : Id} (hcv : Valid eg c) {t : Term (PatOp Op)} :
    (∃ σ, PMatch eg σ c t) ↔ ∃ (τ : Var → Term Op) (u : Term Op), Inst τ t u ∧ Rep eg c u := by
  classical
  have hg := hist_good h
  have hpS := (c47_clean_means_rebuilt h hc).pending
  constructor
  · rintro ⟨σ, hσ⟩
    obtain ⟨t0, _⟩ := hg.inv.exists_rep (hg.valid_iff.1 hcv)
    let τ : Var → Term Op := fun v => if hx : ∃ u x, σ v = some x ∧ Rep eg x u then hx.choose else t0
    obtain ⟨u, hu⟩ := EGraph.inst_of_pmatch τ t hσ
    refine ⟨τ, u, hu, hg.inv.pmatch_rep t hσ (fun v x hv hx => ?_) hu⟩
    obtain ⟨w, hw⟩ : ∃ w, Rep eg x w := by
      obtain ⟨d, hd⟩ := PMatch.sub hv hσ
      rw [pmatch_var_iff] at hd
      obtain ⟨-, y, hy, hs⟩ := hd
      rw [hx] at hy; cases hy
      exact hg.inv.exists_rep (hg.inv.sameClass_iff.1 hs).1
    have hv' : ∃ u x, σ v = some x ∧ Rep eg x u := ⟨w, x, hx, hw⟩
    simp only [τ, dif_pos hv']
    obtain ⟨y, h1, h2⟩ := hv'.choose_spec
    rw [hx] at h1; cases h1; exact h2
  · rintro ⟨τ, u, hu, hrep⟩
    let σ : Var → Option Id := fun v => if hx : ∃ x, Rep eg x (τ v) then some hx.choose else none
    refine ⟨σ, EGraph.InvW.rep_pmatch hg.inv hpS (fun v x hx => ?_) t hrep hu (fun v hv => ?_)⟩
    · simp only [σ] at hx
      split at hx
      · next he => cases hx; exact he.choose_spec
      · cases hx
    · have := rep_subterm hg.inv (inst_subterm hu v hv) hrep
      simp [σ, this]

theorem checkGoals_iff (h : Hist (A.at depth) allow U eg) (hc : eg.clean = true) (hd : DiscContiguous Op)
    {ord : IterOrd} (ho : ord.OK eg) (hcyc : (A.at depth).allowCycles = true) {c : Id} (hcv : Valid eg c) {limit : Nat} (hl : 1 ≤ limit)
    {goals : List (Pattern Op)} {ts : List (Term (PatOp Op))} (hg : List.Forall₂ IsPattern goals ts) :
    (GoalsIn eg c ts → eg.checkGoals (A.at depth) ord limit c goals = .ok ()) ∧
    (¬ GoalsIn eg c ts → eg.checkGoals (A.at depth) ord limit c goals = .error .panic) ∧
    (allGoals (A.at depth) eg ord limit c goals = .ok true → GoalsIn eg c ts) := by
  induction hg with
  | nil => exact ⟨fun _ => rfl, fun h => absurd (fun t ht => by cases ht) h, fun _ t ht => by cases ht⟩
  | @cons g t goals ts hp _ ih =>
    obtain ⟨o, h1, h2⟩ := searchEclass_some h hc hd ho hcyc hp hcv hl
    rw [match_iff h hc hcv] at h2
    obtain ⟨i1, i2, i3⟩ := ih
    unfold EGraph.checkGoals allGoals
    rw [h1, ok_bind, ok_bind]
    cases o with
    | none =>
      have hn : ¬ ∃ (τ : Var → Term Op) (u : Term Op), Inst τ t u ∧ Rep eg c u := fun hx => by simpa using h2.2 hx
      exact ⟨fun q => absurd (q t (List.mem_cons_self ..)) hn, fun _ => rfl, fun q => by cases q⟩
    | some m =>
      have hy := h2.1 rfl
      refine ⟨fun q => i1 (fun t' ht' => q t' (List.mem_cons_of_mem _ ht')), fun q => i2 (fun q' => q (fun t' ht' => ?_)), fun q t' ht' => ?_⟩
      · rcases List.mem_cons.1 ht' with rfl | ht'
        exacts [hy, q' t' ht']
      · rcases List.mem_cons.1 ht' with rfl | ht'
        exacts [hy, i3 q t' ht']

/-! ### Runs -/

section
variable {sch : Scheduler Op D S} {r r' : Runner Op D S H}

theorem Runner.runHooks_saw (hh : HooksRead hooks) {its : List Iteration} : ∀ (ks : List (Hook Op D H)), (∀ k ∈ ks, k ∈ hooks) →
    ∀ {h h' : H} {eg eg' : EGraph Op D} {msg : String}, runHooks its ks h eg = .ok (h', eg', some msg) →
    ∃ k ∈ ks, ∃ h h', k h eg its = .ok (h', eg, some msg) := by
  intro ks
  induction ks with
  | nil => intro _ h h' eg eg' msg hr; cases hr
  | cons k ks ih =>
    intro hks h h' eg eg' msg hr
    unfold runHooks at hr
    rw [bind_eq_ok] at hr
    obtain ⟨⟨h1, eg1, o1⟩, h2, hr⟩ := hr
    have := hh k (hks k (by simp)) _ _ _ _ _ _ h2
    subst this
    dsimp only at hr
    split at hr
    · cases hr; exact ⟨k, by simp, _, _, h2⟩
    · obtain ⟨k', hk, q⟩ := ih (fun k hk => hks k (by simp [hk])) hr
      exact ⟨k', by simp [hk], q⟩

theorem RunnerLimits.check_ne_other {lim : RunnerLimits} {t i : Nat} {msg : String} : lim.check env t i eg ≠ some (.other msg) := by
  unfold RunnerLimits.check
  split
  · simp
  · split
    · simp
    · split <;> simp

/-- An iteration that was stopped by a hook. -/
theorem Runner.runOne_other (hs : sch.Limited env) (hh : HooksRead hooks) {it : Iteration} {r4 : Runner Op D S H} {msg : String}
    (h : runOne env sch hooks rules r = .ok (r4, it)) (hr : it.stopReason = some (.other msg)) :
    (∃ k ∈ hooks, ∃ h h', k h r.egraph r.iterations = .ok (h', r.egraph, some msg)) ∧
      ∃ n, r.egraph.rebuild env.analysis env.fuel = .ok (r4.egraph, n) := by
  obtain ⟨_, r1, res1, r2, ms, r3, applied, res3, eg, nReb, quiet, p1, p2, p3, p4, p5, e1, e1', e1'', e2⟩ := runOne_inv h
  obtain ⟨f1, -⟩ := hookPhase_frame p1
  obtain ⟨f2, g2⟩ := searchPhase_frame p2
  have f3 := applyPhase_frame p3
  obtain ⟨f4, g4⟩ := quietPhase_frame p5
  have g4 : r4.egraph = eg := g4
  rw [e2] at hr
  cases res3 with
  | none =>
    simp only [] at hr
    split at hr <;> cases hr
  | some s =>
    cases hr
    unfold applyPhase at p3
    split at p3
    · next s0 =>
      cases p3
      unfold searchPhase at p2
      split at p2
      · next s1 =>
        cases p2
        unfold hookPhase at p1
        split at p1
        · next s2 hk => cases p1; exact absurd hk RunnerLimits.check_ne_other
        · obtain ⟨⟨h1, eg1, o⟩, k1, k2⟩ := bind_eq_ok.1 p1
          cases o with
          | none => cases k2
          | some m =>
            cases k2
            have := runHooks_read _ hh k1
            subst this
            obtain ⟨k, hk, h2, h3, q⟩ := runHooks_saw hh hooks (fun _ h => h) k1
            exact ⟨⟨k, hk, h2, h3, q⟩, nReb, by rw [g4]; exact p4⟩
      · obtain ⟨⟨s1, tick, ms0⟩, k1, k2⟩ := bind_eq_ok.1 p2
        cases k2
        obtain ⟨k, hk⟩ := hs _ _ _ _ _ _ _ _ _ k1
        exact absurd hk RunnerLimits.check_ne_other
    · obtain ⟨k, hk⟩ := applyEachRule_reason _ p3
      exact absurd hk RunnerLimits.check_ne_other

/-- What holds after the loop; and if a hook stopped it, what the hook saw. -/
theorem Runner.runLoop_final (hN : env.analysis = A.at depth) (hord : ∀ i eg, (env.ord i eg).OK eg) (hd : DiscContiguous Op) (hs : sch.Honest env)
    (hlim : sch.Limited env) (hh : HooksRead hooks) (hr : ∀ rw' ∈ rules, ∃ c ∈ cs, IsClause rw' c) : ∀ (f : Nat) (r r' : Runner Op D S H) (U : List (UnionRec Op)),
    Hist (A.at depth) allow U r.egraph → r.egraph.clean = true → runLoop env sch hooks rules f r = .ok r' →
    (r'.egraph.clean = true ∧ ∃ V, Steps (A.at depth) allow r.egraph V r'.egraph) ∧
    ∀ msg, r'.stopReason = some (.other msg) → ∃ (eg1 : EGraph Op D) (V W : List (UnionRec Op)), eg1.clean = true ∧ Steps (A.at depth) allow r.egraph V eg1 ∧
      Steps (A.at depth) allow eg1 W r'.egraph ∧ ∃ k ∈ hooks, ∃ its h h', k h eg1 its = .ok (h', eg1, some msg) := by
  have hsr : ∀ rw' ∈ rules, SoundRule env (A.at depth) allow (fun _ _ => True) rw' := fun rw' hrw => by
    obtain ⟨c, -, q⟩ := hr rw' hrw
    exact q.sound hN hord hd
  have hho : HooksOK (A.at depth) allow (fun _ _ => True) hooks := fun k hk h0 eg its h' eg' o hc he => by
    obtain ⟨q1, V, q2, q3⟩ := (hh.ok (N := A.at depth) (allow := allow)) k hk h0 eg its h' eg' o hc he
    exact ⟨q1, V, q2, fun _ _ => trivial⟩
  intro f
  induction f with
  | zero => intro r r' U _ _ h; cases h
  | succ f ih =>
    intro r r' U h hc hl
    obtain ⟨f', r1, it, e, h1, h2, h3⟩ := runLoop_step hl
    cases e
    obtain ⟨c1, V, s1, -⟩ := runOne_sound hN hs hho hsr h (fun _ _ => trivial) hc h1
    rcases h3 with ⟨s, hst, rfl⟩ | ⟨_, s, k, i, eg, hk, he, e1, e⟩ | ⟨_, _, h4⟩
    · refine ⟨⟨c1, V, s1⟩, fun msg hm => ?_⟩
      cases hm
      obtain ⟨⟨k, hk, h0, h', q⟩, n, hreb⟩ := runOne_other hlim hh h1 hst
      rw [hN] at hreb
      exact ⟨r.egraph, [], _, hc, .refl, .single (.rebuild hreb), k, hk, _, _, _, q⟩
    · refine ⟨⟨by rw [e1]; exact c1, V, by rw [e1]; exact s1⟩, fun msg hm => ?_⟩
      rw [he] at hm
      cases hm
      exact absurd hk RunnerLimits.check_ne_other
    · obtain ⟨⟨k1, W, k2⟩, k3⟩ := ih _ r' _ (by exact Steps.trans h s1) (by exact c1) h4
      refine ⟨⟨k1, _, Steps.trans s1 k2⟩, fun msg hm => ?_⟩
      obtain ⟨eg1, V1, W1, q1, q2, q3, q4⟩ := k3 msg hm
      exact ⟨eg1, _, _, q1, Steps.trans s1 q2, q3, q4⟩

end
end Egg
