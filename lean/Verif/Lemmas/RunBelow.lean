import Verif.Lemmas.Below
import Verif.Props.Run
import Verif.Props.Saturate
/-
A run stays below every e-graph closed under its rules.
-/
namespace Egg
variable {Op D D' S H : Type} [DecidableEq Op] [Lang Op]
variable {A : UserAnalysis Op D} {depth : Nat} {allow : Caller Op D} {M : EGraph Op D'} {hM : Full M}

theorem TightRule.pattern {rw' : Rewrite Op D} {tl t : Term (PatOp Op)} (h : TightRule rw' tl t) : PatternRule rw' tl t := by
  obtain ⟨lp, rp, h1, -, h2, h3, -, h4⟩ := h
  exact ⟨lp, rp, h1, h2, h3, h4⟩

theorem inst_exists {e : PatternAst Op} (hw : PatWF e) (τ : Var → Term Op) : ∀ (t : Term (PatOp Op)) (k : Nat), TermOf e k t → ∃ u, Inst τ t u := by
  intro t
  induction t using Term.ind with
  | h op ps ih =>
    intro k ht
    rw [termOf_iff] at ht
    obtain ⟨n, h1, h2, h3⟩ := ht
    have hnm : n ∈ e := List.mem_of_getElem? h1
    cases op with
    | var v =>
      have := hw.2 n hnm v h2
      rw [this] at h3
      cases h3
      exact ⟨τ v, .var⟩
    | op o =>
      have : ∀ (ps : List (Term (PatOp Op))), (∀ q ∈ ps, ∃ u, Inst τ q u) → ∃ us, List.Forall₂ (Inst τ) ps us := by
        intro ps
        induction ps with
        | nil => intro _; exact ⟨[], .nil⟩
        | cons q ps ihp =>
          intro h
          obtain ⟨u, hu⟩ := h q (by simp)
          obtain ⟨us, hus⟩ := ihp (fun x hx => h x (by simp [hx]))
          exact ⟨u :: us, .cons hu hus⟩
      obtain ⟨us, hus⟩ := this ps (fun q hq => by
        obtain ⟨d, _, hd⟩ := forall₂_mem_left (forall₂_flip h3) hq
        exact ih q hq d hd)
      exact ⟨.node o us, inst_node_iff.2 ⟨us, rfl, hus⟩⟩

section
variable {tl t : Term (PatOp Op)} {rp : Pattern Op} {ms : List (SearchMatches Op)} {eg eg' : EGraph Op D} {U : List (UnionRec Op)}

/-- `apply_matches` of a pattern adds instances of the nodes of the pattern and nothing else; when
explanations are enabled, also instances of the nodes of the searched pattern. -/
theorem applyMatches_inst (h : Hist (A.at depth) allow U eg) (hp : IsPattern rp t) (ha : Applicable eg tl rp ms)
    {rule : Symbol} {ids : List Id} (he : rp.applyMatches (A.at depth) eg ms rule = .ok (eg', ids)) :
    ApplySteps (A.at depth) (fun q => EntryOf rp.ast q ∨ eg.explain.isSome = true ∧ ∃ m ∈ ms, ∃ l, m.ast = some l ∧ EntryOf l q)
      tl t (flat ms) eg ids.length eg' := by
  have hg := hist_good h
  obtain ⟨h1, h2⟩ := ha.matchOK hg
  obtain ⟨k, h3, h4⟩ := EGraph.applyMatchesGo_inst
    (P := fun q => EntryOf rp.ast q ∨ eg.explain.isSome = true ∧ ∃ m ∈ ms, ∃ l, m.ast = some l ∧ EntryOf l q) (L := flat ms) (tl := tl) (t := t)
    ((soundFor_true A).hookOK trivial depth) (fun _ _ => trivial) (fun _ _ _ => trivial)
    hp.wf.1 hp.wf.2 rule (fun q hq => Or.inl hq) (eg.explain.isSome = true) ms eg _ [] hg (by simp)
    (fun m hm s hs => mem_flat.2 ⟨m, hm, rfl, hs⟩) h1 (fun h => h)
    (fun hx m hm l hl q hq => Or.inr ⟨hx, m, hm, l, hl, hq⟩) h2 _ he
  simp only [List.length_nil, Nat.zero_add] at h4
  rw [h4]
  exact h3

theorem entry_subterm {e : PatternAst Op} (hw : PatWF e) (ht : ExprTerm e t) (hlive : ∀ k, k < e.length → Live e k) {q : Term (PatOp Op)}
    (hq : EntryOf e q) : Subterm q t := by
  obtain ⟨k, hk⟩ := hq
  exact live_subterm hw.1.2 ht (hlive k hk.lt) q hk

end

section
variable {rw' : Rewrite Op D} {tl t : Term (PatOp Op)} {U V : List (UnionRec Op)} {egS eg1 eg2 : EGraph Op D}
  {ms ms' : List (SearchMatches Op)} {env : RunEnv Op D} {i : Nat} {ids : List Id}

theorem TightRule.under (hA : ∀ i, A.modify i = .done) (hN : env.analysis = A.at depth) (hord : ∀ i eg, (env.ord i eg).OK eg) (hd : DiscContiguous Op)
    (hr : TightRule rw' tl t) (hcl : ClosedFrom egS M tl t) (h : Hist (A.at depth) allow U egS) (hc : egS.clean = true)
    (hf : Found env i egS rw' ms) (hp : Part ms' ms) (hst : Steps (A.at depth) allow egS V eg1)
    (ha : rw'.applier.applyMatches (A.at depth) eg1 ms' rw'.name = .ok (eg2, ids)) (hu : Under M hM eg1) : Under M hM eg2 := by
  obtain ⟨lp, rp, hl, hll, hlive, hr, hrl, hnew⟩ := hr
  obtain ⟨hv, hrw⟩ := rewrite_new_inv hnew
  have hap := found_applicable hN hord hd hl hlive hv (by rw [hrw]) h hc hf hp hst
  have hast : ∀ m ∈ ms', m.ast = some lp.ast := by
    intro m hm
    rcases hf with rfl | ⟨limit, ms0, f1, f2⟩
    · rw [hp.nil] at hm; cases hm
    rw [hrw, hN] at f1
    obtain ⟨m1, g1, _, g3, _⟩ := (hp.trans f2) m hm
    rw [g3]; exact search_ast f1 m1 g1
  rw [hrw] at ha
  have hsteps := applyMatches_inst (Steps.trans h hst) hr hap (rule := rw'.name) ha
  have hap0 := found_applicable hN hord hd hl hlive hv (by rw [hrw]) h hc hf hp .refl
  have hg := hist_good h
  have gr := (steps_grow hst hg).2
  refine (Under.applySteps hA (fun q hq => ?_) hsteps hu (fun c s hcs => ?_)).1
  · rcases hq with hq | ⟨_, m, hm, l, hl', hq⟩
    · exact Or.inr (entry_subterm hr.wf.1 hr.wf.2 hrl hq)
    · rw [hast m hm] at hl'
      cases hl'
      exact Or.inl (entry_subterm hl.wf.1 hl.wf.2 hll hq)
  · have hm := hap0.pmatch c s hcs
    obtain ⟨τ, hτ⟩ := EGraph.exists_assignment hg.inv (fun v x hx => hg.valid_iff.1 (hap0.valid c s hcs v x hx)) (hg.inv.pmatch_lt hm)
    obtain ⟨u, hu⟩ := EGraph.inst_of_pmatch τ _ hm
    obtain ⟨w, hw⟩ := inst_exists hr.wf.1 τ t _ hr.wf.2.2
    obtain ⟨d, h1, h2⟩ := hcl τ u w c hu hw (hg.inv.pmatch_rep _ hm (fun v x _ hv => hτ v x hv) hu)
    exact ⟨τ, u, w, d, fun v x hx => gr.rep _ _ (hτ v x hx), hu, hw, h1, h2⟩

end

section
variable {env : RunEnv Op D} {sch : Scheduler Op D S} {hooks : List (Hook Op D H)} {rules : List (Rewrite Op D)}
  {r r1 r2 r3 r4 : Runner Op D S H} {U : List (UnionRec Op)} {eqs : List (Term (PatOp Op) × Term (PatOp Op))}

/-- Every rule is one of the equations `eqs`, between patterns without superfluous nodes. -/
def AreTightRules (rules : List (Rewrite Op D)) (eqs : List (Term (PatOp Op) × Term (PatOp Op))) : Prop :=
  ∀ rw' ∈ rules, ∃ tl t, (tl, t) ∈ eqs ∧ TightRule rw' tl t

theorem Runner.applyEachRule_under {i : Nat} (hA : ∀ i, A.modify i = .done) (hN : env.analysis = A.at depth) (hord : ∀ i eg, (env.ord i eg).OK eg)
    (hd : DiscContiguous Op) (hs : sch.Honest env) {egS : EGraph Op D} (h : Hist (A.at depth) allow U egS) (hc : egS.clean = true)
    (hcl : ∀ tl t, (tl, t) ∈ eqs → ClosedFrom egS M tl t) :
    ∀ (l : List (Rewrite Op D × List (SearchMatches Op))) (r r1 : Runner Op D S H) (ap ap' : AMap Symbol Nat) (o : Option StopReason)
      (V : List (UnionRec Op)),
    (∀ rw' ms, (rw', ms) ∈ l → Found env i egS rw' ms ∧ ∃ tl t, (tl, t) ∈ eqs ∧ TightRule rw' tl t) →
    Steps (A.at depth) allow egS V r.egraph → Under M hM r.egraph →
    applyEachRule env sch l r ap = .ok (r1, ap', o) → Under M hM r1.egraph := by
  intro l
  induction l with
  | nil => intro r r1 ap ap' o V _ _ hu h; cases h; exact hu
  | cons x l ih =>
    intro r r1 ap ap' o V hl hst hu ha
    obtain ⟨rw', ms⟩ := x
    unfold applyEachRule at ha
    rw [bind_eq_ok] at ha
    obtain ⟨⟨s, eg, n⟩, h1, ha⟩ := ha
    obtain ⟨ms', ids, h2, h3⟩ := hs.apply _ _ _ _ _ _ _ _ h1
    obtain ⟨hf, tl, t, hm, hr⟩ := hl rw' ms (by simp)
    rw [hN] at h2
    have hu1 : Under M hM eg := hr.under hA hN hord hd (hcl tl t hm) h hc hf h3 hst h2 hu
    dsimp only at ha
    split at ha
    · cases ha; exact hu1
    · obtain ⟨W, s1, -⟩ := hr.pattern.reach hN hord hd h hc hf h3 hst h2
      exact ih _ r1 _ ap' o _ (fun a b hab => hl a b (by simp [hab])) (Steps.trans hst s1) hu1 ha

theorem HooksRead.ok {N : Analysis Op D} (h : HooksRead hooks) : HooksOK N allow (fun _ _ => False) hooks := by
  intro k hk h0 eg its h' eg' o hc he
  have := h k hk _ _ _ _ _ _ he
  subst this
  exact ⟨hc, [], .refl, by simp⟩

theorem Runner.runHooks_read {its : List Iteration} : ∀ (ks : List (Hook Op D H)), HooksRead ks →
    ∀ {h h' : H} {eg eg' : EGraph Op D} {o}, runHooks its ks h eg = .ok (h', eg', o) → eg' = eg := by
  intro ks
  induction ks with
  | nil => intro _ h h' eg eg' o hr; cases hr; rfl
  | cons k ks ih =>
    intro hk h h' eg eg' o hr
    unfold runHooks at hr
    rw [bind_eq_ok] at hr
    obtain ⟨⟨h1, eg1, o1⟩, h2, hr⟩ := hr
    have := hk k (by simp) _ _ _ _ _ _ h2
    dsimp only at hr
    split at hr
    · cases hr; exact this
    · rw [ih (fun k hk' => hk k (by simp [hk'])) hr, this]

theorem Runner.hookPhase_read (hh : HooksRead hooks) {o : Option StopReason}
    (h : hookPhase env hooks r = .ok (r1, o)) : r1.egraph = r.egraph := by
  unfold hookPhase at h
  split at h
  · cases h; rfl
  · rw [bind_eq_ok] at h
    obtain ⟨⟨h1, eg, o⟩, h2, h⟩ := h
    cases h
    exact runHooks_read hooks hh h2

theorem AreTightRules.areRules {N : Analysis Op D} (h : AreTightRules rules eqs) : AreRules N rules eqs := by
  intro rw' hm
  obtain ⟨tl, t, h1, h2⟩ := h rw' hm
  exact ⟨tl, t, h1, Or.inl h2.pattern⟩

theorem Runner.runOne_under (hA : ∀ i, A.modify i = .done) (hN : env.analysis = A.at depth) (hord : ∀ i eg, (env.ord i eg).OK eg)
    (hd : DiscContiguous Op) (hs : sch.Honest env) (hh : HooksRead hooks) (hr : AreTightRules rules eqs)
    (hcl : ∀ tl t, (tl, t) ∈ eqs → ClosedFrom r.egraph M tl t) {it : Iteration}
    (h : Hist (A.at depth) allow U r.egraph) (hc : r.egraph.clean = true) (hu : Under M hM r.egraph)
    (ho : runOne env sch hooks rules r = .ok (r4, it)) : Under M hM r4.egraph := by
  obtain ⟨_, r1, res1, r2, ms, r3, applied, res3, eg, nReb, quiet, p1, p2, p3, p4, p5, -⟩ := runOne_inv ho
  obtain ⟨f2, e2⟩ := searchPhase_frame p2
  obtain ⟨f4, e4⟩ := quietPhase_frame p5
  have e1 := hookPhase_read hh p1
  have hu3 : Under M hM r3.egraph := by
    unfold applyPhase at p3
    split at p3
    · cases p3; rw [e2, e1]; exact hu
    next mss =>
    refine applyEachRule_under (i := r1.iterations.length) (egS := r1.egraph) hA hN hord hd hs (by rw [e1]; exact h) (by rw [e1]; exact hc) (by rw [e1]; exact hcl) _ r2 r3 _ _ _ []
      (fun rw' ms hm => ⟨?_, hr rw' (List.of_mem_zip hm).1⟩) (by rw [e2]; exact .refl) (by rw [e2, e1]; exact hu) p3
    unfold searchPhase at p2
    split at p2
    · cases p2
    rw [bind_eq_ok] at p2
    obtain ⟨⟨s, tick, ms0⟩, k1, k2⟩ := p2
    cases k2
    exact hs.search _ _ _ _ _ _ _ _ _ k1 rw' ms hm
  rw [hN] at p4
  rw [e4]
  exact hu3.rebuild hA p4

theorem Runner.runLoop_under (hA : ∀ i, A.modify i = .done) (hN : env.analysis = A.at depth) (hord : ∀ i eg, (env.ord i eg).OK eg)
    (hd : DiscContiguous Op) (hs : sch.Honest env) (hh : HooksRead hooks) (hr : AreTightRules rules eqs)
    (hcl : ∀ tl t, (tl, t) ∈ eqs → ClosedTerms M tl t) : ∀ (f : Nat) (r r' : Runner Op D S H) (U : List (UnionRec Op)),
    Hist (A.at depth) allow U r.egraph → r.egraph.clean = true → Under M hM r.egraph →
    runLoop env sch hooks rules f r = .ok r' → Under M hM r'.egraph := by
  intro f
  induction f with
  | zero => intro r r' U _ _ _ h; cases h
  | succ f ih =>
    intro r r' U h hc hu hl
    unfold runLoop at hl
    rw [bind_eq_ok] at hl
    obtain ⟨⟨r1, it⟩, h1, hl⟩ := hl
    have hu1 := runOne_under hA hN hord hd hs hh hr (fun tl t ht => (hcl tl t ht).closedFrom hu) h hc hu h1
    obtain ⟨c1, ⟨V, s1, -⟩, -⟩ := runOne_reach hN hord hd hs (hh.ok (N := A.at depth) (allow := allow)) hr.areRules h hc h1
    dsimp only at hl
    split at hl
    · cases hl; exact hu1
    · split at hl
      · cases hl; exact hu1
      · exact ih _ _ _ (by exact Steps.trans h s1) (by exact c1) (by exact hu1) hl

end
end Egg
