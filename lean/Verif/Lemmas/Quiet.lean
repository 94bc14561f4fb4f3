import Verif.Spec.Quiet
import Verif.Spec.Guard
import Verif.Lemmas.Eager
import Verif.Props.MultiRule
/-
Lemmas for C90: iterations in which nothing happened.
-/
namespace Egg
variable {Op D S H : Type} [DecidableEq Op] [Lang Op]
variable {A : UserAnalysis Op D} {depth : Nat} {allow : Caller Op D}

namespace EGraph
variable {C : Cfg Op D} {e0 g e1 : EGraph Op D}

theorem totalSize_le (h : Inv C e0) (hx : Grow e0 g) : e0.totalSize ≤ g.totalSize := by
  have hsub : AMap.keys e0.memo ⊆ AMap.keys g.memo := by
    intro k hk
    rw [← AMap.get?_isSome_iff] at hk ⊢
    have := hx.mem k (by unfold EGraph.mem; intro h; rw [h] at hk; cases hk)
    exact Option.isSome_iff_ne_none.2 this
  have := (List.subperm_of_subset h.memoNodup.1 hsub).length_le
  simpa [AMap.keys, EGraph.totalSize] using this

/-- A state between two states of the same size, of which the second is rebuilt: nothing changes any more. -/
theorem unchanged_between (h0 : Inv C e0) (hg : Inv C g) (h1 : Inv C e1) (hp : e1.pending = []) (x0 : Grow e0 g) (x1 : Grow g e1)
    (hs : e1.totalSize = e0.totalSize) (hc : e1.numberOfClasses = e0.numberOfClasses) : Unchanged g e1 := by
  have x := x0.trans x1
  have hm1 := mem_back h0 x hs
  have hm0 : ∀ n, g.mem n ≠ none → e0.mem n ≠ none := fun n hn => hm1 n (x1.mem n hn)
  have hrb : ∀ {i j}, i < e0.nodes.length → j < e0.nodes.length → e1.rt i = e1.rt j → e0.rt i = e0.rt j :=
    fun hi hj e => rt_back h0 h1 hp x hs hc hi hj e
  -- roots are old
  have r0 : ∀ i, i < g.nodes.length → g.rt i < e0.nodes.length ∧ e0.rt (g.rt i) = g.rt i := by
    intro i hi
    have hl := hg.core.rtLt i hi
    have : g.rt i < e0.nodes.length := by
      by_contra hn
      exact x0.fresh hm0 _ (by omega) hl (hg.core.rtIdem i)
    exact ⟨this, x0.root _ this (hg.core.rtIdem i)⟩
  have r1 : ∀ i, i < e1.nodes.length → e1.rt i < e0.nodes.length ∧ e0.rt (e1.rt i) = e1.rt i := by
    intro i hi
    have hl := h1.core.rtLt i hi
    have : e1.rt i < e0.nodes.length := by
      by_contra hn
      exact x.fresh hm1 _ (by omega) hl (h1.core.rtIdem i)
    exact ⟨this, x.root _ this (h1.core.rtIdem i)⟩
  have same : ∀ i, i < g.nodes.length → e1.rt i = g.rt i := by
    intro i hi
    obtain ⟨a1, a2⟩ := r0 i hi
    obtain ⟨b1, b2⟩ := r1 i (lt_of_lt_of_le hi x1.len)
    have := hrb b1 a1 (by
      rw [h1.core.rtIdem]
      exact x1.rt _ _ hi (hg.core.rtLt i hi) (hg.core.rtIdem i).symm)
    rw [a2, b2] at this
    exact this
  refine ⟨fun i r hi => ?_, fun i r hi => ?_, fun i t hi => ⟨x1.rep i t, fun ht => ?_⟩⟩
  · obtain ⟨k1, k2⟩ := hg.find_iff.1 hi
    exact h1.find_iff.2 ⟨lt_of_lt_of_le k1 x1.len, by rw [same i k1, k2]⟩
  · obtain ⟨k1, rfl⟩ := h1.find_iff.1 hi
    obtain ⟨b1, _⟩ := r1 i k1
    have bl := lt_of_lt_of_le b1 x0.len
    exact hg.find_iff.2 ⟨bl, by rw [← same _ bl, h1.core.rtIdem]⟩
  · obtain ⟨r, hr⟩ := hi
    obtain ⟨k1, rfl⟩ := hg.find_iff.1 hr
    obtain ⟨a1, a2⟩ := r0 i k1
    have := x0.rep _ _ (rep_back h0 h1 hp x hs hc t ht a1 (by rw [same i k1, same _ (hg.core.rtLt i k1), hg.core.rtIdem]))
    exact hg.rep_congr k1 (hg.core.rtIdem i) this

/-- `apply_pat` returns the binding of a variable or a canonical id. -/
theorem applyPatGo_last {N : Analysis Op D} {s : Subst} : ∀ (rest : List (ENode (PatOp Op))) (eg : EGraph Op D) (k : Nat) (ids : List Id)
    (eg' : EGraph Op D) (ids' : List Id), rest ≠ [] → ids.length = k + rest.length → applyPatGo N s eg rest k ids = .ok (eg', ids') →
    ∃ x, ids'.getLast? = some x ∧ ((∃ v, s.get v = some x) ∨ ∃ j, eg'.find j = .ok x) := by
  intro rest
  induction rest with
  | nil => intro _ _ _ _ _ h; exact absurd rfl h
  | cons n rest ih =>
    intro eg k ids eg' ids' _ hl ha
    unfold applyPatGo at ha
    have last : ∀ (g : EGraph Op D) (x : Id), (∃ v, s.get v = some x) ∨ (∃ j, g.find j = .ok x) →
        applyPatGo N s g rest (k + 1) (ids.set k x) = .ok (eg', ids') →
        ∃ x, ids'.getLast? = some x ∧ ((∃ v, s.get v = some x) ∨ ∃ j, eg'.find j = .ok x) := by
      intro g x hx h1
      cases rest with
      | cons m rest => exact ih g (k + 1) _ eg' ids' (by simp) (by simp at hl ⊢; omega) h1
      | nil =>
        cases h1
        simp only [List.length_singleton] at hl
        refine ⟨x, ?_, hx⟩
        rw [List.getLast?_eq_getElem?, List.length_set, hl, Nat.add_sub_cancel, List.getElem?_set]
        simp [hl]
    cases ho : n.op with
    | var v =>
      rw [ho] at ha
      dsimp only at ha
      obtain ⟨x, hx, ha⟩ := bind_eq_ok.1 ha
      exact last eg x (.inl ⟨v, unwrap_eq_ok.1 hx⟩) ha
    | op o =>
      rw [ho] at ha
      dsimp only at ha
      obtain ⟨m, hm, ha⟩ := bind_eq_ok.1 ha
      obtain ⟨⟨g, x⟩, hx, ha⟩ := bind_eq_ok.1 ha
      refine last g x (.inr ?_) ha
      unfold EGraph.add at hx
      obtain ⟨⟨g', j⟩, q1, q2⟩ := bind_eq_ok.1 hx
      obtain ⟨y, q3, q4⟩ := bind_eq_ok.1 q2
      cases q4
      exact ⟨j, q3⟩

theorem applyPat_last {N : Analysis Op D} {s : Subst} {e : PatternAst Op} {eg eg' : EGraph Op D} {buf buf' : List Id} {a : Id}
    (he : e ≠ []) (hl : buf.length = e.length) (ha : applyPat N buf e eg s = .ok (eg', buf', a)) :
    (∃ v, s.get v = some a) ∨ ∃ j, eg'.find j = .ok a := by
  unfold applyPat at ha
  obtain ⟨⟨g, ids⟩, h1, ha⟩ := bind_eq_ok.1 ha
  obtain ⟨x, hx, ha⟩ := bind_eq_ok.1 ha
  cases ha
  obtain ⟨y, h2, h3⟩ := applyPatGo_last e eg 0 buf _ _ he (by simpa using hl) h1
  have hx := unwrap_eq_ok.1 hx
  rw [h2] at hx
  cases hx
  exact h3

end EGraph

/-! ### The last iteration of a run that saturates -/

section
variable {env : RunEnv Op D} {sch : Scheduler Op D S} {hooks : List (Hook Op D H)} {rules : List (Rewrite Op D)}
  {r r' r4 : Runner Op D S H} {U : List (UnionRec Op)} {I : Nat → S → Prop}

/-- Two states between which the size did not change, with API calls only between them. -/
structure SameSize (N : Analysis Op D) (allow : Caller Op D) (egS fin : EGraph Op D) : Prop where
  reach : Reachable N allow egS
  steps : ∃ W, Steps N allow egS W fin
  clean : egS.clean = true
  fclean : fin.clean = true
  size : fin.totalSize = egS.totalSize
  classes : fin.numberOfClasses = egS.numberOfClasses

/-- The matches `ms` of the rule were found in `egS`, and applied in `eg`, between `egS` and `fin`. -/
structure RanRule (env : RunEnv Op D) (N : Analysis Op D) (allow : Caller Op D) (i : Nat) (rw' : Rewrite Op D) (egS fin eg eg' : EGraph Op D)
    (ms : List (SearchMatches Op)) : Prop where
  found : ∃ limit, rw'.searcher.search N egS (env.ord i egS) limit = .ok ms ∧ (limit = env.usizeMax ∨ (flat ms).length < limit)
  before : ∃ V, Steps N allow egS V eg
  apply : ∃ ids, rw'.applier.applyMatches N eg ms rw'.name = .ok (eg', ids)
  after : ∃ W, Steps N allow eg' W fin

theorem Runner.applyEachRule_quiet {i : Nat} {lim : RunnerLimits} (hN : env.analysis = A.at depth)
    (hs : sch.Thorough env lim I) {egS : EGraph Op D} (h : Hist (A.at depth) allow U egS) (hc : egS.clean = true) :
    ∀ (l : List (Rewrite Op D × List (SearchMatches Op))) (r r1 : Runner Op D S H) (ap ap' : AMap Symbol Nat) (o : Option StopReason)
      (V : List (UnionRec Op)),
    (∀ rw' ms, (rw', ms) ∈ l → (∃ limit, rw'.searcher.search (A.at depth) egS (env.ord i egS) limit = .ok ms) ∧
      UsesApi env (A.at depth) allow rw') →
    Steps (A.at depth) allow egS V r.egraph →
    applyEachRule env sch l r ap = .ok (r1, ap', o) →
    r1.scheduler = r.scheduler ∧ (∃ W, Steps (A.at depth) allow r.egraph W r1.egraph) ∧
    (o = none → ∀ rw' ms, (rw', ms) ∈ l → ∃ V eg eg' ids W, Steps (A.at depth) allow egS V eg ∧
      rw'.applier.applyMatches (A.at depth) eg ms rw'.name = .ok (eg', ids) ∧ Steps (A.at depth) allow eg' W r1.egraph) := by
  intro l
  induction l with
  | nil => intro r r1 ap ap' o V _ _ h; cases h; exact ⟨rfl, ⟨_, .refl⟩, by simp⟩
  | cons x l ih =>
    intro r r1 ap ap' o V hl hst ha
    obtain ⟨rw0, ms0⟩ := x
    unfold applyEachRule at ha
    rw [bind_eq_ok] at ha
    obtain ⟨⟨s, eg, n⟩, h1, ha⟩ := ha
    obtain ⟨rfl, ids, h2⟩ := hs.apply _ _ _ _ _ _ _ _ h1
    obtain ⟨⟨limit, hlim⟩, hr⟩ := hl rw0 ms0 (by simp)
    rw [hN] at h2
    have hf : Found env i egS rw0 ms0 := found_of_search (limit := limit) (by rw [hN]; exact hlim)
    obtain ⟨W0, s1, -⟩ := hr _ _ _ _ _ _ _ _ _ h (fun _ _ => trivial) hc hf hst (fun _ _ => trivial) (Part.refl' _) h2
    dsimp only at ha
    split at ha
    · cases ha; exact ⟨rfl, ⟨W0, s1⟩, by simp⟩
    · obtain ⟨e1, ⟨W1, s2⟩, k⟩ := ih _ r1 _ ap' o _ (fun a b hab => hl a b (by simp [hab])) (Steps.trans hst s1) ha
      refine ⟨e1, ⟨_, Steps.trans s1 s2⟩, fun ho rw' ms hmem => ?_⟩
      rcases List.mem_cons.1 hmem with e | hmem
      · cases e
        exact ⟨V, _, eg, ids, W1, hst, h2, s2⟩
      · exact k ho rw' ms hmem

theorem Runner.runOne_quiet (hN : env.analysis = A.at depth) (hlim : sch.Limited env) (hs : sch.Thorough env r.limits I)
    (hh : HooksOK (A.at depth) allow (fun _ _ => True) hooks)
    (hr : ∀ rw' ∈ rules, UsesApi env (A.at depth) allow rw') {it : Iteration} (h : Hist (A.at depth) allow U r.egraph)
    (hc : r.egraph.clean = true) (hI : I r.iterations.length r.scheduler)
    (ho : runOne env sch hooks rules r = .ok (r4, it)) :
    (it.stopReason = none → I (r.iterations.length + 1) r4.scheduler) ∧
    (it.stopReason = some .saturated → ∃ egS i, SameSize (A.at depth) allow egS r4.egraph ∧
      ∀ rw' ∈ rules, ∃ eg eg' ms, RanRule env (A.at depth) allow i rw' egS r4.egraph eg eg' ms) := by
  obtain ⟨_, r1, res1, r2, ms, r3, applied, res3, eg, nReb, quiet, p1, p2, p3, p4, p5, -, -, -, e2⟩ := runOne_inv ho
  obtain ⟨f1, fs1⟩ := hookPhase_frame p1
  obtain ⟨f2, g2⟩ := searchPhase_frame p2
  have f3 := applyPhase_frame p3
  obtain ⟨f4, g4⟩ := quietPhase_frame p5
  have g4 : r4.egraph = eg := g4
  obtain ⟨c1, V1, s1, -⟩ := hookPhase_reach hh hc p1
  have h1 : Hist (A.at depth) allow _ r1.egraph := Steps.trans h s1
  rw [hN] at p4
  cases ms with
  | error reason =>
    cases p3
    rw [e2]
    refine ⟨fun h => (by cases h), fun h => ?_⟩
    injection h with h
    subst h
    exfalso
    unfold searchPhase at p2
    split at p2
    · cases p2
      unfold hookPhase at p1
      split at p1
      · next hk => cases p1; exact check_ne_saturated hk
      · rw [bind_eq_ok] at p1
        obtain ⟨⟨h1, eg1, o⟩, k1, k2⟩ := p1
        cases o <;> cases k2
    · rw [bind_eq_ok] at p2
      obtain ⟨⟨s1, tick, ms0⟩, k1, k2⟩ := p2
      cases k2
      obtain ⟨k, hk⟩ := hlim _ _ _ _ _ _ _ _ _ k1
      exact check_ne_saturated hk
  | ok mss =>
    unfold searchPhase at p2
    split at p2
    · cases p2
    rw [bind_eq_ok] at p2
    obtain ⟨⟨sS, tick, ms0⟩, k1, k2⟩ := p2
    cases k2
    have hit : r.iterations.length < r.limits.iterLimit := by
      unfold hookPhase at p1
      split at p1
      · cases p1
      next hk =>
      unfold Runner.check RunnerLimits.check at hk
      split_ifs at hk with q1 q2 q3
      omega
    rw [f1.lim, f1.its, fs1] at k1
    obtain ⟨i1, i2⟩ := hs.search _ _ _ _ _ _ _ _ hI hit k1
    unfold applyPhase at p3
    dsimp only at p3
    have hstop : ∀ b, quietPhase sch applied { r3 with egraph := eg } = .ok (r4, b) → r3.scheduler = sS →
        I (r.iterations.length + 1) r4.scheduler ∧ (b = true → ∃ s'', sch.canStop sS r.iterations.length = .ok (s'', true)) := by
      intro b hq es
      unfold quietPhase at hq
      split at hq
      · rw [bind_eq_ok] at hq
        obtain ⟨⟨s'', bb⟩, q1, q2⟩ := hq
        cases q2
        dsimp only at q1 ⊢
        rw [es, f3.its] at q1
        have q1 : sch.canStop sS r.iterations.length = .ok (s'', b) := by rw [← f1.its]; exact q1
        exact ⟨hs.stop _ _ _ _ i1 q1, fun hb => ⟨s'', by rw [← hb]; exact q1⟩⟩
      · cases hq
        exact ⟨by rw [es]; exact i1, fun h => by cases h⟩
    have hsched : r3.scheduler = sS := by
      have key : ∀ (l : List (Rewrite Op D × List (SearchMatches Op))) (r r1 : Runner Op D S H) (ap ap' : AMap Symbol Nat)
          (o : Option StopReason), applyEachRule env sch l r ap = .ok (r1, ap', o) → r1.scheduler = r.scheduler := by
        intro l
        induction l with
        | nil => intro r r1 ap ap' o h; cases h; rfl
        | cons x l ih =>
          intro r r1 ap ap' o ha
          unfold applyEachRule at ha
          rw [bind_eq_ok] at ha
          obtain ⟨⟨s, eg, n⟩, h1, ha⟩ := ha
          obtain ⟨rfl, _⟩ := hs.apply _ _ _ _ _ _ _ _ h1
          dsimp only at ha
          split at ha
          · cases ha; rfl
          · have := ih _ _ _ _ _ ha
            exact this
      exact key _ _ _ _ _ _ p3
    obtain ⟨j1, j2⟩ := hstop quiet p5 hsched
    refine ⟨fun _ => j1, fun hsat => ?_⟩
    rw [e2] at hsat
    cases res3 with
    | some reason =>
      exfalso
      injection hsat with hsat
      subst hsat
      obtain ⟨k, hk⟩ := applyEachRule_reason _ p3
      exact check_ne_saturated hk
    | none =>
      simp only [] at hsat
      split at hsat
      swap
      · cases hsat
      next hq =>
      simp only [Bool.and_eq_true, decide_eq_true_eq] at hq
      obtain ⟨⟨⟨⟨q1, q2⟩, q3⟩, q4⟩, q5⟩ := hq
      obtain ⟨s'', hstop⟩ := j2 q1
      have full := i2 mss rfl s'' hstop
      rw [hN] at full
      obtain ⟨-, ⟨W, s2⟩, hall⟩ := applyEachRule_quiet (i := r.iterations.length) hN hs h1 c1 _ _ r3 _ _ _ []
        (fun rw' ms hm => ⟨(mem_zip_forall₂ full hm).imp (fun _ h => h.1), hr rw' (List.of_mem_zip hm).1⟩) (by exact .refl) p3
      have hst3 : Steps (A.at depth) allow r3.egraph ([] ++ []) eg := Steps.single (.rebuild p4)
      have hst : Steps (A.at depth) allow r1.egraph _ eg := Steps.trans s2 hst3
      refine ⟨r1.egraph, r.iterations.length, ⟨⟨_, h1⟩, ⟨_, by rw [g4]; exact hst⟩, c1, by rw [g4]; exact EGraph.rebuild_clean p4,
        by rw [← q4, q2], by rw [← q5, q3]⟩, fun rw' hrw => ?_⟩
      obtain ⟨ms, hmem⟩ : ∃ ms, (rw', ms) ∈ rules.zip mss := by
        clear hr p3 hall i2 k1 ho
        induction full with
        | nil => cases hrw
        | @cons a b l l' hab _ ih =>
          rcases List.mem_cons.1 hrw with rfl | hrw
          · exact ⟨b, by simp⟩
          · obtain ⟨ms, hm⟩ := ih hrw
            exact ⟨ms, by simp [hm]⟩
      obtain ⟨V, eg0, eg0', ids, W0, a1, a2, a3⟩ := hall rfl rw' ms hmem
      exact ⟨eg0, eg0', ms, mem_zip_forall₂ full hmem, ⟨V, a1⟩, ⟨ids, a2⟩, ⟨_, by rw [g4]; exact Steps.trans a3 hst3⟩⟩

theorem Runner.runOne_frame' {it : Iteration} (ho : runOne env sch hooks rules r = .ok (r4, it)) : Frame r r4 := by
  obtain ⟨_, r1, res1, r2, ms, r3, applied, res3, eg, nReb, quiet, p1, p2, p3, p4, p5, -⟩ := runOne_inv ho
  obtain ⟨f1, -⟩ := hookPhase_frame p1
  obtain ⟨f2, e2⟩ := searchPhase_frame p2
  have f3 := applyPhase_frame p3
  obtain ⟨f4, e4⟩ := quietPhase_frame p5
  exact f1.trans (f2.trans (f3.trans ⟨f4.its, f4.lim, f4.stop, f4.roots⟩))

theorem Runner.runLoop_quiet (hN : env.analysis = A.at depth) (hsh : sch.Honest env) (hlim : sch.Limited env)
    (hh : HooksOK (A.at depth) allow (fun _ _ => True) hooks) (hr : ∀ rw' ∈ rules, UsesApi env (A.at depth) allow rw') :
    ∀ (f : Nat) (r r' : Runner Op D S H) (U : List (UnionRec Op)), sch.Thorough env r.limits I →
    Hist (A.at depth) allow U r.egraph → r.egraph.clean = true → I r.iterations.length r.scheduler →
    runLoop env sch hooks rules f r = .ok r' → r'.stopReason = some .saturated →
    ∃ egS i, SameSize (A.at depth) allow egS r'.egraph ∧
      ∀ rw' ∈ rules, ∃ eg eg' ms, RanRule env (A.at depth) allow i rw' egS r'.egraph eg eg' ms := by
  intro f
  induction f with
  | zero => intro r r' U _ _ _ _ h; cases h
  | succ f ih =>
    intro r r' U hs h hc hI hl hsat
    unfold runLoop at hl
    rw [bind_eq_ok] at hl
    obtain ⟨⟨r1, it⟩, h1, hl⟩ := hl
    obtain ⟨c1, V, s1, -⟩ := runOne_sound hN hsh hh hr h (fun _ _ => trivial) hc h1
    have fr := runOne_frame' h1
    obtain ⟨k1, k2⟩ := runOne_quiet hN hlim hs hh hr h hc hI h1
    dsimp only at hl
    split at hl
    · next reason hreason =>
      cases hl
      cases hsat
      exact k2 hreason
    · next hnone =>
      split at hl
      · next reason hk =>
        cases hl
        cases hsat
        exact absurd hk check_ne_saturated
      · refine ih _ r' _ (by dsimp only; rw [fr.lim]; exact hs) (by exact Steps.trans h s1) (by exact c1) ?_ hl hsat
        dsimp only
        rw [fr.its, List.length_append, List.length_singleton]
        exact k1 hnone

theorem Runner.run_quiet (hN : env.analysis = A.at depth) (hsh : sch.Honest env) (hlim : sch.Limited env) (hs : sch.Thorough env r.limits I)
    (hh : HooksOK (A.at depth) allow (fun _ _ => True) hooks) (hr : ∀ rw' ∈ rules, UsesApi env (A.at depth) allow rw')
    (h : Hist (A.at depth) allow U r.egraph) (hI : I r.iterations.length r.scheduler) {f : Nat}
    (hrun : r.run env sch hooks rules f = .ok r') (hsat : r'.stopReason = some .saturated) :
    ∃ egS i, SameSize (A.at depth) allow egS r'.egraph ∧
      ∀ rw' ∈ rules, ∃ eg eg' ms, RanRule env (A.at depth) allow i rw' egS r'.egraph eg eg' ms := by
  unfold Runner.run at hrun
  rw [bind_eq_ok] at hrun
  obtain ⟨⟨eg, n⟩, h1, h2⟩ := hrun
  rw [hN] at h1
  exact Runner.runLoop_quiet hN hsh hlim hh hr f { r with egraph := eg } r' ([] ++ U) hs (Steps.trans h (.single (.rebuild h1)))
    (EGraph.rebuild_clean h1) hI h2 hsat

/-! ### What follows -/

theorem SameSize.good {egS fin : EGraph Op D} (h : SameSize (A.at depth) allow egS fin) :
    ∃ C : Cfg Op D, EGraph.Inv C egS ∧ EGraph.Inv C fin ∧ EGraph.Grow egS fin ∧ fin.pending = [] := by
  obtain ⟨U, hU⟩ := h.reach
  obtain ⟨W, hW⟩ := h.steps
  obtain ⟨g, x⟩ := steps_grow hW (hist_good hU)
  exact ⟨_, (hist_good hU).inv, g.inv, x, (c47_clean_means_rebuilt (Steps.trans hU hW) h.fclean).pending⟩

/-- Everything between the two states is like the second. -/
theorem SameSize.between {egS fin g : EGraph Op D} (h : SameSize (A.at depth) allow egS fin) {V W : List (UnionRec Op)}
    (h1 : Steps (A.at depth) allow egS V g) (h2 : Steps (A.at depth) allow g W fin) : Unchanged g fin := by
  obtain ⟨U, hU⟩ := h.reach
  have hg0 := hist_good hU
  obtain ⟨hg, x0⟩ := steps_grow h1 hg0
  obtain ⟨hf, x1⟩ := steps_grow h2 hg
  exact EGraph.unchanged_between hg0.inv hg.inv hf.inv (c47_clean_means_rebuilt (Steps.trans hU (Steps.trans h1 h2)) h.fclean).pending
    x0 x1 h.size h.classes

/-- The matches in the final e-graph are those that were found. -/
theorem found_of_quiet {i : Nat} {egS fin eg eg' : EGraph Op D} {ms : List (SearchMatches Op)} {rw' : Rewrite Op D} {lp : Pattern Op}
    {tl : Term (PatOp Op)} (hN : env.analysis = A.at depth) (hord : ∀ i eg, (env.ord i eg).OK eg) (hd : DiscContiguous Op)
    (hcyc : (A.at depth).allowCycles = true) (hss : SameSize (A.at depth) allow egS fin)
    (hrr : RanRule env (A.at depth) allow i rw' egS fin eg eg' ms) (hl : IsPattern lp tl) (hsr : rw'.searcher = lp.searcher)
    (hfit : Fits env fin rw') {σ : Var → Option Id} {c : Id} (hσ : PMatch fin σ c tl) :
    ∃ c' s, (c', s) ∈ flat ms ∧ CanonicalMatch fin tl σ c s c' := by
  classical
  obtain ⟨U, h⟩ := hss.reach
  obtain ⟨V, hst⟩ := hss.steps
  have hc := hss.clean
  have hc' := hss.fclean
  obtain ⟨limit, hms, hlim⟩ := hrr.found
  obtain ⟨ord', ms', ho', hms', hmax⟩ := hfit
  rw [hsr] at hms hms'
  rw [hN] at hms'
  have hms : lp.searchWithLimit (A.at depth) egS (env.ord i egS) limit = .ok ms := hms
  have hms' : lp.searchWithLimit (A.at depth) fin ord' env.usizeMax = .ok ms' := hms'
  have ho := hord i egS
  have hg := hist_good h
  obtain ⟨g', hx⟩ := steps_grow hst hg
  have h' : Hist (A.at depth) allow _ fin := Steps.trans h hst
  have hp' : fin.pending = [] := (c47_clean_means_rebuilt h' hc').pending
  -- the full lists
  obtain ⟨_, F, hF⟩ := c20_limit_truncates h hc hd ho hl
  obtain ⟨_, F', hF'⟩ := c20_limit_truncates h' hc' hd ho' hl
  obtain ⟨l0, hl0⟩ := c18_search_complete h hc hd ho hl hcyc
  obtain ⟨l1, hl1⟩ := c18_search_complete h' hc' hd ho' hl hcyc
  obtain ⟨mb, b1, b2⟩ := hl0 (Max.max l0 F.length) (le_max_left _ _)
  obtain ⟨mb', b1', b2'⟩ := hl1 (Max.max l1 F'.length) (le_max_left _ _)
  have fb : flat mb = F := by
    obtain ⟨m0, k1, k2⟩ := hF (Max.max l0 F.length)
    rw [b1] at k1; cases k1
    rw [k2, List.take_of_length_le (le_max_right _ _)]
  have fb' : flat mb' = F' := by
    obtain ⟨m0, k1, k2⟩ := hF' (Max.max l1 F'.length)
    rw [b1'] at k1; cases k1
    rw [k2, List.take_of_length_le (le_max_right _ _)]
  have hF'max : F'.length < env.usizeMax := by
    obtain ⟨m0, k1, k2⟩ := hF' env.usizeMax
    rw [hms'] at k1; cases k1
    rw [k2, List.length_take] at hmax
    omega
  have hle : F.length ≤ F'.length := by
    refine matches_le hg.inv g'.inv hp' hx hss.size hss.classes (t := tl) (fun c s hcs => ?_) ?_ (fun σ c hm => ?_)
    · rw [← fb] at hcs
      obtain ⟨_, k2, k3, k4, _⟩ := c17_search_sound h hc hd ho hl b1 c s hcs
      exact ⟨k2, fun v x hx => ⟨x, k3 v x hx⟩, k4⟩
    · obtain ⟨q1, q2⟩ := (c19_each_match_once h hc hd ho hl).2 mb b1
      rw [← fb]
      exact flat_pairwise q1 (fun m hm => (q2 m hm).2)
    · rw [← fb']; exact b2' σ c hm
  have hfull : flat ms = F := by
    obtain ⟨m0, k1, k2⟩ := hF limit
    rw [hms] at k1; cases k1
    rw [k2]
    apply List.take_of_length_le
    rcases hlim with rfl | hlim
    · omega
    · rw [k2, List.length_take] at hlim
      omega
  -- the match in the searched e-graph
  have un := hss.between (.refl) hst
  have hcl' := g'.inv.pmatch_lt hσ
  have old : ∀ x, x < fin.nodes.length → fin.rt x < egS.nodes.length ∧ fin.rt x = fin.rt (fin.rt x) := by
    intro x hx
    have := un.canonical x _ (g'.inv.find_iff.2 ⟨hx, rfl⟩)
    exact ⟨(hg.inv.find_iff.1 this).1, (g'.inv.core.rtIdem x).symm⟩
  have hm0 : PMatch egS (fun v => (σ v).map fin.rt) (fin.rt c) tl :=
    EGraph.pmatch_back hg.inv g'.inv hp' hx hss.size hss.classes (fun v x hv hxl => ⟨fin.rt x, by simp [hv], old x hxl⟩) tl hσ (old c hcl').1
      (old c hcl').2
  obtain ⟨r, s, k1, k2, k3⟩ := b2 _ _ hm0
  have k4 := un.find _ _ k1
  have e1 : r = fin.rt c := by
    rw [← (g'.inv.find_iff.1 k4).2, g'.inv.core.rtIdem]
  refine ⟨r, s, by rw [hfull, ← fb]; exact k2, g'.inv.find_iff.2 ⟨hcl', e1.symm⟩, fun v hv => ?_, fun v hv => ?_⟩
  · obtain ⟨x, y, q1, q2, q3⟩ := k3 v hv
    obtain ⟨x0, q0, rfl⟩ := Option.map_eq_some_iff.1 q1
    have q4 := (g'.inv.find_iff.1 (un.find _ _ q2))
    have : x0 < fin.nodes.length := by
      by_contra hn
      have := g'.inv.core.rtOut x0 (by omega)
      omega
    exact ⟨x0, y, q0, g'.inv.find_iff.2 ⟨this, by rw [← q4.2, g'.inv.core.rtIdem]⟩, q3⟩
  · exact ((c17_search_sound h hc hd ho hl b1 r s k2).2.1 v).1 (Option.ne_none_iff_exists'.1 hv)

/-- Every match is handed to `apply_one`. -/
theorem each_applied {egS eg eg' : EGraph Op D} {ms : List (SearchMatches Op)} {rw' : Rewrite Op D} {lp : Pattern Op} {i : Nat}
    {tl : Term (PatOp Op)} (hN : env.analysis = A.at depth) (hord : ∀ i eg, (env.ord i eg).OK eg) (hd : DiscContiguous Op)
    (hl : IsPattern lp tl) (hlive : ∀ v ∈ lp.vars, Occurs v tl) (hs : rw'.searcher = lp.searcher)
    (hdef : rw'.applier.UsesDefault) (hap : rw'.applier.SoundOn (A.at depth) allow (fun _ _ => True) lp tl (fun _ => True))
    (h : Hist (A.at depth) allow U egS) (hc : egS.clean = true) (hf : Found env i egS rw' ms) {V : List (UnionRec Op)} {ids : List Id}
    (hst : Steps (A.at depth) allow egS V eg) (ha : rw'.applier.applyMatches (A.at depth) eg ms rw'.name = .ok (eg', ids)) :
    ∀ c s, (c, s) ∈ flat ms → ∃ V g ast g' ids' W, Steps (A.at depth) allow egS V g ∧
      (ast = some lp.ast ∧ g.explain.isSome = true ∨ ast = none) ∧
      rw'.applier.applyOne (A.at depth) g c s ast rw'.name = .ok (g', ids') ∧ Steps (A.at depth) allow g' W eg' := by
  rw [hdef] at ha
  have one : ∀ (g : EGraph Op D) (m : SearchMatches Op) (s : Subst) (ast : Option (PatternAst Op)) (g' : EGraph Op D) (ids' : List Id)
      (V : List (UnionRec Op)), Steps (A.at depth) allow egS V g → m ∈ ms → s ∈ m.substs →
      (ast = some lp.ast ∧ g.explain.isSome = true ∨ ast = none) →
      rw'.applier.applyOne (A.at depth) g m.eclass s ast rw'.name = .ok (g', ids') →
      (∃ W, Steps (A.at depth) allow g W g') ∧ (g.explain.isSome = true → g'.explain.isSome = true) := by
    intro g m s ast g' ids' V hg hm hs' hast h1
    have happ := found_applicable hN hord hd hl hlive (fun v hv => hv) hs h hc hf (Part.refl' _) hg
    have hflat : (m.eclass, s) ∈ flat ms := mem_flat.2 ⟨m, hm, rfl, hs'⟩
    obtain ⟨⟨W, k1, _⟩, k2⟩ := hap g _ s ast _ g' ids' ⟨_, Steps.trans h hg, fun _ _ => trivial⟩ (happ.pmatch _ _ hflat)
      (happ.valid _ _ hflat) (happ.bound _ _ hflat) hast (fun _ _ => trivial) h1
    exact ⟨⟨W, k1⟩, k2⟩
  have each : ∀ (m : SearchMatches Op) (ast : Option (PatternAst Op)), m ∈ ms → ∀ (ss : List Subst), (∀ s ∈ ss, s ∈ m.substs) →
      ∀ (g : EGraph Op D) (added : List Id) (g' : EGraph Op D) (added' : List Id) (V : List (UnionRec Op)),
      Steps (A.at depth) allow egS V g → (ast = some lp.ast ∧ g.explain.isSome = true ∨ ast = none) →
      applyEach (fun g s => rw'.applier.applyOne (A.at depth) g m.eclass s ast rw'.name) g ss added = .ok (g', added') →
      (∃ W, Steps (A.at depth) allow g W g') ∧
      ∀ s ∈ ss, ∃ V g0 ids' g1 W, Steps (A.at depth) allow egS V g0 ∧ (ast = some lp.ast ∧ g0.explain.isSome = true ∨ ast = none) ∧
        rw'.applier.applyOne (A.at depth) g0 m.eclass s ast rw'.name = .ok (g1, ids') ∧ Steps (A.at depth) allow g1 W g' := by
    intro m ast hm ss
    induction ss with
    | nil => intro _ g added g' added' _ _ _ h1; cases h1; exact ⟨⟨_, .refl⟩, by simp⟩
    | cons s ss ih =>
      intro hss g added g' added' V hg hast h1
      unfold applyEach at h1
      rw [bind_eq_ok] at h1
      obtain ⟨⟨g1, ids1⟩, h2, h1⟩ := h1
      obtain ⟨⟨W1, k1⟩, k2⟩ := one g m s ast g1 ids1 V hg hm (hss s (by simp)) hast h2
      obtain ⟨⟨W2, k3⟩, k4⟩ := ih (fun s hs => hss s (by simp [hs])) g1 _ g' added' _ (Steps.trans hg k1)
        (hast.imp (fun ⟨e, hx⟩ => ⟨e, k2 hx⟩) id) h1
      refine ⟨⟨_, Steps.trans k1 k3⟩, fun s0 hs0 => ?_⟩
      rcases List.mem_cons.1 hs0 with rfl | hs0
      · exact ⟨V, g, ids1, g1, W2, hg, hast, h2, k3⟩
      · exact k4 s0 hs0
  have all : ∀ (ms1 : List (SearchMatches Op)), (∀ m ∈ ms1, m ∈ ms) → ∀ (g : EGraph Op D) (added : List Id)
      (g' : EGraph Op D) (added' : List Id) (V : List (UnionRec Op)), Steps (A.at depth) allow egS V g →
      defaultApplyMatches (fun eg c s ast rule => rw'.applier.applyOne (A.at depth) eg c s ast rule) rw'.name g ms1 added
        = .ok (g', added') → (∃ W, Steps (A.at depth) allow g W g') ∧
      ∀ m ∈ ms1, ∀ s ∈ m.substs, ∃ V g0 ast g1 ids' W, Steps (A.at depth) allow egS V g0 ∧
        (ast = some lp.ast ∧ g0.explain.isSome = true ∨ ast = none) ∧
        rw'.applier.applyOne (A.at depth) g0 m.eclass s ast rw'.name = .ok (g1, ids') ∧ Steps (A.at depth) allow g1 W g' := by
    intro ms1
    induction ms1 with
    | nil => intro _ g added g' added' _ _ h1; cases h1; exact ⟨⟨_, .refl⟩, by simp⟩
    | cons m ms1 ih =>
      intro hms g added g' added' V hg h1
      unfold defaultApplyMatches at h1
      rw [bind_eq_ok] at h1
      obtain ⟨⟨g1, added1⟩, h2, h1⟩ := h1
      have hm := hms m (by simp)
      obtain ⟨⟨W1, k1⟩, k2⟩ := each m _ hm m.substs (fun _ h => h) g added g1 added1 V hg (by
        by_cases hx : g.explain.isSome = true
        · left
          rw [if_pos hx]
          rcases hf with rfl | ⟨limit, ms0, f1, f2⟩
          · cases hm
          rw [hs, hN] at f1
          obtain ⟨m1, g1, _, g3, _⟩ := f2 m hm
          exact ⟨by rw [g3]; exact search_ast f1 m1 g1, hx⟩
        · right; rw [if_neg hx]) h2
      obtain ⟨⟨W2, k3⟩, k4⟩ := ih (fun m hm => hms m (by simp [hm])) g1 _ g' added' _ (Steps.trans hg k1) h1
      refine ⟨⟨_, Steps.trans k1 k3⟩, fun m0 hm0 s hs0 => ?_⟩
      rcases List.mem_cons.1 hm0 with rfl | hm0
      · obtain ⟨V0, g0, ids0, g2, W, a1, a2, a3, a4⟩ := k2 s hs0
        exact ⟨V0, g0, _, g2, ids0, _, a1, a2, a3, Steps.trans a4 k3⟩
      · exact k4 m0 hm0 s hs0
  intro c s hcs
  obtain ⟨m, hm, rfl, hs'⟩ := mem_flat.1 hcs
  exact (all ms (fun _ h => h) eg [] eg' ids V hst ha).2 m hm s hs'

end
end Egg
