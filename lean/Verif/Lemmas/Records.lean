import Verif.Spec.Records
import Verif.Lemmas.Still
import Verif.Lemmas.Same
/-
Counting classes over an iteration.
-/
namespace Egg
variable {Op D : Type} [DecidableEq Op] [Lang Op]
variable {A : UserAnalysis Op D} {depth : Nat} {allow : Caller Op D} {eg eg' : EGraph Op D}

/-- The classes are the ids that are their own representatives. -/
theorem EGraph.numberOfClasses_eq {W : Id → Id → Prop} {C : Cfg Op D} (h : EGraph.InvW W C eg) :
    eg.numberOfClasses = ((List.range eg.nodes.length).filter (fun x => decide (eg.rt x = x))).length := by
  have hp : (AMap.keys eg.classes).Perm ((List.range eg.nodes.length).filter (fun x => decide (eg.rt x = x))) := by
    refine (List.perm_ext_iff_of_nodup h.clsNodup (List.nodup_range.filter _)).2 (fun c => ?_)
    rw [← AMap.get?_isSome_iff]
    have := h.core.clsKey c
    simp only [EGraph.sk, Option.isSome_map] at this
    rw [this]
    simp
  have := hp.length_eq
  rw [← this]
  simp [AMap.keys, EGraph.numberOfClasses]

theorem EGraph.add_count {C : Cfg Op D} {N : Analysis Op D} (hq : EGraph.QuietMod N) (h : EGraph.Inv C eg)
    {n : ENode Op} (hch : ∀ c ∈ n.children, c < eg.nodes.length) {i : Id} (ha : EGraph.addUncanonical N eg n = .ok (eg', i)) :
    eg'.numberOfClasses + eg.nodes.length ≤ eg.numberOfClasses + eg'.nodes.length ∧
    (eg.explain = none → eg'.numberOfClasses + eg.nodes.length = eg.numberOfClasses + eg'.nodes.length) ∧
    eg'.explain.isSome = eg.explain.isSome := by
  rcases EGraph.addUncanonical_cases N h hch with ⟨e, j, nj, _, g2, _⟩ | ⟨e, x, eg1, g1, gx, _, g4, g5, g6⟩ | ⟨g1, eg1, g2, g3⟩
  · rw [ha] at g2; cases g2; exact ⟨le_refl _, fun _ => rfl, rfl⟩
  · rw [ha] at g4; cases g4
    refine ⟨?_, fun hn => (by rw [hn] at gx; cases gx), g6.expl⟩
    have e1 : eg'.numberOfClasses = eg.numberOfClasses := by unfold EGraph.numberOfClasses; rw [g6.classes]
    rw [e1, g6.nodes, List.length_append]
    omega
  · rw [ha] at g3
    have g3 := g3.symm
    obtain ⟨d, _, g3⟩ := bind_eq_ok.1 g3
    obtain ⟨eg2, k, g3⟩ := bind_eq_ok.1 g3
    cases g3
    have := hq _ _ _ k
    subst this
    obtain ⟨i1, n1⟩ := g2 d
    have e : (eg1 d).numberOfClasses = eg.numberOfClasses + 1 := by
      rw [EGraph.numberOfClasses_eq i1, EGraph.numberOfClasses_eq h, n1.nodes, List.length_append, List.length_singleton, List.range_succ,
        List.filter_append, List.length_append]
      have e1 : (fun x => decide ((eg1 d).rt x = x)) = fun x => decide (eg.rt x = x) := by funext x; rw [n1.rt]
      rw [e1]
      have e2 : eg.rt eg.nodes.length = eg.nodes.length := h.core.rtOut _ (le_refl _)
      simp [e2]
    have e' : ({ eg1 d with clean := false } : EGraph Op D).numberOfClasses = (eg1 d).numberOfClasses := rfl
    have e'' : ({ eg1 d with clean := false } : EGraph Op D).nodes = eg.nodes ++ [n] := n1.nodes
    rw [e', e'', e, List.length_append, List.length_singleton]
    exact ⟨by omega, fun _ => by omega, n1.expl⟩

/-- Counting classes, ids and effective unions. -/
structure Bal (eg : EGraph Op D) (k : Nat) (eg' : EGraph Op D) : Prop where
  le : eg'.numberOfClasses + k + eg.nodes.length ≤ eg.numberOfClasses + eg'.nodes.length
  eq : eg.explain = none → eg'.numberOfClasses + k + eg.nodes.length = eg.numberOfClasses + eg'.nodes.length
  expl : eg'.explain.isSome = eg.explain.isSome

theorem Bal.rfl' : Bal eg 0 eg := ⟨by omega, fun _ => by omega, rfl⟩

theorem Bal.none (hx : eg'.explain.isSome = eg.explain.isSome) (h : eg.explain = none) : eg'.explain = none := by
  rw [h] at hx
  simpa using hx

theorem Bal.trans {eg'' : EGraph Op D} {k l : Nat} (h : Bal eg k eg') (h' : Bal eg' l eg'') : Bal eg (k + l) eg'' := by
  refine ⟨?_, fun hx => ?_, h'.expl.trans h.expl⟩
  · have := h.le
    have := h'.le
    omega
  · have := h.eq hx
    have := h'.eq (Bal.none h.expl hx)
    omega

theorem Bal.union (hA : ∀ i, A.modify i = .done) (hg : EGraph.Good (Cfg.ofR _ isCongruence_true anyReason) eg) {i j : Id}
    (hi : i < eg.nodes.length) (hj : j < eg.nodes.length) {did : Bool} (hu : UnionCall (A.at depth) eg i j eg' did) :
    EGraph.Good (Cfg.ofR _ isCongruence_true anyReason) eg' ∧ EGraph.Ext eg eg' ∧ Bal eg (if did then 1 else 0) eg' := by
  have hN := (soundFor_true A).hookOK trivial depth
  have hq : EGraph.QuietMod (A.at depth) := fun eg i eg' he => UserAnalysis.quiet_modify hA he
  have hW : EGraph.InvW (EGraph.WP (eg.rt i) (eg.rt j)) _ eg := hg.inv.monoW (fun _ _ e => Or.inl e)
  obtain ⟨s, hs⟩ := hg.inv.exists_rep hi
  obtain ⟨t, ht⟩ := hg.inv.exists_rep hj
  obtain ⟨reason, hu⟩ := hu
  have key : ∀ r, EGraph.JustOK (Cfg.ofR _ isCongruence_true anyReason) eg i j r → EGraph.performUnion (A.at depth) eg i j r = .ok (eg', did) →
      eg'.explain.isSome = eg.explain.isSome → Bal eg (if did then 1 else 0) eg' := by
    intro r hJ hp hx
    have h1 := EGraph.performUnion_count hq hW hi hj (fun _ _ _ _ => trivial) hJ hp
    have h2 := EGraph.performUnion_nodes hq hp
    simp only at h1
    exact ⟨by rw [h2, h1], fun _ => by rw [h2, h1], hx⟩
  rcases hu with hu | hu
  · obtain ⟨h1, h2, -⟩ := (EGraph.Good.union_post (caller := reason) hN hg hs ht trivial trivial).1.elim hu
    refine ⟨h1, h2, ?_⟩
    unfold EGraph.union at hu
    split at hu
    · exact key (some (.rule reason)) trivial hu h2.expl
    · rename_i hx
      exact key Option.none (by simpa [EGraph.JustOK] using hx) hu h2.expl
  · obtain ⟨h1, h2, -⟩ := (EGraph.Good.union_post (caller := reason) hN hg hs ht trivial trivial).2.elim hu
    exact ⟨h1, h2, key (some (.rule reason)) trivial hu h2.expl⟩

theorem Bal.rebuild (hA : ∀ i, A.modify i = .done) (hg : EGraph.Good (Cfg.ofR _ isCongruence_true anyReason) eg) {fuel n : Nat}
    (hr : eg.rebuild (A.at depth) fuel = .ok (eg', n)) : Bal eg n eg' := by
  have hN := (soundFor_true A).hookOK trivial depth
  have hq : EGraph.QuietMod (A.at depth) := fun eg i eg' he => UserAnalysis.quiet_modify hA he
  have h1 := EGraph.rebuild_count hN hq hg hr
  have h2 := EGraph.rebuild_nodes hq hr
  have h3 := ((EGraph.rebuild_post trivial hN _ hg).elim hr).2.1
  simp only at h1
  exact ⟨by rw [h2, h1], fun _ => by rw [h2, h1], h3.expl⟩

theorem Bal.applySteps (hA : ∀ i, A.modify i = .done) {P : Term (PatOp Op) → Prop} {tl t : Term (PatOp Op)} {ms : List (Id × Subst)}
    {k : Nat} (hst : ApplySteps (A.at depth) P tl t ms eg k eg') (hg : EGraph.Good (Cfg.ofR _ isCongruence_true anyReason) eg) :
    EGraph.Good (Cfg.ofR _ isCongruence_true anyReason) eg' ∧ Bal eg k eg' := by
  have hN := (soundFor_true A).hookOK trivial depth
  have hq : EGraph.QuietMod (A.at depth) := fun eg i eg' he => UserAnalysis.quiet_modify hA he
  induction hst with
  | refl => exact ⟨hg, Bal.rfl'⟩
  | @add _ eg1 eg2 c s n ps i _ h1 h2 h3 h4 ih =>
    obtain ⟨g1, b1⟩ := ih
    have hch : ∀ c ∈ n.children, c < eg1.nodes.length := by
      intro c hc
      obtain ⟨t, _, ht⟩ := forall₂_mem_left h3 hc
      exact g1.inv.pmatch_lt ht
    obtain ⟨g2, -⟩ := (EGraph.addUncanonical_post hN g1 hch).elim h4
    obtain ⟨k1, k2, k3⟩ := EGraph.add_count hq g1.inv hch h4
    exact ⟨g2, b1.trans (l := 0) ⟨k1, k2, k3⟩⟩
  | @union k eg1 eg2 c s i j did _ h1 h2 h3 h4 h5 ih =>
    obtain ⟨g1, b1⟩ := ih
    have hi := g1.inv.pmatch_lt h2
    have hj := g1.inv.pmatch_lt h3
    have : EGraph.Good (Cfg.ofR _ isCongruence_true anyReason) eg2 ∧ Bal eg1 (if did then 1 else 0) eg2 := by
      rcases h4 with h4 | h4
      · obtain ⟨a, -, b⟩ := Bal.union hA g1 hi hj h4
        exact ⟨a, b⟩
      · obtain ⟨a, -, b⟩ := Bal.union hA g1 hj hi h4
        exact ⟨a, b⟩
    refine ⟨this.1, ?_⟩
    have := b1.trans this.2
    cases did
    · exact this
    · exact this

theorem PatternRule.bal {rw' : Rewrite Op D} {tl t : Term (PatOp Op)} {U V : List (UnionRec Op)} {egS eg1 eg2 : EGraph Op D}
    {ms ms' : List (SearchMatches Op)} {env : RunEnv Op D} {i : Nat} {ids : List Id}
    (hA : ∀ i, A.modify i = .done) (hN : env.analysis = A.at depth) (hord : ∀ i eg, (env.ord i eg).OK eg) (hd : DiscContiguous Op)
    (hr : PatternRule rw' tl t) (h : Hist (A.at depth) allow U egS) (hc : egS.clean = true)
    (hf : Found env i egS rw' ms) (hp : Part ms' ms) (hst : Steps (A.at depth) allow egS V eg1)
    (ha : rw'.applier.applyMatches (A.at depth) eg1 ms' rw'.name = .ok (eg2, ids)) : Bal eg1 ids.length eg2 := by
  obtain ⟨lp, rp, hl, hlive, hr, hnew⟩ := hr
  obtain ⟨hv, hrw⟩ := rewrite_new_inv hnew
  have hap := found_applicable hN hord hd hl hlive hv (by rw [hrw]) h hc hf hp hst
  rw [hrw] at ha
  have hsteps := applyMatches_inst (Steps.trans h hst) hr hap (rule := rw'.name) ha
  exact (Bal.applySteps hA hsteps (hist_good (Steps.trans h hst))).2

/-! ### The counts of a record -/

omit [DecidableEq Op] [Lang Op] in
theorem sum_insert {m : AMap Symbol Nat} (name : Symbol) (n k : Nat) (h : m.get? name = some k) :
    ((m.insert name (k + n)).map Prod.snd).sum = (m.map Prod.snd).sum + n := by
  induction m with
  | nil => cases h
  | cons x m ih =>
    obtain ⟨a, b⟩ := x
    unfold AMap.get? at h
    unfold AMap.insert
    split
    · rename_i e
      rw [if_pos e] at h
      cases h
      simp; omega
    · rename_i e
      rw [if_neg e] at h
      simp [ih h]; omega

omit [DecidableEq Op] [Lang Op] in
theorem sum_insert_new {m : AMap Symbol Nat} (name : Symbol) (n : Nat) (h : m.get? name = none) :
    ((m.insert name n).map Prod.snd).sum = (m.map Prod.snd).sum + n := by
  induction m with
  | nil => simp [AMap.insert]
  | cons x m ih =>
    obtain ⟨a, b⟩ := x
    unfold AMap.get? at h
    unfold AMap.insert
    split
    · rename_i e
      rw [if_pos e] at h
      cases h
    · rename_i e
      rw [if_neg e] at h
      simp [ih h]; omega

omit [DecidableEq Op] [Lang Op] in
theorem sum_countApplied (m : AMap Symbol Nat) (name : Symbol) (n : Nat) :
    ((Runner.countApplied m name n).map Prod.snd).sum = (m.map Prod.snd).sum + n := by
  unfold Runner.countApplied
  split
  · split
    · rename_i k hk; exact sum_insert name n k hk
    · rename_i hk; exact sum_insert_new name n hk
  · omega

/-- Only names of rules, each once, and positive counts. -/
def CountsOf (rules : List (Rewrite Op D)) (m : AMap Symbol Nat) : Prop :=
  (∀ name n, (name, n) ∈ m → 0 < n ∧ ∃ rw ∈ rules, rw.name = name) ∧ (m.map Prod.fst).Nodup

theorem CountsOf.count {rules : List (Rewrite Op D)} {m : AMap Symbol Nat} (h : CountsOf rules m) {rw' : Rewrite Op D} (hr : rw' ∈ rules) (n : Nat) :
    CountsOf rules (Runner.countApplied m rw'.name n) := by
  unfold Runner.countApplied
  split
  · next hn =>
    have key : ∀ n, 0 < n → CountsOf rules (m.insert rw'.name n) := by
      intro n hn
      refine ⟨fun name k hk => ?_, AMap.nodup_insert h.2 _ _⟩
      rw [AMap.mem_iff_get? (AMap.nodup_insert h.2 _ _), AMap.get?_insert] at hk
      split at hk
      · rename_i e
        cases hk
        exact ⟨hn, rw', hr, e⟩
      · exact h.1 name k (AMap.mem_of_get? hk)
    split
    · exact key _ (by omega)
    · exact key _ hn
  · exact h

section
variable {S H : Type} {env : RunEnv Op D} {sch : Scheduler Op D S} {hooks : List (Hook Op D H)} {rules : List (Rewrite Op D)}
  {r r1 r2 r3 r4 : Runner Op D S H} {U : List (UnionRec Op)} {eqs : List (Term (PatOp Op) × Term (PatOp Op))}

theorem Runner.applyEachRule_counts : ∀ (l : List (Rewrite Op D × List (SearchMatches Op))) (r r1 : Runner Op D S H) (ap ap' : AMap Symbol Nat)
    (o : Option StopReason), (∀ x ∈ l, x.1 ∈ rules) → CountsOf rules ap → applyEachRule env sch l r ap = .ok (r1, ap', o) → CountsOf rules ap' := by
  intro l
  induction l with
  | nil => intro r r1 ap ap' o _ hc h; cases h; exact hc
  | cons x l ih =>
    intro r r1 ap ap' o hl hc h
    obtain ⟨rw', ms⟩ := x
    unfold applyEachRule at h
    obtain ⟨⟨s, eg, n⟩, h1, h⟩ := bind_eq_ok.1 h
    dsimp only at h
    have hc' := hc.count (hl (rw', ms) (by simp)) n
    split at h
    · cases h; exact hc'
    · exact ih _ _ _ _ _ (fun y hy => hl y (by simp [hy])) hc' h

theorem Runner.runOne_start {it : Iteration} (ho : runOne env sch hooks rules r = .ok (r4, it)) :
    StartRecord rules r.egraph it r4.egraph := by
  obtain ⟨_, r1, res1, r2, ms, r3, applied, res3, eg, nReb, quiet, p1, p2, p3, p4, p5, a1, a2, a3, a4⟩ := runOne_inv ho
  have hcounts : CountsOf rules applied := by
    have h0 : CountsOf rules ([] : AMap Symbol Nat) := ⟨by simp, by simp⟩
    unfold applyPhase at p3
    split at p3
    · cases p3; exact h0
    · exact applyEachRule_counts _ _ _ _ _ _ (fun x hx => (List.of_mem_zip (a := x.1) (b := x.2) hx).1) h0 p3
  obtain ⟨f4, e4⟩ := quietPhase_frame p5
  have e4 : r4.egraph = eg := e4
  refine ⟨a2, a3, by rw [a1]; exact hcounts.1, by rw [a1]; exact hcounts.2, ?_⟩
  rw [e4]
  exact EGraph.rebuild_clean p4

theorem Runner.applyEachRule_bal {i : Nat} (hA : ∀ i, A.modify i = .done) (hN : env.analysis = A.at depth) (hord : ∀ i eg, (env.ord i eg).OK eg)
    (hd : DiscContiguous Op) (hs : sch.Counting env) {egS : EGraph Op D} (h : Hist (A.at depth) allow U egS) (hc : egS.clean = true) :
    ∀ (l : List (Rewrite Op D × List (SearchMatches Op))) (r r1 : Runner Op D S H) (ap ap' : AMap Symbol Nat) (o : Option StopReason)
      (V : List (UnionRec Op)),
    (∀ rw' ms, (rw', ms) ∈ l → Found env i egS rw' ms ∧ ∃ tl t, PatternRule rw' tl t) →
    Steps (A.at depth) allow egS V r.egraph →
    applyEachRule env sch l r ap = .ok (r1, ap', o) → (∃ W, Steps (A.at depth) allow egS W r1.egraph) ∧
      ∃ k, (ap'.map Prod.snd).sum = (ap.map Prod.snd).sum + k ∧ Bal r.egraph k r1.egraph := by
  intro l
  induction l with
  | nil => intro r r1 ap ap' o V _ hst h; cases h; exact ⟨⟨V, hst⟩, 0, rfl, Bal.rfl'⟩
  | cons x l ih =>
    intro r r1 ap ap' o V hl hst ha
    obtain ⟨rw', ms⟩ := x
    unfold applyEachRule at ha
    obtain ⟨⟨s, eg, n⟩, h1, ha⟩ := bind_eq_ok.1 ha
    obtain ⟨ms', ids, h2, h3, h4⟩ := hs _ _ _ _ _ _ _ _ h1
    obtain ⟨hf, tl, t, hr⟩ := hl rw' ms (by simp)
    rw [hN] at h2
    have hb : Bal r.egraph n eg := by rw [h4]; exact hr.bal hA hN hord hd h hc hf h3 hst h2
    obtain ⟨W, s1, -⟩ := hr.reach hN hord hd h hc hf h3 hst h2
    dsimp only at ha
    split at ha
    · cases ha
      exact ⟨⟨_, Steps.trans hst s1⟩, n, sum_countApplied _ _ _, hb⟩
    · obtain ⟨k1, k, k2, k3⟩ := ih _ r1 _ ap' o _ (fun a b hab => hl a b (by simp [hab])) (Steps.trans hst s1) ha
      refine ⟨k1, n + k, ?_, hb.trans k3⟩
      rw [k2, sum_countApplied]
      omega

theorem Runner.runOne_balanced (hA : ∀ i, A.modify i = .done) (hN : env.analysis = A.at depth) (hord : ∀ i eg, (env.ord i eg).OK eg)
    (hd : DiscContiguous Op) (hs : sch.Honest env) (hcount : sch.Counting env) (hh : HooksRead hooks) (hr : ∀ rw' ∈ rules, ∃ tl t, PatternRule rw' tl t)
    {it : Iteration} (h : Hist (A.at depth) allow U r.egraph) (hc : r.egraph.clean = true)
    (ho : runOne env sch hooks rules r = .ok (r4, it)) :
    Balanced r.egraph it r4.egraph ∧ r4.egraph.explain.isSome = r.egraph.explain.isSome ∧ ∃ V, Steps (A.at depth) allow r.egraph V r4.egraph := by
  have hreb := runOne_rebuilds ho
  obtain ⟨_, r1, res1, r2, ms, r3, applied, res3, eg, nReb, quiet, p1, p2, p3, p4, p5, a1, a2, a3, a4⟩ := runOne_inv ho
  obtain ⟨f1, -⟩ := hookPhase_frame p1
  obtain ⟨f2, e2⟩ := searchPhase_frame p2
  obtain ⟨f4, e4⟩ := quietPhase_frame p5
  have e4 : r4.egraph = eg := e4
  have e1 := hookPhase_read hh p1
  have hb3 : (∃ W, Steps (A.at depth) allow r.egraph W r3.egraph) ∧ Bal r.egraph (applied.map Prod.snd).sum r3.egraph := by
    unfold applyPhase at p3
    split at p3
    · cases p3; rw [e2, e1]; exact ⟨⟨[], .refl⟩, Bal.rfl'⟩
    next mss =>
    have hfound : ∀ rw' ms, (rw', ms) ∈ rules.zip mss → Found env r1.iterations.length r1.egraph rw' ms := by
      intro rw' ms hm
      unfold searchPhase at p2
      split at p2
      · cases p2
      obtain ⟨⟨s, tick, ms0⟩, k1, k2⟩ := bind_eq_ok.1 p2
      cases k2
      exact hs.search _ _ _ _ _ _ _ _ _ k1 rw' ms hm
    obtain ⟨k1, k, k2, k3⟩ := applyEachRule_bal (egS := r1.egraph) hA hN hord hd hcount (by rw [e1]; exact h) (by rw [e1]; exact hc) _ r2 r3 _ _ _ []
      (fun rw' ms hm => ⟨hfound rw' ms hm, hr rw' (List.of_mem_zip hm).1⟩) (by rw [e2]; exact .refl) p3
    rw [e2, e1] at k3
    rw [e1] at k1
    simp only [List.map_nil, List.sum_nil, Nat.zero_add] at k2
    rw [k2]
    exact ⟨k1, k3⟩
  obtain ⟨⟨W, s3⟩, hb3⟩ := hb3
  obtain ⟨eg', nReb', q4, q5⟩ := hreb r1 res1 r2 ms r3 applied res3 p1 p2 p3
  rw [p4] at q4
  cases q4
  rw [hN] at p4
  have hb4 := Bal.rebuild hA (hist_good (Steps.trans h s3)) p4
  rw [e4]
  obtain ⟨V4, s4, -⟩ : Reach (A.at depth) allow (fun _ _ => True) r3.egraph eg := Reach.rebuild p4
  have := hb3.trans hb4
  refine ⟨⟨?_, fun hx => ?_⟩, this.expl, _, Steps.trans s3 s4⟩
  · have := this.le
    rw [q5]
    unfold Iteration.total
    rw [a1]
    omega
  · have := this.eq hx
    rw [q5]
    unfold Iteration.total
    rw [a1]
    omega

theorem Runner.runLoop_recorded {P : EGraph Op D → Iteration → EGraph Op D → Prop} {I : EGraph Op D → Prop}
    (hstep : ∀ (r r4 : Runner Op D S H) it, I r.egraph → runOne env sch hooks rules r = .ok (r4, it) → P r.egraph it r4.egraph ∧ I r4.egraph) :
    ∀ (f : Nat) (r r' : Runner Op D S H), I r.egraph → runLoop env sch hooks rules f r = .ok r' →
      ∃ its last, r'.iterations = r.iterations ++ its ++ [last] ∧ Recorded P r.egraph (its ++ [last]) r'.egraph ∧
        (∀ it ∈ its, it.stopReason = none) ∧ (last.stopReason = none ∨ last.stopReason = r'.stopReason) := by
  intro f
  induction f with
  | zero => intro r r' _ h; cases h
  | succ f ih =>
    intro r r' hI h
    unfold runLoop at h
    obtain ⟨⟨r1, it⟩, h1, h⟩ := bind_eq_ok.1 h
    have fr := runOne_frame h1
    obtain ⟨hP, hI1⟩ := hstep _ _ _ hI h1
    dsimp only at h
    split at h
    · next s hs =>
      cases h
      exact ⟨[], it, by simp [fr.its], .cons hP .nil, by simp, Or.inr hs⟩
    · next hs =>
      split at h
      · cases h
        exact ⟨[], it, by simp [fr.its], .cons hP .nil, by simp, Or.inl hs⟩
      · obtain ⟨its, last, k1, k2, k3, k4⟩ := ih _ _ (by exact hI1) h
        refine ⟨it :: its, last, by rw [k1]; simp [fr.its], .cons hP k2, ?_, k4⟩
        intro x hx
        rcases List.mem_cons.1 hx with rfl | hx
        · exact hs
        · exact k3 x hx

end

end Egg
