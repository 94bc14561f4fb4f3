import Verif.Spec.Builder
import Verif.Props.Simplify
/-
C91: configuring a runner.
-/
namespace Egg
variable {Op D S H Cost : Type} [DecidableEq Op] [Lang Op]
variable {A : UserAnalysis Op D} {depth : Nat} {allow : Caller Op D} {N : Analysis Op D}
variable {env : RunEnv Op D} {sch : Scheduler Op D S} {rules : List (Rewrite Op D)}
  {eqs : List (Term (PatOp Op) × Term (PatOp Op))} {Q : Term Op → Term Op → Prop}
  {b b' : Builder Op D S H} {cs : List (Setting Op D S H)} {r r' : Runner Op D S H} {U : List (UnionRec Op)}

theorem Builder.setAll_append : ∀ (cs ds : List (Setting Op D S H)) (b : Builder Op D S H),
    b.setAll N (cs ++ ds) = (do let b ← b.setAll N cs; b.setAll N ds)
  | [], _, _ => rfl
  | c :: cs, ds, b => by
    show (b.set N c >>= fun b => b.setAll N (cs ++ ds)) = ((b.set N c >>= fun b => b.setAll N cs) >>= fun b => b.setAll N ds)
    cases b.set N c with
    | error e => rfl
    | ok b1 => exact Builder.setAll_append cs ds b1

theorem lastSet_cons {α : Type} (d x : α) (l : List α) : lastSet d (x :: l) = lastSet x l := by
  unfold lastSet
  cases l with
  | nil => rfl
  | cons y l => rw [List.getLast?_cons_cons]; cases h : (y :: l).getLast? with
    | none => simp at h
    | some z => rfl

/-- What one call does to all fields but the e-graph and the roots. -/
theorem Builder.set_frame {c : Setting Op D S H} (h : b.set N c = .ok b') :
    b'.runner.limits = ⟨(c.iterLimit?).getD b.runner.limits.iterLimit, (c.nodeLimit?).getD b.runner.limits.nodeLimit,
      (c.timeLimit?).getD b.runner.limits.timeLimit⟩ ∧
    b'.runner.scheduler = (c.scheduler?).getD b.runner.scheduler ∧ b'.hooks = b.hooks ++ (c.hook?).toList ∧
    b'.runner.iterations = b.runner.iterations ∧ b'.runner.stopReason = b.runner.stopReason ∧
    b'.runner.hookState = b.runner.hookState ∧ b'.runner.tick = b.runner.tick := by
  cases c with
  | expr e =>
    unfold Builder.set at h
    dsimp only at h
    obtain ⟨r, h1, h2⟩ := bind_eq_ok.1 h
    cases h2
    unfold Runner.withExpr at h1
    obtain ⟨x, _, h3⟩ := bind_eq_ok.1 h1
    cases h3
    exact ⟨rfl, rfl, by simp [Setting.hook?], rfl, rfl, rfl, rfl⟩
  | explanations =>
    unfold Builder.set at h
    dsimp only at h
    obtain ⟨r, h1, h2⟩ := bind_eq_ok.1 h
    cases h2
    exact ⟨rfl, rfl, by simp [Setting.hook?], rfl, rfl, rfl, rfl⟩
  | noOptimize =>
    unfold Builder.set at h
    dsimp only at h
    obtain ⟨r, h1, h2⟩ := bind_eq_ok.1 h
    cases h2
    exact ⟨rfl, rfl, by simp [Setting.hook?], rfl, rfl, rfl, rfl⟩
  | optimize =>
    unfold Builder.set at h
    dsimp only at h
    obtain ⟨r, h1, h2⟩ := bind_eq_ok.1 h
    cases h2
    exact ⟨rfl, rfl, by simp [Setting.hook?], rfl, rfl, rfl, rfl⟩
  | hook k => cases h; exact ⟨rfl, rfl, rfl, rfl, rfl, rfl, rfl⟩
  | _ => cases h; exact ⟨rfl, rfl, by simp [Setting.hook?], rfl, rfl, rfl, rfl⟩

theorem lastSet_getD {α : Type} (f : Setting Op D S H → Option α) (d : α) (c : Setting Op D S H) (cs : List (Setting Op D S H)) :
    lastSet ((f c).getD d) (cs.filterMap f) = lastSet d ((c :: cs).filterMap f) := by
  rw [List.filterMap_cons]
  cases h : f c with
  | none => rfl
  | some x => exact (lastSet_cons d x _).symm

/-- **C91**, parameters.  After any chain of builder calls each limit is the last one that was given, or else the old one
(for a new runner: 30 iterations, 10000 e-nodes, 5 seconds), whatever calls stand between; so is the scheduler; the
hooks are all those given, in the order in which they were given; nothing has run yet. -/
theorem c91_parameters (h : b.setAll N cs = .ok b') :
    b'.runner.limits.iterLimit = lastSet b.runner.limits.iterLimit (cs.filterMap Setting.iterLimit?) ∧
    b'.runner.limits.nodeLimit = lastSet b.runner.limits.nodeLimit (cs.filterMap Setting.nodeLimit?) ∧
    b'.runner.limits.timeLimit = lastSet b.runner.limits.timeLimit (cs.filterMap Setting.timeLimit?) ∧
    b'.runner.scheduler = lastSet b.runner.scheduler (cs.filterMap Setting.scheduler?) ∧
    b'.hooks = b.hooks ++ cs.filterMap Setting.hook? ∧
    b'.runner.iterations = b.runner.iterations ∧ b'.runner.stopReason = b.runner.stopReason := by
  induction cs generalizing b with
  | nil => cases h; exact ⟨rfl, rfl, rfl, rfl, by simp, rfl, rfl⟩
  | cons c cs ih =>
    unfold Builder.setAll at h
    obtain ⟨b1, h1, h2⟩ := bind_eq_ok.1 h
    obtain ⟨k1, k2, k3, k4, k5, k6, k7⟩ := ih h2
    obtain ⟨g1, g2, g3, g4, g5, -, -⟩ := Builder.set_frame h1
    rw [g1] at k1 k2 k3
    rw [g2] at k4
    rw [g3] at k5
    refine ⟨k1.trans (lastSet_getD _ _ c cs), k2.trans (lastSet_getD _ _ c cs), k3.trans (lastSet_getD _ _ c cs),
      k4.trans (lastSet_getD _ _ c cs), ?_, k6.trans g4, k7.trans g5⟩
    rw [k5, List.append_assoc, List.filterMap_cons]
    cases c.hook? <;> rfl

theorem c91_defaults (s : S) (h : H) : (Builder.new s h : Builder Op D S H).runner.limits = ⟨30, 10000, 5000⟩ ∧
    (Builder.new s h : Builder Op D S H).hooks = [] ∧ (Builder.new s h : Builder Op D S H).runner.roots = [] ∧
    (Builder.new s h : Builder Op D S H).runner.iterations = [] ∧ (Builder.new s h : Builder Op D S H).runner.stopReason = none :=
  ⟨rfl, rfl, rfl, rfl, rfl⟩

/-- One call that does not replace the e-graph. -/
theorem Builder.set_graph {c : Setting Op D S H} (h : Hist (A.at depth) allow U b.runner.egraph) (hne : ∀ g, c ≠ .egraph g)
    (hwf : ∀ e, c = .expr e → WFExpr e) (hdis : c = .noExplanations → allow.disables) (hs : b.set (A.at depth) c = .ok b') :
    Steps (A.at depth) allow b.runner.egraph [] b'.runner.egraph ∧
    ∃ ids, b'.runner.roots = b.runner.roots ++ ids ∧
      List.Forall₂ (fun e i => ∀ t, ExprTerm e t → Rep b'.runner.egraph i t) (c.expr?).toList ids := by
  cases c with
  | egraph g => exact (hne g rfl).elim
  | expr e =>
    unfold Builder.set at hs
    dsimp only at hs
    obtain ⟨r, h1, h2⟩ := bind_eq_ok.1 hs
    cases h2
    unfold Runner.withExpr at h1
    obtain ⟨⟨eg, i⟩, h2, h3⟩ := bind_eq_ok.1 h1
    cases h3
    have hw := hwf e rfl
    obtain ⟨_, _, _, _, hrep⟩ := (EGraph.addExpr_post ((soundFor_true A).hookOK trivial depth) (Or.inl ⟨hw.1, hw.2⟩) (hist_good h)).elim h2
    exact ⟨EGraph.addExpr_steps h2, [i], rfl, .cons hrep .nil⟩
  | explanations =>
    unfold Builder.set at hs
    dsimp only at hs
    obtain ⟨r, h1, h2⟩ := bind_eq_ok.1 hs
    cases h2
    exact ⟨.single (.explain h1), [], by simp, .nil⟩
  | noOptimize =>
    unfold Builder.set at hs
    dsimp only at hs
    obtain ⟨r, h1, h2⟩ := bind_eq_ok.1 hs
    cases h2
    exact ⟨.single (.noOptimize h1), [], by simp, .nil⟩
  | optimize =>
    unfold Builder.set at hs
    dsimp only at hs
    obtain ⟨r, h1, h2⟩ := bind_eq_ok.1 hs
    cases h2
    exact ⟨.single (.optimize h1), [], by simp, .nil⟩
  | noExplanations => cases hs; exact ⟨.single (.disable (hdis rfl)), [], by simp, .nil⟩
  | _ => cases hs; exact ⟨.refl, [], by simp, .nil⟩

/-- **C91**, roots.  A chain of calls that does not replace the e-graph changes the e-graph only by adding: it asserts no
equation and keeps all classes and terms.  It appends one root for each expression, in order, and the class of the root
represents the term of the expression. -/
theorem c91_roots (h : Hist (A.at depth) allow U b.runner.egraph) (hne : ∀ g, .egraph g ∉ cs)
    (hwf : ∀ e, .expr e ∈ cs → WFExpr e) (hdis : .noExplanations ∈ cs → allow.disables) (hs : b.setAll (A.at depth) cs = .ok b') :
    Steps (A.at depth) allow b.runner.egraph [] b'.runner.egraph ∧
    ∃ ids, b'.runner.roots = b.runner.roots ++ ids ∧
      List.Forall₂ (fun e i => ∀ t, ExprTerm e t → Rep b'.runner.egraph i t) (exprsOf cs) ids := by
  induction cs generalizing b U with
  | nil => cases hs; exact ⟨.refl, [], by simp, .nil⟩
  | cons c cs ih =>
    unfold Builder.setAll at hs
    obtain ⟨b1, h1, h2⟩ := bind_eq_ok.1 hs
    obtain ⟨s1, ids1, e1, f1⟩ := Builder.set_graph h (fun g e => hne g (by simp [e])) (fun e he => hwf e (by simp [he]))
      (fun e => hdis (by simp [e])) h1
    obtain ⟨s2, ids2, e2, f2⟩ := ih (Steps.trans h s1) (fun g hm => hne g (by simp [hm])) (fun e hm => hwf e (by simp [hm]))
      (fun hm => hdis (by simp [hm])) h2
    refine ⟨by simpa using Steps.trans s1 s2, ids1 ++ ids2, by rw [e2, e1, List.append_assoc], ?_⟩
    have f1' : List.Forall₂ (fun e i => ∀ t, ExprTerm e t → Rep b'.runner.egraph i t) (c.expr?).toList ids1 :=
      f1.imp fun e i k t ht => (steps_grow s2 (hist_good (Steps.trans h s1))).2.rep _ _ (k t ht)
    have : exprsOf (c :: cs) = (c.expr?).toList ++ exprsOf cs := by
      unfold exprsOf
      rw [List.filterMap_cons]
      cases c.expr? <;> rfl
    rw [this]
    exact List.rel_append f1' f2

/-- Calls keep the number of roots in step with the number of expressions, also if the e-graph is replaced. -/
theorem Builder.roots_length (hs : b.setAll N cs = .ok b') :
    b'.runner.roots.length = b.runner.roots.length + (exprsOf cs).length := by
  induction cs generalizing b with
  | nil => cases hs; rfl
  | cons c cs ih =>
    unfold Builder.setAll at hs
    obtain ⟨b1, h1, h2⟩ := bind_eq_ok.1 hs
    rw [ih h2]
    have : b1.runner.roots.length = b.runner.roots.length + (c.expr?).toList.length := by
      cases c with
      | expr e =>
        unfold Builder.set at h1
        dsimp only at h1
        obtain ⟨r, h3, h4⟩ := bind_eq_ok.1 h1
        cases h4
        unfold Runner.withExpr at h3
        obtain ⟨x, _, h3⟩ := bind_eq_ok.1 h3
        cases h3
        simp [Setting.expr?]
      | explanations =>
        unfold Builder.set at h1
        dsimp only at h1
        obtain ⟨r, h3, h4⟩ := bind_eq_ok.1 h1
        cases h4; rfl
      | noOptimize =>
        unfold Builder.set at h1
        dsimp only at h1
        obtain ⟨r, h3, h4⟩ := bind_eq_ok.1 h1
        cases h4; rfl
      | optimize =>
        unfold Builder.set at h1
        dsimp only at h1
        obtain ⟨r, h3, h4⟩ := bind_eq_ok.1 h1
        cases h4; rfl
      | _ => cases h1; rfl
    have e2 : exprsOf (c :: cs) = (c.expr?).toList ++ exprsOf cs := by
      unfold exprsOf
      rw [List.filterMap_cons]
      cases c.expr? <;> rfl
    rw [this, e2, List.length_append]
    omega

/-- **C91**, replacing the e-graph.  The e-graph is the one that was given last, and what came before it is forgotten, but for
the roots: one for each expression given before remains at the front. -/
theorem c91_replaced {pre post : List (Setting Op D S H)} {g : EGraph Op D} (h : Hist (A.at depth) allow U g) (hne : ∀ g, .egraph g ∉ post)
    (hwf : ∀ e, .expr e ∈ post → WFExpr e) (hdis : .noExplanations ∈ post → allow.disables)
    (hs : b.setAll (A.at depth) (pre ++ .egraph g :: post) = .ok b') :
    Steps (A.at depth) allow g [] b'.runner.egraph ∧
    ∃ old ids, b'.runner.roots = old ++ ids ∧ old.length = b.runner.roots.length + (exprsOf pre).length ∧
      List.Forall₂ (fun e i => ∀ t, ExprTerm e t → Rep b'.runner.egraph i t) (exprsOf post) ids := by
  rw [Builder.setAll_append] at hs
  obtain ⟨b1, h1, h2⟩ := bind_eq_ok.1 hs
  unfold Builder.setAll at h2
  obtain ⟨b2, h3, h4⟩ := bind_eq_ok.1 h2
  cases h3
  obtain ⟨k1, ids, k2, k3⟩ := c91_roots (b := { b1 with runner := { b1.runner with egraph := g } }) h hne hwf hdis h4
  exact ⟨k1, b1.runner.roots, ids, k2, Builder.roots_length h1, k3⟩

/-- **C91**, order.  The e-graph and the roots depend only on the calls that concern the e-graph, wherever limits, hooks and
schedulers are set between them. -/
theorem c91_order (hs : b.setAll N cs = .ok b') :
    ∃ b2, b.setAll N (cs.filter Setting.onGraph) = .ok b2 ∧ b2.runner.egraph = b'.runner.egraph ∧ b2.runner.roots = b'.runner.roots := by
  suffices ∀ (b b1 : Builder Op D S H), b.setAll N cs = .ok b' → b1.runner.egraph = b.runner.egraph → b1.runner.roots = b.runner.roots →
      ∃ b2, b1.setAll N (cs.filter Setting.onGraph) = .ok b2 ∧ b2.runner.egraph = b'.runner.egraph ∧ b2.runner.roots = b'.runner.roots by
    exact this b b hs rfl rfl
  clear hs
  induction cs with
  | nil => intro b b1 hs e1 e2; cases hs; exact ⟨b1, rfl, e1, e2⟩
  | cons c cs ih =>
    intro b b1 hs e1 e2
    unfold Builder.setAll at hs
    obtain ⟨b3, h1, h2⟩ := bind_eq_ok.1 hs
    have key : c.onGraph = true → ∃ b4, b1.set N c = .ok b4 ∧ b4.runner.egraph = b3.runner.egraph ∧ b4.runner.roots = b3.runner.roots := by
      intro hc
      cases c with
      | expr e =>
        unfold Builder.set at h1
        dsimp only at h1
        obtain ⟨r, h3, h4⟩ := bind_eq_ok.1 h1
        cases h4
        unfold Runner.withExpr at h3
        obtain ⟨x, h5, h3⟩ := bind_eq_ok.1 h3
        cases h3
        unfold Builder.set Runner.withExpr
        dsimp only
        rw [e1, h5]
        exact ⟨_, rfl, rfl, by simp [e2]⟩
      | explanations =>
        unfold Builder.set at h1
        dsimp only at h1
        obtain ⟨r, h3, h4⟩ := bind_eq_ok.1 h1
        cases h4
        unfold Builder.set
        dsimp only
        rw [e1, h3]
        exact ⟨_, rfl, rfl, by simp [e2]⟩
      | noOptimize =>
        unfold Builder.set at h1
        dsimp only at h1
        obtain ⟨r, h3, h4⟩ := bind_eq_ok.1 h1
        cases h4
        unfold Builder.set
        dsimp only
        rw [e1, h3]
        exact ⟨_, rfl, rfl, by simp [e2]⟩
      | optimize =>
        unfold Builder.set at h1
        dsimp only at h1
        obtain ⟨r, h3, h4⟩ := bind_eq_ok.1 h1
        cases h4
        unfold Builder.set
        dsimp only
        rw [e1, h3]
        exact ⟨_, rfl, rfl, by simp [e2]⟩
      | egraph g => cases h1; exact ⟨_, rfl, rfl, e2⟩
      | noExplanations => cases h1; exact ⟨_, rfl, by dsimp only; rw [e1], e2⟩
      | _ => cases hc
    cases hc : c.onGraph with
    | true =>
      obtain ⟨b4, k1, k2, k3⟩ := key hc
      obtain ⟨b2, k4, k5⟩ := ih b3 b4 h2 k2 k3
      refine ⟨b2, ?_, k5⟩
      rw [List.filter_cons_of_pos hc]
      unfold Builder.setAll
      rw [k1]
      exact k4
    | false =>
      rw [List.filter_cons_of_neg (by simp [hc])]
      refine ih b3 b1 h2 ?_ ?_
      all_goals
        cases c with
        | iterLimit _ | nodeLimit _ | timeLimit _ | hook _ | scheduler _ => cases h1; assumption
        | _ => cases hc

/-- **C91**, panics.  A call panics exactly if it enables explanations on an e-graph that has none and is not empty, or
changes the optimization of lengths without explanations. -/
theorem c91_panics (hA : NoUserPanic A) (h : Hist (A.at depth) allow U b.runner.egraph) {c : Setting Op D S H}
    (hwf : ∀ e, c = .expr e → WFExpr e) :
    b.set (A.at depth) c = .error .panic ↔
      b.runner.egraph.areExplanationsEnabled = false ∧
        ((c = .explanations ∧ ∃ i, Valid b.runner.egraph i) ∨ c = .noOptimize ∨ c = .optimize) := by
  have hg := hist_good h
  have hsize : 0 < b.runner.egraph.totalSize ↔ ∃ i, Valid b.runner.egraph i := by
    constructor
    · intro hp
      refine ⟨0, hg.valid_iff.2 ?_⟩
      apply Nat.pos_of_ne_zero
      intro e
      unfold EGraph.totalSize at hp
      cases hm : b.runner.egraph.memo with
      | nil => rw [hm] at hp; cases hp
      | cons kv rest =>
        have hk : b.runner.egraph.mem kv.1 = some kv.2 := by
          unfold EGraph.mem
          rw [hm]
          simp [AMap.get?]
        obtain ⟨nj, h1, _⟩ := hg.inv.core.memo _ _ hk
        rw [List.length_eq_zero_iff.1 e] at h1
        simp at h1
    · rintro ⟨i, hi⟩
      have h3 := hg.valid_iff.1 hi
      unfold EGraph.totalSize
      apply Nat.pos_of_ne_zero
      intro e
      rw [hg.inv.memoNodup.2 (List.length_eq_zero_iff.1 e), List.length_nil] at h3
      omega
  cases c with
  | expr e =>
    simp only [reduceCtorEq, false_and, or_false, and_false, iff_false]
    intro hx
    have h1 := ((c10_no_panic hA h).2.2.2.2.1 e (hwf e rfl)).1
    unfold Builder.set Runner.withExpr at hx
    dsimp only at hx
    cases hy : EGraph.addExpr (A.at depth) b.runner.egraph e with
    | error e => rw [hy] at hx h1; cases hx; exact h1 rfl
    | ok y => rw [hy] at hx; cases hx
  | explanations =>
    unfold Builder.set EGraph.withExplanationsEnabled EGraph.areExplanationsEnabled
    dsimp only
    cases hx : b.runner.egraph.explain with
    | some x => simp
    | none =>
      dsimp only
      by_cases hp : 0 < b.runner.egraph.totalSize
      · rw [if_pos hp]
        exact ⟨fun _ => ⟨rfl, .inl ⟨rfl, hsize.1 hp⟩⟩, fun _ => rfl⟩
      · rw [if_neg hp]
        constructor
        · intro k; cases k
        · rintro ⟨_, ⟨_, k⟩ | k | k⟩
          · exact (hp (hsize.2 k)).elim
          · cases k
          · cases k
  | noOptimize =>
    unfold Builder.set EGraph.withoutExplanationLengthOptimization EGraph.areExplanationsEnabled
    dsimp only
    cases hx : b.runner.egraph.explain with
    | some x => simp
    | none => exact ⟨fun _ => ⟨rfl, .inr (.inl rfl)⟩, fun _ => rfl⟩
  | optimize =>
    unfold Builder.set EGraph.withExplanationLengthOptimization EGraph.areExplanationsEnabled
    dsimp only
    cases hx : b.runner.egraph.explain with
    | some x => simp
    | none => exact ⟨fun _ => ⟨rfl, .inr (.inr rfl)⟩, fun _ => rfl⟩
  | _ => simp [Builder.set]

/-- **C91**, run.  Configure a new runner with any chain of calls that does not replace the e-graph, and run it.  There is one
root for each expression, in the order in which they were given; its class represents the expression's term `t`, and with it only
terms that are related to `t` by every congruence `R` that contains the instances of the rules and what hooks
and the analysis may unite.  In particular roots in the same class belong to related terms. -/
theorem c91_run {R : Term Op → Term Op → Prop} (hR : IsCongruence R) (hA : SoundFor A R hR)
    (hN : env.analysis = A.at depth) (hord : ∀ i eg, (env.ord i eg).OK eg)
    (hd : DiscContiguous Op) (hs : sch.Honest env) (hh : HooksOK (A.at depth) allow Q (cs.filterMap Setting.hook?))
    (hr : AreRules (A.at depth) rules eqs) (hI : ∀ s t, RuleInstance eqs s t → R s t) (hQ : ∀ s t, Q s t → R s t)
    (hne : ∀ g, .egraph g ∉ cs) (hwf : ∀ e, .expr e ∈ cs → WFExpr e) (hdis : .noExplanations ∈ cs → allow.disables)
    {s : S} {h : H} (hb : (Builder.new s h).setAll (A.at depth) cs = .ok b) {f : Nat} (hrun : b.run env sch rules f = .ok r') :
    List.Forall₂ (fun e i => ∀ t, ExprTerm e t → Rep r'.egraph i t ∧ ∀ t', Rep r'.egraph i t' → R t t') (exprsOf cs) r'.roots ∧
    ∀ (i j : Nat) (x y : Id) (e e' : List (ENode Op)) (t t' : Term Op), (exprsOf cs)[i]? = some e → (exprsOf cs)[j]? = some e' →
      r'.roots[i]? = some x → r'.roots[j]? = some y → ExprTerm e t → ExprTerm e' t' → SameClass r'.egraph x y → R t t' := by
  obtain ⟨s1, ids, k2, k3⟩ := c91_roots (A := A) (depth := depth) (U := []) (allow := allow) (b := Builder.new s h) (show Hist _ _ _ EGraph.new from .refl) hne hwf hdis hb
  have h0 : Hist (A.at depth) allow [] b.runner.egraph := s1
  have k2 : b.runner.roots = ids := k2
  have hk := (c91_parameters hb).2.2.2.2.1
  have hk : b.hooks = cs.filterMap Setting.hook? := hk
  rw [← hk] at hh
  unfold Builder.run at hrun
  obtain ⟨_, V, s2, _⟩ := c25_run_reach hN hord hd hs hh hr h0 hrun
  have hroots : r'.roots = ids := by rw [Runner.run_roots hrun, k2]
  have hg := hist_good (Steps.trans h0 s2)
  have hsound := fun {a b} {s t : Term Op} => c25_eqsat_sound (R := R) (a := a) (b := b) (s := s) (t := t) hR hA hN hord hd hs hh hr h0
    (fun _ _ h => by obtain ⟨u, hu, _⟩ := h; cases hu) hI hQ hrun
  have hf : List.Forall₂ (fun e i => ∀ t, ExprTerm e t → Rep r'.egraph i t ∧ ∀ t', Rep r'.egraph i t' → R t t') (exprsOf cs) r'.roots := by
    rw [hroots]
    refine k3.imp fun e i k t ht => ?_
    have hrep := (steps_grow s2 (hist_good h0)).2.rep _ _ (k t ht)
    refine ⟨hrep, fun t' ht' => ?_⟩
    have hfind := hg.inv.find (hg.inv.rep_lt hrep)
    exact hsound ⟨_, hfind, hfind⟩ hrep ht'
  refine ⟨hf, ?_⟩
  intro i j x y e e' t t' h1 h2 h3 h4 h5 h6 h7
  have at_ : ∀ (i : Nat) e x, (exprsOf cs)[i]? = some e → r'.roots[i]? = some x → ∀ t, ExprTerm e t → Rep r'.egraph x t := by
    intro i e x h1 h3 t ht
    obtain ⟨l1, q1⟩ := List.getElem?_eq_some_iff.1 h1
    obtain ⟨l2, q2⟩ := List.getElem?_eq_some_iff.1 h3
    have := (List.forall₂_iff_get.1 hf).2 i l1 l2
    simp only [List.get_eq_getElem, q1, q2] at this
    exact (this t ht).1
  exact hsound h7 (at_ _ _ _ h1 h3 _ h5) (at_ _ _ _ h2 h4 _ h6)

/-! ### Examples -/

def Ex.hookN : Hook Ex.S Unit Unit := fun h eg _ => .ok (h, eg, none)
def Ex.exprFa1 : List (ENode Ex.S) := [Ex.leaf .a, Ex.app .f [0]]
def Ex.exprGa1 : List (ENode Ex.S) := [Ex.leaf .a, Ex.app .g [0]]
/-- `.with_iter_limit(7).with_expr(f a).with_node_limit(50).with_hook(..).with_expr(g a).with_iter_limit(9)` -/
def Ex.settings : List (Setting Ex.S Unit Unit Unit) :=
  [.iterLimit 7, .expr Ex.exprFa1, .nodeLimit 50, .hook Ex.hookN, .expr Ex.exprGa1, .iterLimit 9]
def Ex.stBuilder (x : Res (Builder Ex.S Unit Unit Unit)) : Builder Ex.S Unit Unit Unit :=
  match x with
  | .ok b => b
  | .error _ => Builder.new () ()
def Ex.builtB : Builder Ex.S Unit Unit Unit := Ex.stBuilder ((Builder.new () ()).setAll Ex.N0 Ex.settings)
def Ex.doneBuilt : Runner Ex.S Unit Unit Unit := Ex.stR () (Ex.builtB.run Ex.renv simpleScheduler [Ex.ruleFG] 10)

theorem Ex.hookNOK (N) (allow : Caller Ex.S Unit) : HooksOK N allow (fun _ _ => False) [Ex.hookN] := by
  intro k hk
  rw [List.mem_singleton] at hk
  subst hk
  intro h g its h' g' o hc he
  cases he
  exact ⟨hc, [], .refl, by simp⟩

theorem Ex.areRulesFG (N) : AreRules N [Ex.ruleFG] [(Ex.termFx, Ex.termGx)] := by
  intro rw' h
  simp only [List.mem_singleton] at h
  subst h
  exact ⟨_, _, by simp, Or.inl ⟨Ex.patFx, Ex.patGx, Ex.isPatFx, Ex.live, Ex.isPatGx, rfl⟩⟩

example : Ex.builtB.runner.limits = ⟨9, 50, 5000⟩ ∧ Ex.builtB.hooks.length = 1 ∧ Ex.builtB.runner.roots = [1, 2] ∧
    exprsOf Ex.settings = [Ex.exprFa1, Ex.exprGa1] := ⟨rfl, rfl, rfl, rfl⟩

/-- The hypotheses of `c91_run` are met: the rule `(f ?x) => (g ?x)` puts the two roots in one class. -/
example : GEq (RuleInstance [(Ex.termFx, Ex.termGx)]) Ex.tfa (.node .g [Ex.ta]) := by
  refine (c91_run (A := Ex.U0) (depth := 1) (allow := .all) (env := Ex.renv) (sch := simpleScheduler)
    (Q := fun _ _ => False) (rules := [Ex.ruleFG]) (cs := Ex.settings) (b := Ex.builtB) (r' := Ex.doneBuilt) (f := 10) (s := ()) (h := ())
    .geq (soundFor_of_quiet (fun _ => rfl) _ _) rfl (fun _ eg => Ex.ordOK eg) Ex.discContiguous simple_honest (Ex.hookNOK _ _) (Ex.areRulesFG _)
    (fun _ _ h => .ax h) (fun _ _ h => h.elim) ?_ ?_ ?_ rfl rfl).2 0 1 1 2 Ex.exprFa1 Ex.exprGa1 _ _ rfl rfl rfl rfl
    (exprTerm_of (f := 5) rfl rfl) (exprTerm_of (f := 5) rfl rfl) ⟨_, rfl, rfl⟩
  · intro g h; simp [Ex.settings] at h
  · intro e h
    simp [Ex.settings] at h
    rcases h with rfl | rfl
    · exact wfExpr_of rfl rfl
    · exact wfExpr_of rfl rfl
  · intro h; simp [Ex.settings] at h

/-- `with_explanations_enabled` after `with_expr` panics; before it, it does not. -/
example : (Builder.new () () : Builder Ex.S Unit Unit Unit).setAll Ex.N0 [.expr Ex.exprFa1, .explanations] = .error .panic ∧
    ∃ b, (Builder.new () () : Builder Ex.S Unit Unit Unit).setAll Ex.N0 [.explanations, .expr Ex.exprFa1] = .ok b := ⟨rfl, _, rfl⟩

/-- The roots of expressions given before `with_egraph` are not roots of anything in the new e-graph: after
`.with_expr(f a).with_egraph(g)` the root is the id of `b` there. -/
theorem c91_replaced_counterexample : ∃ (g : EGraph Ex.S Unit) (b : Builder Ex.S Unit Unit Unit) (root : Id), Hist (Ex.U0.at 1) .all [] g ∧
    (Builder.new () ()).setAll (Ex.U0.at 1) [.expr Ex.exprFa1, .egraph g] = .ok b ∧ b.runner.roots = [root] ∧
    Rep b.runner.egraph root Ex.tb ∧ ¬ Rep b.runner.egraph root Ex.tfa := by
  refine ⟨Ex.e4, _, 1, Ex.hist4 _, rfl, rfl, ?_, ?_⟩
  · exact EGraph.rep_iff.2 ⟨1, _, Ex.leaf .b, rfl, rfl, by simp [Ex.leaf], rfl, .nil⟩
  · intro h
    obtain ⟨r, k, n, h1, h2, h3, h4, h5⟩ := EGraph.rep_iff.1 h
    cases h1
    cases h2
    simp at h3
    rw [h3] at h4
    cases h4

end Egg
