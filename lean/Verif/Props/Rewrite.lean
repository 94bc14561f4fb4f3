import Verif.Lemmas.Closed
import Verif.Props.MultiPattern
/-
C23, C24, C48: applying rewrites.
-/
namespace Egg
variable {Op D : Type} [DecidableEq Op] [Lang Op]

theorem mem_patVars {v : Var} : ∀ {e : List (ENode (PatOp Op))} {vs : List Var},
    v ∈ patVars e vs ↔ v ∈ vs ∨ ∃ n ∈ e, n.op = .var v := by
  intro e
  induction e with
  | nil => intro vs; simp [patVars]
  | cons n e ih =>
    intro vs
    unfold patVars
    split
    · next w hw =>
      rw [ih]
      constructor
      · rintro (h | ⟨m, h1, h2⟩)
        · split at h
          · exact Or.inl h
          · rcases List.mem_append.1 h with h | h
            · exact Or.inl h
            · simp only [List.mem_singleton] at h
              subst h
              exact Or.inr ⟨n, by simp, hw⟩
        · exact Or.inr ⟨m, by simp [h1], h2⟩
      · rintro (h | ⟨m, h1, h2⟩)
        · left; split
          · exact h
          · simp [h]
        · rcases List.mem_cons.1 h1 with rfl | h1
          · rw [hw] at h2; cases h2
            left; split
            · assumption
            · simp
          · exact Or.inr ⟨m, h1, h2⟩
    · next o ho =>
      rw [ih]
      constructor
      · rintro (h | ⟨m, h1, h2⟩)
        · exact Or.inl h
        · exact Or.inr ⟨m, by simp [h1], h2⟩
      · rintro (h | ⟨m, h1, h2⟩)
        · exact Or.inl h
        · rcases List.mem_cons.1 h1 with rfl | h1
          · rw [ho] at h2; cases h2
          · exact Or.inr ⟨m, h1, h2⟩

theorem mem_vars {p : Pattern Op} {v : Var} : v ∈ p.vars ↔ ∃ n ∈ p.ast, n.op = .var v := by
  unfold Pattern.vars
  rw [mem_patVars]
  simp

theorem IsPattern.wf {p : Pattern Op} {t : Term (PatOp Op)} (h : IsPattern p t) : PatWF p.ast ∧ ExprTerm p.ast t := by
  obtain ⟨ordc, fuel, ast, hoc, hw, hnew, ht⟩ := h
  unfold Pattern.new at hnew
  rw [bind_eq_ok] at hnew
  obtain ⟨e, h1, hp⟩ := hnew
  rw [bind_eq_ok] at hp
  obtain ⟨pr, h2, hp⟩ := hp
  cases hp
  exact ⟨RecExpr.compact_pat hw h1, ht⟩

section
variable {A : UserAnalysis Op D} {depth : Nat} {allow : Caller Op D}
  {U : List (UnionRec Op)} {eg : EGraph Op D} {rp : Pattern Op} {tl t : Term (PatOp Op)} {ms : List (SearchMatches Op)}

theorem mem_flat {ms : List (SearchMatches Op)} {c : Id} {s : Subst} :
    (c, s) ∈ flat ms ↔ ∃ m ∈ ms, m.eclass = c ∧ s ∈ m.substs := by
  unfold flat
  rw [List.mem_flatMap]
  constructor
  · rintro ⟨m, h1, h2⟩
    rw [List.mem_map] at h2
    obtain ⟨s', h3, h4⟩ := h2
    cases h4
    exact ⟨m, h1, rfl, h3⟩
  · rintro ⟨m, h1, rfl, h2⟩
    exact ⟨m, h1, List.mem_map.2 ⟨s, h2, rfl⟩⟩

theorem binds_of {C : Cfg Op D} (hg : EGraph.Good C eg) {p : Pattern Op} {s : Subst} (hv : ∀ v x, s.get v = some x → Valid eg x)
    (hb : ∀ v ∈ p.vars, s.get v ≠ none) : EGraph.Binds eg s p.ast := by
  intro n hn v hnv
  cases hs : s.get v with
  | none => exact absurd hs (hb v (mem_vars.2 ⟨n, hn, hnv⟩))
  | some x => exact ⟨x, rfl, hg.valid_iff.1 (hv v x hs)⟩

theorem Applicable.matchOK {C : Cfg Op D} (hg : EGraph.Good C eg) (ha : Applicable eg tl rp ms) :
    (∀ m ∈ ms, ∀ s ∈ m.substs, EGraph.MatchOK eg tl rp.ast m.eclass s) ∧
    (eg.explain.isSome → ∀ m ∈ ms, ∀ s ∈ m.substs, EGraph.SearchAst eg tl s m.ast) := by
  constructor
  · intro m hm s hs
    have hf : (m.eclass, s) ∈ flat ms := mem_flat.2 ⟨m, hm, rfl, hs⟩
    exact ⟨ha.pmatch _ _ hf, binds_of hg (ha.valid _ _ hf) (ha.bound _ _ hf)⟩
  · intro hx m hm s hs
    have hf : (m.eclass, s) ∈ flat ms := mem_flat.2 ⟨m, hm, rfl, hs⟩
    obtain ⟨lp, h1, h2, h3⟩ := ha.ast hx m hm
    exact ⟨lp.ast, h1, h2.wf.1, h2.wf.2, binds_of hg (ha.valid _ _ hf) (h3 s hs)⟩

/-! ### C23 -/

/-- **C23**, step by step.  In every state of every history, whatever the matches:
a call of `apply_matches` of a pattern that returns is a sequence of applications as
described by `Applies`. -/
theorem c23_apply_matches (h : Hist (A.at depth) allow U eg) (hp : IsPattern rp t) (ha : Applicable eg tl rp ms)
    {rule : Symbol} {eg' : EGraph Op D} {ids : List Id}
    (he : rp.applyMatches (A.at depth) eg ms rule = .ok (eg', ids)) :
    Applies (A.at depth) tl t eg (flat ms) ids eg' := by
  have hg := hist_good h
  obtain ⟨h1, h2⟩ := ha.matchOK hg
  have := (EGraph.applyMatchesGo_post ((soundFor_true A).hookOK trivial depth) (fun _ _ => trivial) (fun _ _ _ => trivial)
    hp.wf.1 hp.wf.2 rule ms eg _ [] hg (by simp) h1 h2).elim he
  obtain ⟨-, -, ids', q1, q2⟩ := this
  have q1 : ids = [] ++ ids' := q1
  rw [q1]
  exact q2

/-- **C23**, `apply_one`: the same for a single match (with the searched pattern given
only if explanations are enabled). -/
theorem c23_apply_one (h : Hist (A.at depth) allow U eg) (hp : IsPattern rp t) {c : Id} {s : Subst}
    (hm : PMatch eg s.get c tl) (hv : ∀ v x, s.get v = some x → Valid eg x) (hb : ∀ v ∈ rp.vars, s.get v ≠ none)
    {ast : Option (PatternAst Op)} (ha : ∀ l, ast = some l → eg.explain.isSome = true ∧ ∃ lp : Pattern Op, l = lp.ast ∧ IsPattern lp tl ∧
      ∀ v ∈ lp.vars, s.get v ≠ none)
    {rule : Symbol} {eg' : EGraph Op D} {ids : List Id}
    (he : rp.applyOne (A.at depth) eg c s ast rule = .ok (eg', ids)) :
    Applies (A.at depth) tl t eg [(c, s)] ids eg' := by
  have hg := hist_good h
  have := (EGraph.applyOne_post (tl := tl) ((soundFor_true A).hookOK trivial depth) (fun _ _ => trivial) (fun _ _ _ => trivial)
    hp.wf.1 hp.wf.2 hg ⟨hm, binds_of hg hv hb⟩ (ast := ast) (fun hn => by
      cases ast with
      | none => exact absurd rfl hn
      | some l =>
        obtain ⟨hx, lp, rfl, h2, h3⟩ := ha l rfl
        exact ⟨hx, _, rfl, h2.wf.1, h2.wf.2, binds_of hg hv h3⟩) rule).elim he
  have := this.tr [] [] eg' .nil
  simpa using this

/-- **C23**, the effect.  After `apply_matches` and a rebuild, the class of every match
contains the instance of the right-hand side: it matches the right-hand side under the
same bindings, and represents the right-hand side with the variables replaced by any
terms of the classes they are bound to.  Moreover the whole call is a sequence of
`add`s and unions, where every union equates an instance of the left-hand side with the
same instance of the right-hand side. -/
theorem c23_effect (h : Hist (A.at depth) allow U eg) (hp : IsPattern rp t) (ha : Applicable eg tl rp ms)
    {rule : Symbol} {eg' : EGraph Op D} {ids : List Id}
    (he : rp.applyMatches (A.at depth) eg ms rule = .ok (eg', ids)) :
    (∃ U', Steps (A.at depth) allow eg U' eg' ∧
      ∀ u ∈ U', ∃ c s, (c, s) ∈ flat ms ∧ (InstancePair eg tl t s u.s u.t ∨ InstancePair eg tl t s u.t u.s)) ∧
    (∀ fuel eg'' n, eg'.rebuild (A.at depth) fuel = .ok (eg'', n) → ∀ c s, (c, s) ∈ flat ms →
      PMatch eg'' s.get c t ∧
      ∀ (τ : Var → Term Op) (w : Term Op), (∀ v x, s.get v = some x → Rep eg x (τ v)) → Inst τ t w → Rep eg'' c w) := by
  have hg := hist_good h
  have hap := c23_apply_matches h hp ha he
  have hN := (soundFor_true A).hookOK trivial depth
  obtain ⟨U', s1, g1, x1, k1, k2⟩ := EGraph.Applies.result (allow := allow) hN
    (fun _ _ => trivial) (fun _ _ _ => trivial) hg hap hg (EGraph.Grow.refl _) (fun c s hcs => ⟨ha.pmatch c s hcs, fun v x hx => hg.valid_iff.1 (ha.valid c s hcs v x hx)⟩)
  refine ⟨⟨U', s1, k1⟩, fun fuel eg'' n hr c s hcs => ?_⟩
  obtain ⟨i, j, q1, q2, q3⟩ := k2 c s hcs
  have r := (EGraph.rebuild_post trivial hN _ g1).elim hr
  have g2 : EGraph.Good _ eg'' := r.1
  have x2 : EGraph.Ext eg' eg'' := r.2.1
  have hpend : eg''.pending = [] := r.2.2.1.pending
  have hpc : PMatch eg'' s.get c tl := (x1.trans x2).pmatch hg.inv g2.inv (ha.pmatch c s hcs)
  have hjc : SameClass eg'' j c := by
    rcases q1 with rfl | q1
    · rw [g2.inv.sameClass_iff]
      have := g2.inv.pmatch_lt hpc
      exact ⟨this, this, rfl⟩
    · have q1 := x2.pmatch g1.inv g2.inv q1.2
      rw [g2.inv.sameClass_iff]
      exact ⟨g2.inv.pmatch_lt q1, g2.inv.pmatch_lt hpc, (g2.inv.sameClass_iff.1 (EGraph.InvW.pmatch_det g2.inv hpend _ q1 hpc)).2.2⟩
  have hij : SameClass eg'' i j := by
    rw [g1.inv.sameClass_iff] at q3
    rw [g2.inv.sameClass_iff]
    exact ⟨x2.lt q3.1, x2.lt q3.2.1, x2.rt _ _ q3.1 q3.2.1 q3.2.2⟩
  have hpt : PMatch eg'' s.get c t := g2.inv.pmatch_congr (g2.inv.sameClass_trans hij hjc) (x2.pmatch g1.inv g2.inv q2)
  refine ⟨hpt, fun τ w hτ hw => ?_⟩
  exact g2.inv.pmatch_rep _ hpt (fun v x _ hx => (x1.trans x2).rep hg.inv g2.inv _ (hτ v x hx)) hw

/-- **C23.**  Without explanations the instance is in the class right after
`apply_matches`, before any rebuild. -/
theorem c23_effect_at_once (h : Hist (A.at depth) allow U eg) (hx : eg.explain = none) (hp : IsPattern rp t)
    (ha : Applicable eg tl rp ms) {rule : Symbol} {eg' : EGraph Op D} {ids : List Id}
    (he : rp.applyMatches (A.at depth) eg ms rule = .ok (eg', ids)) :
    ∀ c s, (c, s) ∈ flat ms → PMatch eg' s.get c t := by
  have hg := hist_good h
  have hap := c23_apply_matches h hp ha he
  have hN := (soundFor_true A).hookOK trivial depth
  obtain ⟨U', s1, g1, x1, k1, k2⟩ := EGraph.Applies.result (allow := allow) hN
    (fun _ _ => trivial) (fun _ _ _ => trivial) hg hap hg (EGraph.Grow.refl _)
    (fun c s hcs => ⟨ha.pmatch c s hcs, fun v x hx => hg.valid_iff.1 (ha.valid c s hcs v x hx)⟩)
  intro c s hcs
  obtain ⟨i, j, q1, q2, q3⟩ := k2 c s hcs
  rcases q1 with rfl | ⟨q1, _⟩
  · exact g1.inv.pmatch_congr q3 q2
  · rw [x1.expl, hx] at q1; cases q1

/-! ### C24 -/

/-- **C24.**  `Rewrite::new` fails exactly if the applier lists a variable that the
searcher does not list, and the error names such a variable; otherwise it returns a
rewrite with the given parts. -/
theorem c24_new (name : Symbol) (sr : Searcher Op D) (ap : Applier Op D) :
    ((∃ v ∈ ap.vars, v ∉ sr.vars) → ∃ v ∈ ap.vars, v ∉ sr.vars ∧ Rewrite.new name sr ap = .error v) ∧
    ((∀ v ∈ ap.vars, v ∈ sr.vars) → Rewrite.new name sr ap = .ok ⟨name, sr, ap⟩) := by
  unfold Rewrite.new
  constructor
  · rintro ⟨v, h1, h2⟩
    cases hf : ap.vars.find? (fun v => decide (v ∉ sr.vars)) with
    | none =>
      rw [List.find?_eq_none] at hf
      exact absurd (by simpa using h2) (hf v h1)
    | some w =>
      refine ⟨w, List.mem_of_find?_eq_some hf, by simpa using List.find?_some hf, rfl⟩
  · intro h
    have : ap.vars.find? (fun v => decide (v ∉ sr.vars)) = none := by
      rw [List.find?_eq_none]
      intro v hv
      simpa using h v hv
    rw [this]

theorem search_ast {p : Pattern Op} {N : Analysis Op D} {ord : IterOrd} {limit : Nat}
    (hs : p.searchWithLimit N eg ord limit = .ok ms) : ∀ m ∈ ms, m.ast = some p.ast := by
  have key : ∀ (cs : List Id) (limit : Nat) (ms : List (SearchMatches Op)),
      searchEclassesWithLimit (p.searchEclassWithLimit N eg ord) cs limit = .ok ms → ∀ m ∈ ms, m.ast = some p.ast := by
    intro cs
    induction cs with
    | nil => intro limit ms h; cases h; simp
    | cons c cs ih =>
      intro limit ms h
      unfold searchEclassesWithLimit at h
      split at h
      · cases h; simp
      · rw [bind_eq_ok] at h
        obtain ⟨o, ho, h⟩ := h
        cases o with
        | none => exact ih _ _ h
        | some m =>
          simp only at h
          split at h
          · rw [bind_eq_ok] at h
            obtain ⟨ms', h1, h⟩ := h
            cases h
            intro m' hm'
            rcases List.mem_cons.1 hm' with rfl | hm'
            · unfold Pattern.searchEclassWithLimit at ho
              rw [bind_eq_ok] at ho
              obtain ⟨ss, _, ho⟩ := ho
              split at ho
              · cases ho
              · cases ho; rfl
            · exact ih _ _ h1 m' hm'
          · cases h
  unfold Pattern.searchWithLimit at hs
  rw [bind_eq_ok] at hs
  obtain ⟨n, _, hs⟩ := hs
  split at hs
  · split at hs
    · cases hs; simp
    · exact key _ _ _ hs
  · exact key _ _ _ hs

/-- The matches found by a search, or a part of them, may be given to an applier whose
variables all occur in the pattern searched for, also later, after other calls. -/
theorem search_applicable (h : Hist (A.at depth) allow U eg) (hc : eg.clean = true) (hd : DiscContiguous Op)
    {ord : IterOrd} (ho : ord.OK eg) {lp : Pattern Op} (hl : IsPattern lp tl) (hlive : ∀ v ∈ lp.vars, Occurs v tl)
    (hr : ∀ v ∈ rp.vars, v ∈ lp.vars) {limit : Nat} (hs : lp.searchWithLimit (A.at depth) eg ord limit = .ok ms)
    {eg' : EGraph Op D} {U' : List (UnionRec Op)} (hst : Steps (A.at depth) allow eg U' eg')
    {ms' : List (SearchMatches Op)} (hsub : ∀ c s, (c, s) ∈ flat ms' → (c, s) ∈ flat ms)
    (hast : ∀ m ∈ ms', m.ast = some lp.ast) : Applicable eg' tl rp ms' := by
  have hg := hist_good h
  obtain ⟨g1, x1⟩ := steps_grow hst hg
  have hss := c17_search_sound h hc hd ho hl hs
  have hb : ∀ c s, (c, s) ∈ flat ms' → ∀ v ∈ lp.vars, s.get v ≠ none := by
    intro c s hcs v hv hn
    obtain ⟨_, h2, _⟩ := hss c s (hsub c s hcs)
    obtain ⟨x, hx⟩ := (h2 v).2 (hlive v hv)
    rw [hx] at hn; cases hn
  refine ⟨fun c s hcs => ?_, fun c s hcs v x hx => ?_, fun c s hcs v hv => hb c s hcs v (hr v hv), fun _ m hm => ?_⟩
  · obtain ⟨_, _, _, h4, _⟩ := hss c s (hsub c s hcs)
    exact x1.pmatch hg.inv g1.inv h4
  · obtain ⟨_, _, h3, _⟩ := hss c s (hsub c s hcs)
    rw [g1.valid_iff]
    exact lt_of_lt_of_le (hg.valid_iff.1 ⟨_, h3 v x hx⟩) x1.len
  · exact ⟨lp, hast m hm, hl, fun s hs => hb m.eclass s (mem_flat.2 ⟨m, hm, rfl, hs⟩)⟩

/-- **C24.**  A pattern-to-pattern rewrite accepted by `Rewrite::new` never panics on an
unbound variable, nor for any other reason: applying any part of the matches found by
its search, even after further calls, does not panic.  (The variables listed in the
searched pattern have to occur in it, see the counterexample below; user code in the
analysis must not panic itself.) -/
theorem c24_accepted_never_panics (hA : NoUserPanic A) (h : Hist (A.at depth) allow U eg) (hc : eg.clean = true)
    (hd : DiscContiguous Op) {ord : IterOrd} (ho : ord.OK eg) {lp : Pattern Op} (hl : IsPattern lp tl)
    (hlive : ∀ v ∈ lp.vars, Occurs v tl) (hp : IsPattern rp t) {name : Symbol} {rw' : Rewrite Op D}
    (hnew : Rewrite.new name lp.searcher rp.applier = .ok rw') {limit : Nat}
    (hs : rw'.searcher.search (A.at depth) eg ord limit = .ok ms)
    {eg' : EGraph Op D} {U' : List (UnionRec Op)} (hst : Steps (A.at depth) allow eg U' eg')
    {ms' : List (SearchMatches Op)} (hsub : ∀ c s, (c, s) ∈ flat ms' → (c, s) ∈ flat ms)
    (hast : ∀ m ∈ ms', m.ast = some lp.ast) :
    rw'.applier.applyMatches (A.at depth) eg' ms' name ≠ .error .panic := by
  have hvars : ∀ v ∈ rp.vars, v ∈ lp.vars := by
    by_contra hn
    push Not at hn
    obtain ⟨v, _, _, h3⟩ := (c24_new name (lp.searcher (D := D)) (rp.applier (D := D))).1 hn
    rw [hnew] at h3; cases h3
  have h2 := (c24_new name (lp.searcher (D := D)) (rp.applier (D := D))).2 hvars
  rw [hnew] at h2
  cases h2
  have ha := search_applicable h hc hd ho hl hlive hvars hs hst hsub hast
  have hg := (steps_grow hst (hist_good h)).1
  obtain ⟨k1, k2⟩ := ha.matchOK hg
  have hN := UserAnalysis.OK.hookOK (E := fun e => e = .fuel) rfl hA depth
  have := EGraph.applyMatchesGo_post hN (fun _ _ => trivial) (fun _ _ _ => trivial)
    hp.wf.1 hp.wf.2 name ms' eg' (List.replicate rp.ast.length 0) [] hg (by simp) k1 k2
  intro he
  have he : rp.applyMatchesGo (A.at depth) name eg' ms' (List.replicate rp.ast.length 0) [] = .error .panic := he
  rw [he] at this
  cases this

/-! ### C48 -/

/-- **C48**, any applier and any condition: the conditional applier does exactly what the
inner applier does, for exactly those matches for which the condition, checked in the
state at that moment, returned true. -/
theorem c48_conditional {N : Analysis Op D} {cond : Condition Op D} {ap : Applier Op D} {rule : Symbol} {eg' : EGraph Op D}
    {ids : List Id} (he : (Applier.conditional cond ap).applyMatches N eg ms rule = .ok (eg', ids)) :
    Guarded (fun g c s g' b => cond.check N g c s = .ok (g', b))
      (fun g c s g' ids => ∃ ast, ap.applyOne N g c s ast rule = .ok (g', ids) ∧
        ∀ l, ast = some l → ∃ m ∈ ms, m.ast = some l ∧ m.eclass = c ∧ s ∈ m.substs) eg (flat ms) ids eg' := by
  have each : ∀ (m : SearchMatches Op) (ast : Option (PatternAst Op)) (hm : m ∈ ms) (ha : ∀ l, ast = some l → m.ast = some l)
      (ss : List Subst) (hss : ∀ s ∈ ss, s ∈ m.substs)
      (g : EGraph Op D) (added : List Id) {g' : EGraph Op D} {added' : List Id},
      applyEach (fun g s => conditionalOne cond ap N g m.eclass s ast rule) g ss added = .ok (g', added') →
      ∃ ids, added' = added ++ ids ∧ ∀ ms' ids' g'', Guarded (fun g c s g' b => cond.check N g c s = .ok (g', b))
        (fun g c s g' ids => ∃ ast, ap.applyOne N g c s ast rule = .ok (g', ids) ∧
          ∀ l, ast = some l → ∃ m ∈ ms, m.ast = some l ∧ m.eclass = c ∧ s ∈ m.substs) g' ms' ids' g'' →
        Guarded (fun g c s g' b => cond.check N g c s = .ok (g', b))
        (fun g c s g' ids => ∃ ast, ap.applyOne N g c s ast rule = .ok (g', ids) ∧
          ∀ l, ast = some l → ∃ m ∈ ms, m.ast = some l ∧ m.eclass = c ∧ s ∈ m.substs) g
          (ss.map (fun s => (m.eclass, s)) ++ ms') (ids ++ ids') g'' := by
    intro m ast hm ha ss
    induction ss with
    | nil => intro _ g added g' added' h; cases h; exact ⟨[], by simp, fun _ _ _ h => h⟩
    | cons s ss ih =>
      intro hss g added g' added' h
      unfold applyEach at h
      rw [bind_eq_ok] at h
      obtain ⟨⟨g1, ids1⟩, h1, h⟩ := h
      obtain ⟨ids, q1, q2⟩ := ih (fun s hs => hss s (by simp [hs])) g1 _ h
      refine ⟨ids1 ++ ids, by rw [q1, List.append_assoc], fun ms' ids' g'' hgd => ?_⟩
      have hgd := q2 ms' ids' g'' hgd
      unfold conditionalOne at h1
      rw [bind_eq_ok] at h1
      obtain ⟨⟨g2, b⟩, h2, h1⟩ := h1
      simp only at h1
      cases b with
      | true =>
        have := Guarded.apply (c := m.eclass) (s := s) (check := fun g c s g' b => cond.check N g c s = .ok (g', b))
          (one := fun g c s g' ids => ∃ ast, ap.applyOne N g c s ast rule = .ok (g', ids) ∧
            ∀ l, ast = some l → ∃ m ∈ ms, m.ast = some l ∧ m.eclass = c ∧ s ∈ m.substs)
          h2 ⟨ast, h1, fun l hl => ⟨m, hm, ha l hl, rfl, hss s (by simp)⟩⟩ hgd
        simpa using this
      | false =>
        cases h1
        exact .skip h2 hgd
  have all : ∀ (ms0 : List (SearchMatches Op)) (hms : ∀ m ∈ ms0, m ∈ ms) (g : EGraph Op D) (added : List Id)
      {g' : EGraph Op D} {added' : List Id},
      defaultApplyMatches (fun eg i s ast rule => conditionalOne cond ap N eg i s ast rule) rule g ms0 added = .ok (g', added') →
      ∃ ids, added' = added ++ ids ∧ Guarded (fun g c s g' b => cond.check N g c s = .ok (g', b))
        (fun g c s g' ids => ∃ ast, ap.applyOne N g c s ast rule = .ok (g', ids) ∧
          ∀ l, ast = some l → ∃ m ∈ ms, m.ast = some l ∧ m.eclass = c ∧ s ∈ m.substs) g (flat ms0) ids g' := by
    intro ms0
    induction ms0 with
    | nil => intro _ g added g' added' h; cases h; exact ⟨[], by simp, .nil⟩
    | cons m ms0 ih =>
      intro hms g added g' added' h
      unfold defaultApplyMatches at h
      rw [bind_eq_ok] at h
      obtain ⟨⟨g1, added1⟩, h1, h⟩ := h
      obtain ⟨ids1, q1, q2⟩ := each m _ (hms m (by simp)) (fun l hl => by split at hl; exact hl; cases hl) m.substs (fun _ h => h) g added h1
      obtain ⟨ids2, q3, q4⟩ := ih (fun m hm => hms m (by simp [hm])) g1 added1 h
      refine ⟨ids1 ++ ids2, by rw [q3, q1, List.append_assoc], ?_⟩
      have := q2 _ _ _ q4
      simpa [flat] using this
  obtain ⟨ids', q1, q2⟩ := all ms (fun _ h => h) eg [] he
  have q1 : ids = ids' := by simpa using q1
  rw [q1]
  exact q2

/-- **C48**, `ConditionEqual`, soundness: if the condition holds then afterwards some class
contains the instances of both patterns. -/
theorem c48_equal_sound (h : Hist (A.at depth) allow U eg) {p1 p2 : Pattern Op} {t1 t2 : Term (PatOp Op)}
    (h1 : IsPattern p1 t1) (h2 : IsPattern p2 t2) {c : Id} {s : Subst} (hv : ∀ v x, s.get v = some x → Valid eg x)
    (hb : ∀ v ∈ (Condition.equal (D := D) p1 p2).vars, s.get v ≠ none) {eg' : EGraph Op D}
    (he : (Condition.equal p1 p2).check (A.at depth) eg c s = .ok (eg', true)) :
    AddSteps (A.at depth) eg eg' ∧ ∃ x, PMatch eg' s.get x t1 ∧ PMatch eg' s.get x t2 := by
  have hg := hist_good h
  have hN := (soundFor_true A).hookOK trivial depth
  have he : (do
    let (eg, _, a1) ← applyPat (A.at depth) (List.replicate p1.ast.length 0) p1.ast eg s
    let (eg, _, a2) ← applyPat (A.at depth) (List.replicate p2.ast.length 0) p2.ast eg s
    return (eg, decide (a1 = a2)) : Res (EGraph Op D × Bool)) = .ok (eg', true) := he
  have hb1 := binds_of (p := p1) hg hv (fun v hv' => hb v (List.mem_append.2 (Or.inl hv')))
  have hb2 := binds_of (p := p2) hg hv (fun v hv' => hb v (List.mem_append.2 (Or.inr hv')))
  rw [bind_eq_ok] at he
  obtain ⟨⟨eg1, b1, a1⟩, e1, he⟩ := he
  rw [bind_eq_ok] at he
  obtain ⟨⟨eg2, b2, a2⟩, e2, he⟩ := he
  obtain ⟨k1, k2, -, -, k3⟩ := (EGraph.applyPat_post hN h1.wf.1 hg hb1 (by simp)).elim e1
  obtain ⟨m1, m2, -, -, m3⟩ := (EGraph.applyPat_post hN h2.wf.1 k1 (hb2.ext k2) (by simp)).elim e2
  have s1 := EGraph.applyPat_steps e1
  have s2 := EGraph.applyPat_steps e2
  injection he with he
  injection he with he1 he2
  subst he1
  have he2 : a1 = a2 := by simpa using he2
  subst he2
  exact ⟨AddSteps.trans s1 s2, a1, m2.pmatch k1.inv m1.inv (k3 _ h1.wf.2), m3 _ h2.wf.2⟩

/-- **C48**, `ConditionEqual`, exactness: on a rebuilt e-graph, for a substitution with
canonical ids (as reported by every search), and an analysis without `modify` hook, the
condition holds exactly if the instances of the two patterns are in the same class;
checking it merges no classes. -/
theorem c48_equal_exact (hA : ∀ i, A.modify i = .done) (h : Hist (A.at depth) allow U eg) (hc : eg.clean = true)
    {p1 p2 : Pattern Op} {t1 t2 : Term (PatOp Op)} (h1 : IsPattern p1 t1) (h2 : IsPattern p2 t2) {c : Id} {s : Subst}
    (hv : ∀ v x, s.get v = some x → eg.find x = .ok x)
    (hb : ∀ v ∈ (Condition.equal (D := D) p1 p2).vars, s.get v ≠ none) {eg' : EGraph Op D} {b : Bool}
    (he : (Condition.equal p1 p2).check (A.at depth) eg c s = .ok (eg', b)) :
    (b = true ↔ ∃ x, PMatch eg' s.get x t1 ∧ PMatch eg' s.get x t2) ∧
    ∀ x y, Valid eg x → Valid eg y → (SameClass eg' x y ↔ SameClass eg x y) := by
  have hg := hist_good h
  have hN := (soundFor_true A).hookOK trivial depth
  have hq : EGraph.QuietMod (A.at depth) := fun _ _ _ => UserAnalysis.quiet_modify hA
  have hcl := EGraph.closed_of_pending hg.inv (c47_clean_means_rebuilt h hc).pending
  have hs : ∀ v x, s.get v = some x → x < eg.nodes.length ∧ eg.rt x = x := fun v x hx => hg.inv.find_iff.1 (hv v x hx)
  have hv' : ∀ v x, s.get v = some x → Valid eg x := fun v x hx => ⟨_, hv v x hx⟩
  have he' : (do
    let (eg, _, a1) ← applyPat (A.at depth) (List.replicate p1.ast.length 0) p1.ast eg s
    let (eg, _, a2) ← applyPat (A.at depth) (List.replicate p2.ast.length 0) p2.ast eg s
    return (eg, decide (a1 = a2)) : Res (EGraph Op D × Bool)) = .ok (eg', b) := he
  have hb1 := binds_of (p := p1) hg hv' (fun v hv' => hb v (List.mem_append.2 (Or.inl hv')))
  have hb2 := binds_of (p := p2) hg hv' (fun v hv' => hb v (List.mem_append.2 (Or.inr hv')))
  rw [bind_eq_ok] at he'
  obtain ⟨⟨eg1, b1, a1⟩, e1, he'⟩ := he'
  rw [bind_eq_ok] at he'
  obtain ⟨⟨eg2, b2, a2⟩, e2, he'⟩ := he'
  obtain ⟨k1, k2, -, k4, k3⟩ := (EGraph.applyPat_post hN h1.wf.1 hg hb1 (by simp)).elim e1
  obtain ⟨m1, m2, -, m4, m3⟩ := (EGraph.applyPat_post hN h2.wf.1 k1 (hb2.ext k2) (by simp)).elim e2
  have s1 := EGraph.applyPat_steps e1
  have s2 := EGraph.applyPat_steps e2
  obtain ⟨c1, cl1⟩ := AddSteps.quiet hN hq s1 hg
  obtain ⟨c2, cl2⟩ := AddSteps.quiet hN hq s2 k1
  have r1 := EGraph.applyPat_canon hN hq (by simp) hg hs e1
  have r2 := EGraph.applyPat_canon hN hq (by simp) k1 (fun v x hx => by
    obtain ⟨q1, q2⟩ := hs v x hx
    exact ⟨lt_of_lt_of_le q1 c1.len, by rw [c1.rt x q1, q2]⟩) e2
  injection he' with he'
  injection he' with he1 he2
  subst he1
  subst he2
  have k4 : a1 < eg1.nodes.length := k4
  have p1' : PMatch eg2 s.get a1 t1 := m2.pmatch k1.inv m1.inv (k3 _ h1.wf.2)
  have p2' : PMatch eg2 s.get a2 t2 := m3 _ h2.wf.2
  have r1' : eg2.rt a1 = a1 := by rw [c2.rt a1 k4]; exact r1
  constructor
  · constructor
    · intro hb
      have : a1 = a2 := by simpa using hb
      subst this
      exact ⟨a1, p1', p2'⟩
    · rintro ⟨x, q1, q2⟩
      have d1 := (cl2 (cl1 hcl)).pmatch_det m1.inv _ p1' q1
      have d2 := (cl2 (cl1 hcl)).pmatch_det m1.inv _ q2 p2'
      have := (m1.inv.sameClass_iff.1 (m1.inv.sameClass_trans d1 d2)).2.2
      rw [r1', r2] at this
      simpa using this
  · intro x y hx hy
    rw [hg.valid_iff] at hx hy
    rw [hg.inv.sameClass_iff, m1.inv.sameClass_iff]
    have cc := c1.trans c2
    rw [cc.rt x hx, cc.rt y hy]
    have := cc.len
    exact ⟨fun hh => ⟨hx, hy, hh.2.2⟩, fun hh => ⟨by omega, by omega, hh.2.2⟩⟩

end

/-! ### Examples: the rule `f ?x => g ?x` on the e-graph `{a = b}, {f a = f b}` -/

def Ex.astGx : PatternAst Ex.S := [⟨.var Ex.vx, []⟩, ⟨.op .g, [0]⟩]
def Ex.patGx : Pattern Ex.S := ⟨Ex.astGx, ⟨[.bind (Ex.app .g [0]) 0 1], [(Ex.vx, 1)]⟩⟩
def Ex.termGx : Term (PatOp Ex.S) := .node (.op .g) [.node (.var Ex.vx) []]

theorem Ex.isPatGx : IsPattern Ex.patGx Ex.termGx :=
  ⟨Ex.ordc, 10, Ex.astGx, Ex.ordcOK, patWF_of rfl rfl rfl, rfl, exprTerm_of (f := 5) rfl rfl⟩

theorem Ex.live : ∀ v ∈ Ex.patFx.vars, Occurs v Ex.termFx := by
  intro v hv
  have : v = Ex.vx := by simpa [Pattern.vars, patVars, Ex.patFx, Ex.astFx] using hv
  subst this
  exact .arg (t := .node (.var Ex.vx) []) (by simp) .refl

def Ex.msFx : List (SearchMatches Ex.S) := [⟨2, [[(Ex.vx, 0)]], some Ex.astFx⟩]

theorem Ex.searchFx : Ex.patFx.searchWithLimit Ex.N0 Ex.e6 (Ex.ord Ex.e6) 100 = .ok Ex.msFx := rfl

theorem Ex.applicable : Applicable Ex.e6 Ex.termFx Ex.patGx Ex.msFx :=
  search_applicable (rp := Ex.patGx) (allow := .all) (Ex.hist6 _) rfl Ex.discContiguous (Ex.ordOK _) Ex.isPatFx Ex.live (fun _ h => h)
    Ex.searchFx .refl (fun _ _ h => h) (by simp [Ex.msFx, Ex.patFx])

/-- C23: the rule applies and merges something (class 4 is the new class of `g a`). -/
example : ∃ eg', Ex.patGx.applyMatches Ex.N0 Ex.e6 Ex.msFx 9 = .ok (eg', [4]) := ⟨_, rfl⟩

def Ex.r1 : Ex.G := Ex.st (Ex.patGx.applyMatches Ex.N0 Ex.e6 Ex.msFx 9)
def Ex.r2 : Ex.G := Ex.st (EGraph.rebuild Ex.N0 20 Ex.r1)

/-- C23: the rule merges nothing the second time. -/
example : ∃ eg', Ex.patGx.applyMatches Ex.N0 Ex.r2 Ex.msFx 9 = .ok (eg', []) := ⟨_, rfl⟩

/-- C23, the conclusion on the example: `g b` is in the class of `f a`. -/
example : Rep Ex.r2 2 (.node .g [Ex.tb]) :=
  ((c23_effect (Ex.hist6 .all) Ex.isPatGx Ex.applicable (rule := 9) (eg' := Ex.r1) (ids := [4]) rfl).2
    20 Ex.r2 0 rfl 2 [(Ex.vx, 0)] (by decide)).2 (fun _ => Ex.tb) _
    (by
      intro v x h
      have : x = 0 := by
        simp only [Subst.get] at h
        split at h <;> simp_all
      subst this
      exact Ex.rep_leaf rfl rfl (by decide))
    (inst_node_iff.2 ⟨[Ex.tb], rfl, .cons (inst_var_iff.2 ⟨rfl, rfl⟩) .nil⟩)

/-- C24: the rule is accepted. -/
example : ∃ r, Rewrite.new 9 (Ex.patFx.searcher (D := Unit)) Ex.patGx.applier = .ok r ∧
    r.searcher.search Ex.N0 Ex.e6 (Ex.ord Ex.e6) 100 = .ok Ex.msFx := ⟨_, rfl, rfl⟩

/-- C24: a rule with an unbound variable is rejected. -/
example : ∃ p : Pattern Ex.S, Pattern.new Ex.ordc 10 [⟨.var Ex.vy, []⟩, ⟨.op .f, [0]⟩] = .ok p ∧
    Rewrite.new 9 (Ex.patFx.searcher (D := Unit)) p.applier = .error Ex.vy := ⟨_, rfl, rfl⟩

def Ex.patDead : Pattern Ex.S := ⟨[⟨.var Ex.vx, []⟩, ⟨.op .a, []⟩], ⟨[.bind (Ex.leaf .a) 0 1], []⟩⟩

/-- **C24, finding.**  A variable that the searched pattern lists without using it is not
bound by any match, and a rule using it on the right-hand side is accepted and then
panics.  Such a pattern can only be built by hand (a `RecExpr` with an unused node). -/
theorem c24_dead_variable_counterexample : ∃ (lp rp : Pattern Ex.S) (tl t : Term (PatOp Ex.S)) (r : Rewrite Ex.S Unit)
    (ms : List (SearchMatches Ex.S)), IsPattern lp tl ∧ IsPattern rp t ∧
    Rewrite.new 9 lp.searcher rp.applier = .ok r ∧
    r.searcher.search Ex.N0 Ex.e6 (Ex.ord Ex.e6) 100 = .ok ms ∧ r.applier.applyMatches Ex.N0 Ex.e6 ms 9 = .error .panic :=
  ⟨Ex.patDead, Ex.patGx, .node (.op .a) [], Ex.termGx, _, [⟨0, [[]], some Ex.patDead.ast⟩],
    ⟨Ex.ordc, 10, Ex.patDead.ast, Ex.ordcOK, patWF_of rfl rfl rfl, rfl, exprTerm_of (f := 5) rfl rfl⟩,
    Ex.isPatGx, rfl, rfl, rfl⟩

/-- C48: the rule `f ?x => g ?x if f ?x = ?y`, tried with two matches; it is applied for
the one with `?y` bound to the class of `f a` and not for the other one. -/
def Ex.patY : Pattern Ex.S := ⟨[⟨.var Ex.vy, []⟩], ⟨[], [(Ex.vy, 0)]⟩⟩

theorem Ex.isPatY : IsPattern Ex.patY (.node (.var Ex.vy) []) :=
  ⟨Ex.ordc, 10, Ex.patY.ast, Ex.ordcOK, patWF_of rfl rfl rfl, rfl, exprTerm_of (f := 5) rfl rfl⟩

example : ∃ eg', (Applier.conditional (Condition.equal Ex.patFx Ex.patY) Ex.patGx.applier).applyMatches Ex.N0 Ex.e6
    [⟨2, [[(Ex.vx, 0), (Ex.vy, 0)]], none⟩] 9 = .ok (eg', []) ∧ eg'.nodes = Ex.e6.nodes := ⟨_, rfl, rfl⟩

example : ∃ eg', (Applier.conditional (Condition.equal Ex.patFx Ex.patY) Ex.patGx.applier).applyMatches Ex.N0 Ex.e6
    [⟨2, [[(Ex.vx, 0), (Ex.vy, 2)]], none⟩] 9 = .ok (eg', [2]) := ⟨_, rfl⟩

/-- C48: hypotheses of `c48_equal_exact`. -/
example : (∀ i, Ex.U0.modify i = .done) ∧ Hist Ex.N0 .all [Ex.un] Ex.e6 ∧ Ex.e6.clean = true ∧
    IsPattern Ex.patFx Ex.termFx ∧ IsPattern Ex.patY (.node (.var Ex.vy) []) ∧
    (∃ eg', (Condition.equal Ex.patFx Ex.patY).check Ex.N0 Ex.e6 2 [(Ex.vx, 0), (Ex.vy, 2)] = .ok (eg', true)) ∧
    (∃ eg', (Condition.equal Ex.patFx Ex.patY).check Ex.N0 Ex.e6 2 [(Ex.vx, 0), (Ex.vy, 0)] = .ok (eg', false)) :=
  ⟨fun _ => rfl, Ex.hist6 _, rfl, Ex.isPatFx, Ex.isPatY, ⟨_, rfl⟩, ⟨_, rfl⟩⟩

/-- **C48, finding.**  `ConditionEqual` compares the ids returned by `apply_pat`, which
for a bare variable is the bound id itself; with stale ids (after a union, before the
bindings were searched for again) it answers false although the classes are the same. -/
theorem c48_stale_counterexample : ∃ (p q : Pattern Ex.S) (s : Subst) (eg' : EGraph Ex.S Unit),
    IsPattern p (.node (.var Ex.vx) []) ∧ IsPattern q (.node (.var Ex.vy) []) ∧ Ex.e6.clean = true ∧
    s.get Ex.vx = some 0 ∧ s.get Ex.vy = some 1 ∧ SameClass Ex.e6 0 1 ∧
    (Condition.equal p q).check Ex.N0 Ex.e6 2 s = .ok (eg', false) :=
  ⟨⟨[⟨.var Ex.vx, []⟩], ⟨[], [(Ex.vx, 0)]⟩⟩, Ex.patY, [(Ex.vx, 0), (Ex.vy, 1)], Ex.e6,
    ⟨Ex.ordc, 10, [⟨.var Ex.vx, []⟩], Ex.ordcOK, patWF_of rfl rfl rfl, rfl, exprTerm_of (f := 5) rfl rfl⟩,
    Ex.isPatY, rfl, rfl, rfl, ⟨0, rfl, rfl⟩, rfl⟩

end Egg
