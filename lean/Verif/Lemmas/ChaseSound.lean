import Verif.Lemmas.Chase
/-
A run yields nothing but what the rules derive.
-/
namespace Egg
variable {Op D S H : Type} [DecidableEq Op] [Lang Op]
variable {A : UserAnalysis Op D} {depth : Nat} {allow : Caller Op D} {U V W : List (UnionRec Op)}
variable {env : RunEnv Op D} {sch : Scheduler Op D S} {hooks : List (Hook Op D H)} {rules : List (Rewrite Op D)} {cs : List (Clause Op)}
  {egS eg eg' g : EGraph Op D}

section
omit [DecidableEq Op] [Lang Op]
variable {K E : Term Op → Term Op → Prop}

theorem EqHull.pcong : PCong (EqHull E) where
  symm := .symm
  trans := .trans
  arg := .arg
  congr := fun h hf => .congr h hf.length_eq.symm (fun j s t h1 h2 => by
    obtain ⟨j1, e1⟩ := List.getElem?_eq_some_iff.1 h1
    obtain ⟨j2, e2⟩ := List.getElem?_eq_some_iff.1 h2
    have := (List.forall₂_iff_get.1 hf).2 j j1 j2
    simp only [List.get_eq_getElem] at this
    rwa [e1, e2] at this)

theorem EqHull.idem {s t : Term Op} (h : EqHull (EqHull E) s t) : EqHull E s t := by
  induction h with
  | base h => exact h
  | symm _ ih => exact .symm ih
  | trans _ _ ih1 ih2 => exact .trans ih1 ih2
  | arg _ hs ih => exact .arg ih hs
  | congr _ hl _ ih1 ih2 => exact .congr ih1 hl ih2

theorem PCong.left (h : PCong K) {s t : Term Op} (hst : K s t) : K s s := h.trans hst (h.symm hst)
theorem PCong.right (h : PCong K) {s t : Term Op} (hst : K s t) : K t t := h.trans (h.symm hst) hst

theorem PCong.subterm (h : PCong K) {s t : Term Op} (hst : Subterm s t) : K t t → K s s := by
  induction hst with
  | refl => exact id
  | arg h1 _ ih => exact fun hk => ih (h.arg hk h1)

/-- … extended to all terms. -/
inductive Completion (K : Term Op → Term Op → Prop) : Term Op → Term Op → Prop
  | base {s t} : K s t → Completion K s t
  | node {op} {ss ts : List (Term Op)} : ts.length = ss.length → (∀ (j : Nat) (s t : Term Op), ss[j]? = some s → ts[j]? = some t → Completion K s t) →
      Completion K (.node op ss) (.node op ts)

theorem Completion.exists (h : PCong K) {s t : Term Op} (hst : Completion K s t) : K s s → K s t := by
  induction hst with
  | base h => exact fun _ => h
  | @node op ss ts hl _ ih =>
    intro hk
    refine h.congr hk (List.forall₂_iff_get.2 ⟨hl.symm, fun i h1 h2 => ?_⟩)
    exact ih i _ _ (List.getElem?_eq_getElem h1) (List.getElem?_eq_getElem h2) (h.arg hk (List.getElem_mem h1))

theorem Completion.symm (h : PCong K) {s t : Term Op} (hst : Completion K s t) : Completion K t s := by
  induction hst with
  | base hk => exact .base (h.symm hk)
  | node hl _ ih => exact .node hl.symm (fun j s t h1 h2 => ih j t s h2 h1)

theorem Completion.trans (h : PCong K) {s t u : Term Op} (hst : Completion K s t) : Completion K t u → Completion K s u := by
  induction hst generalizing u with
  | base hk => exact fun htu => .base (h.trans hk (htu.exists h (h.right hk)))
  | @node op ss ts hl hj ih =>
    intro htu
    cases htu with
    | base hk =>
      exact .base (h.trans (h.symm ((Completion.symm h (.node hl hj)).exists h (h.left hk))) hk)
    | @node _ _ us hl' hj' =>
      refine .node (hl'.trans hl) (fun j s u h1 h2 => ?_)
      have hjt : j < ts.length := by rw [hl]; exact (List.getElem?_eq_some_iff.1 h1).1
      exact ih j s _ h1 (List.getElem?_eq_getElem hjt) (hj' j _ u (List.getElem?_eq_getElem hjt) h2)

theorem PCong.total (h : PCong K) : IsCongruence (Completion K) where
  refl := fun t => by
    induction t using Term.ind with
    | h op ts ih =>
      refine .node rfl (fun j s t h1 h2 => ?_)
      rw [h1] at h2
      cases h2
      exact ih s (List.mem_of_getElem? h1)
  symm := Completion.symm h
  trans := Completion.trans h
  congr := fun op ss ts hf => .node hf.length_eq.symm (fun j s t h1 h2 => by
    obtain ⟨j1, e1⟩ := List.getElem?_eq_some_iff.1 h1
    obtain ⟨j2, e2⟩ := List.getElem?_eq_some_iff.1 h2
    have := (List.forall₂_iff_get.1 hf).2 j j1 j2
    simp only [List.get_eq_getElem] at this
    rwa [e1, e2] at this)

end

variable {K : Term Op → Term Op → Prop} {hK : PCong K}

/-- The e-graph is sound for `K`, and the expression of each of its ids exists in `K`. -/
structure InHull (K : Term Op → Term Op → Prop) (hK : PCong K) (eg : EGraph Op D) : Prop where
  good : EGraph.Good (Cfg.ofR (Completion K) hK.total anyReason) eg
  nodes : ∀ i t, TermOf eg.nodes i t → K t t

theorem InHull.rep (h : InHull K hK eg) {c : Id} {s : Term Op} (hs : Rep eg c s) : K s s := by
  obtain ⟨u, hu⟩ := h.good.inv.core.dag.exists_term c (h.good.inv.rep_lt hs)
  have h1 : Completion K u s := h.good.inv.rep_sound s hs hu
  exact hK.right (h1.exists hK (h.nodes _ _ hu))

theorem InHull.equal (h : InHull K hK eg) {s t : Term Op} (hst : Equal eg s t) : K s t := by
  obtain ⟨c, hs, ht⟩ := hst
  have h1 : Completion K s t := h.good.inv.rep_related hs ht rfl
  exact h1.exists hK (h.rep hs)

theorem InHull.add (hA : ∀ i, A.modify i = .done) (h : InHull K hK eg) {n : ENode Op} {i : Id} {ts : List (Term Op)}
    (hts : List.Forall₂ (Rep eg) n.children ts) (hd : K (.node n.op ts) (.node n.op ts))
    (ha : EGraph.addUncanonical (A.at depth) eg n = .ok (eg', i)) : InHull K hK eg' ∧ EGraph.Ext eg eg' := by
  have hN := (soundFor_of_quiet hA (Completion K) hK.total).hookOK trivial depth
  have hq : EGraph.QuietMod (A.at depth) := fun _ _ _ => UserAnalysis.quiet_modify hA
  have hch : ∀ c ∈ n.children, c < eg.nodes.length := by
    intro c hc
    obtain ⟨t, _, ht⟩ := forall₂_mem_left hts hc
    exact h.good.inv.rep_lt ht
  obtain ⟨hg, hext, -⟩ := (EGraph.addUncanonical_post hN h.good hch).elim ha
  have hnodes : eg'.nodes = eg.nodes ∨ eg'.nodes = eg.nodes ++ [n] := by
    rcases EGraph.addUncanonical_cases (A.at depth) h.good.inv hch with ⟨e, j, nj, _, g2, _⟩ | ⟨e, x, eg1, g1, _, _, g4, g5, g6⟩ | ⟨g1, eg1, g2, g3⟩
    · rw [ha] at g2; cases g2; exact Or.inl rfl
    · rw [ha] at g4; cases g4; exact Or.inr g6.nodes
    · rw [ha] at g3
      have g3 := g3.symm
      rw [bind_eq_ok] at g3
      obtain ⟨d, _, g3⟩ := g3
      rw [bind_eq_ok] at g3
      obtain ⟨eg2, k, g3⟩ := g3
      cases g3
      have := hq _ _ _ k
      rw [this]
      exact Or.inr (g2 d).2.nodes
  refine ⟨⟨hg, fun j t ht => ?_⟩, hext⟩
  rcases hnodes with e | e
  · rw [e] at ht; exact h.nodes j t ht
  · rw [e] at ht
    by_cases hj : j < eg.nodes.length
    · exact h.nodes j t (TermOf.of_append h.good.inv.core.dag ht hj)
    · have hlt := ht.lt
      rw [List.length_append, List.length_singleton] at hlt
      have : j = eg.nodes.length := by omega
      subst this
      cases t with
      | node op us =>
        rw [termOf_iff] at ht
        obtain ⟨m, h1, h2, h3⟩ := ht
        simp at h1
        subst h1
        subst h2
        have : Completion K (.node n.op us) (.node n.op ts) := hK.total.congr n.op (by
          refine forall₂_comp (forall₂_flip h3) hts (fun u c t _ hc _ huc hct => ?_)
          exact h.good.inv.rep_sound t hct (TermOf.of_append h.good.inv.core.dag huc (hch c hc)))
        exact hK.right ((this.symm hK).exists hK hd)

theorem InHull.union (hA : ∀ i, A.modify i = .done) (h : InHull K hK eg) {i j : Id} {s t : Term Op}
    (hs : Rep eg i s) (ht : Rep eg j t) (hst : K s t) {did : Bool}
    (hu : UnionCall (A.at depth) eg i j eg' did) : InHull K hK eg' ∧ EGraph.Ext eg eg' := by
  have hN := (soundFor_of_quiet hA (Completion K) hK.total).hookOK trivial depth
  have hq : EGraph.QuietMod (A.at depth) := fun _ _ _ => UserAnalysis.quiet_modify hA
  obtain ⟨reason, hu⟩ := hu
  have := EGraph.Good.union_post (caller := reason) hN h.good hs ht (Completion.base hst) trivial
  rcases hu with hu | hu
  · exact ⟨⟨(this.1.elim hu).1, by rw [(EGraph.union_nodes hq).1 hu]; exact h.nodes⟩, (this.1.elim hu).2.1⟩
  · exact ⟨⟨(this.2.elim hu).1, by rw [(EGraph.union_nodes hq).2 hu]; exact h.nodes⟩, (this.2.elim hu).2.1⟩

theorem InHull.rebuild (hA : ∀ i, A.modify i = .done) (h : InHull K hK eg) {fuel n : Nat}
    (hr : eg.rebuild (A.at depth) fuel = .ok (eg', n)) : InHull K hK eg' := by
  have hN := (soundFor_of_quiet hA (Completion K) hK.total).hookOK trivial depth
  have hq : EGraph.QuietMod (A.at depth) := fun _ _ _ => UserAnalysis.quiet_modify hA
  exact ⟨((EGraph.rebuild_post trivial hN _ h.good).elim hr).1, by rw [EGraph.rebuild_nodes hq hr]; exact h.nodes⟩

/-- The start of the induction. -/
theorem InHull.start (hA : ∀ i, A.modify i = .done) (h : Hist (A.at depth) allow U eg) (hb : ∀ s t, Equal eg s t → K s t) : InHull K hK eg := by
  obtain ⟨hg, -⟩ := hist_good_of_sound (soundFor_of_quiet hA (Completion K) hK.total) h (by
    rintro s t ⟨u, hu, rfl, rfl⟩
    obtain ⟨h1, h2, h3⟩ := (hist_good_of_sound (soundFor_true A) h (fun _ _ _ => trivial)).2 u hu
    have hg := hist_good h
    exact .base (hb _ _ ⟨u.a, h1, hg.inv.rep_congr (hg.inv.rep_lt h1) h3.symm h2⟩))
  refine ⟨hg, fun i t ht => ?_⟩
  obtain ⟨u, hu⟩ := hg.inv.exists_rep ht.lt
  have h1 : Completion K t u := hg.inv.rep_sound u hu ht
  exact hK.right ((h1.symm hK).exists hK (hb _ _ ⟨i, hu, hu⟩))

/-! ### Applying rules -/

theorem InHull.applySteps (hA : ∀ i, A.modify i = .done) {P : Term (PatOp Op) → Prop} {tl t : Term (PatOp Op)} {ms : List (Id × Subst)}
    (hP : ∀ q, P q → Subterm q tl ∨ Subterm q t)
    {k : Nat} (hst : ApplySteps (A.at depth) P tl t ms eg k eg') (h : InHull K hK eg)
    (hm : ∀ c s, (c, s) ∈ ms → ∃ (τ : Var → Term Op) (u w : Term Op), (∀ v x, s.get v = some x → Rep eg x (τ v)) ∧ Inst τ tl u ∧
      Inst τ t w ∧ K u w) :
    InHull K hK eg' ∧ ∀ c t, Rep eg c t → Rep eg' c t := by
  induction hst with
  | refl => exact ⟨h, fun _ _ h => h⟩
  | @add _ eg1 eg2 c s n ps i _ h1 h2 h3 h4 ih =>
    obtain ⟨u1, m1⟩ := ih
    obtain ⟨τ, u, w, hτ, hu, hw, hk⟩ := hm c s h1
    have hsub : ∃ vs, List.Forall₂ (Inst τ) ps vs ∧ K (.node n.op vs) (.node n.op vs) := by
      rcases hP _ h2 with hq | hq
      · obtain ⟨v, k1, k2⟩ := inst_of_subterm hq hu
        obtain ⟨vs, rfl, hvs⟩ := inst_node_iff.1 k1
        exact ⟨vs, hvs, hK.subterm k2 (hK.left hk)⟩
      · obtain ⟨v, k1, k2⟩ := inst_of_subterm hq hw
        obtain ⟨vs, rfl, hvs⟩ := inst_node_iff.1 k1
        exact ⟨vs, hvs, hK.subterm k2 (hK.right hk)⟩
    obtain ⟨vs, hvs, hd'⟩ := hsub
    have hr : List.Forall₂ (Rep eg1) n.children vs := forall₂_comp h3 hvs (fun a p v _ _ _ hap hpv =>
      u1.good.inv.pmatch_rep _ hap (fun v x _ hv => m1 _ _ (hτ v x hv)) hpv)
    obtain ⟨u2, x2⟩ := u1.add hA hr hd' h4
    exact ⟨u2, fun c t hc => x2.rep u1.good.inv u2.good.inv t (m1 c t hc)⟩
  | @union _ eg1 eg2 c s i j did _ h1 h2 h3 h4 _ ih =>
    obtain ⟨u1, m1⟩ := ih
    obtain ⟨τ, u, w, hτ, hu, hw, hk⟩ := hm c s h1
    have r1 : Rep eg1 i w := u1.good.inv.pmatch_rep _ h2 (fun v x _ hv => m1 _ _ (hτ v x hv)) hw
    have r2 : Rep eg1 j u := u1.good.inv.pmatch_rep _ h3 (fun v x _ hv => m1 _ _ (hτ v x hv)) hu
    obtain ⟨u2, x2⟩ : InHull K hK eg2 ∧ EGraph.Ext eg1 eg2 := by
      rcases h4 with h4 | h4
      · exact u1.union hA r1 r2 (hK.symm hk) h4
      · exact u1.union hA r2 r1 hk h4
    exact ⟨u2, fun c t hc => x2.rep u1.good.inv u2.good.inv t (m1 c t hc)⟩

theorem TightRule.inHull {rw' : Rewrite Op D} {tl t : Term (PatOp Op)} {i : Nat} {ms ms' : List (SearchMatches Op)} {ids : List Id}
    (hA : ∀ i, A.modify i = .done) (hN : env.analysis = A.at depth) (hord : ∀ i eg, (env.ord i eg).OK eg) (hd : DiscContiguous Op)
    (hr : TightRule rw' tl t) (hcl : ∀ s w, (Clause.rewrite tl t).Derives (Equal egS) s w → K s w) (h : Hist (A.at depth) allow U egS) (hc : egS.clean = true)
    (hf : Found env i egS rw' ms) (hp : Part ms' ms) (hst : Steps (A.at depth) allow egS V eg)
    (ha : rw'.applier.applyMatches (A.at depth) eg ms' rw'.name = .ok (eg', ids)) (hu : InHull K hK eg) : InHull K hK eg' := by
  obtain ⟨lp, rp, hl, hll, hlive, hr, hrl, hnew⟩ := hr
  obtain ⟨hv, hrw⟩ := rewrite_new_inv hnew
  have hap := found_applicable hN hord hd hl hlive hv (by rw [hrw]) h hc hf hp hst
  have hast : ∀ m ∈ ms', m.ast = some lp.ast := by
    intro m hm
    rcases hf with rfl | ⟨limit, ms0, f1, f2⟩
    · rw [hp.nil] at hm; cases hm
    rw [hrw, hN] at f1
    obtain ⟨m1, g1, _, g3, _⟩ := (hp.trans f2) m hm
    rw [g3]; exact search_ast f1 m1 g1
  rw [hrw] at ha
  have hsteps := applyMatches_inst (Steps.trans h hst) hr hap (rule := rw'.name) ha
  have hap0 := found_applicable hN hord hd hl hlive hv (by rw [hrw]) h hc hf hp .refl
  have hg := hist_good h
  have gr := (steps_grow hst hg).2
  refine (InHull.applySteps hA (fun q hq => ?_) hsteps hu (fun c s hcs => ?_)).1
  · rcases hq with hq | ⟨_, m, hm, l, hl', hq⟩
    · exact Or.inr (entry_subterm hr.wf.1 hr.wf.2 hrl hq)
    · rw [hast m hm] at hl'
      cases hl'
      exact Or.inl (entry_subterm hl.wf.1 hl.wf.2 hll hq)
  · have hm := hap0.pmatch c s hcs
    obtain ⟨τ, hτ⟩ := EGraph.exists_assignment hg.inv (fun v x hx => hg.valid_iff.1 (hap0.valid c s hcs v x hx)) (hg.inv.pmatch_lt hm)
    obtain ⟨u, hu⟩ := EGraph.inst_of_pmatch τ _ hm
    obtain ⟨w, hw⟩ := inst_exists hr.wf.1 τ t _ hr.wf.2.2
    have hur := hg.inv.pmatch_rep _ hm (fun v x _ hv => hτ v x hv) hu
    exact ⟨τ, u, w, fun v x hx => gr.rep _ _ (hτ v x hx), hu, hw, hcl u w ⟨τ, hu, hw, c, hur, hur⟩⟩

/-- The right-hand sides of a multi-pattern rule. -/
theorem applyAsts_inHull (hA : ∀ i, A.modify i = .done) :
    ∀ (asts : List (Var × PatternAst Op)) (rs : List (Var × Term (PatOp Op)))
      (_ : List.Forall₂ (fun a b => a.1 = b.1 ∧ PatWF a.2 ∧ ExprTerm a.2 b.2) asts rs) (_ : ∀ w p, (w, p) ∈ asts → ∀ k, k < p.length → Live p k)
      (eg eg' : EGraph Op D) (i : Nat) (s : Subst) (buf added : List Id) (ids : List Id) (bound : Var → Prop) (τ : Var → Term Op) (bs : List Var),
    InHull K hK eg → (∀ v, bound v ↔ ∃ x, s.get v = some x) → (∀ v x, s.get v = some x → Rep eg x (τ v)) →
    (∀ v ∈ bs, bound v) → (∀ v ∈ applierVars asts bs, bound v) → (∀ s t, Concluded bound τ rs s t → K s t) →
    MultiPattern.applyAsts (A.at depth) eg asts i s buf added = .ok (eg', ids) → InHull K hK eg' ∧ ∀ c t, Rep eg c t → Rep eg' c t := by
  have hN := (soundFor_of_quiet hA (Completion K) hK.total).hookOK trivial depth
  intro asts
  induction asts with
  | nil =>
    intro rs hf _ eg eg' i s buf added ids bound τ bs hg hb hτ _ _ _ ha
    cases ha
    exact ⟨hg, fun _ _ h => h⟩
  | cons a asts ih =>
    intro rs hf hlv eg eg' i s buf added ids bound τ bs hin hb hτ hbs hv hc ha
    obtain ⟨w, p⟩ := a
    cases hf with
    | @cons _ b _ rs h1 h2 =>
    obtain ⟨w', q⟩ := b
    obtain ⟨rfl, hwf, het⟩ := h1
    have hg := hin.good
    have hwf : PatWF p := hwf
    have het : ExprTerm p q := het
    have hlt : ∀ v x, s.get v = some x → x < eg.nodes.length := fun v x hx => hg.inv.rep_lt (hτ v x hx)
    have hbinds : EGraph.Binds eg s p := by
      intro n hn v hnv
      have hvb : bound v := by
        by_cases hvbs : v ∈ bs
        · exact hbs v hvbs
        · refine hv v ?_
          unfold applierVars
          rw [List.mem_append]
          left
          rw [List.mem_filter]
          refine ⟨?_, by simpa using hvbs⟩
          unfold nodeVars
          rw [List.mem_filterMap]
          exact ⟨n, hn, by simp only [hnv]⟩
      obtain ⟨x, hx⟩ := (hb v).1 hvb
      exact ⟨x, hx, hlt v x hx⟩
    unfold MultiPattern.applyAsts at ha
    rw [bind_eq_ok] at ha
    obtain ⟨⟨eg1, buf1, id1⟩, a1, ha⟩ := ha
    obtain ⟨g1, x1, -, l1, m1⟩ := (EGraph.applyPat_post hN hwf hg hbinds (EGraph.resize_length _ _)).elim a1
    dsimp only at g1 x1 l1 m1
    have m1 := m1 q het
    obtain ⟨u, hu⟩ := EGraph.inst_of_pmatch τ q m1
    have hkuu : K u u := hc u u ⟨u, hu, .inl ⟨rfl, rfl⟩⟩
    obtain ⟨in1, r1⟩ := InHull.applySteps hA (P := EntryOf p) (tl := q) (t := q) (fun q' hq' => .inl (entry_subterm hwf het (hlv w p (by simp)) hq'))
      (EGraph.applyPat_inst (L := [((0 : Nat), s)]) (c := 0) hN hwf (fun _ h => h) (by simp) hg hbinds (EGraph.resize_length _ _) a1) hin
      (fun c s' hcs => by
        simp only [List.mem_singleton, Prod.mk.injEq] at hcs
        obtain ⟨rfl, rfl⟩ := hcs
        exact ⟨τ, u, u, hτ, hu, hu, hkuu⟩)
    have hτ1 : ∀ v x, s.get v = some x → Rep eg1 x (τ v) := fun v x hx => r1 _ _ (hτ v x hx)
    have hru : Rep eg1 id1 u := g1.inv.pmatch_rep q m1 (fun v x _ hx => hτ1 v x hx) hu
    have hget : ∀ v, (Subst.insert s w id1).1.get v = if w = v then some id1 else s.get v := fun v => Subst.get_insert s w v id1
    have hold : (Subst.insert s w id1).2 = s.get w := Subst.insert_old s w id1
    have hvars : ∀ v ∈ applierVars asts (w :: bs), bound v := by
      intro v hv'
      refine hv v ?_
      unfold applierVars
      rw [List.mem_append]
      exact Or.inr hv'
    have hlv' : ∀ w p, (w, p) ∈ asts → ∀ k, k < p.length → Live p k := fun w p h => hlv w p (by simp [h])
    dsimp only at ha
    rw [hold] at ha
    cases hsw : s.get w with
    | some id2 =>
      have hbw : bound w := (hb w).2 ⟨id2, hsw⟩
      have hr2 := hτ1 w id2 hsw
      rw [hsw] at ha
      dsimp only at ha
      rw [bind_eq_ok] at ha
      obtain ⟨⟨eg2, did⟩, a2, ha⟩ := ha
      have hku : K u (τ w) := hK.symm (hc _ _ ⟨u, hu, .inr (.inl ⟨hbw, rfl, rfl⟩)⟩)
      obtain ⟨in2, x2⟩ := in1.union hA hru hr2 hku ⟨0, .inl a2⟩
      obtain ⟨g2, -, e2, -⟩ := (EGraph.Good.union_post (caller := 0) hN in1.good hru hr2 (Completion.base hku) trivial).1.elim a2
      have e2 : eg2.rt id1 = eg2.rt id2 := e2
      have hrep2 : ∀ v x, (Subst.insert s w id1).1.get v = some x → Rep eg2 x (τ v) := by
        intro v x hx
        rw [hget] at hx
        split at hx
        · next hvw =>
          subst hvw
          cases hx
          exact in2.good.inv.rep_congr (x2.lt l1) e2.symm (x2.rep g1.inv in2.good.inv _ hr2)
        · exact x2.rep g1.inv in2.good.inv _ (hτ1 v x hx)
      obtain ⟨k1, k2⟩ := ih rs h2 hlv' eg2 eg' (i + 1) (Subst.insert s w id1).1 buf1 _ ids bound τ (w :: bs) in2 (fun v => by
        rw [hget, hb]
        split
        · next hvw => subst hvw; exact ⟨fun _ => ⟨_, rfl⟩, fun _ => ⟨_, hsw⟩⟩
        · rfl) hrep2 (fun v hv' => by
        rcases List.mem_cons.1 hv' with rfl | hv'
        · exact hbw
        · exact hbs v hv') hvars (fun s t hst => hc s t ⟨u, hu, .inr (.inr (.inl ⟨hbw, hst⟩))⟩) ha
      exact ⟨k1, fun c t h => k2 c t (x2.rep g1.inv in2.good.inv _ (r1 c t h))⟩
    | none =>
      have hbw : ¬ bound w := by
        intro hbw
        obtain ⟨x, hx⟩ := (hb w).1 hbw
        rw [hsw] at hx; cases hx
      rw [hsw] at ha
      dsimp only at ha
      have hrep2 : ∀ v x, (Subst.insert s w id1).1.get v = some x → Rep eg1 x (if v = w then u else τ v) := by
        intro v x hx
        rw [hget] at hx
        split at hx
        · next hvw => subst hvw; cases hx; simpa using hru
        · next hvw => rw [if_neg (fun e => hvw e.symm)]; exact hτ1 v x hx
      obtain ⟨k1, k2⟩ := ih rs h2 hlv' eg1 eg' (i + 1) (Subst.insert s w id1).1 buf1 _ ids (fun v => bound v ∨ v = w) _ (w :: bs) in1 (fun v => by
        rw [hget]
        split
        · next hvw => subst hvw; exact ⟨fun _ => ⟨_, rfl⟩, fun _ => Or.inr rfl⟩
        · next hvw => rw [← hb]; exact ⟨fun h => h.elim id (fun e => absurd e.symm hvw), Or.inl⟩) hrep2 (fun v hv' => by
        rcases List.mem_cons.1 hv' with rfl | hv'
        · exact Or.inr rfl
        · exact Or.inl (hbs v hv')) (fun v hv' => Or.inl (hvars v hv'))
        (fun s t hst => hc s t ⟨u, hu, .inr (.inr (.inr ⟨hbw, hst⟩))⟩) ha
      exact ⟨k1, fun c t h => k2 c t (r1 c t h)⟩

/-- The bindings `s` may be used for the right-hand sides `rs`. -/
structure ReadyIn (K : Term Op → Term Op → Prop) (eg : EGraph Op D) (asts : List (Var × PatternAst Op)) (rs : List (Var × Term (PatOp Op)))
    (s : Subst) : Prop where
  bound : ∀ v ∈ applierVars asts [], ∃ x, s.get v = some x
  concl : ∃ τ : Var → Term Op, (∀ v x, s.get v = some x → Rep eg x (τ v)) ∧ ∀ u w, Concluded (fun v => ∃ x, s.get v = some x) τ rs u w → K u w

theorem ReadyIn.grow {asts : List (Var × PatternAst Op)} {rs : List (Var × Term (PatOp Op))} {s : Subst}
    (h : ReadyIn K eg asts rs s) (hx : ∀ c t, Rep eg c t → Rep eg' c t) : ReadyIn K eg' asts rs s := by
  obtain ⟨h1, τ, h2, h3⟩ := h
  exact ⟨h1, τ, fun v x hv => hx _ _ (h2 v x hv), h3⟩

section
variable {asts : List (Var × PatternAst Op)} {rs : List (Var × Term (PatOp Op))}

theorem applyMultiSubsts_inHull (hA : ∀ i, A.modify i = .done)
    (hf : List.Forall₂ (fun a b => a.1 = b.1 ∧ PatWF a.2 ∧ ExprTerm a.2 b.2) asts rs) (hlv : ∀ w p, (w, p) ∈ asts → ∀ k, k < p.length → Live p k) :
    ∀ (ss : List Subst) (eg eg' : EGraph Op D) (added ids : List Id), InHull K hK eg → (∀ s ∈ ss, ReadyIn K eg asts rs s) →
    MultiPattern.applySubsts (A.at depth) asts eg ss added = .ok (eg', ids) → InHull K hK eg' ∧ ∀ c t, Rep eg c t → Rep eg' c t := by
  intro ss
  induction ss with
  | nil => intro eg eg' added ids hg _ ha; cases ha; exact ⟨hg, fun _ _ h => h⟩
  | cons s ss ih =>
    intro eg eg' added ids hg hr ha
    unfold MultiPattern.applySubsts at ha
    rw [bind_eq_ok] at ha
    obtain ⟨⟨eg1, added1⟩, a1, ha⟩ := ha
    obtain ⟨hb, τ, h1, h2⟩ := hr s (by simp)
    obtain ⟨i1, x1⟩ := applyAsts_inHull hA asts rs hf hlv eg eg1 0 s [] added added1 _ τ [] hg (fun _ => Iff.rfl) h1 (by simp) hb h2 a1
    obtain ⟨i2, x2⟩ := ih eg1 eg' added1 ids i1 (fun s' hs' => (hr s' (by simp [hs'])).grow x1) ha
    exact ⟨i2, fun c t h => x2 c t (x1 c t h)⟩

theorem applyMulti_inHull (hA : ∀ i, A.modify i = .done)
    (hf : List.Forall₂ (fun a b => a.1 = b.1 ∧ PatWF a.2 ∧ ExprTerm a.2 b.2) asts rs) (hlv : ∀ w p, (w, p) ∈ asts → ∀ k, k < p.length → Live p k) :
    ∀ (ms : List (SearchMatches Op)) (eg eg' : EGraph Op D) (added ids : List Id), InHull K hK eg → (∀ c s, (c, s) ∈ flat ms → ReadyIn K eg asts rs s) →
    MultiPattern.applyMatchesGo (A.at depth) asts eg ms added = .ok (eg', ids) → InHull K hK eg' ∧ ∀ c t, Rep eg c t → Rep eg' c t := by
  intro ms
  induction ms with
  | nil => intro eg eg' added ids hg _ ha; cases ha; exact ⟨hg, fun _ _ h => h⟩
  | cons m ms ih =>
    intro eg eg' added ids hg hr ha
    unfold MultiPattern.applyMatchesGo at ha
    rw [bind_eq_ok] at ha
    obtain ⟨⟨eg1, added1⟩, a1, ha⟩ := ha
    obtain ⟨i1, x1⟩ := applyMultiSubsts_inHull hA hf hlv m.substs eg eg1 added added1 hg (fun s hs => hr m.eclass s (mem_flat.2 ⟨m, by simp, rfl, hs⟩)) a1
    obtain ⟨i2, x2⟩ := ih eg1 eg' added1 ids i1 (fun c s' hs' => by
      obtain ⟨m', h1, h2, h3⟩ := mem_flat.1 hs'
      exact (hr c s' (mem_flat.2 ⟨m', by simp [h1], h2, h3⟩)).grow x1) ha
    exact ⟨i2, fun c t h => x2 c t (x1 c t h)⟩

end

theorem TightMulti.inHull {rw' : Rewrite Op D} {ls rs : List (Var × Term (PatOp Op))} {i : Nat} {ms ms' : List (SearchMatches Op)} {ids : List Id}
    (hA : ∀ i, A.modify i = .done) (hN : env.analysis = A.at depth) (hord : ∀ i eg, (env.ord i eg).OK eg) (hd : DiscContiguous Op)
    (hr : TightMulti rw' ls rs) (hcl : ∀ s w, (Clause.horn ls rs).Derives (Equal egS) s w → K s w) (h : Hist (A.at depth) allow U egS) (hc : egS.clean = true)
    (hf : Found env i egS rw' ms) (hp : Part ms' ms) (hst : Steps (A.at depth) allow egS V eg)
    (ha : rw'.applier.applyMatches (A.at depth) eg ms' rw'.name = .ok (eg', ids)) (hu : InHull K hK eg) : InHull K hK eg' := by
  obtain ⟨lp, rp, hl, hfn, hlive, hr, hlv, hnew⟩ := hr
  obtain ⟨hv, hrw⟩ := rewrite_new_inv hnew
  have hs : rw'.searcher = lp.searcher := by rw [hrw]
  rw [hrw] at ha
  have ha : MultiPattern.applyMatchesGo (A.at depth) rp.asts eg ms' [] = .ok (eg', ids) := ha
  have hfnd := MultiRule.found hN hord hd hl hfn hs h hc hf hp
  have hg := hist_good h
  have hgr := (steps_grow hst hg).2
  obtain ⟨ordc, fuel, -, -, hf2⟩ := hr
  refine (applyMulti_inHull hA hf2 hlv ms' eg eg' [] ids hu (fun c s hcs => ?_) ha).1
  obtain ⟨hb, hm⟩ := hfnd c s hcs
  refine ReadyIn.grow (eg := egS) ⟨fun v hv' => (hb v).2 (hlive v (hv v hv')), ?_⟩ hgr.rep
  have hbind := multiMatch_binder hg hm
  have hlt : ∀ v x, s.get v = some x → x < egS.nodes.length := by
    intro v x hx
    obtain ⟨w, p, h1, h2⟩ := (hb v).1 ⟨x, hx⟩
    obtain ⟨y, h3, h4⟩ := hbind w p h1
    rcases h2 with rfl | h2
    · rw [hx] at h3; cases h3; exact hg.inv.pmatch_lt h4
    · obtain ⟨z, h5, h6⟩ := hg.inv.pmatch_bound p h4 v h2
      rw [hx] at h5; cases h5; exact h6
  have hne : ls ≠ [] := by rintro rfl; exact hm
  obtain ⟨⟨w, p⟩, ls', rfl⟩ := List.exists_cons_of_ne_nil hne
  obtain ⟨x, hx, hxp⟩ := hbind w p (by simp)
  obtain ⟨τ, hτ⟩ := EGraph.exists_assignment hg.inv hlt (hlt w x hx)
  refine ⟨τ, hτ, fun u w' hcon => hcl u w' ⟨τ, fun v q hvq => ?_, ?_⟩⟩
  · obtain ⟨y, h1, h2⟩ := hbind v q hvq
    obtain ⟨u, hu⟩ := EGraph.inst_of_pmatch τ q h2
    exact ⟨u, hu, y, hτ v y h1, hg.inv.pmatch_rep q h2 (fun v x _ hx => hτ v x hx) hu⟩
  · have e : (fun v => ∃ x, s.get v = some x) = fun v => MultiOccurs v ((w, p) :: ls') := by
      funext v; exact propext (hb v)
    rw [← e]
    exact hcon

/-! ### Runs -/

theorem IsTightClause.isClause {rw' : Rewrite Op D} {c : Clause Op} (h : IsTightClause rw' c) : IsClause rw' c := by
  cases c with
  | rewrite tl t => exact TightRule.pattern h
  | horn ls rs =>
    obtain ⟨lp, rp, h1, h2, h3, h4, -, h5⟩ := h
    exact ⟨lp, rp, h1, h2, h3, h4, h5⟩

theorem AreTightClauses.areClauses (h : AreTightClauses rules cs) : AreClauses rules cs :=
  ⟨fun rw' hrw => by obtain ⟨c, h1, h2⟩ := h.1 rw' hrw; exact ⟨c, h1, h2.isClause⟩,
    fun c hc => by obtain ⟨rw', h1, h2⟩ := h.2 c hc; exact ⟨rw', h1, h2.isClause⟩⟩

theorem Runner.applyEachRule_inHull {i : Nat} (hA : ∀ i, A.modify i = .done) (hN : env.analysis = A.at depth) (hord : ∀ i eg, (env.ord i eg).OK eg)
    (hd : DiscContiguous Op) (hs : sch.Honest env) (h : Hist (A.at depth) allow U egS) (hc : egS.clean = true)
    (hcl : ∀ c ∈ cs, ∀ s t, c.Derives (Equal egS) s t → K s t) :
    ∀ (l : List (Rewrite Op D × List (SearchMatches Op))) (r r1 : Runner Op D S H) (ap ap' : AMap Symbol Nat) (o : Option StopReason)
      (V : List (UnionRec Op)),
    (∀ rw' ms, (rw', ms) ∈ l → Found env i egS rw' ms ∧ ∃ c ∈ cs, IsTightClause rw' c) →
    Steps (A.at depth) allow egS V r.egraph → InHull K hK r.egraph →
    applyEachRule env sch l r ap = .ok (r1, ap', o) → InHull K hK r1.egraph := by
  intro l
  induction l with
  | nil => intro r r1 ap ap' o V _ _ hu h; cases h; exact hu
  | cons x l ih =>
    intro r r1 ap ap' o V hl hst hu ha
    obtain ⟨rw', ms⟩ := x
    unfold applyEachRule at ha
    rw [bind_eq_ok] at ha
    obtain ⟨⟨s, eg, n⟩, h1, ha⟩ := ha
    obtain ⟨ms', ids, h2, h3⟩ := hs.apply _ _ _ _ _ _ _ _ h1
    obtain ⟨hf, c, hm, hr⟩ := hl rw' ms (by simp)
    rw [hN] at h2
    obtain ⟨W, s1, -⟩ := hr.isClause.sound (allow := allow) hN hord hd _ egS i ms _ _ ms' _ _ h (fun _ _ => trivial) hc hf hst (fun _ _ => trivial) h3 h2
    have hu1 : InHull K hK eg := by
      cases c with
      | rewrite tl t => exact TightRule.inHull hA hN hord hd hr (hcl _ hm) h hc hf h3 hst h2 hu
      | horn ls rs => exact TightMulti.inHull hA hN hord hd hr (hcl _ hm) h hc hf h3 hst h2 hu
    dsimp only at ha
    split at ha
    · cases ha; exact hu1
    · exact ih _ r1 _ ap' o _ (fun a b hab => hl a b (by simp [hab])) (Steps.trans hst s1) hu1 ha

theorem Runner.runOne_inHull {r r4 : Runner Op D S H} (hA : ∀ i, A.modify i = .done) (hN : env.analysis = A.at depth) (hord : ∀ i eg, (env.ord i eg).OK eg)
    (hd : DiscContiguous Op) (hs : sch.Honest env) (hh : HooksRead hooks) (hr : ∀ rw' ∈ rules, ∃ c ∈ cs, IsTightClause rw' c)
    (hcl : ∀ c ∈ cs, ∀ s t, c.Derives (Equal r.egraph) s t → K s t) {it : Iteration}
    (h : Hist (A.at depth) allow U r.egraph) (hc : r.egraph.clean = true) (hu : InHull K hK r.egraph)
    (ho : runOne env sch hooks rules r = .ok (r4, it)) : InHull K hK r4.egraph ∧ r4.egraph.apending.queue = [] := by
  obtain ⟨_, r1, res1, r2, ms, r3, applied, res3, eg, nReb, quiet, p1, p2, p3, p4, p5, -⟩ := runOne_inv ho
  obtain ⟨f2, e2⟩ := searchPhase_frame p2
  obtain ⟨f4, e4⟩ := quietPhase_frame p5
  have e1 := hookPhase_read hh p1
  have hu3 : InHull K hK r3.egraph := by
    unfold applyPhase at p3
    split at p3
    · cases p3; rw [e2, e1]; exact hu
    next mss =>
    refine applyEachRule_inHull (i := r1.iterations.length) (egS := r1.egraph) hA hN hord hd hs (by rw [e1]; exact h) (by rw [e1]; exact hc) (by rw [e1]; exact hcl) _ r2 r3 _ _ _ []
      (fun rw' ms hm => ⟨?_, hr rw' (List.of_mem_zip hm).1⟩) (by rw [e2]; exact .refl) (by rw [e2, e1]; exact hu) p3
    unfold searchPhase at p2
    split at p2
    · cases p2
    rw [bind_eq_ok] at p2
    obtain ⟨⟨s, tick, ms0⟩, k1, k2⟩ := p2
    cases k2
    exact hs.search _ _ _ _ _ _ _ _ _ k1 rw' ms hm
  rw [hN] at p4
  rw [e4]
  exact ⟨hu3.rebuild hA p4, ((EGraph.rebuild_post trivial ((soundFor_of_quiet hA (Completion K) hK.total).hookOK trivial depth) _ hu3.good).elim p4).2.2.1.apending⟩

omit [DecidableEq Op] [Lang Op] in
theorem Chase.known {E : Term Op → Term Op → Prop} : ∀ (k : Nat) {s t : Term Op}, EqHull (Chase cs E k) s t → Chase cs E k s t
  | 0, _, _, h => h.idem
  | _ + 1, _, _, h => h.idem

omit [DecidableEq Op] [Lang Op] in
theorem Chase.step {E : Term Op → Term Op → Prop} {k : Nat} {s t : Term Op} (h : Chase cs E k s t) : Chase cs E (k + 1) s t := .base (.inl h)

omit [DecidableEq Op] [Lang Op] in
/-- A round at the start. -/
theorem Chase.unshift {E E' : Term Op → Term Op → Prop} (h0 : ∀ s t, E' s t → Chase cs E 1 s t) : ∀ (k : Nat) {s t : Term Op},
    Chase cs E' k s t → Chase cs E (k + 1) s t
  | 0, _, _, h => Chase.known 1 (h.mono h0)
  | k + 1, s, t, h => by
    refine EqHull.mono (fun s t hst => ?_) h
    rcases hst with hst | ⟨c, hc, hst⟩
    · exact .inl (Chase.unshift h0 k hst)
    · exact .inr ⟨c, hc, hst.mono (fun s t hst => Chase.unshift h0 k hst)⟩

omit [DecidableEq Op] [Lang Op] in
theorem Chase.start {E E' : Term Op → Term Op → Prop} (h0 : ∀ s t, E' s t → EqHull E s t) : ∀ (k : Nat) {s t : Term Op},
    Chase cs E' k s t → Chase cs E k s t
  | 0, _, _, h => (h.mono h0).idem
  | k + 1, s, t, h => by
    refine EqHull.mono (fun s t hst => ?_) h
    rcases hst with hst | ⟨c, hc, hst⟩
    · exact .inl (Chase.start h0 k hst)
    · exact .inr ⟨c, hc, hst.mono (fun s t hst => Chase.start h0 k hst)⟩

theorem Runner.runLoop_inHull (hA : ∀ i, A.modify i = .done) (hN : env.analysis = A.at depth) (hord : ∀ i eg, (env.ord i eg).OK eg) (hd : DiscContiguous Op)
    (hs : sch.Honest env) (hh : HooksRead hooks) (hr : ∀ rw' ∈ rules, ∃ c ∈ cs, IsTightClause rw' c) :
    ∀ (f : Nat) (r r' : Runner Op D S H) (U : List (UnionRec Op)), Hist (A.at depth) allow U r.egraph → r.egraph.clean = true →
    runLoop env sch hooks rules f r = .ok r' →
    ∀ s t, Equal r'.egraph s t → Chase cs (Equal r.egraph) (r'.iterations.length - r.iterations.length) s t := by
  intro f
  induction f with
  | zero => intro r r' U _ _ h; cases h
  | succ f ih =>
    intro r r' U h hc hl s t hst
    obtain ⟨fb, r1, it, e, hb1, hb2, hb3⟩ := runLoop_step hl
    cases e
    obtain ⟨cb, Vb, sb, -⟩ := runOne_sound (R := fun _ _ => True) hN hs
      (fun k hk h0 eg its h' eg' o hc he => by
        have := hh k hk _ _ _ _ _ _ he
        subst this
        exact ⟨hc, [], .refl, by simp⟩)
      (fun rw' hrw => by obtain ⟨c, -, q⟩ := hr rw' hrw; exact q.isClause.sound hN hord hd) h (fun _ _ => trivial) hc hb1
    have h1 : Hist (A.at depth) allow _ r1.egraph := Steps.trans h sb
    have one : ∀ s t, Equal r1.egraph s t → Chase cs (Equal r.egraph) 1 s t := fun s t hst =>
      (runOne_inHull (K := Chase cs (Equal r.egraph) 1) (hK := EqHull.pcong) hA hN hord hd hs hh hr
        (fun c hc s t hd => .base (.inr ⟨c, hc, hd.mono (fun _ _ h => .base h)⟩)) h hc
        (InHull.start hA h (fun s t hst => .base (.inl (.base hst)))) hb1).1.equal hst
    rcases hb3 with ⟨s, h2, rfl⟩ | ⟨_, _, _, _, _, _, _, e1, e2⟩ | ⟨_, hb4, hb5⟩
    · simp only [List.length_append, List.length_singleton, hb2, Nat.add_sub_cancel_left]
      exact one _ t hst
    · rw [e2, List.length_append, List.length_singleton, hb2, Nat.add_sub_cancel_left]
      rw [e1] at hst
      exact one s t hst
    · have q := ih _ r' _ (by exact h1) (by exact cb) hb5 s t hst
      have hgr := runLoop_grows _ hb5
      simp only [List.length_append, List.length_singleton, hb2] at q hgr
      have e : r'.iterations.length - r.iterations.length = (r'.iterations.length - (r.iterations.length + 1)) + 1 := by omega
      rw [e]
      exact Chase.unshift one _ q

end Egg
