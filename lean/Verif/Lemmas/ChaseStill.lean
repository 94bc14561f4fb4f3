import Verif.Lemmas.ChaseSound
import Verif.Props.Still
/-
A run does nothing once the rules derive nothing new.
-/
namespace Egg
variable {Op D S H : Type} [DecidableEq Op] [Lang Op]
variable {A : UserAnalysis Op D} {depth : Nat} {allow : Caller Op D} {U V W : List (UnionRec Op)}
variable {env : RunEnv Op D} {sch : Scheduler Op D S} {hooks : List (Hook Op D H)} {rules : List (Rewrite Op D)} {cs : List (Clause Op)}
  {egS eg eg' g M : EGraph Op D} {hM : Full M}

theorem Full.pcong (h : Full M) : PCong (Equal M) where
  symm := fun h1 => h.known (fun _ _ h => h) (.symm (.base h1))
  trans := fun h1 h2 => h.known (fun _ _ h => h) (.trans (.base h1) (.base h2))
  arg := fun h1 h2 => h.known (fun _ _ h => h) (.arg (.base h1) h2)
  congr := fun h1 h2 => h.known (fun _ _ h => h) (EqHull.pcong.congr (.base h1) (h2.imp (fun _ _ h => .base h)))

theorem Still.multiSteps (hA : ∀ i, A.modify i = .done) {P : Term (PatOp Op) → Prop} {tl t : Term (PatOp Op)} {ms : List (Id × Subst)}
    (hP : ∀ q, P q → Subterm q tl ∨ Subterm q t)
    {k : Nat} (hst : ApplySteps (A.at depth) P tl t ms eg k eg') (h : Still M hM eg)
    (hm : ∀ c s, (c, s) ∈ ms → ∃ (τ : Var → Term Op) (u w : Term Op), (∀ v x, s.get v = some x → Rep eg x (τ v)) ∧ Inst τ tl u ∧
      Inst τ t w ∧ Equal M u w) :
    Still M hM eg' ∧ ∀ c t, Rep eg c t → Rep eg' c t := by
  induction hst with
  | refl => exact ⟨h, fun _ _ h => h⟩
  | @add _ eg1 eg2 c s n ps i _ h1 h2 h3 h4 ih =>
    obtain ⟨u1, m1⟩ := ih
    obtain ⟨τ, u, w, hτ, hu, hw, hk⟩ := hm c s h1
    have hsub : ∃ vs, List.Forall₂ (Inst τ) ps vs ∧ Equal M (.node n.op vs) (.node n.op vs) := by
      rcases hP _ h2 with hq | hq
      · obtain ⟨v, k1, k2⟩ := inst_of_subterm hq hu
        obtain ⟨vs, rfl, hvs⟩ := inst_node_iff.1 k1
        exact ⟨vs, hvs, hM.pcong.subterm k2 (hM.pcong.left hk)⟩
      · obtain ⟨v, k1, k2⟩ := inst_of_subterm hq hw
        obtain ⟨vs, rfl, hvs⟩ := inst_node_iff.1 k1
        exact ⟨vs, hvs, hM.pcong.subterm k2 (hM.pcong.right hk)⟩
    obtain ⟨vs, hvs, hd'⟩ := hsub
    have hr : List.Forall₂ (Rep eg1) n.children vs := forall₂_comp h3 hvs (fun a p v _ _ _ hap hpv =>
      u1.under.good.inv.pmatch_rep _ hap (fun v x _ hv => m1 _ _ (hτ v x hv)) hpv)
    obtain ⟨u2, x2⟩ := u1.add hA hr hd'.choose_spec.1 h4
    exact ⟨u2, fun c t hc => x2.rep u1.under.good.inv u2.under.good.inv t (m1 c t hc)⟩
  | @union _ eg1 eg2 c s i j did _ h1 h2 h3 h4 _ ih =>
    obtain ⟨u1, m1⟩ := ih
    obtain ⟨τ, u, w, hτ, hu, hw, hk⟩ := hm c s h1
    have r1 : Rep eg1 i w := u1.under.good.inv.pmatch_rep _ h2 (fun v x _ hv => m1 _ _ (hτ v x hv)) hw
    have r2 : Rep eg1 j u := u1.under.good.inv.pmatch_rep _ h3 (fun v x _ hv => m1 _ _ (hτ v x hv)) hu
    obtain ⟨u2, x2, -⟩ : Still M hM eg2 ∧ EGraph.Ext eg1 eg2 ∧ True := by
      obtain ⟨d, hdu, hdw⟩ := hk
      rcases h4 with h4 | h4
      · exact (u1.union hA r1 r2 hdw hdu h4).imp_right (·.imp_right (fun _ => trivial))
      · exact (u1.union hA r2 r1 hdu hdw h4).imp_right (·.imp_right (fun _ => trivial))
    exact ⟨u2, fun c t hc => x2.rep u1.under.good.inv u2.under.good.inv t (m1 c t hc)⟩

theorem TightRule.multiStill {rw' : Rewrite Op D} {tl t : Term (PatOp Op)} {i : Nat} {ms ms' : List (SearchMatches Op)} {ids : List Id}
    (hA : ∀ i, A.modify i = .done) (hN : env.analysis = A.at depth) (hord : ∀ i eg, (env.ord i eg).OK eg) (hd : DiscContiguous Op)
    (hr : TightRule rw' tl t) (hcl : ∀ s w, (Clause.rewrite tl t).Derives (Equal egS) s w → Equal M s w) (h : Hist (A.at depth) allow U egS) (hc : egS.clean = true)
    (hf : Found env i egS rw' ms) (hp : Part ms' ms) (hst : Steps (A.at depth) allow egS V eg)
    (ha : rw'.applier.applyMatches (A.at depth) eg ms' rw'.name = .ok (eg', ids)) (hu : Still M hM eg) : Still M hM eg' := by
  obtain ⟨lp, rp, hl, hll, hlive, hr, hrl, hnew⟩ := hr
  obtain ⟨hv, hrw⟩ := rewrite_new_inv hnew
  have hap := found_applicable hN hord hd hl hlive hv (by rw [hrw]) h hc hf hp hst
  have hast : ∀ m ∈ ms', m.ast = some lp.ast := by
    intro m hm
    rcases hf with rfl | ⟨limit, ms0, f1, f2⟩
    · rw [hp.nil] at hm; cases hm
    rw [hrw, hN] at f1
    obtain ⟨m1, g1, _, g3, _⟩ := (hp.trans f2) m hm
    rw [g3]; exact search_ast f1 m1 g1
  rw [hrw] at ha
  have hsteps := applyMatches_inst (Steps.trans h hst) hr hap (rule := rw'.name) ha
  have hap0 := found_applicable hN hord hd hl hlive hv (by rw [hrw]) h hc hf hp .refl
  have hg := hist_good h
  have gr := (steps_grow hst hg).2
  refine (Still.multiSteps hA (fun q hq => ?_) hsteps hu (fun c s hcs => ?_)).1
  · rcases hq with hq | ⟨_, m, hm, l, hl', hq⟩
    · exact Or.inr (entry_subterm hr.wf.1 hr.wf.2 hrl hq)
    · rw [hast m hm] at hl'
      cases hl'
      exact Or.inl (entry_subterm hl.wf.1 hl.wf.2 hll hq)
  · have hm := hap0.pmatch c s hcs
    obtain ⟨τ, hτ⟩ := EGraph.exists_assignment hg.inv (fun v x hx => hg.valid_iff.1 (hap0.valid c s hcs v x hx)) (hg.inv.pmatch_lt hm)
    obtain ⟨u, hu⟩ := EGraph.inst_of_pmatch τ _ hm
    obtain ⟨w, hw⟩ := inst_exists hr.wf.1 τ t _ hr.wf.2.2
    have hur := hg.inv.pmatch_rep _ hm (fun v x _ hv => hτ v x hv) hu
    exact ⟨τ, u, w, fun v x hx => gr.rep _ _ (hτ v x hx), hu, hw, hcl u w ⟨τ, hu, hw, c, hur, hur⟩⟩

/-- The right-hand sides of a multi-pattern rule. -/
theorem applyAsts_multiStill (hA : ∀ i, A.modify i = .done) :
    ∀ (asts : List (Var × PatternAst Op)) (rs : List (Var × Term (PatOp Op)))
      (_ : List.Forall₂ (fun a b => a.1 = b.1 ∧ PatWF a.2 ∧ ExprTerm a.2 b.2) asts rs) (_ : ∀ w p, (w, p) ∈ asts → ∀ k, k < p.length → Live p k)
      (eg eg' : EGraph Op D) (i : Nat) (s : Subst) (buf added : List Id) (ids : List Id) (bound : Var → Prop) (τ : Var → Term Op) (bs : List Var),
    Still M hM eg → (∀ v, bound v ↔ ∃ x, s.get v = some x) → (∀ v x, s.get v = some x → Rep eg x (τ v)) →
    (∀ v ∈ bs, bound v) → (∀ v ∈ applierVars asts bs, bound v) → (∀ s t, Concluded bound τ rs s t → Equal M s t) →
    MultiPattern.applyAsts (A.at depth) eg asts i s buf added = .ok (eg', ids) → Still M hM eg' ∧ ∀ c t, Rep eg c t → Rep eg' c t := by
  have hN := (soundFor_of_quiet hA (RelIn M) hM.cong).hookOK trivial depth
  intro asts
  induction asts with
  | nil =>
    intro rs hf _ eg eg' i s buf added ids bound τ bs hg hb hτ _ _ _ ha
    cases ha
    exact ⟨hg, fun _ _ h => h⟩
  | cons a asts ih =>
    intro rs hf hlv eg eg' i s buf added ids bound τ bs hin hb hτ hbs hv hc ha
    obtain ⟨w, p⟩ := a
    cases hf with
    | @cons _ b _ rs h1 h2 =>
    obtain ⟨w', q⟩ := b
    obtain ⟨rfl, hwf, het⟩ := h1
    have hg := hin.under.good
    have hwf : PatWF p := hwf
    have het : ExprTerm p q := het
    have hlt : ∀ v x, s.get v = some x → x < eg.nodes.length := fun v x hx => hg.inv.rep_lt (hτ v x hx)
    have hbinds : EGraph.Binds eg s p := by
      intro n hn v hnv
      have hvb : bound v := by
        by_cases hvbs : v ∈ bs
        · exact hbs v hvbs
        · refine hv v ?_
          unfold applierVars
          rw [List.mem_append]
          left
          rw [List.mem_filter]
          refine ⟨?_, by simpa using hvbs⟩
          unfold nodeVars
          rw [List.mem_filterMap]
          exact ⟨n, hn, by simp only [hnv]⟩
      obtain ⟨x, hx⟩ := (hb v).1 hvb
      exact ⟨x, hx, hlt v x hx⟩
    unfold MultiPattern.applyAsts at ha
    rw [bind_eq_ok] at ha
    obtain ⟨⟨eg1, buf1, id1⟩, a1, ha⟩ := ha
    obtain ⟨g1, x1, -, l1, m1⟩ := (EGraph.applyPat_post hN hwf hg hbinds (EGraph.resize_length _ _)).elim a1
    dsimp only at g1 x1 l1 m1
    have m1 := m1 q het
    obtain ⟨u, hu⟩ := EGraph.inst_of_pmatch τ q m1
    have hkuu : Equal M u u := hc u u ⟨u, hu, .inl ⟨rfl, rfl⟩⟩
    obtain ⟨in1, r1⟩ := Still.multiSteps hA (P := EntryOf p) (tl := q) (t := q) (fun q' hq' => .inl (entry_subterm hwf het (hlv w p (by simp)) hq'))
      (EGraph.applyPat_inst (L := [((0 : Nat), s)]) (c := 0) hN hwf (fun _ h => h) (by simp) hg hbinds (EGraph.resize_length _ _) a1) hin
      (fun c s' hcs => by
        simp only [List.mem_singleton, Prod.mk.injEq] at hcs
        obtain ⟨rfl, rfl⟩ := hcs
        exact ⟨τ, u, u, hτ, hu, hu, hkuu⟩)
    have hτ1 : ∀ v x, s.get v = some x → Rep eg1 x (τ v) := fun v x hx => r1 _ _ (hτ v x hx)
    have hru : Rep eg1 id1 u := g1.inv.pmatch_rep q m1 (fun v x _ hx => hτ1 v x hx) hu
    have hget : ∀ v, (Subst.insert s w id1).1.get v = if w = v then some id1 else s.get v := fun v => Subst.get_insert s w v id1
    have hold : (Subst.insert s w id1).2 = s.get w := Subst.insert_old s w id1
    have hvars : ∀ v ∈ applierVars asts (w :: bs), bound v := by
      intro v hv'
      refine hv v ?_
      unfold applierVars
      rw [List.mem_append]
      exact Or.inr hv'
    have hlv' : ∀ w p, (w, p) ∈ asts → ∀ k, k < p.length → Live p k := fun w p h => hlv w p (by simp [h])
    dsimp only at ha
    rw [hold] at ha
    cases hsw : s.get w with
    | some id2 =>
      have hbw : bound w := (hb w).2 ⟨id2, hsw⟩
      have hr2 := hτ1 w id2 hsw
      rw [hsw] at ha
      dsimp only at ha
      rw [bind_eq_ok] at ha
      obtain ⟨⟨eg2, did⟩, a2, ha⟩ := ha
      have hku : Equal M u (τ w) := hM.pcong.symm (hc _ _ ⟨u, hu, .inr (.inl ⟨hbw, rfl, rfl⟩)⟩)
      obtain ⟨d, hd1, hd2⟩ := hku
      obtain ⟨in2, x2, -⟩ := in1.union hA hru hr2 hd1 hd2 ⟨0, .inl a2⟩
      obtain ⟨g2, -, e2, -⟩ := (EGraph.Good.union_post (caller := 0) hN in1.under.good hru hr2 (hM.rel hd1 hd2) trivial).1.elim a2
      have e2 : eg2.rt id1 = eg2.rt id2 := e2
      have hrep2 : ∀ v x, (Subst.insert s w id1).1.get v = some x → Rep eg2 x (τ v) := by
        intro v x hx
        rw [hget] at hx
        split at hx
        · next hvw =>
          subst hvw
          cases hx
          exact in2.under.good.inv.rep_congr (x2.lt l1) e2.symm (x2.rep g1.inv in2.under.good.inv _ hr2)
        · exact x2.rep g1.inv in2.under.good.inv _ (hτ1 v x hx)
      obtain ⟨k1, k2⟩ := ih rs h2 hlv' eg2 eg' (i + 1) (Subst.insert s w id1).1 buf1 _ ids bound τ (w :: bs) in2 (fun v => by
        rw [hget, hb]
        split
        · next hvw => subst hvw; exact ⟨fun _ => ⟨_, rfl⟩, fun _ => ⟨_, hsw⟩⟩
        · rfl) hrep2 (fun v hv' => by
        rcases List.mem_cons.1 hv' with rfl | hv'
        · exact hbw
        · exact hbs v hv') hvars (fun s t hst => hc s t ⟨u, hu, .inr (.inr (.inl ⟨hbw, hst⟩))⟩) ha
      exact ⟨k1, fun c t h => k2 c t (x2.rep g1.inv in2.under.good.inv _ (r1 c t h))⟩
    | none =>
      have hbw : ¬ bound w := by
        intro hbw
        obtain ⟨x, hx⟩ := (hb w).1 hbw
        rw [hsw] at hx; cases hx
      rw [hsw] at ha
      dsimp only at ha
      have hrep2 : ∀ v x, (Subst.insert s w id1).1.get v = some x → Rep eg1 x (if v = w then u else τ v) := by
        intro v x hx
        rw [hget] at hx
        split at hx
        · next hvw => subst hvw; cases hx; simpa using hru
        · next hvw => rw [if_neg (fun e => hvw e.symm)]; exact hτ1 v x hx
      obtain ⟨k1, k2⟩ := ih rs h2 hlv' eg1 eg' (i + 1) (Subst.insert s w id1).1 buf1 _ ids (fun v => bound v ∨ v = w) _ (w :: bs) in1 (fun v => by
        rw [hget]
        split
        · next hvw => subst hvw; exact ⟨fun _ => ⟨_, rfl⟩, fun _ => Or.inr rfl⟩
        · next hvw => rw [← hb]; exact ⟨fun h => h.elim id (fun e => absurd e.symm hvw), Or.inl⟩) hrep2 (fun v hv' => by
        rcases List.mem_cons.1 hv' with rfl | hv'
        · exact Or.inr rfl
        · exact Or.inl (hbs v hv')) (fun v hv' => Or.inl (hvars v hv'))
        (fun s t hst => hc s t ⟨u, hu, .inr (.inr (.inr ⟨hbw, hst⟩))⟩) ha
      exact ⟨k1, fun c t h => k2 c t (r1 c t h)⟩

section
variable {asts : List (Var × PatternAst Op)} {rs : List (Var × Term (PatOp Op))}

theorem applyMultiSubsts_multiStill (hA : ∀ i, A.modify i = .done)
    (hf : List.Forall₂ (fun a b => a.1 = b.1 ∧ PatWF a.2 ∧ ExprTerm a.2 b.2) asts rs) (hlv : ∀ w p, (w, p) ∈ asts → ∀ k, k < p.length → Live p k) :
    ∀ (ss : List Subst) (eg eg' : EGraph Op D) (added ids : List Id), Still M hM eg → (∀ s ∈ ss, ReadyIn (Equal M) eg asts rs s) →
    MultiPattern.applySubsts (A.at depth) asts eg ss added = .ok (eg', ids) → Still M hM eg' ∧ ∀ c t, Rep eg c t → Rep eg' c t := by
  intro ss
  induction ss with
  | nil => intro eg eg' added ids hg _ ha; cases ha; exact ⟨hg, fun _ _ h => h⟩
  | cons s ss ih =>
    intro eg eg' added ids hg hr ha
    unfold MultiPattern.applySubsts at ha
    rw [bind_eq_ok] at ha
    obtain ⟨⟨eg1, added1⟩, a1, ha⟩ := ha
    obtain ⟨hb, τ, h1, h2⟩ := hr s (by simp)
    obtain ⟨i1, x1⟩ := applyAsts_multiStill hA asts rs hf hlv eg eg1 0 s [] added added1 _ τ [] hg (fun _ => Iff.rfl) h1 (by simp) hb h2 a1
    obtain ⟨i2, x2⟩ := ih eg1 eg' added1 ids i1 (fun s' hs' => (hr s' (by simp [hs'])).grow x1) ha
    exact ⟨i2, fun c t h => x2 c t (x1 c t h)⟩

theorem applyMulti_multiStill (hA : ∀ i, A.modify i = .done)
    (hf : List.Forall₂ (fun a b => a.1 = b.1 ∧ PatWF a.2 ∧ ExprTerm a.2 b.2) asts rs) (hlv : ∀ w p, (w, p) ∈ asts → ∀ k, k < p.length → Live p k) :
    ∀ (ms : List (SearchMatches Op)) (eg eg' : EGraph Op D) (added ids : List Id), Still M hM eg → (∀ c s, (c, s) ∈ flat ms → ReadyIn (Equal M) eg asts rs s) →
    MultiPattern.applyMatchesGo (A.at depth) asts eg ms added = .ok (eg', ids) → Still M hM eg' ∧ ∀ c t, Rep eg c t → Rep eg' c t := by
  intro ms
  induction ms with
  | nil => intro eg eg' added ids hg _ ha; cases ha; exact ⟨hg, fun _ _ h => h⟩
  | cons m ms ih =>
    intro eg eg' added ids hg hr ha
    unfold MultiPattern.applyMatchesGo at ha
    rw [bind_eq_ok] at ha
    obtain ⟨⟨eg1, added1⟩, a1, ha⟩ := ha
    obtain ⟨i1, x1⟩ := applyMultiSubsts_multiStill hA hf hlv m.substs eg eg1 added added1 hg (fun s hs => hr m.eclass s (mem_flat.2 ⟨m, by simp, rfl, hs⟩)) a1
    obtain ⟨i2, x2⟩ := ih eg1 eg' added1 ids i1 (fun c s' hs' => by
      obtain ⟨m', h1, h2, h3⟩ := mem_flat.1 hs'
      exact (hr c s' (mem_flat.2 ⟨m', by simp [h1], h2, h3⟩)).grow x1) ha
    exact ⟨i2, fun c t h => x2 c t (x1 c t h)⟩

end

theorem TightMulti.multiStill {rw' : Rewrite Op D} {ls rs : List (Var × Term (PatOp Op))} {i : Nat} {ms ms' : List (SearchMatches Op)} {ids : List Id}
    (hA : ∀ i, A.modify i = .done) (hN : env.analysis = A.at depth) (hord : ∀ i eg, (env.ord i eg).OK eg) (hd : DiscContiguous Op)
    (hr : TightMulti rw' ls rs) (hcl : ∀ s w, (Clause.horn ls rs).Derives (Equal egS) s w → Equal M s w) (h : Hist (A.at depth) allow U egS) (hc : egS.clean = true)
    (hf : Found env i egS rw' ms) (hp : Part ms' ms) (hst : Steps (A.at depth) allow egS V eg)
    (ha : rw'.applier.applyMatches (A.at depth) eg ms' rw'.name = .ok (eg', ids)) (hu : Still M hM eg) : Still M hM eg' := by
  obtain ⟨lp, rp, hl, hfn, hlive, hr, hlv, hnew⟩ := hr
  obtain ⟨hv, hrw⟩ := rewrite_new_inv hnew
  have hs : rw'.searcher = lp.searcher := by rw [hrw]
  rw [hrw] at ha
  have ha : MultiPattern.applyMatchesGo (A.at depth) rp.asts eg ms' [] = .ok (eg', ids) := ha
  have hfnd := MultiRule.found hN hord hd hl hfn hs h hc hf hp
  have hg := hist_good h
  have hgr := (steps_grow hst hg).2
  obtain ⟨ordc, fuel, -, -, hf2⟩ := hr
  refine (applyMulti_multiStill hA hf2 hlv ms' eg eg' [] ids hu (fun c s hcs => ?_) ha).1
  obtain ⟨hb, hm⟩ := hfnd c s hcs
  refine ReadyIn.grow (eg := egS) ⟨fun v hv' => (hb v).2 (hlive v (hv v hv')), ?_⟩ hgr.rep
  have hbind := multiMatch_binder hg hm
  have hlt : ∀ v x, s.get v = some x → x < egS.nodes.length := by
    intro v x hx
    obtain ⟨w, p, h1, h2⟩ := (hb v).1 ⟨x, hx⟩
    obtain ⟨y, h3, h4⟩ := hbind w p h1
    rcases h2 with rfl | h2
    · rw [hx] at h3; cases h3; exact hg.inv.pmatch_lt h4
    · obtain ⟨z, h5, h6⟩ := hg.inv.pmatch_bound p h4 v h2
      rw [hx] at h5; cases h5; exact h6
  have hne : ls ≠ [] := by rintro rfl; exact hm
  obtain ⟨⟨w, p⟩, ls', rfl⟩ := List.exists_cons_of_ne_nil hne
  obtain ⟨x, hx, hxp⟩ := hbind w p (by simp)
  obtain ⟨τ, hτ⟩ := EGraph.exists_assignment hg.inv hlt (hlt w x hx)
  refine ⟨τ, hτ, fun u w' hcon => hcl u w' ⟨τ, fun v q hvq => ?_, ?_⟩⟩
  · obtain ⟨y, h1, h2⟩ := hbind v q hvq
    obtain ⟨u, hu⟩ := EGraph.inst_of_pmatch τ q h2
    exact ⟨u, hu, y, hτ v y h1, hg.inv.pmatch_rep q h2 (fun v x _ hx => hτ v x hx) hu⟩
  · have e : (fun v => ∃ x, s.get v = some x) = fun v => MultiOccurs v ((w, p) :: ls') := by
      funext v; exact propext (hb v)
    rw [← e]
    exact hcon

theorem Runner.applyEachRule_multiStill {i : Nat} (hA : ∀ i, A.modify i = .done) (hN : env.analysis = A.at depth) (hord : ∀ i eg, (env.ord i eg).OK eg)
    (hd : DiscContiguous Op) (hs : sch.Honest env) (h : Hist (A.at depth) allow U egS) (hc : egS.clean = true)
    (hcl : ∀ c ∈ cs, ∀ s t, c.Derives (Equal egS) s t → Equal M s t) :
    ∀ (l : List (Rewrite Op D × List (SearchMatches Op))) (r r1 : Runner Op D S H) (ap ap' : AMap Symbol Nat) (o : Option StopReason)
      (V : List (UnionRec Op)),
    (∀ rw' ms, (rw', ms) ∈ l → Found env i egS rw' ms ∧ ∃ c ∈ cs, IsTightClause rw' c) →
    Steps (A.at depth) allow egS V r.egraph → Still M hM r.egraph →
    applyEachRule env sch l r ap = .ok (r1, ap', o) → Still M hM r1.egraph := by
  intro l
  induction l with
  | nil => intro r r1 ap ap' o V _ _ hu h; cases h; exact hu
  | cons x l ih =>
    intro r r1 ap ap' o V hl hst hu ha
    obtain ⟨rw', ms⟩ := x
    unfold applyEachRule at ha
    rw [bind_eq_ok] at ha
    obtain ⟨⟨s, eg, n⟩, h1, ha⟩ := ha
    obtain ⟨ms', ids, h2, h3⟩ := hs.apply _ _ _ _ _ _ _ _ h1
    obtain ⟨hf, c, hm, hr⟩ := hl rw' ms (by simp)
    rw [hN] at h2
    obtain ⟨W, s1, -⟩ := hr.isClause.sound (allow := allow) hN hord hd _ egS i ms _ _ ms' _ _ h (fun _ _ => trivial) hc hf hst (fun _ _ => trivial) h3 h2
    have hu1 : Still M hM eg := by
      cases c with
      | rewrite tl t => exact TightRule.multiStill hA hN hord hd hr (hcl _ hm) h hc hf h3 hst h2 hu
      | horn ls rs => exact TightMulti.multiStill hA hN hord hd hr (hcl _ hm) h hc hf h3 hst h2 hu
    dsimp only at ha
    split at ha
    · cases ha; exact hu1
    · exact ih _ r1 _ ap' o _ (fun a b hab => hl a b (by simp [hab])) (Steps.trans hst s1) hu1 ha

theorem Runner.runOne_multiStill {r r4 : Runner Op D S H} (hA : ∀ i, A.modify i = .done) (hN : env.analysis = A.at depth) (hord : ∀ i eg, (env.ord i eg).OK eg)
    (hd : DiscContiguous Op) (hs : sch.Honest env) (hh : HooksRead hooks) (hr : ∀ rw' ∈ rules, ∃ c ∈ cs, IsTightClause rw' c)
    (hcl : ∀ c ∈ cs, ∀ s t, c.Derives (Equal r.egraph) s t → Equal M s t) {it : Iteration}
    (h : Hist (A.at depth) allow U r.egraph) (hc : r.egraph.clean = true) (hu : Still M hM r.egraph)
    (ho : runOne env sch hooks rules r = .ok (r4, it)) : Still M hM r4.egraph ∧ it.egraphNodes = M.totalSize ∧ it.egraphClasses = M.numberOfClasses := by
  obtain ⟨_, r1, res1, r2, ms, r3, applied, res3, eg, nReb, quiet, p1, p2, p3, p4, p5, -, a2, a3, -⟩ := runOne_inv ho
  obtain ⟨f2, e2⟩ := searchPhase_frame p2
  obtain ⟨f4, e4⟩ := quietPhase_frame p5
  have e1 := hookPhase_read hh p1
  have hu3 : Still M hM r3.egraph := by
    unfold applyPhase at p3
    split at p3
    · cases p3; rw [e2, e1]; exact hu
    next mss =>
    refine applyEachRule_multiStill (i := r1.iterations.length) (egS := r1.egraph) hA hN hord hd hs (by rw [e1]; exact h) (by rw [e1]; exact hc) (by rw [e1]; exact hcl) _ r2 r3 _ _ _ []
      (fun rw' ms hm => ⟨?_, hr rw' (List.of_mem_zip hm).1⟩) (by rw [e2]; exact .refl) (by rw [e2, e1]; exact hu) p3
    unfold searchPhase at p2
    split at p2
    · cases p2
    rw [bind_eq_ok] at p2
    obtain ⟨⟨s, tick, ms0⟩, k1, k2⟩ := p2
    cases k2
    exact hs.search _ _ _ _ _ _ _ _ _ k1 rw' ms hm
  rw [hN] at p4
  rw [e4]
  have hu4 := (hu3.rebuild hA p4).1
  exact ⟨hu4, by rw [a2, hu.size], by rw [a3, hu.classes]⟩

theorem Still.equal (h : Still M hM eg) {s t : Term Op} : Equal eg s t ↔ Equal M s t := by
  constructor
  · rintro ⟨c, h1, h2⟩
    obtain ⟨d, h3, h4⟩ := h.under.below c s t h1 h2
    exact ⟨d, h3, h4⟩
  · rintro ⟨c, h1, h2⟩
    exact ⟨c, h.kept c s h1, h.kept c t h2⟩

omit [DecidableEq Op] [Lang Op] in
/-- When a round derives nothing new, neither does the next one. -/
theorem Chase.stable {E : Term Op → Term Op → Prop} {k : Nat} (h : ∀ s t, Chase cs E (k + 1) s t → Chase cs E k s t) :
    ∀ s t, Chase cs E (k + 2) s t → Chase cs E (k + 1) s t := by
  intro s t hst
  refine EqHull.mono (fun s t hst => ?_) hst
  rcases hst with hst | ⟨c, hc, hst⟩
  · exact .inl (h s t hst)
  · exact .inr ⟨c, hc, hst.mono h⟩

theorem Runner.runLoop_closes (hA : ∀ i, A.modify i = .done) (hN : env.analysis = A.at depth) (hord : ∀ i eg, (env.ord i eg).OK eg) (hd : DiscContiguous Op)
    (hcyc : (A.at depth).allowCycles = true) (hs : sch.Eager env) (hlim : sch.Limited env) (hh : HooksRead hooks) (hr : AreTightClauses rules cs) :
    ∀ (f k : Nat) (r r' : Runner Op D S H) (U : List (UnionRec Op)), Hist (A.at depth) allow U r.egraph → r.egraph.clean = true → r.egraph.apending.queue = [] →
    (∀ k rk, Runner.after env sch hooks rules k r = some rk → ∀ rw' ∈ rules, FitsAny env rk.egraph rw') →
    runLoop env sch hooks rules f r = .ok r' →
    (∀ s t, Chase cs (Equal r.egraph) (k + 1) s t → Chase cs (Equal r.egraph) k s t) → r.iterations.length + k < r'.iterations.length →
    (∀ s t, Equal r'.egraph s t ↔ Chase cs (Equal r.egraph) k s t) ∧
    ∃ it, r'.iterations.getLast? = some it ∧ it.egraphNodes = r'.egraph.totalSize ∧ it.egraphClasses = r'.egraph.numberOfClasses := by
  intro f
  induction f with
  | zero => intro k r r' U _ _ _ _ h; cases h
  | succ f ih =>
    intro k r r' U h hc hap hfit hl hcl hlen
    obtain ⟨fb, r1, it, e, hb1, hb2, hb3⟩ := runLoop_step hl
    cases e
    obtain ⟨cb, ⟨Vb, sb⟩, hD⟩ := runOne_derives hN hord hd hcyc hs hlim hh hr.areClauses h hc (hfit 0 r rfl) hb1
    have h1 : Hist (A.at depth) allow _ r1.egraph := Steps.trans h sb
    have hF := Full.of_hist h1 cb
    have hF0 := Full.of_hist h hc
    have gr := (steps_grow sb (hist_good h)).2
    have h0 : ∀ s t, EqHull (Equal r.egraph) s t → Equal r.egraph s t := fun s t hst => hF0.known (fun _ _ h => h) hst
    obtain ⟨hin, hap1⟩ := runOne_inHull (K := Chase cs (Equal r.egraph) 1) (hK := EqHull.pcong) hA hN hord hd hs.honest hh hr.1
      (fun c hc s t hd => .base (.inr ⟨c, hc, hd.mono (fun _ _ h => .base h)⟩)) h hc
      (InHull.start hA h (fun s t hst => .base (.inl (.base hst)))) hb1
    have up : ∀ s t, Equal r1.egraph s t → Chase cs (Equal r.egraph) 1 s t := fun s t hst => hin.equal hst
    -- the last iteration
    have last : r'.egraph = r1.egraph → r'.iterations = r.iterations ++ [it] → (∀ s t, Equal r'.egraph s t ↔ Chase cs (Equal r.egraph) k s t) ∧
        ∃ it, r'.iterations.getLast? = some it ∧ it.egraphNodes = r'.egraph.totalSize ∧ it.egraphClasses = r'.egraph.numberOfClasses := by
      intro e1 e2
      rw [e2, List.length_append, List.length_singleton] at hlen
      have : k = 0 := by omega
      subst this
      obtain ⟨q1, q2, q3⟩ := runOne_multiStill (hM := hF0) hA hN hord hd hs.honest hh hr.1
        (fun c hcm s t hst => h0 s t (hcl s t (.base (.inr ⟨c, hcm, hst.mono (fun _ _ h => .base h)⟩)))) h hc (Still.start hA h hc hap) hb1
      rw [e1, e2]
      refine ⟨fun s t => q1.equal.trans ⟨.base, h0 s t⟩, it, by simp, by rw [q2, q1.size], by rw [q3, q1.classes]⟩
    rcases hb3 with ⟨s, h2, rfl⟩ | ⟨_, _, _, _, _, _, _, e1, e2⟩ | ⟨hb6, hb4, hb5⟩
    · exact last rfl (by rw [← hb2])
    · exact last e1 (by rw [e2, hb2])
    · have hD := hD (.inl hb6)
      have one : ∀ s t, Chase cs (Equal r.egraph) 1 s t → Equal r1.egraph s t := by
        intro s t hst
        refine hF.known (fun s t hst => ?_) hst
        rcases hst with hst | ⟨c, hcm, hst⟩
        · exact gr.equal (h0 s t hst)
        · exact hD c hcm s t (hst.mono h0)
      have hgr := runLoop_grows _ hb5
      simp only [List.length_append, List.length_singleton, hb2] at hgr
      have shift : ∀ j s t, Chase cs (Equal r1.egraph) j s t ↔ Chase cs (Equal r.egraph) (j + 1) s t := fun j s t =>
        ⟨Chase.unshift up j, Chase.shift (fun s t h => .base (one s t h)) j⟩
      cases k with
      | zero =>
        obtain ⟨q1, q2⟩ := ih 0 _ r' _ (by exact h1) (by exact cb) (by exact hap1) (fun k bk hk => hfit (k + 1) bk (after_succ hb4 hk)) hb5
          (fun s t hst => (shift 0 s t).2 (Chase.stable hcl s t ((shift 1 s t).1 hst))) (by
            simp only [List.length_append, List.length_singleton, hb2]
            omega)
        refine ⟨fun s t => (q1 s t).trans ((shift 0 s t).trans ⟨hcl s t, Chase.step⟩), q2⟩
      | succ k =>
        obtain ⟨q1, q2⟩ := ih k _ r' _ (by exact h1) (by exact cb) (by exact hap1) (fun k bk hk => hfit (k + 1) bk (after_succ hb4 hk)) hb5
          (fun s t hst => (shift k s t).2 (hcl s t ((shift (k + 1) s t).1 hst))) (by
            simp only [List.length_append, List.length_singleton, hb2]
            omega)
        exact ⟨fun s t => (q1 s t).trans (shift k s t), q2⟩

end Egg
