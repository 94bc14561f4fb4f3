import Verif.Lemmas.ApplySteps
import Verif.Lemmas.NodesKept
import Verif.Lemmas.Closed
import Verif.Lemmas.Lookup
import Verif.Props.Rebuild
import Verif.Props.Match
/-
Staying below an e-graph.
-/
namespace Egg
variable {Op D D' : Type} [DecidableEq Op] [Lang Op]

/-- The terms `s` and `t` are represented by the same classes of `M`. -/
def RelIn (M : EGraph Op D') (s t : Term Op) : Prop := ∀ c, Rep M c s ↔ Rep M c t

/-- A rebuilt e-graph. -/
structure Full (M : EGraph Op D') : Prop where
  good : EGraph.Good (Cfg.ofR _ isCongruence_true anyReason) M
  pending : M.pending = []

theorem Full.cong {M : EGraph Op D'} (h : Full M) : IsCongruence (RelIn M) := rebuilt_congruence h.good

theorem Full.rel {M : EGraph Op D'} (h : Full M) {d : Id} {s t : Term Op} (hs : Rep M d s) (ht : Rep M d t) : RelIn M s t := by
  intro c
  constructor
  · intro hc
    exact h.good.inv.rep_congr (h.good.inv.rep_lt hc) (EGraph.InvW.rep_unique h.good.inv h.pending s hs hc) ht
  · intro hc
    exact h.good.inv.rep_congr (h.good.inv.rep_lt hc) (EGraph.InvW.rep_unique h.good.inv h.pending t ht hc) hs

/-- The invariant: `eg` is sound for the equality of `M`, and the expression of each of its ids is in `M`. -/
structure Under (M : EGraph Op D') (hM : Full M) (eg : EGraph Op D) : Prop where
  good : EGraph.Good (Cfg.ofR (RelIn M) hM.cong anyReason) eg
  nodes : ∀ i t, TermOf eg.nodes i t → ∃ d, Rep M d t

variable {M : EGraph Op D'} {hM : Full M} {eg eg' : EGraph Op D} {A : UserAnalysis Op D} {depth : Nat}

theorem Under.rep (h : Under M hM eg) {c : Id} {s : Term Op} (hs : Rep eg c s) : ∃ d, Rep M d s := by
  obtain ⟨u, hu⟩ := h.good.inv.core.dag.exists_term c (h.good.inv.rep_lt hs)
  obtain ⟨d, hd⟩ := h.nodes _ _ hu
  exact ⟨d, (h.good.inv.rep_sound s hs hu d).1 hd⟩

theorem Under.below (h : Under M hM eg) : Within eg M := by
  intro c s t hs ht
  obtain ⟨d, hd⟩ := h.rep hs
  exact ⟨d, hd, (h.good.inv.rep_related hs ht rfl d).1 hd⟩

/-- Adding an e-node whose term is in `M`. -/
theorem Under.add (hA : ∀ i, A.modify i = .done) (h : Under M hM eg) {n : ENode Op} {i : Id} {ts : List (Term Op)}
    (hts : List.Forall₂ (Rep eg) n.children ts) {d : Id} (hd : Rep M d (.node n.op ts))
    (ha : EGraph.addUncanonical (A.at depth) eg n = .ok (eg', i)) : Under M hM eg' ∧ EGraph.Ext eg eg' := by
  have hN := (soundFor_of_quiet hA (RelIn M) hM.cong).hookOK trivial depth
  have hq : EGraph.QuietMod (A.at depth) := fun _ _ _ => UserAnalysis.quiet_modify hA
  have hch : ∀ c ∈ n.children, c < eg.nodes.length := by
    intro c hc
    obtain ⟨t, _, ht⟩ := forall₂_mem_left hts hc
    exact h.good.inv.rep_lt ht
  obtain ⟨hg, hext, -⟩ := (EGraph.addUncanonical_post hN h.good hch).elim ha
  have hnodes : eg'.nodes = eg.nodes ∨ eg'.nodes = eg.nodes ++ [n] := by
    rcases EGraph.addUncanonical_cases (A.at depth) h.good.inv hch with ⟨e, j, nj, _, g2, _⟩ | ⟨e, x, eg1, g1, _, _, g4, g5, g6⟩ | ⟨g1, eg1, g2, g3⟩
    · rw [ha] at g2; cases g2; exact Or.inl rfl
    · rw [ha] at g4; cases g4; exact Or.inr g6.nodes
    · rw [ha] at g3
      have g3 := g3.symm
      rw [bind_eq_ok] at g3
      obtain ⟨d, _, g3⟩ := g3
      rw [bind_eq_ok] at g3
      obtain ⟨eg2, k, g3⟩ := g3
      cases g3
      have := hq _ _ _ k
      rw [this]
      exact Or.inr (g2 d).2.nodes
  refine ⟨⟨hg, fun j t ht => ?_⟩, hext⟩
  rcases hnodes with e | e
  · rw [e] at ht; exact h.nodes j t ht
  · have hdag := hg.inv.core.dag
    rw [e] at ht
    by_cases hj : j < eg.nodes.length
    · exact h.nodes j t (TermOf.of_append h.good.inv.core.dag ht hj)
    · have hlt := ht.lt
      rw [List.length_append, List.length_singleton] at hlt
      have : j = eg.nodes.length := by omega
      subst this
      cases t with
      | node op us =>
        rw [termOf_iff] at ht
        obtain ⟨m, h1, h2, h3⟩ := ht
        simp at h1
        subst h1
        subst h2
        refine ⟨d, (hM.cong.congr n.op (ss := us) (ts := ts) ?_ d).2 hd⟩
        refine forall₂_comp (forall₂_flip h3) hts (fun u c t _ hc _ huc hct => ?_)
        exact h.good.inv.rep_sound t hct (TermOf.of_append h.good.inv.core.dag huc (hch c hc))

/-- Uniting classes with a term in common in `M`. -/
theorem Under.union (hA : ∀ i, A.modify i = .done) (h : Under M hM eg) {i j : Id} {s t : Term Op}
    (hs : Rep eg i s) (ht : Rep eg j t) {d : Id} (hds : Rep M d s) (hdt : Rep M d t) {did : Bool}
    (hu : UnionCall (A.at depth) eg i j eg' did) : Under M hM eg' ∧ EGraph.Ext eg eg' := by
  have hN := (soundFor_of_quiet hA (RelIn M) hM.cong).hookOK trivial depth
  have hq : EGraph.QuietMod (A.at depth) := fun _ _ _ => UserAnalysis.quiet_modify hA
  obtain ⟨reason, hu⟩ := hu
  have := EGraph.Good.union_post (caller := reason) hN h.good hs ht (hM.rel hds hdt) trivial
  rcases hu with hu | hu
  · exact ⟨⟨(this.1.elim hu).1, by rw [(EGraph.union_nodes hq).1 hu]; exact h.nodes⟩, (this.1.elim hu).2.1⟩
  · exact ⟨⟨(this.2.elim hu).1, by rw [(EGraph.union_nodes hq).2 hu]; exact h.nodes⟩, (this.2.elim hu).2.1⟩

theorem Under.rebuild (hA : ∀ i, A.modify i = .done) (h : Under M hM eg) {fuel n : Nat}
    (hr : eg.rebuild (A.at depth) fuel = .ok (eg', n)) : Under M hM eg' := by
  have hN := (soundFor_of_quiet hA (RelIn M) hM.cong).hookOK trivial depth
  have hq : EGraph.QuietMod (A.at depth) := fun _ _ _ => UserAnalysis.quiet_modify hA
  exact ⟨((EGraph.rebuild_post trivial hN _ h.good).elim hr).1, by rw [EGraph.rebuild_nodes hq hr]; exact h.nodes⟩

/-- The start of the induction. -/
theorem Under.of_hist (hA : ∀ i, A.modify i = .done) {allow : Caller Op D} {U : List (UnionRec Op)} (h : Hist (A.at depth) allow U eg)
    (hU : ∀ u ∈ U, RelIn M u.s u.t) (hn : ∀ c, Valid eg c → ∃ t d, Rep eg c t ∧ Rep M d t) : Under M hM eg := by
  obtain ⟨hg, -⟩ := hist_good_of_sound (soundFor_of_quiet hA (RelIn M) hM.cong) h (by
    rintro s t ⟨u, hu, rfl, rfl⟩; exact hU u hu)
  refine ⟨hg, fun i t ht => ?_⟩
  obtain ⟨u, d, h1, h2⟩ := hn i (hg.valid_iff.2 ht.lt)
  exact ⟨d, (hg.inv.rep_sound u h1 ht d).2 h2⟩

theorem Under.of_below (hA : ∀ i, A.modify i = .done) {allow : Caller Op D} {U : List (UnionRec Op)} (h : Hist (A.at depth) allow U eg)
    (hb : Within eg M) : Under M hM eg := by
  have hg := hist_good h
  refine .of_hist hA h (fun u hu => ?_) (fun c hc => ?_)
  · obtain ⟨h1, h2, h3⟩ := (hist_good_of_sound (soundFor_true A) h (fun _ _ _ => trivial)).2 u hu
    obtain ⟨d, h4, h5⟩ := hb u.a u.s u.t h1 (hg.inv.rep_congr (hg.inv.rep_lt h1) h3.symm h2)
    exact hM.rel h4 h5
  · obtain ⟨t, ht⟩ := hg.inv.exists_rep (hg.valid_iff.1 hc)
    obtain ⟨d, hd, _⟩ := hb c t t ht ht
    exact ⟨t, d, ht, hd⟩

/-! ### Applying rules -/

/-- Instances of subterms are subterms of instances. -/
theorem inst_of_subterm {τ : Var → Term Op} {q p : Term (PatOp Op)} (h : Subterm q p) : ∀ {u : Term Op}, Inst τ p u →
    ∃ v, Inst τ q v ∧ Subterm v u := by
  induction h with
  | refl => intro u hu; exact ⟨u, hu, .refl⟩
  | @arg op ts t h1 h2 ih =>
    intro u hu
    cases op with
    | var v => cases hu; simp at h1
    | op o =>
      obtain ⟨us, rfl, hus⟩ := inst_node_iff.1 hu
      obtain ⟨w, hw, hi⟩ := forall₂_mem_left hus h1
      obtain ⟨v, h3, h4⟩ := ih hi
      exact ⟨v, h3, .arg hw h4⟩

/-- `M` is closed under the rule, in terms of terms. -/
def ClosedTerms (M : EGraph Op D') (tl t : Term (PatOp Op)) : Prop :=
  ∀ (τ : Var → Term Op) s w d, Inst τ tl s → Inst τ t w → Rep M d s → Rep M d w

/-- `M` has what the rule yields for the terms of `eg`. -/
def ClosedFrom (eg : EGraph Op D) (M : EGraph Op D') (tl t : Term (PatOp Op)) : Prop :=
  ∀ (τ : Var → Term Op) s w d, Inst τ tl s → Inst τ t w → Rep eg d s → ∃ d', Rep M d' s ∧ Rep M d' w

theorem ClosedTerms.closedFrom {tl t : Term (PatOp Op)} (hcl : ClosedTerms M tl t) (h : Under M hM eg) : ClosedFrom eg M tl t := by
  intro τ s w d hs hw hd
  obtain ⟨d', hd'⟩ := h.rep hd
  exact ⟨d', hd', hcl τ s w d' hs hw hd'⟩

theorem Under.applySteps (hA : ∀ i, A.modify i = .done) {P : Term (PatOp Op) → Prop} {tl t : Term (PatOp Op)} {ms : List (Id × Subst)}
    (hP : ∀ q, P q → Subterm q tl ∨ Subterm q t)
    {k : Nat} (hst : ApplySteps (A.at depth) P tl t ms eg k eg') (h : Under M hM eg)
    (hm : ∀ c s, (c, s) ∈ ms → ∃ (τ : Var → Term Op) (u w : Term Op) (d : Id), (∀ v x, s.get v = some x → Rep eg x (τ v)) ∧ Inst τ tl u ∧
      Inst τ t w ∧ Rep M d u ∧ Rep M d w) :
    Under M hM eg' ∧ ∀ c t, Rep eg c t → Rep eg' c t := by
  induction hst with
  | refl => exact ⟨h, fun _ _ h => h⟩
  | @add _ eg1 eg2 c s n ps i _ h1 h2 h3 h4 ih =>
    obtain ⟨u1, m1⟩ := ih
    obtain ⟨τ, u, w, d, hτ, hu, hw, hdu, hdw⟩ := hm c s h1
    have hsub : ∃ vs, List.Forall₂ (Inst τ) ps vs ∧ ∃ d, Rep M d (.node n.op vs) := by
      rcases hP _ h2 with hq | hq
      · obtain ⟨v, k1, k2⟩ := inst_of_subterm hq hu
        obtain ⟨vs, rfl, hvs⟩ := inst_node_iff.1 k1
        exact ⟨vs, hvs, rep_subterm hM.good.inv k2 hdu⟩
      · obtain ⟨v, k1, k2⟩ := inst_of_subterm hq hw
        obtain ⟨vs, rfl, hvs⟩ := inst_node_iff.1 k1
        exact ⟨vs, hvs, rep_subterm hM.good.inv k2 hdw⟩
    obtain ⟨vs, hvs, d', hd'⟩ := hsub
    have hr : List.Forall₂ (Rep eg1) n.children vs := forall₂_comp h3 hvs (fun a p v _ _ _ hap hpv =>
      u1.good.inv.pmatch_rep _ hap (fun v x _ hv => m1 _ _ (hτ v x hv)) hpv)
    obtain ⟨u2, x2⟩ := u1.add hA hr hd' h4
    exact ⟨u2, fun c t hc => x2.rep u1.good.inv u2.good.inv t (m1 c t hc)⟩
  | @union _ eg1 eg2 c s i j did _ h1 h2 h3 h4 _ ih =>
    obtain ⟨u1, m1⟩ := ih
    obtain ⟨τ, u, w, d, hτ, hu, hw, hdu, hdw⟩ := hm c s h1
    have r1 : Rep eg1 i w := u1.good.inv.pmatch_rep _ h2 (fun v x _ hv => m1 _ _ (hτ v x hv)) hw
    have r2 : Rep eg1 j u := u1.good.inv.pmatch_rep _ h3 (fun v x _ hv => m1 _ _ (hτ v x hv)) hu
    obtain ⟨u2, x2⟩ : Under M hM eg2 ∧ EGraph.Ext eg1 eg2 := by
      rcases h4 with h4 | h4
      · exact u1.union hA r1 r2 hdw hdu h4
      · exact u1.union hA r2 r1 hdu hdw h4
    exact ⟨u2, fun c t hc => x2.rep u1.good.inv u2.good.inv t (m1 c t hc)⟩

end Egg
