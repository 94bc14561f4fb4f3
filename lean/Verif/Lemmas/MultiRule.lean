import Verif.Spec.MultiRule
import Verif.Lemmas.Run
/-
Applying multi-patterns.
-/
namespace Egg
variable {Op D : Type} [DecidableEq Op] [Lang Op]

namespace EGraph
variable {W : Id → Id → Prop} {C : Cfg Op D} {eg : EGraph Op D} {E : Err → Prop} {N : Analysis Op D} {allow : Caller Op D}

/-- A match stays one when variables are bound to other ids of the same classes. -/
theorem pmatch_rebind (h : InvW W C eg) {σ σ' : Var → Option Id}
    (hσ : ∀ v x, σ v = some x → ∃ y, σ' v = some y ∧ SameClass eg x y) {c : Id} {p : Term (PatOp Op)}
    (hp : PMatch eg σ c p) : PMatch eg σ' c p := by
  induction hp with
  | var h1 h2 =>
    obtain ⟨y, h3, h4⟩ := hσ _ _ h1
    exact .var h3 (h.sameClass_trans (h.sameClass_symm h4) h2)
  | node h1 h2 h3 _ ih => exact .node h1 h2 h3 ih

theorem Grow.lt' {eg eg' : EGraph Op D} (h : Grow eg eg') {i : Nat} (hi : i < eg.nodes.length) : i < eg'.nodes.length := by
  obtain ⟨l, hl⟩ := h.nodes
  rw [hl, List.length_append]
  omega

theorem resize_length (l : List Id) (n : Nat) : (resize l n).length = n := by
  unfold resize
  simp only [List.length_append, List.length_take, List.length_replicate]
  omega

/-- The loop over the patterns of a multi-pattern. -/
theorem applyAsts_post (hN : HookOK C E N) (hJ : ∀ r a b, C.J r a b) :
    ∀ (asts : List (Var × PatternAst Op)) (rs : List (Var × Term (PatOp Op)))
      (_ : List.Forall₂ (fun a b => a.1 = b.1 ∧ PatWF a.2 ∧ ExprTerm a.2 b.2) asts rs)
      (eg : EGraph Op D) (i : Nat) (s : Subst) (buf added : List Id) (bound : Var → Prop) (τ : Var → Term Op) (bs : List Var),
    Good C eg → (∀ v, bound v ↔ ∃ x, s.get v = some x) → (∀ v x, s.get v = some x → Rep eg x (τ v)) →
    (∀ v ∈ bs, bound v) → (∀ v ∈ applierVars asts bs, bound v) → Concludes C.R bound τ rs →
    Post E (MultiPattern.applyAsts N eg asts i s buf added) (fun r => Good C r.1 ∧ Grow eg r.1 ∧
      (∃ V, Steps N allow eg V r.1 ∧ ∀ u ∈ V, C.R u.s u.t) ∧
      r.2.length = added.length + (if i = 0 then min 1 asts.length else 0) ∧ MultiHolds r.1 s rs) := by
  intro asts
  induction asts with
  | nil =>
    intro rs hf eg i s buf added bound τ bs hg hb hτ _ _ _
    cases hf
    unfold MultiPattern.applyAsts
    refine ⟨hg, Grow.refl _, ⟨[], .refl, by simp⟩, by simp, s.get, fun v x hx => ⟨x, hx, ?_⟩, by simp⟩
    rw [hg.inv.sameClass_iff]
    have := hg.inv.rep_lt (hτ v x hx)
    exact ⟨this, this, rfl⟩
  | cons a asts ih =>
    intro rs hf eg i s buf added bound τ bs hg hb hτ hbs hv hc
    obtain ⟨w, p⟩ := a
    cases hf with
    | @cons _ b _ rs h1 h2 =>
    obtain ⟨w', q⟩ := b
    obtain ⟨rfl, hwf, het⟩ := h1
    have hwf : PatWF p := hwf
    have het : ExprTerm p q := het
    have hlt : ∀ v x, s.get v = some x → x < eg.nodes.length := fun v x hx => hg.inv.rep_lt (hτ v x hx)
    have hbinds : Binds eg s p := by
      intro n hn v hnv
      have hvb : bound v := by
        by_cases hvbs : v ∈ bs
        · exact hbs v hvbs
        · refine hv v ?_
          unfold applierVars
          rw [List.mem_append]
          left
          rw [List.mem_filter]
          refine ⟨?_, by simpa using hvbs⟩
          unfold nodeVars
          rw [List.mem_filterMap]
          exact ⟨n, hn, by simp only [hnv]⟩
      obtain ⟨x, hx⟩ := (hb v).1 hvb
      exact ⟨x, hx, hlt v x hx⟩
    unfold MultiPattern.applyAsts
    refine Post.bind (x := applyPat N (resize buf p.length) p eg s)
      (Post.and (applyPat_post hN hwf hg hbinds (resize_length _ _)) (fun a ha => applyPat_steps ha)) ?_
    rintro ⟨eg1, buf1, id1⟩ ⟨⟨g1, x1, -, l1, m1⟩, ad⟩
    dsimp only at g1 x1 l1 m1 ad ⊢
    have m1 := m1 q het
    have hτ1 : ∀ v x, s.get v = some x → Rep eg1 x (τ v) := fun v x hx => x1.rep hg.inv g1.inv _ (hτ v x hx)
    obtain ⟨u, hu⟩ := inst_of_pmatch τ q m1
    have hru : Rep eg1 id1 u := g1.inv.pmatch_rep q m1 (fun v x _ hx => hτ1 v x hx) hu
    obtain ⟨c1, c2⟩ := hc u hu
    have hget : ∀ v, (Subst.insert s w id1).1.get v = if w = v then some id1 else s.get v := fun v => Subst.get_insert s w v id1
    have hold : (Subst.insert s w id1).2 = s.get w := Subst.insert_old s w id1
    rw [hold]
    have hlen : ∀ (l : List Id), l.length = (if i = 0 then added ++ [id1] else added).length + (if i + 1 = 0 then min 1 asts.length else 0) →
        l.length = added.length + (if i = 0 then min 1 (asts.length + 1) else 0) := by
      intro l hl
      rw [hl]
      split <;> simp
    -- the head of the conclusion
    have finish : ∀ (eg2 eg3 : EGraph Op D) (hg2 : Good C eg2) (hg3 : Good C eg3) (x2 : Ext eg1 eg2) (x3 : Grow eg2 eg3),
        (∀ y, s.get w = some y → SameClass eg2 y id1) → MultiHolds eg3 (Subst.insert s w id1).1 rs →
        MultiHolds eg3 s ((w, q) :: rs) := by
      intro eg2 eg3 hg2 hg3 x2 x3 hy hm
      obtain ⟨σ, k1, k2⟩ := hm
      have hext : ∀ v x, s.get v = some x → ∃ y, σ v = some y ∧ SameClass eg3 x y := by
        intro v x hx
        by_cases hvw : w = v
        · subst hvw
          obtain ⟨y, k3, k4⟩ := k1 w id1 (by rw [hget]; simp)
          have := hg2.inv.sameClass_iff.1 (hy x hx)
          refine ⟨y, k3, hg3.inv.sameClass_trans ?_ k4⟩
          rw [hg3.inv.sameClass_iff]
          exact ⟨x3.lt' this.1, x3.lt' this.2.1, x3.rt _ _ this.1 this.2.1 this.2.2⟩
        · exact k1 v x (by rw [hget, if_neg hvw]; exact hx)
      refine ⟨σ, hext, fun w' q' hm' => ?_⟩
      rcases List.mem_cons.1 hm' with he | hm'
      · cases he
        obtain ⟨y, k3, k4⟩ := k1 w id1 (by rw [hget]; simp)
        refine ⟨y, k3, ?_⟩
        have := x3.pmatch hg2.inv hg3.inv (x2.pmatch g1.inv hg2.inv m1)
        exact hg3.inv.pmatch_congr k4 (pmatch_rebind hg3.inv hext this)
      · exact k2 w' q' hm'
    have hvars : ∀ v ∈ applierVars asts (w :: bs), bound v := by
      intro v hv'
      refine hv v ?_
      unfold applierVars
      rw [List.mem_append]
      exact Or.inr hv'
    cases hsw : s.get w with
    | some id2 =>
      have hbw : bound w := (hb w).2 ⟨id2, hsw⟩
      obtain ⟨hR, hc'⟩ := c1 hbw
      have hr2 := hτ1 w id2 hsw
      dsimp only
      refine Post.bind (x := EGraph.union N eg1 id1 id2 0)
        (Post.and (Good.union_post (caller := 0) hN g1 hru hr2 hR (hJ _ _ _)).1
          (fun a ha => (Step.union hru hr2 ha : Step N allow eg1 [⟨0, id1, id2, u, τ w⟩] a.1))) ?_
      rintro ⟨eg2, did⟩ ⟨⟨g2, x2, e2, -⟩, st2⟩
      dsimp only at g2 x2 e2 st2 ⊢
      have l2 := x1.lt (hlt w id2 hsw)
      have hrep2 : ∀ v x, (Subst.insert s w id1).1.get v = some x → Rep eg2 x (τ v) := by
        intro v x hx
        rw [hget] at hx
        split at hx
        · next hvw =>
          subst hvw
          cases hx
          exact g2.inv.rep_congr (x2.lt l1) e2.symm (x2.rep g1.inv g2.inv _ hr2)
        · exact x2.rep g1.inv g2.inv _ (hτ1 v x hx)
      refine Post.mono (ih rs h2 eg2 (i + 1) (Subst.insert s w id1).1 buf1 _ bound τ (w :: bs) g2 ?_ hrep2 ?_ hvars hc') ?_
      · intro v
        rw [hget, hb]
        split
        · next hvw => subst hvw; exact ⟨fun _ => ⟨_, rfl⟩, fun _ => ⟨_, hsw⟩⟩
        · rfl
      · intro v hv'
        rcases List.mem_cons.1 hv' with rfl | hv'
        · exact hbw
        · exact hbs v hv'
      · rintro ⟨eg3, ids⟩ ⟨g3, x3, ⟨V, s3, q3⟩, e3, k3⟩
        refine ⟨g3, ((x1.grow hg g1).trans (x2.grow g1 g2)).trans x3, ⟨V ++ ([⟨0, id1, id2, u, τ w⟩] ++ []), ?_, ?_⟩, hlen _ e3, ?_⟩
        · exact Steps.trans (Steps.tail (AddSteps.steps ad) st2) s3
        · intro r hr
          simp only [List.mem_append, List.mem_singleton, List.not_mem_nil, or_false] at hr
          rcases hr with hr | rfl
          · exact q3 r hr
          · exact hR
        · refine finish eg2 eg3 g2 g3 x2 x3 (fun y hy => ?_) k3
          rw [hsw] at hy; cases hy
          rw [g2.inv.sameClass_iff]
          exact ⟨x2.lt l2, x2.lt l1, e2.symm⟩
    | none =>
      have hbw : ¬ bound w := by
        intro hbw
        obtain ⟨x, hx⟩ := (hb w).1 hbw
        rw [hsw] at hx; cases hx
      have hc' := c2 hbw
      dsimp only
      have hrep2 : ∀ v x, (Subst.insert s w id1).1.get v = some x → Rep eg1 x (if v = w then u else τ v) := by
        intro v x hx
        rw [hget] at hx
        split at hx
        · next hvw => subst hvw; cases hx; simpa using hru
        · next hvw => rw [if_neg (fun e => hvw e.symm)]; exact hτ1 v x hx
      refine Post.mono (ih rs h2 eg1 (i + 1) (Subst.insert s w id1).1 buf1 _ (fun v => bound v ∨ v = w) _ (w :: bs) g1 ?_ hrep2 ?_
        (fun v hv' => Or.inl (hvars v hv')) hc') ?_
      · intro v
        rw [hget]
        split
        · next hvw => subst hvw; exact ⟨fun _ => ⟨_, rfl⟩, fun _ => Or.inr rfl⟩
        · next hvw => rw [← hb]; exact ⟨fun h => h.elim id (fun e => absurd e.symm hvw), Or.inl⟩
      · intro v hv'
        rcases List.mem_cons.1 hv' with rfl | hv'
        · exact Or.inr rfl
        · exact Or.inl (hbs v hv')
      · rintro ⟨eg3, ids⟩ ⟨g3, x3, ⟨V, s3, q3⟩, e3, k3⟩
        refine ⟨g3, (x1.grow hg g1).trans x3, ⟨V ++ [], Steps.trans (AddSteps.steps ad) s3, by simpa using q3⟩, hlen _ e3, ?_⟩
        exact finish eg1 eg3 g1 g3 (Ext.refl _) x3 (fun y hy => by rw [hsw] at hy; cases hy) k3

theorem MultiHolds.grow {eg' : EGraph Op D} {s : Subst} {rs : List (Var × Term (PatOp Op))} (h : MultiHolds eg s rs)
    (hg : Good C eg) (hg' : Good C eg') (hx : Grow eg eg') : MultiHolds eg' s rs := by
  obtain ⟨σ, h1, h2⟩ := h
  refine ⟨σ, fun v x hv => ?_, fun w q hm => ?_⟩
  · obtain ⟨y, h3, h4⟩ := h1 v x hv
    rw [hg.inv.sameClass_iff] at h4
    exact ⟨y, h3, hg'.inv.sameClass_iff.2 ⟨hx.lt' h4.1, hx.lt' h4.2.1, hx.rt _ _ h4.1 h4.2.1 h4.2.2⟩⟩
  · obtain ⟨x, h3, h4⟩ := h2 w q hm
    exact ⟨x, h3, hx.pmatch hg.inv hg'.inv h4⟩

/-- The bindings `s` may be used for the right-hand sides `rs`. -/
structure Ready (C : Cfg Op D) (eg : EGraph Op D) (asts : List (Var × PatternAst Op)) (rs : List (Var × Term (PatOp Op)))
    (s : Subst) : Prop where
  bound : ∀ v ∈ applierVars asts [], ∃ x, s.get v = some x
  concl : ∃ τ : Var → Term Op, (∀ v x, s.get v = some x → Rep eg x (τ v)) ∧ Concludes C.R (fun v => ∃ x, s.get v = some x) τ rs

theorem Ready.grow {eg' : EGraph Op D} {asts : List (Var × PatternAst Op)} {rs : List (Var × Term (PatOp Op))} {s : Subst}
    (h : Ready C eg asts rs s) (hx : Grow eg eg') : Ready C eg' asts rs s := by
  obtain ⟨h1, τ, h2, h3⟩ := h
  exact ⟨h1, τ, fun v x hv => hx.rep _ _ (h2 v x hv), h3⟩

section
variable {asts : List (Var × PatternAst Op)} {rs : List (Var × Term (PatOp Op))}

theorem applyMultiSubsts_post (hN : HookOK C E N) (hJ : ∀ r a b, C.J r a b)
    (hf : List.Forall₂ (fun a b => a.1 = b.1 ∧ PatWF a.2 ∧ ExprTerm a.2 b.2) asts rs) :
    ∀ (ss : List Subst) (eg : EGraph Op D) (added : List Id), Good C eg → (∀ s ∈ ss, Ready C eg asts rs s) →
    Post E (MultiPattern.applySubsts N asts eg ss added) (fun r => Good C r.1 ∧ Grow eg r.1 ∧
      (∃ V, Steps N allow eg V r.1 ∧ ∀ u ∈ V, C.R u.s u.t) ∧
      r.2.length = added.length + ss.length * min 1 asts.length ∧ ∀ s ∈ ss, MultiHolds r.1 s rs) := by
  intro ss
  induction ss with
  | nil =>
    intro eg added hg _
    exact ⟨hg, Grow.refl _, ⟨[], .refl, by simp⟩, by simp, by simp⟩
  | cons s ss ih =>
    intro eg added hg hr
    unfold MultiPattern.applySubsts
    obtain ⟨hb, τ, h1, h2⟩ := hr s (by simp)
    refine Post.bind (x := MultiPattern.applyAsts N eg asts 0 s [] added)
      (applyAsts_post (allow := allow) hN hJ asts rs hf eg 0 s [] added _ τ [] hg (fun _ => Iff.rfl) h1 (by simp) hb h2) ?_
    rintro ⟨eg1, added1⟩ ⟨g1, x1, ⟨V1, s1, q1⟩, e1, k1⟩
    refine Post.mono (ih eg1 added1 g1 (fun s' hs' => (hr s' (by simp [hs'])).grow x1)) ?_
    rintro ⟨eg2, added2⟩ ⟨g2, x2, ⟨V2, s2, q2⟩, e2, k2⟩
    dsimp only at e1 e2
    refine ⟨g2, x1.trans x2, ⟨_, Steps.trans s1 s2, ?_⟩, ?_, ?_⟩
    · intro u hu
      rcases List.mem_append.1 hu with hu | hu
      · exact q2 u hu
      · exact q1 u hu
    · dsimp only
      rw [e2, e1, List.length_cons, if_pos rfl, Nat.succ_mul]
      omega
    · intro s' hs'
      rcases List.mem_cons.1 hs' with rfl | hs'
      · exact MultiHolds.grow k1 g1 g2 x2
      · exact k2 s' hs'

theorem applyMulti_post (hN : HookOK C E N) (hJ : ∀ r a b, C.J r a b)
    (hf : List.Forall₂ (fun a b => a.1 = b.1 ∧ PatWF a.2 ∧ ExprTerm a.2 b.2) asts rs) :
    ∀ (ms : List (SearchMatches Op)) (eg : EGraph Op D) (added : List Id), Good C eg →
    (∀ c s, (c, s) ∈ flat ms → Ready C eg asts rs s) →
    Post E (MultiPattern.applyMatchesGo N asts eg ms added) (fun r => Good C r.1 ∧ Grow eg r.1 ∧
      (∃ V, Steps N allow eg V r.1 ∧ ∀ u ∈ V, C.R u.s u.t) ∧
      r.2.length = added.length + (flat ms).length * min 1 asts.length ∧ ∀ c s, (c, s) ∈ flat ms → MultiHolds r.1 s rs) := by
  intro ms
  induction ms with
  | nil =>
    intro eg added hg _
    exact ⟨hg, Grow.refl _, ⟨[], .refl, by simp⟩, by simp [flat], by simp [flat]⟩
  | cons m ms ih =>
    intro eg added hg hr
    unfold MultiPattern.applyMatchesGo
    have hm : ∀ s ∈ m.substs, (m.eclass, s) ∈ flat (m :: ms) := fun s hs => mem_flat.2 ⟨m, by simp, rfl, hs⟩
    have hms : ∀ c s, (c, s) ∈ flat ms → (c, s) ∈ flat (m :: ms) := by
      intro c s h
      obtain ⟨m', h1, h2, h3⟩ := mem_flat.1 h
      exact mem_flat.2 ⟨m', by simp [h1], h2, h3⟩
    have hlen : (flat (m :: ms)).length = m.substs.length + (flat ms).length := by simp [flat]
    refine Post.bind (x := MultiPattern.applySubsts N asts eg m.substs added)
      (applyMultiSubsts_post (allow := allow) hN hJ hf m.substs eg added hg (fun s hs => hr _ s (hm s hs))) ?_
    rintro ⟨eg1, added1⟩ ⟨g1, x1, ⟨V1, s1, q1⟩, e1, k1⟩
    refine Post.mono (ih eg1 added1 g1 (fun c s' hs' => (hr c s' (hms c s' hs')).grow x1)) ?_
    rintro ⟨eg2, added2⟩ ⟨g2, x2, ⟨V2, s2, q2⟩, e2, k2⟩
    dsimp only at e1 e2
    refine ⟨g2, x1.trans x2, ⟨_, Steps.trans s1 s2, ?_⟩, ?_, ?_⟩
    · intro u hu
      rcases List.mem_append.1 hu with hu | hu
      · exact q2 u hu
      · exact q1 u hu
    · dsimp only
      rw [e2, e1, hlen, Nat.add_mul]
      omega
    · intro c s' hs'
      obtain ⟨m', h1, h2, h3⟩ := mem_flat.1 hs'
      rcases List.mem_cons.1 h1 with rfl | h1
      · exact MultiHolds.grow (k1 s' h3) g1 g2 x2
      · exact k2 c s' (mem_flat.2 ⟨m', h1, h2, h3⟩)

end
end EGraph
end Egg
