import Verif.Lemmas.Generated
import Verif.Props.Still
/-
What is generated is there after finitely many iterations of an eager run.
-/
namespace Egg
variable {Op D S H : Type} [DecidableEq Op] [Lang Op]
variable {A : UserAnalysis Op D} {depth : Nat} {allow : Caller Op D} {eg0 eg eg' : EGraph Op D} {eqs : List (Term (PatOp Op) × Term (PatOp Op))}

/-- The runner `b` at the start of an iteration of an eager run. -/
structure EagerAt (A : UserAnalysis Op D) (depth : Nat) (allow : Caller Op D) (eg0 : EGraph Op D) (eqs : List (Term (PatOp Op) × Term (PatOp Op)))
    {S H : Type} (env : RunEnv Op D) (sch : Scheduler Op D S) (hooks : List (Hook Op D H)) (rules : List (Rewrite Op D)) (b : Runner Op D S H) : Prop where
  analysis : env.analysis = A.at depth
  ord : ∀ i eg, (env.ord i eg).OK eg
  eager : sch.Eager env
  read : HooksRead hooks
  are : RulesAre rules eqs
  hist : ∃ U, Hist (A.at depth) allow U b.egraph
  clean : b.egraph.clean = true
  queue : b.egraph.apending.queue = []
  kept : ∀ c t, Rep eg0 c t → Rep b.egraph c t
  inside : Inside eg0 eqs b.egraph
  fits : ∀ k bk, Runner.after env sch hooks rules k b = some bk → ∀ rw' ∈ rules, Fits env bk.egraph rw'

section
variable {env : RunEnv Op D} {sch : Scheduler Op D S} {hooks : List (Hook Op D H)} {rules : List (Rewrite Op D)} {b b1 : Runner Op D S H}

theorem EagerAt.full (h : EagerAt A depth allow eg0 eqs env sch hooks rules b) : Full b.egraph := by
  obtain ⟨U, hU⟩ := h.hist
  exact Full.of_hist hU h.clean

theorem EagerAt.next (hA : ∀ i, A.modify i = .done) (hd : DiscContiguous Op) (hcyc : (A.at depth).allowCycles = true)
    (h : EagerAt A depth allow eg0 eqs env sch hooks rules b) (h1 : Runner.after env sch hooks rules 1 b = some b1) :
    EagerAt A depth allow eg0 eqs env sch hooks rules b1 ∧ ∀ tl t, (tl, t) ∈ eqs → ClosedFrom b.egraph b1.egraph tl t := by
  obtain ⟨U, hU⟩ := h.hist
  have ht : AreTightRules rules eqs := h.are.1
  have h2 := h1
  unfold Runner.after at h2
  split at h2
  · cases h2
  next r it ho =>
  dsimp only at h2
  split at h2
  · cases h2
  next hn =>
  cases h2
  have hnone : it.stopReason = none := by
    simp only [Bool.or_eq_true, not_or, Option.not_isSome_iff_eq_none] at hn
    exact hn.1
  obtain ⟨cb, ⟨Vb, sb, -⟩, -⟩ := Runner.runOne_reach h.analysis h.ord hd h.eager.honest (h.read.ok (N := A.at depth) (allow := allow)) ht.areRules hU h.clean ho
  obtain ⟨V1, g1, fuel, n1, hj1, hj2⟩ := Runner.runOne_last h.analysis h.ord hd h.eager.honest (h.read.ok (N := A.at depth) (allow := allow)) ht.areRules hU h.clean ho
  have hcl := Runner.runOne_closes h.analysis h.ord hd hcyc h.eager h.read h.are hU h.clean (h.fits 0 b rfl) ho hnone
  have hin := Runner.runOne_inside hA h.analysis h.ord hd h.eager.honest h.read ht hU h.clean h.inside ho
  refine ⟨⟨h.analysis, h.ord, h.eager, h.read, h.are, ⟨_, Steps.trans hU sb⟩, cb, (rebuilt_tidy hj1 hj2).2.apending, fun c t hc => ?_, ?_, fun k bk hk => ?_⟩,
    hcl⟩
  · exact (steps_grow sb (hist_good hU)).2.rep _ _ (h.kept c t hc)
  · exact hin
  · exact h.fits (k + 1) bk (Runner.after_succ h1 hk)

theorem Runner.after_split {k : Nat} {bk : Runner Op D S H} (h : Runner.after env sch hooks rules (k + 1) b = some bk) :
    ∃ b1, Runner.after env sch hooks rules 1 b = some b1 ∧ Runner.after env sch hooks rules k b1 = some bk := by
  unfold Runner.after at h
  split at h
  · cases h
  next r it ho =>
  dsimp only at h
  split at h
  · cases h
  next hn =>
  refine ⟨_, ?_, h⟩
  unfold Runner.after
  rw [ho]
  dsimp only
  rw [if_neg hn]
  rfl

theorem Runner.after_last : ∀ {k : Nat} {b bk : Runner Op D S H}, Runner.after env sch hooks rules (k + 1) b = some bk →
    ∃ b1, Runner.after env sch hooks rules k b = some b1 ∧ Runner.after env sch hooks rules 1 b1 = some bk := by
  intro k
  induction k with
  | zero => intro b bk h; exact ⟨b, rfl, h⟩
  | succ k ih =>
    intro b bk h
    obtain ⟨b1, h1, h2⟩ := after_split h
    obtain ⟨b2, h3, h4⟩ := ih h2
    exact ⟨b2, after_succ h1 h3, h4⟩

theorem EagerAt.after (hA : ∀ i, A.modify i = .done) (hd : DiscContiguous Op) (hcyc : (A.at depth).allowCycles = true) :
    ∀ {k : Nat} {b bk : Runner Op D S H}, EagerAt A depth allow eg0 eqs env sch hooks rules b → Runner.after env sch hooks rules k b = some bk →
    EagerAt A depth allow eg0 eqs env sch hooks rules bk := by
  intro k
  induction k with
  | zero => intro b bk h h1; cases h1; exact h
  | succ k ih =>
    intro b bk h h1
    obtain ⟨b1, h1, h2⟩ := Runner.after_split h1
    exact ih (h.next hA hd hcyc h1).1 h2

end

/-- After `k` iterations of every eager run `s` and `t` are there and equal. -/
def AtStage (A : UserAnalysis Op D) (depth : Nat) (allow : Caller Op D) (eg0 : EGraph Op D) (eqs : List (Term (PatOp Op) × Term (PatOp Op)))
    (k : Nat) (s t : Term Op) : Prop :=
  ∀ (S H : Type) (env : RunEnv Op D) (sch : Scheduler Op D S) (hooks : List (Hook Op D H)) (rules : List (Rewrite Op D)) (b bk : Runner Op D S H),
    EagerAt A depth allow eg0 eqs env sch hooks rules b → Runner.after env sch hooks rules k b = some bk → ∃ c, Rep bk.egraph c s ∧ Rep bk.egraph c t

theorem AtStage.succ (hA : ∀ i, A.modify i = .done) (hd : DiscContiguous Op) (hcyc : (A.at depth).allowCycles = true) {k : Nat} {s t : Term Op}
    (h : AtStage A depth allow eg0 eqs k s t) : AtStage A depth allow eg0 eqs (k + 1) s t := by
  intro S H env sch hooks rules b bk hb hk
  obtain ⟨b1, h1, h2⟩ := Runner.after_split hk
  exact h _ _ _ _ _ _ _ _ (hb.next hA hd hcyc h1).1 h2

theorem AtStage.mono (hA : ∀ i, A.modify i = .done) (hd : DiscContiguous Op) (hcyc : (A.at depth).allowCycles = true) {k j : Nat} (hkj : k ≤ j) {s t : Term Op}
    (h : AtStage A depth allow eg0 eqs k s t) : AtStage A depth allow eg0 eqs j s t := by
  induction hkj with
  | refl => exact h
  | step _ ih => exact ih.succ hA hd hcyc

/-- Finitely many stages have a common bound. -/
theorem exists_stage {α : Type} {P : Nat → α → Prop} (hmono : ∀ k j a, k ≤ j → P k a → P j a) : ∀ l : List α, (∀ a ∈ l, ∃ k, P k a) → ∃ k, ∀ a ∈ l, P k a := by
  intro l
  induction l with
  | nil => intro _; exact ⟨0, by simp⟩
  | cons a l ih =>
    intro h
    obtain ⟨k1, h1⟩ := h a (by simp)
    obtain ⟨k2, h2⟩ := ih (fun x hx => h x (by simp [hx]))
    refine ⟨max k1 k2, fun x hx => ?_⟩
    rcases List.mem_cons.1 hx with rfl | hx
    · exact hmono _ _ _ (le_max_left _ _) h1
    · exact hmono _ _ _ (le_max_right _ _) (h2 x hx)

theorem Generated.stage (hA : ∀ i, A.modify i = .done) (hd : DiscContiguous Op) (hcyc : (A.at depth).allowCycles = true) {s t : Term Op}
    (h : Generated eg0 eqs s t) : ∃ k, AtStage A depth allow eg0 eqs k s t := by
  induction h with
  | @start c _ _ h1 h2 => exact ⟨0, fun S H env sch hooks rules b bk hb hk => by cases hk; exact ⟨c, hb.kept _ _ h1, hb.kept _ _ h2⟩⟩
  | @rule s t _ h ih =>
    obtain ⟨k, hk⟩ := ih
    obtain ⟨tl, t', hm, τ, h1, h2⟩ := h
    refine ⟨k + 1, fun S H env sch hooks rules b bk hb hb' => ?_⟩
    obtain ⟨b1, h3, h4⟩ := Runner.after_last hb'
    obtain ⟨c, hc, -⟩ := hk _ _ _ _ _ _ _ _ hb h3
    exact ((hb.after hA hd hcyc h3).next hA hd hcyc h4).2 tl t' hm τ _ _ c h1 h2 hc
  | symm _ ih =>
    obtain ⟨k, hk⟩ := ih
    exact ⟨k, fun S H env sch hooks rules b bk hb hb' => (hk _ _ _ _ _ _ _ _ hb hb').imp fun c h => ⟨h.2, h.1⟩⟩
  | trans _ _ ih1 ih2 =>
    obtain ⟨k1, hk1⟩ := ih1
    obtain ⟨k2, hk2⟩ := ih2
    refine ⟨max k1 k2, fun S H env sch hooks rules b bk hb hb' => ?_⟩
    obtain ⟨c, h1, h2⟩ := hk1.mono hA hd hcyc (le_max_left _ k2) _ _ _ _ _ _ _ _ hb hb'
    obtain ⟨d, h3, h4⟩ := hk2.mono hA hd hcyc (le_max_right k1 _) _ _ _ _ _ _ _ _ hb hb'
    exact ⟨d, ((hb.after hA hd hcyc hb').full.rel h1 h2 d).2 h3, h4⟩
  | arg _ hm ih =>
    obtain ⟨k, hk⟩ := ih
    refine ⟨k, fun S H env sch hooks rules b bk hb hb' => ?_⟩
    obtain ⟨c, h1, -⟩ := hk _ _ _ _ _ _ _ _ hb hb'
    obtain ⟨d, hd'⟩ := rep_subterm (hb.after hA hd hcyc hb').full.good.inv (.arg hm .refl) h1
    exact ⟨d, hd', hd'⟩
  | @congr op ss ts _ hlen _ ih ih' =>
    obtain ⟨k1, hk1⟩ := ih
    obtain ⟨k2, hk2⟩ := exists_stage (P := fun k (i : Nat) => ∀ s t, ss[i]? = some s → ts[i]? = some t → AtStage A depth allow eg0 eqs k s t)
      (fun k j i hkj h s t hs ht => (h s t hs ht).mono hA hd hcyc hkj) (List.range ss.length) (fun i hi => by
        have hi : i < ss.length := by simpa using hi
        have hi' : i < ts.length := hlen ▸ hi
        obtain ⟨k, hk⟩ := ih' i _ _ (List.getElem?_eq_getElem hi) (List.getElem?_eq_getElem hi')
        refine ⟨k, fun s t hs ht => ?_⟩
        rw [List.getElem?_eq_getElem hi] at hs
        rw [List.getElem?_eq_getElem hi'] at ht
        cases hs; cases ht
        exact hk)
    refine ⟨max k1 k2, fun S H env sch hooks rules b bk hb hb' => ?_⟩
    obtain ⟨c, hc, -⟩ := hk1.mono hA hd hcyc (le_max_left _ k2) _ _ _ _ _ _ _ _ hb hb'
    have hF := (hb.after hA hd hcyc hb').full
    refine ⟨c, hc, (hF.cong.congr _ (List.forall₂_iff_get.2 ⟨hlen, fun i hi hi' => ?_⟩) c).1 hc⟩
    obtain ⟨d, h1, h2⟩ := (hk2 i (by simpa using hi) _ _ (List.getElem?_eq_getElem hi) (List.getElem?_eq_getElem hi')).mono hA hd hcyc (le_max_right k1 _)
      _ _ _ _ _ _ _ _ hb hb'
    exact hF.rel h1 h2

/-! ### Finitely many e-nodes -/

/-- All lists of `n` elements of `l`. -/
def tuples {α : Type} (l : List α) : Nat → List (List α)
  | 0 => [[]]
  | n + 1 => l.flatMap fun a => (tuples l n).map (a :: ·)

theorem mem_tuples {α : Type} {l : List α} : ∀ {us : List α}, (∀ u ∈ us, u ∈ l) → us ∈ tuples l us.length := by
  intro us
  induction us with
  | nil => intro _; simp [tuples]
  | cons u us ih =>
    intro h
    simp only [List.length_cons, tuples, List.mem_flatMap, List.mem_map]
    exact ⟨u, h u (by simp), us, ih (fun x hx => h x (by simp [hx])), rfl⟩

/-- The operators of a pattern, with the numbers of their arguments. -/
def patSyms : Term (PatOp Op) → List (Op × Nat)
  | .node op ts => (match op with
    | .op o => [(o, ts.length)]
    | .var _ => []) ++ go ts
where go : List (Term (PatOp Op)) → List (Op × Nat)
  | [] => []
  | t :: ts => patSyms t ++ go ts

omit [DecidableEq Op] [Lang Op] in
theorem patSyms_arg {op : PatOp Op} {ts : List (Term (PatOp Op))} {t : Term (PatOp Op)} (h : t ∈ ts) {x : Op × Nat} (hx : x ∈ patSyms t) :
    x ∈ patSyms (.node op ts) := by
  unfold patSyms
  refine List.mem_append.2 (Or.inr ?_)
  induction ts with
  | nil => cases h
  | cons a ts ih =>
    unfold patSyms.go
    rcases List.mem_cons.1 h with rfl | h
    · exact List.mem_append.2 (Or.inl hx)
    · exact List.mem_append.2 (Or.inr (ih h))

/-- The operators of an instance are those of the pattern and those of what its variables stand for. -/
theorem inst_syms {τ : Var → Term Op} : ∀ (p : Term (PatOp Op)) {u : Term Op}, Inst τ p u → ∀ op ts, Subterm (.node op ts) u →
    (op, ts.length) ∈ patSyms p ∨ ∃ v, Occurs v p ∧ Subterm (.node op ts) (τ v) := by
  intro p
  induction p using Term.ind with
  | h o ps ih =>
    intro u hu op ts hs
    cases o with
    | var v =>
      rw [inst_var_iff] at hu
      obtain ⟨rfl, rfl⟩ := hu
      exact Or.inr ⟨v, .refl, hs⟩
    | op o =>
      obtain ⟨us, rfl, hus⟩ := inst_node_iff.1 hu
      generalize hw : Term.node op ts = w at hs
      generalize hx : Term.node o us = x at hs
      cases hs with
      | refl =>
        rw [← hw] at hx
        cases hx
        left
        unfold patSyms
        simp [hus.length_eq]
      | arg h1 h2 =>
        cases hx
        obtain ⟨q, hq, hi⟩ := forall₂_mem_left (forall₂_flip hus) h1
        rw [← hw] at h2
        rcases ih q hq hi op ts h2 with h | ⟨v, h3, h4⟩
        · exact Or.inl (patSyms_arg hq h)
        · exact Or.inr ⟨v, .arg hq h3, hw ▸ h4⟩

/-- The operators of an e-graph and of rules. -/
def symsOf (eg : EGraph Op D) (eqs : List (Term (PatOp Op) × Term (PatOp Op))) : List (Op × Nat) :=
  eg.classes.flatMap (fun k => k.2.nodes.map fun n => (n.op, n.children.length)) ++ eqs.flatMap fun e => patSyms e.2

/-- Generated terms have no other operators. -/
theorem Generated.syms {C : Cfg Op D} (hg : EGraph.Good C eg0) (hv : ∀ tl t, (tl, t) ∈ eqs → ∀ v, Occurs v t → Occurs v tl) {s t : Term Op}
    (h : Generated eg0 eqs s t) : (∀ op ts, Subterm (.node op ts) s → (op, ts.length) ∈ symsOf eg0 eqs) ∧
    ∀ op ts, Subterm (.node op ts) t → (op, ts.length) ∈ symsOf eg0 eqs := by
  have hrep : ∀ c t, Rep eg0 c t → ∀ op ts, Subterm (.node op ts) t → (op, ts.length) ∈ symsOf eg0 eqs := by
    intro c t hc op ts hs
    obtain ⟨x, hx⟩ := rep_subterm hg.inv hs hc
    rw [hg.inv.rep_iff] at hx
    obtain ⟨_, k, n, h1, h2, h3, h4⟩ := hx
    refine List.mem_append.2 (Or.inl (List.mem_flatMap.2 ⟨_, AMap.mem_of_get? h1, ?_⟩))
    exact List.mem_map.2 ⟨n, h2, by rw [h3, h4.length_eq]⟩
  induction h with
  | start h1 h2 => exact ⟨hrep _ _ h1, hrep _ _ h2⟩
  | rule _ h ih =>
    refine ⟨ih.1, fun op ts hs => ?_⟩
    obtain ⟨tl, t', hm, τ, h1, h2⟩ := h
    rcases inst_syms t' h2 op ts hs with h3 | ⟨v, h3, h4⟩
    · exact List.mem_append.2 (Or.inr (List.mem_flatMap.2 ⟨_, hm, h3⟩))
    · exact ih.1 op ts (h4.trans (inst_subterm h1 v (hv tl t' hm v h3)))
  | symm _ ih => exact ⟨ih.2, ih.1⟩
  | trans _ _ ih1 ih2 => exact ⟨ih1.1, ih2.2⟩
  | arg _ hm ih => exact ⟨fun op ts hs => ih.1 op ts (.arg hm hs), fun op ts hs => ih.1 op ts (.arg hm hs)⟩
  | @congr o ss ts _ hlen _ ih ih' =>
    refine ⟨ih.1, fun op us hs => ?_⟩
    generalize hw : Term.node op us = w at hs
    generalize hx : Term.node o ts = x at hs
    cases hs with
    | refl =>
      rw [← hw] at hx
      cases hx
      rw [← hlen]
      exact ih.1 _ _ .refl
    | arg h1 h2 =>
      cases hx
      rw [← hw] at h2
      obtain ⟨i, hi, e⟩ := List.getElem_of_mem h1
      have hi' : i < ss.length := hlen ▸ hi
      exact (ih' i _ _ (List.getElem?_eq_getElem hi') (by rw [List.getElem?_eq_getElem hi, e])).2 op us h2

/-- If what is generated is finite, there is a number of iterations after which all of it is there. -/
theorem FinitelyGenerated.stage (hA : ∀ i, A.modify i = .done) (hd : DiscContiguous Op) (hcyc : (A.at depth).allowCycles = true)
    {C : Cfg Op D} (hg : EGraph.Good C eg0) (hv : ∀ tl t, (tl, t) ∈ eqs → ∀ v, Occurs v t → Occurs v tl)
    (h : FinitelyGenerated eg0 eqs) : ∃ k, ∀ s t, Generated eg0 eqs s t → AtStage A depth allow eg0 eqs k s t := by
  obtain ⟨l, hl⟩ := h
  let l' := l ++ (symsOf eg0 eqs).flatMap fun x => (tuples l x.2).map (Term.node x.1)
  obtain ⟨k, hk⟩ := exists_stage (P := fun k (p : Term Op × Term Op) => Generated eg0 eqs p.1 p.2 → AtStage A depth allow eg0 eqs k p.1 p.2)
    (fun k j p hkj h hp => (h hp).mono hA hd hcyc hkj) (l'.flatMap fun a => l'.map fun b => (a, b)) (fun p _ => by
      by_cases hp : Generated eg0 eqs p.1 p.2
      · exact (hp.stage hA hd hcyc).imp fun k h _ => h
      · exact ⟨0, fun h => absurd h hp⟩)
  have hk : ∀ a ∈ l', ∀ b ∈ l', Generated eg0 eqs a b → AtStage A depth allow eg0 eqs k a b := fun a ha b hb =>
    hk (a, b) (List.mem_flatMap.2 ⟨a, ha, List.mem_map.2 ⟨b, hb, rfl⟩⟩)
  have key : ∀ t, Generated eg0 eqs t t → ∃ u ∈ l, Generated eg0 eqs t u ∧ AtStage A depth allow eg0 eqs k t u := by
    intro t
    induction t using Term.ind with
    | h op ts ih =>
      intro ht
      have hus : ∃ us, List.Forall₂ (fun t u => u ∈ l ∧ Generated eg0 eqs t u ∧ AtStage A depth allow eg0 eqs k t u) ts us := by
        have : ∀ ts : List (Term Op), (∀ t ∈ ts, ∃ u ∈ l, Generated eg0 eqs t u ∧ AtStage A depth allow eg0 eqs k t u) →
            ∃ us, List.Forall₂ (fun t u => u ∈ l ∧ Generated eg0 eqs t u ∧ AtStage A depth allow eg0 eqs k t u) ts us := by
          intro ts
          induction ts with
          | nil => intro _; exact ⟨[], .nil⟩
          | cons t ts ihp =>
            intro h
            obtain ⟨u, hu⟩ := h t (by simp)
            obtain ⟨us, hus⟩ := ihp (fun x hx => h x (by simp [hx]))
            exact ⟨u :: us, .cons hu hus⟩
        exact this ts (fun t hm => ih t hm (.arg ht hm))
      obtain ⟨us, hus⟩ := hus
      have hnode : Generated eg0 eqs (.node op ts) (.node op us) := by
        refine .congr ht hus.length_eq (fun i s t hs ht => ?_)
        obtain ⟨hi, rfl⟩ := List.getElem?_eq_some_iff.1 hs
        obtain ⟨hi', rfl⟩ := List.getElem?_eq_some_iff.1 ht
        exact ((List.forall₂_iff_get.1 hus).2 i hi hi').2.1
      obtain ⟨u, hu, hgu⟩ := hl _ hnode.right
      refine ⟨u, hu, .trans hnode hgu, ?_⟩
      have hul : ∀ x ∈ us, x ∈ l := fun x hx => by
        obtain ⟨t, _, h, _⟩ := forall₂_mem_left (forall₂_flip hus) hx
        exact h
      have hst := hk (.node op us) (List.mem_append.2 (Or.inr (List.mem_flatMap.2 ⟨(op, us.length), by
        rw [← hus.length_eq]
        exact (ht.syms hg hv).1 op ts .refl, List.mem_map.2 ⟨us, mem_tuples hul, rfl⟩⟩))) u (List.mem_append.2 (Or.inl hu)) hgu
      intro S H env sch hooks rules b bk hb hb'
      obtain ⟨c, h1, h2⟩ := hst _ _ _ _ _ _ _ _ hb hb'
      have hF := (hb.after hA hd hcyc hb').full
      refine ⟨c, (hF.cong.congr op (ss := ts) (ts := us) (hus.imp fun t u h => ?_) c).2 h1, h2⟩
      obtain ⟨d, h3, h4⟩ := h.2.2 _ _ _ _ _ _ _ _ hb hb'
      exact hF.rel h3 h4
  refine ⟨k, fun s t hst S H env sch hooks rules b bk hb hb' => ?_⟩
  have hF := (hb.after hA hd hcyc hb').full
  obtain ⟨u, hu, g1, a1⟩ := key s hst.left
  obtain ⟨w, hw, g2, a2⟩ := key t hst.right
  obtain ⟨c, h1, h2⟩ := a1 _ _ _ _ _ _ _ _ hb hb'
  obtain ⟨d, h3, h4⟩ := a2 _ _ _ _ _ _ _ _ hb hb'
  obtain ⟨e, h5, h6⟩ := hk u (List.mem_append.2 (Or.inl hu)) w (List.mem_append.2 (Or.inl hw)) (.trans (.symm g1) (.trans hst g2)) _ _ _ _ _ _ _ _ hb hb'
  exact ⟨e, (hF.rel h1 h2 e).2 h5, (hF.rel h3 h4 e).2 h6⟩

end Egg
