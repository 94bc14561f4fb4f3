import Verif.Lemmas.ChaseStill
import Verif.Lemmas.Stages
/-
If what rules derive is finite, it is derived after finitely many rounds.
-/
namespace Egg
variable {Op D S H : Type} [DecidableEq Op] [Lang Op]
variable {A : UserAnalysis Op D} {depth : Nat} {allow : Caller Op D}
variable {rules : List (Rewrite Op D)} {cs : List (Clause Op)} {eg : EGraph Op D}

omit [DecidableEq Op] [Lang Op] in
/-- The operators of a clause. -/
def Clause.syms : Clause Op → List (Op × Nat)
  | .rewrite _ t => patSyms t
  | .horn _ rs => rs.flatMap fun e => patSyms e.2

omit [DecidableEq Op] [Lang Op] in
/-- The variables of the right-hand sides have a meaning. -/
def ScopedRhs (bound : Var → Prop) : List (Var × Term (PatOp Op)) → Prop
  | [] => True
  | (w, q) :: rest => (∀ v, Occurs v q → bound v) ∧ ScopedRhs (fun v => bound v ∨ v = w) rest

omit [DecidableEq Op] [Lang Op] in
def Clause.Scoped : Clause Op → Prop
  | .rewrite tl t => ∀ v, Occurs v t → Occurs v tl
  | .horn ls rs => ScopedRhs (fun v => MultiOccurs v ls) rs

omit [DecidableEq Op] [Lang Op] in
theorem ScopedRhs.mono : ∀ (rs : List (Var × Term (PatOp Op))) {b b' : Var → Prop}, (∀ v, b v → b' v) → ScopedRhs b rs → ScopedRhs b' rs
  | [], _, _, _, _ => trivial
  | (_, _) :: rest, _, _, h, ⟨h1, h2⟩ => ⟨fun v hv => h v (h1 v hv), ScopedRhs.mono rest (fun v => Or.imp_left (h v)) h2⟩

theorem scopedRhs_of : ∀ (asts : List (Var × PatternAst Op)) (rs : List (Var × Term (PatOp Op)))
    (_ : List.Forall₂ (fun a b => a.1 = b.1 ∧ PatWF a.2 ∧ ExprTerm a.2 b.2) asts rs) {bound : Var → Prop} {bs : List Var},
    (∀ v ∈ bs, bound v) → (∀ v ∈ applierVars asts bs, bound v) → ScopedRhs bound rs
  | _, _, .nil, _, _, _, _ => trivial
  | _ :: _, _ :: _, .cons (a := a) (b := b) hab hrest, bound, bs, h1, h2 => by
    obtain ⟨w', p⟩ := a
    obtain ⟨w, q⟩ := b
    obtain ⟨e, hw, ht⟩ := hab
    have e : w' = w := e
    subst e
    refine ⟨fun v hv => ?_, scopedRhs_of _ _ hrest (bs := w' :: bs) (fun v hv => ?_) (fun v hv => ?_)⟩
    · by_cases hbs : v ∈ bs
      · exact h1 v hbs
      · refine h2 v ?_
        unfold applierVars
        rw [List.mem_append, List.mem_filter]
        left
        refine ⟨?_, by simpa using hbs⟩
        obtain ⟨j, hj⟩ := termOf_subterm hv ht.2
        obtain ⟨n, n1, n2, _⟩ := termOf_iff.1 hj
        unfold nodeVars
        rw [List.mem_filterMap]
        exact ⟨n, List.mem_of_getElem? n1, by simp only [n2]⟩
    · rcases List.mem_cons.1 hv with rfl | hv
      · exact .inr rfl
      · exact .inl (h1 v hv)
    · exact .inl (h2 v (by unfold applierVars; exact List.mem_append.2 (.inr hv)))

theorem IsClause.scoped {rw' : Rewrite Op D} {c : Clause Op} (h : IsClause rw' c) : c.Scoped := by
  cases c with
  | rewrite tl t =>
    obtain ⟨lp, rp, h1, h2, h3, h4⟩ := h
    exact fun v hv => h2 v ((rewrite_new_inv h4).1 v (h3.occurs_vars hv))
  | horn ls rs =>
    obtain ⟨lp, rp, h1, h2, h3, ⟨ordc, fuel, -, -, h4⟩, h5⟩ := h
    exact scopedRhs_of _ _ h4 (bs := []) (by simp) (fun v hv => h3 v ((rewrite_new_inv h5).1 v hv))

omit [DecidableEq Op] [Lang Op] in
/-- The term has operators in `L` only. -/
def InSyms (L : List (Op × Nat)) (t : Term Op) : Prop := ∀ op ts, Subterm (.node op ts) t → (op, ts.length) ∈ L

section
variable {L : List (Op × Nat)} {E : Term Op → Term Op → Prop}

omit [DecidableEq Op] [Lang Op] in
theorem EqHull.inSyms (hE : ∀ s t, E s t → InSyms L s ∧ InSyms L t) {s t : Term Op} (h : EqHull E s t) : InSyms L s ∧ InSyms L t := by
  induction h with
  | base h => exact hE _ _ h
  | symm _ ih => exact ⟨ih.2, ih.1⟩
  | trans _ _ ih1 ih2 => exact ⟨ih1.1, ih2.2⟩
  | arg _ hm ih => exact ⟨fun op ts hs => ih.1 op ts (.arg hm hs), fun op ts hs => ih.1 op ts (.arg hm hs)⟩
  | @congr o ss ts _ hlen _ ih ih' =>
    refine ⟨ih.1, fun op us hs => ?_⟩
    generalize hw : Term.node op us = w at hs
    generalize hx : Term.node o ts = x at hs
    cases hs with
    | refl =>
      rw [← hw] at hx
      cases hx
      rw [hlen]
      exact ih.1 _ _ .refl
    | arg h1 h2 =>
      cases hx
      rw [← hw] at h2
      obtain ⟨i, hi, e⟩ := List.getElem_of_mem h1
      have hi' : i < ss.length := hlen ▸ hi
      exact (ih' i _ _ (List.getElem?_eq_getElem hi') (by rw [List.getElem?_eq_getElem hi, e])).2 op us h2

theorem inst_inSyms {τ : Var → Term Op} {p : Term (PatOp Op)} {u : Term Op} (h : Inst τ p u) (hp : ∀ x ∈ patSyms p, x ∈ L)
    (hτ : ∀ v, Occurs v p → InSyms L (τ v)) : InSyms L u := by
  intro op ts hs
  rcases inst_syms p h op ts hs with h3 | ⟨v, h3, h4⟩
  · exact hp _ h3
  · exact hτ v h3 op ts h4

theorem Concluded.inSyms : ∀ (rs : List (Var × Term (PatOp Op))) {bound : Var → Prop} {τ : Var → Term Op}, ScopedRhs bound rs →
    (∀ v, bound v → InSyms L (τ v)) → (∀ w q, (w, q) ∈ rs → ∀ x ∈ patSyms q, x ∈ L) → ∀ s t, Concluded bound τ rs s t → InSyms L s ∧ InSyms L t
  | [], _, _, _, _, _, _, _, h => h.elim
  | (w, q) :: rest, bound, τ, ⟨h1, h2⟩, h3, h4, s, t, ⟨u, hu, h⟩ => by
    have hq := inst_inSyms hu (h4 w q (by simp)) (fun v hv => h3 v (h1 v hv))
    have h4' : ∀ w q, (w, q) ∈ rest → ∀ x ∈ patSyms q, x ∈ L := fun w q h => h4 w q (by simp [h])
    rcases h with ⟨rfl, rfl⟩ | ⟨hb, rfl, rfl⟩ | ⟨hb, h⟩ | ⟨hb, h⟩
    · exact ⟨hq, hq⟩
    · exact ⟨h3 w hb, hq⟩
    · exact Concluded.inSyms rest (h2.mono rest (fun v hv => hv.elim id (fun e => e ▸ hb))) h3 h4' s t h
    · refine Concluded.inSyms rest h2 (fun v hv => ?_) h4' s t h
      by_cases e : v = w
      · rw [if_pos e]; exact hq
      · rw [if_neg e]; exact h3 v (hv.resolve_right e)

theorem Clause.Derives.inSyms {c : Clause Op} (hc : c.Scoped) (hL : ∀ x ∈ c.syms, x ∈ L) (hE : ∀ s t, E s t → InSyms L s ∧ InSyms L t) {s t : Term Op}
    (h : c.Derives E s t) : InSyms L s ∧ InSyms L t := by
  have sub : ∀ {τ : Var → Term Op} {p : Term (PatOp Op)} {u : Term Op}, Inst τ p u → InSyms L u → ∀ v, Occurs v p → InSyms L (τ v) :=
    fun h hu v hv op ts hs => hu op ts (hs.trans (inst_subterm h v hv))
  cases c with
  | rewrite tl t' =>
    obtain ⟨τ, h1, h2, h3⟩ := h
    have h4 := (hE _ _ h3).1
    exact ⟨h4, inst_inSyms h2 hL (fun v hv => sub h1 h4 v (hc v hv))⟩
  | horn ls rs =>
    obtain ⟨τ, h1, h2⟩ := h
    refine Concluded.inSyms rs hc (fun v hv => ?_) (fun w q hwq x hx => hL x (List.mem_flatMap.2 ⟨_, hwq, hx⟩)) s t h2
    obtain ⟨w, p, h3, h4⟩ := hv
    obtain ⟨u, h5, h6⟩ := h1 w p h3
    rcases h4 with rfl | h4
    · exact (hE _ _ h6).1
    · exact sub h5 (hE _ _ h6).2 v h4

theorem Chase.inSyms (hc : ∀ c ∈ cs, c.Scoped) (hL : ∀ c ∈ cs, ∀ x ∈ c.syms, x ∈ L) (hE : ∀ s t, E s t → InSyms L s ∧ InSyms L t) :
    ∀ (k : Nat) (s t : Term Op), Chase cs E k s t → InSyms L s ∧ InSyms L t
  | 0, _, _, h => EqHull.inSyms hE h
  | k + 1, _, _, h => EqHull.inSyms (fun s t hst => by
    rcases hst with hst | ⟨c, hcm, hst⟩
    · exact Chase.inSyms hc hL hE k s t hst
    · exact hst.inSyms (hc c hcm) (hL c hcm) (Chase.inSyms hc hL hE k)) h

omit [DecidableEq Op] [Lang Op] in
theorem Chase.le {k j : Nat} (hkj : k ≤ j) {s t : Term Op} (h : Chase cs E k s t) : Chase cs E j s t := by
  induction hkj with
  | refl => exact h
  | step _ ih => exact ih.step

omit [DecidableEq Op] [Lang Op] in
theorem Chase.pcong (k : Nat) : PCong (Chase cs E k) := by
  cases k with
  | zero => exact EqHull.pcong
  | succ k => exact EqHull.pcong

omit [DecidableEq Op] [Lang Op] in
/-- What is derived in any number of rounds. -/
theorem Chase.limit : PCong (fun s t => ∃ k, Chase cs E k s t) where
  symm := fun ⟨k, h⟩ => ⟨k, (Chase.pcong k).symm h⟩
  trans := fun ⟨k, h⟩ ⟨j, h'⟩ => ⟨max k j, (Chase.pcong _).trans (h.le (le_max_left _ _)) (h'.le (le_max_right _ _))⟩
  arg := fun ⟨k, h⟩ hs => ⟨k, (Chase.pcong k).arg h hs⟩
  congr := by
    rintro op ss ts ⟨k, h⟩ hf
    have : ∃ j, List.Forall₂ (Chase cs E j) ss ts := by
      clear h
      induction hf with
      | nil => exact ⟨0, .nil⟩
      | cons h1 _ ih =>
        obtain ⟨k, h1⟩ := h1
        obtain ⟨j, h2⟩ := ih
        exact ⟨max k j, .cons (h1.le (le_max_left _ _)) (h2.imp fun _ _ h => h.le (le_max_right _ _))⟩
    obtain ⟨j, h2⟩ := this
    exact ⟨max k j, (Chase.pcong _).congr (h.le (le_max_left _ _)) (h2.imp fun _ _ h => h.le (le_max_right _ _))⟩

/-- If what is derived is finite, there is a number of rounds after which all of it is derived. -/
theorem FinitelyDerived.stage (hc : ∀ c ∈ cs, c.Scoped) (hL : ∀ c ∈ cs, ∀ x ∈ c.syms, x ∈ L) (hE : ∀ s t, E s t → InSyms L s ∧ InSyms L t)
    (h : FinitelyDerived cs E) : ∃ k, ∀ s t, (∃ j, Chase cs E j s t) → Chase cs E k s t := by
  obtain ⟨l, hl⟩ := h
  have lim := Chase.limit (cs := cs) (E := E)
  let l' := l ++ L.flatMap fun x => (tuples l x.2).map (Term.node x.1)
  obtain ⟨k, hk⟩ := exists_stage (P := fun k (p : Term Op × Term Op) => (∃ j, Chase cs E j p.1 p.2) → Chase cs E k p.1 p.2)
    (fun k j p hkj h hp => (h hp).le hkj) (l'.flatMap fun a => l'.map fun b => (a, b)) (fun p _ => by
      by_cases hp : ∃ j, Chase cs E j p.1 p.2
      · exact hp.imp fun k h _ => h
      · exact ⟨0, fun h => absurd h hp⟩)
  have hk : ∀ a ∈ l', ∀ b ∈ l', (∃ j, Chase cs E j a b) → Chase cs E k a b := fun a ha b hb =>
    hk (a, b) (List.mem_flatMap.2 ⟨a, ha, List.mem_map.2 ⟨b, hb, rfl⟩⟩)
  have key : ∀ t, (∃ j, Chase cs E j t t) → ∃ u ∈ l, Chase cs E k t u := by
    intro t
    induction t using Term.ind with
    | h op ts ih =>
      intro ht
      have hus : ∃ us, List.Forall₂ (fun t u => u ∈ l ∧ Chase cs E k t u) ts us := by
        have : ∀ ts : List (Term Op), (∀ t ∈ ts, ∃ u ∈ l, Chase cs E k t u) → ∃ us, List.Forall₂ (fun t u => u ∈ l ∧ Chase cs E k t u) ts us := by
          intro ts
          induction ts with
          | nil => intro _; exact ⟨[], .nil⟩
          | cons t ts ihp =>
            intro h
            obtain ⟨u, hu⟩ := h t (by simp)
            obtain ⟨us, hus⟩ := ihp (fun x hx => h x (by simp [hx]))
            exact ⟨u :: us, .cons hu hus⟩
        exact this ts (fun t hm => ih t hm (lim.arg ht hm))
      obtain ⟨us, hus⟩ := hus
      have hnode : ∃ j, Chase cs E j (.node op ts) (.node op us) := lim.congr ht (hus.imp fun _ _ h => ⟨k, h.2⟩)
      obtain ⟨u, hu, hgu⟩ := hl _ (lim.right hnode)
      have hul : ∀ x ∈ us, x ∈ l := fun x hx => by
        obtain ⟨t, _, h, _⟩ := forall₂_mem_left (forall₂_flip hus) hx
        exact h
      have hst := hk (.node op us) (List.mem_append.2 (Or.inr (List.mem_flatMap.2 ⟨(op, us.length), by
        rw [← hus.length_eq]
        obtain ⟨j, ht⟩ := ht
        exact (Chase.inSyms hc hL hE j _ _ ht).1 op ts .refl, List.mem_map.2 ⟨us, mem_tuples hul, rfl⟩⟩))) u (List.mem_append.2 (Or.inl hu)) hgu
      have P := Chase.pcong (cs := cs) (E := E) k
      exact ⟨u, hu, P.trans (P.symm (P.congr (P.left hst) ((forall₂_flip hus).imp fun _ _ h => P.symm h.2))) hst⟩
  refine ⟨k, fun s t hst => ?_⟩
  have P := Chase.pcong (cs := cs) (E := E) k
  obtain ⟨u, hu, a1⟩ := key s (lim.left hst)
  obtain ⟨w, hw, a2⟩ := key t (lim.right hst)
  exact P.trans a1 (P.trans (hk u (List.mem_append.2 (Or.inl hu)) w (List.mem_append.2 (Or.inl hw))
    (lim.trans (lim.symm ⟨k, a1⟩) (lim.trans hst ⟨k, a2⟩))) (P.symm a2))

end

/-- The operators of an e-graph. -/
theorem Equal.inSyms {C : Cfg Op D} (hg : EGraph.Good C eg) {s t : Term Op} (h : Equal eg s t) : InSyms (symsOf eg []) s ∧ InSyms (symsOf eg []) t := by
  have hrep : ∀ c t, Rep eg c t → InSyms (symsOf eg []) t := by
    intro c t hc op ts hs
    obtain ⟨x, hx⟩ := rep_subterm hg.inv hs hc
    rw [hg.inv.rep_iff] at hx
    obtain ⟨_, k, n, h1, h2, h3, h4⟩ := hx
    refine List.mem_append.2 (Or.inl (List.mem_flatMap.2 ⟨_, AMap.mem_of_get? h1, ?_⟩))
    exact List.mem_map.2 ⟨n, h2, by rw [h3, h4.length_eq]⟩
  obtain ⟨c, h1, h2⟩ := h
  exact ⟨hrep c s h1, hrep c t h2⟩

theorem FinitelyDerived.rounds {C : Cfg Op D} (hg : EGraph.Good C eg) (hc : ∀ c ∈ cs, c.Scoped) (h : FinitelyDerived cs (Equal eg)) :
    ∃ k, ∀ s t, (∃ j, Chase cs (Equal eg) j s t) → Chase cs (Equal eg) k s t :=
  h.stage (L := symsOf eg [] ++ cs.flatMap Clause.syms) hc (fun c hcm x hx => List.mem_append.2 (.inr (List.mem_flatMap.2 ⟨c, hcm, hx⟩)))
    (fun s t hst => ⟨fun op ts hs => List.mem_append.2 (.inl ((hst.inSyms hg).1 op ts hs)), fun op ts hs => List.mem_append.2 (.inl ((hst.inSyms hg).2 op ts hs))⟩)

end Egg
