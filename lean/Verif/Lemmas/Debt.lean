import Verif.Lemmas.Fair
/-
How many more iterations the back-off scheduler can pass over a rule.
-/
namespace Egg
variable {Op D S H : Type} [DecidableEq Op] [Lang Op]
variable {A : UserAnalysis Op D} {depth : Nat} {allow : Caller Op D} {eqs : List (Term (PatOp Op) × Term (PatOp Op))}

/-- The number of iterations that the entry `st` can still be passed over if its limit is never exceeded after `d` bans. -/
def RuleStats.debt (st : RuleStats) (d i : Nat) : Nat := (st.bannedUntil - i) + max 1 st.banLength * (2 ^ d - 2 ^ st.timesBanned)

theorem Outcome.debt {bits i B d : Nat} {st st1 : RuleStats} {P : Prop} (h : Outcome bits i B st st1 P) (ht : st.timesBanned ≤ d)
    (hc : Covers bits st.matchLimit d B) :
    st1.timesBanned ≤ d ∧ Covers bits st1.matchLimit d B ∧
      (st1.debt d (i + 1) + 1 ≤ st.debt d i ∨
        (st1.debt d (i + 1) ≤ st.debt d i ∧ st.bannedUntil ≤ i ∧ st1.timesBanned = st.timesBanned ∧ P)) := by
  obtain ⟨h1, h2, h3⟩ := h
  unfold RuleStats.debt
  rw [h1, h2]
  rcases h3 with ⟨k1, k2, k3⟩ | ⟨k1, k2, k3, k4⟩ | ⟨k1, k2, k3, k4⟩
  · rw [k2]
    exact ⟨ht, hc, Or.inl (by omega)⟩
  · have hlt : st.timesBanned < d := by
      rcases Nat.lt_or_ge st.timesBanned d with h | h
      · exact h
      · have e : st.timesBanned = d := by omega
        rw [e, Nat.mod_eq_of_lt hc.2] at k2
        have := hc.1
        omega
    refine ⟨by omega, hc, Or.inl ?_⟩
    rw [k3]
    have e1 : 2 ^ (st.timesBanned + 1) ≤ 2 ^ d := Nat.pow_le_pow_right (by omega) hlt
    have e2 : 2 ^ (st.timesBanned + 1) = 2 ^ st.timesBanned + 2 ^ st.timesBanned := Nat.pow_succ 2 _ ▸ Nat.mul_two _
    generalize 2 ^ (st.timesBanned + 1) = P1 at e1 e2 ⊢
    have e3 : 2 ^ d - 2 ^ st.timesBanned = (2 ^ d - P1) + 2 ^ st.timesBanned := by omega
    have e4 : 0 < 2 ^ st.timesBanned := Nat.pow_pos (by omega)
    rw [e3, Nat.mul_add]
    have e5 : st.banLength * 2 ^ st.timesBanned ≤ max 1 st.banLength * 2 ^ st.timesBanned := Nat.mul_le_mul_right _ (le_max_right _ _)
    have e6 : 1 * 2 ^ st.timesBanned ≤ max 1 st.banLength * 2 ^ st.timesBanned := Nat.mul_le_mul_right _ (le_max_left _ _)
    omega
  · rw [k2]
    exact ⟨ht, hc, Or.inr ⟨by omega, k1, rfl, k4⟩⟩

section
variable {env : RunEnv Op D} {hooks : List (Hook Op D H)} {rules : List (Rewrite Op D)} {b b1 : Runner Op D Backoff H} {U : List (UnionRec Op)}

/-- Each iteration that passes over a rule uses up some of its debt. -/
theorem Runner.after_debt (hN : env.analysis = A.at depth) (hord : ∀ i eg, (env.ord i eg).OK eg) (hd : DiscContiguous Op)
    (hcyc : (A.at depth).allowCycles = true) (hh : HooksRead hooks) (hr : AreTightRules rules eqs) (hnd : (rules.map (·.name)).Nodup)
    (h : Hist (A.at depth) allow U b.egraph) (hc : b.egraph.clean = true) (hw : b.scheduler.WF) {rw' : Rewrite Op D} {tl t : Term (PatOp Op)}
    (hmem : rw' ∈ rules) (htr : TightRule rw' tl t) {B d : Nat} (hB : B < env.usizeMax) (hcov : Covers env.bits (b.scheduler.ruleStats rw'.name).matchLimit d B)
    (ht : (b.scheduler.ruleStats rw'.name).timesBanned ≤ d)
    (hmost : ∀ k bk, Runner.after env Backoff.scheduler hooks rules k b = some bk → bk.AtMost env rw' B) :
    ∀ (n : Nat) (bn : Runner Op D Backoff H), Runner.after env Backoff.scheduler hooks rules n b = some bn →
      (∃ U, Hist (A.at depth) allow U bn.egraph) ∧ bn.egraph.clean = true ∧ bn.scheduler.WF ∧
      Covers env.bits (bn.scheduler.ruleStats rw'.name).matchLimit d B ∧ (bn.scheduler.ruleStats rw'.name).timesBanned ≤ d ∧
      ∀ ks : List Nat, ks.Nodup → (∀ k ∈ ks, k < n ∧ Runner.PassesOver env Backoff.scheduler hooks rules b tl t k) →
        ks.length + (bn.scheduler.ruleStats rw'.name).debt d bn.iterations.length ≤ (b.scheduler.ruleStats rw'.name).debt d b.iterations.length := by
  intro n
  induction n with
  | zero =>
    intro bn hn
    cases hn
    refine ⟨⟨_, h⟩, hc, hw, hcov, ht, fun ks _ hks => ?_⟩
    cases ks with
    | nil => simp
    | cons k ks => exact absurd (hks k (by simp)).1 (by omega)
  | succ n ih =>
    intro b2 hn
    obtain ⟨b1, h1, h2⟩ := Runner.after_last hn
    obtain ⟨⟨U1, k1⟩, k2, k3, k4, k5, k6⟩ := ih b1 h1
    obtain ⟨V, s1, s2, s3, s4, -, s6, -⟩ := Runner.backoff_step hN hord hd hcyc hh hr hnd k1 k2 k3 h2
    obtain ⟨o1, o2, o3⟩ := (s6 rw' hmem tl t htr B hB (hmost n b1 h1)).debt k5 k4
    refine ⟨⟨_, Steps.trans k1 s1⟩, s2, s4, o2, o1, fun ks hnd hks => ?_⟩
    rw [s3]
    by_cases hmem' : n ∈ ks
    · have := k6 (ks.erase n) (hnd.erase n) (fun k hk => by
        rw [hnd.mem_erase_iff] at hk
        obtain ⟨q1, q2⟩ := hks k hk.2
        exact ⟨by omega, q2⟩)
      rw [List.length_erase_of_mem hmem'] at this
      have hpos := List.length_pos_of_mem hmem'
      rcases o3 with o3 | ⟨-, -, -, hcl⟩
      · omega
      · exfalso
        obtain ⟨-, rk, rk1, e1, e2, τ, s, w, c, i1, i2, i3, i4⟩ := hks n hmem'
        rw [h1] at e1
        rw [hn] at e2
        cases e1
        cases e2
        obtain ⟨d', q1, q2⟩ := hcl τ s w c i1 i2 i3
        have := (steps_grow s1 (hist_good k1)).2.rep _ _ i3
        exact i4 (((Full.of_hist (Steps.trans k1 s1) s2).rel q1 q2 c).1 this)
    · have := k6 ks hnd (fun k hk => by
        obtain ⟨q1, q2⟩ := hks k hk
        refine ⟨?_, q2⟩
        have : k ≠ n := fun e => hmem' (e ▸ hk)
        omega)
      rcases o3 with o3 | ⟨o3, -⟩ <;> omega

end

/-! ### Stages -/

/-- From `g` to `g'` in steps that only add, among them `k` that apply the rules `eqs` to all that is there. -/
inductive Climb (eqs : List (Term (PatOp Op) × Term (PatOp Op))) : Nat → EGraph Op D → EGraph Op D → Prop
  | refl {g} : Full g → Climb eqs 0 g g
  | grow {k g g' g''} : Climb eqs k g g' → Full g'' → (∀ c t, Rep g' c t → Rep g'' c t) → Climb eqs k g g''
  | close {k g g' g''} : Climb eqs k g g' → Full g'' → (∀ c t, Rep g' c t → Rep g'' c t) → (∀ tl t, (tl, t) ∈ eqs → ClosedFrom g' g'' tl t) →
      Climb eqs (k + 1) g g''

theorem Climb.full {k : Nat} {g g' : EGraph Op D} (h : Climb eqs k g g') : Full g' := by
  cases h <;> assumption

theorem Climb.kept {k : Nat} {g g' : EGraph Op D} (h : Climb eqs k g g') : ∀ c t, Rep g c t → Rep g' c t := by
  induction h with
  | refl _ => exact fun _ _ h => h
  | grow _ _ h1 ih => exact fun c t h => h1 c t (ih c t h)
  | close _ _ h1 _ ih => exact fun c t h => h1 c t (ih c t h)

/-- The last step that applies the rules. -/
theorem Climb.last {k : Nat} {g g' : EGraph Op D} (h : Climb eqs (k + 1) g g') :
    ∃ g1 g2 : EGraph Op D, Climb eqs k g g1 ∧ (∀ tl t, (tl, t) ∈ eqs → ClosedFrom g1 g2 tl t) ∧ ∀ c t, Rep g2 c t → Rep g' c t := by
  generalize hj : k + 1 = j at h
  induction h with
  | refl _ => omega
  | grow _ _ h1 ih =>
    obtain ⟨g1, g2, q1, q2, q3⟩ := ih hj
    exact ⟨g1, g2, q1, q2, fun c t h => h1 c t (q3 c t h)⟩
  | close h1 _ _ h2 _ =>
    cases hj
    exact ⟨_, _, h1, h2, fun _ _ h => h⟩

/-- Wherever the rules have been applied at least `k` times `s` and `t` are there and equal. -/
def Climbed (eg0 : EGraph Op D) (eqs : List (Term (PatOp Op) × Term (PatOp Op))) (k : Nat) (s t : Term Op) : Prop :=
  ∀ (j : Nat) (g g' : EGraph Op D), k ≤ j → (∀ c t, Rep eg0 c t → Rep g c t) → Climb eqs j g g' → ∃ c, Rep g' c s ∧ Rep g' c t

variable {eg0 : EGraph Op D}

theorem Climbed.mono {k j : Nat} (hkj : k ≤ j) {s t : Term Op} (h : Climbed eg0 eqs k s t) : Climbed eg0 eqs j s t :=
  fun i g g' hi hg hc => h i g g' (by omega) hg hc

theorem Generated.climbed {s t : Term Op} (h : Generated eg0 eqs s t) : ∃ k, Climbed eg0 eqs k s t := by
  induction h with
  | @start c _ _ h1 h2 => exact ⟨0, fun j g g' _ hg hc => ⟨c, hc.kept _ _ (hg _ _ h1), hc.kept _ _ (hg _ _ h2)⟩⟩
  | @rule s t _ h ih =>
    obtain ⟨k, hk⟩ := ih
    obtain ⟨tl, t', hm, τ, h1, h2⟩ := h
    refine ⟨k + 1, fun j g g' hj hg hc => ?_⟩
    obtain ⟨j, rfl⟩ : ∃ i, j = i + 1 := ⟨j - 1, by omega⟩
    obtain ⟨g1, g2, q1, q2, q3⟩ := hc.last
    obtain ⟨c, hc, -⟩ := hk j g g1 (by omega) hg q1
    obtain ⟨d, h3, h4⟩ := q2 tl t' hm τ _ _ c h1 h2 hc
    exact ⟨d, q3 _ _ h3, q3 _ _ h4⟩
  | symm _ ih =>
    obtain ⟨k, hk⟩ := ih
    exact ⟨k, fun j g g' hj hg hc => (hk j g g' hj hg hc).imp fun c h => ⟨h.2, h.1⟩⟩
  | trans _ _ ih1 ih2 =>
    obtain ⟨k1, hk1⟩ := ih1
    obtain ⟨k2, hk2⟩ := ih2
    refine ⟨max k1 k2, fun j g g' hj hg hc => ?_⟩
    obtain ⟨c, h1, h2⟩ := hk1 j g g' (by omega) hg hc
    obtain ⟨d, h3, h4⟩ := hk2 j g g' (by omega) hg hc
    exact ⟨d, (hc.full.rel h1 h2 d).2 h3, h4⟩
  | arg _ hm ih =>
    obtain ⟨k, hk⟩ := ih
    refine ⟨k, fun j g g' hj hg hc => ?_⟩
    obtain ⟨c, h1, -⟩ := hk j g g' hj hg hc
    obtain ⟨d, hd'⟩ := rep_subterm hc.full.good.inv (.arg hm .refl) h1
    exact ⟨d, hd', hd'⟩
  | @congr op ss ts _ hlen _ ih ih' =>
    obtain ⟨k1, hk1⟩ := ih
    obtain ⟨k2, hk2⟩ := exists_stage (P := fun k (i : Nat) => ∀ s t, ss[i]? = some s → ts[i]? = some t → Climbed eg0 eqs k s t)
      (fun k j i hkj h s t hs ht => (h s t hs ht).mono hkj) (List.range ss.length) (fun i hi => by
        have hi : i < ss.length := by simpa using hi
        have hi' : i < ts.length := hlen ▸ hi
        obtain ⟨k, hk⟩ := ih' i _ _ (List.getElem?_eq_getElem hi) (List.getElem?_eq_getElem hi')
        refine ⟨k, fun s t hs ht => ?_⟩
        rw [List.getElem?_eq_getElem hi] at hs
        rw [List.getElem?_eq_getElem hi'] at ht
        cases hs; cases ht
        exact hk)
    refine ⟨max k1 k2, fun j g g' hj hg hc => ?_⟩
    obtain ⟨c, hc1, -⟩ := hk1 j g g' (by omega) hg hc
    have hF := hc.full
    refine ⟨c, hc1, (hF.cong.congr _ (List.forall₂_iff_get.2 ⟨hlen, fun i hi hi' => ?_⟩) c).1 hc1⟩
    obtain ⟨d, h1, h2⟩ := hk2 i (by simpa using hi) _ _ (List.getElem?_eq_getElem hi) (List.getElem?_eq_getElem hi') j g g' (by omega) hg hc
    exact hF.rel h1 h2

/-- If what is generated is finite, all of it is there once the rules have been applied often enough. -/
theorem FinitelyGenerated.climbed {C : Cfg Op D} (hg : EGraph.Good C eg0) (hv : ∀ tl t, (tl, t) ∈ eqs → ∀ v, Occurs v t → Occurs v tl)
    (h : FinitelyGenerated eg0 eqs) : ∃ k, ∀ s t, Generated eg0 eqs s t → Climbed eg0 eqs k s t := by
  obtain ⟨l, hl⟩ := h
  let l' := l ++ (symsOf eg0 eqs).flatMap fun x => (tuples l x.2).map (Term.node x.1)
  obtain ⟨k, hk⟩ := exists_stage (P := fun k (p : Term Op × Term Op) => Generated eg0 eqs p.1 p.2 → Climbed eg0 eqs k p.1 p.2)
    (fun k j p hkj h hp => (h hp).mono hkj) (l'.flatMap fun a => l'.map fun b => (a, b)) (fun p _ => by
      by_cases hp : Generated eg0 eqs p.1 p.2
      · exact hp.climbed.imp fun k h _ => h
      · exact ⟨0, fun h => absurd h hp⟩)
  have hk : ∀ a ∈ l', ∀ b ∈ l', Generated eg0 eqs a b → Climbed eg0 eqs k a b := fun a ha b hb =>
    hk (a, b) (List.mem_flatMap.2 ⟨a, ha, List.mem_map.2 ⟨b, hb, rfl⟩⟩)
  have key : ∀ t, Generated eg0 eqs t t → ∃ u ∈ l, Generated eg0 eqs t u ∧ Climbed eg0 eqs k t u := by
    intro t
    induction t using Term.ind with
    | h op ts ih =>
      intro ht
      have hus : ∃ us, List.Forall₂ (fun t u => u ∈ l ∧ Generated eg0 eqs t u ∧ Climbed eg0 eqs k t u) ts us := by
        have : ∀ ts : List (Term Op), (∀ t ∈ ts, ∃ u ∈ l, Generated eg0 eqs t u ∧ Climbed eg0 eqs k t u) →
            ∃ us, List.Forall₂ (fun t u => u ∈ l ∧ Generated eg0 eqs t u ∧ Climbed eg0 eqs k t u) ts us := by
          intro ts
          induction ts with
          | nil => intro _; exact ⟨[], .nil⟩
          | cons t ts ihp =>
            intro h
            obtain ⟨u, hu⟩ := h t (by simp)
            obtain ⟨us, hus⟩ := ihp (fun x hx => h x (by simp [hx]))
            exact ⟨u :: us, .cons hu hus⟩
        exact this ts (fun t hm => ih t hm (.arg ht hm))
      obtain ⟨us, hus⟩ := hus
      have hnode : Generated eg0 eqs (.node op ts) (.node op us) := by
        refine .congr ht hus.length_eq (fun i s t hs ht => ?_)
        obtain ⟨hi, rfl⟩ := List.getElem?_eq_some_iff.1 hs
        obtain ⟨hi', rfl⟩ := List.getElem?_eq_some_iff.1 ht
        exact ((List.forall₂_iff_get.1 hus).2 i hi hi').2.1
      obtain ⟨u, hu, hgu⟩ := hl _ hnode.right
      refine ⟨u, hu, .trans hnode hgu, ?_⟩
      have hul : ∀ x ∈ us, x ∈ l := fun x hx => by
        obtain ⟨t, _, h, _⟩ := forall₂_mem_left (forall₂_flip hus) hx
        exact h
      have hst := hk (.node op us) (List.mem_append.2 (Or.inr (List.mem_flatMap.2 ⟨(op, us.length), by
        rw [← hus.length_eq]
        exact (ht.syms hg hv).1 op ts .refl, List.mem_map.2 ⟨us, mem_tuples hul, rfl⟩⟩))) u (List.mem_append.2 (Or.inl hu)) hgu
      intro j g g' hj hg hc
      obtain ⟨c, h1, h2⟩ := hst j g g' hj hg hc
      have hF := hc.full
      refine ⟨c, (hF.cong.congr op (ss := ts) (ts := us) (hus.imp fun t u h => ?_) c).2 h1, h2⟩
      obtain ⟨d, h3, h4⟩ := h.2.2 j g g' hj hg hc
      exact hF.rel h3 h4
  refine ⟨k, fun s t hst j g g' hj hg hc => ?_⟩
  have hF := hc.full
  obtain ⟨u, hu, g1, a1⟩ := key s hst.left
  obtain ⟨w, hw, g2, a2⟩ := key t hst.right
  obtain ⟨c, h1, h2⟩ := a1 j g g' hj hg hc
  obtain ⟨d, h3, h4⟩ := a2 j g g' hj hg hc
  obtain ⟨e, h5, h6⟩ := hk u (List.mem_append.2 (Or.inl hu)) w (List.mem_append.2 (Or.inl hw)) (.trans (.symm g1) (.trans hst g2)) j g g' hj hg hc
  exact ⟨e, (hF.rel h1 h2 e).2 h5, (hF.rel h3 h4 e).2 h6⟩

/-! ### A run -/

/-- The runner `b` at the start of an iteration of a run with the back-off scheduler; `d` is the number of bans after which the limit of a
rule is not exceeded any more. -/
structure BackoffAt (A : UserAnalysis Op D) (depth : Nat) (allow : Caller Op D) (eg0 : EGraph Op D) (eqs : List (Term (PatOp Op) × Term (PatOp Op)))
    {H : Type} (env : RunEnv Op D) (hooks : List (Hook Op D H)) (rules : List (Rewrite Op D)) (d : Symbol → Nat) (b : Runner Op D Backoff H) : Prop where
  analysis : env.analysis = A.at depth
  ord : ∀ i eg, (env.ord i eg).OK eg
  read : HooksRead hooks
  are : RulesAre rules eqs
  names : (rules.map (·.name)).Nodup
  hist : ∃ U, Hist (A.at depth) allow U b.egraph
  clean : b.egraph.clean = true
  queue : b.egraph.apending.queue = []
  inside : Inside eg0 eqs b.egraph
  wf : b.scheduler.WF
  others : ∀ name, name ∉ rules.map (·.name) → (b.scheduler.ruleStats name).bannedUntil ≤ b.iterations.length
  bound : ∀ rw' ∈ rules, ∃ B, B < env.usizeMax ∧ Covers env.bits (b.scheduler.ruleStats rw'.name).matchLimit (d rw'.name) B ∧
    (b.scheduler.ruleStats rw'.name).timesBanned ≤ d rw'.name ∧
    ∀ k bk, Runner.after env Backoff.scheduler hooks rules k b = some bk → bk.AtMost env rw' B

/-- The debts of all rules. -/
def Runner.debt (rules : List (Rewrite Op D)) (d : Symbol → Nat) (b : Runner Op D Backoff H) : Nat :=
  (rules.map fun rw' => (b.scheduler.ruleStats rw'.name).debt (d rw'.name) b.iterations.length).sum

theorem sum_le_of {α : Type} {f g : α → Nat} : ∀ {l : List α}, (∀ a ∈ l, f a ≤ g a) → (l.map f).sum ≤ (l.map g).sum := by
  intro l
  induction l with
  | nil => intro _; simp
  | cons a l ih =>
    intro h
    have h1 := h a (by simp)
    have h2 := ih (fun x hx => h x (by simp [hx]))
    simp only [List.map_cons, List.sum_cons]
    omega

theorem sum_lt_of {α : Type} {f g : α → Nat} : ∀ {l : List α}, (∀ a ∈ l, f a ≤ g a) → (∃ a ∈ l, f a + 1 ≤ g a) → (l.map f).sum + 1 ≤ (l.map g).sum := by
  intro l
  induction l with
  | nil => rintro _ ⟨a, ha, _⟩; cases ha
  | cons a l ih =>
    rintro h ⟨x, hx, hx'⟩
    have h1 := h a (by simp)
    have h2 := sum_le_of (f := f) (g := g) (l := l) (fun x hx => h x (by simp [hx]))
    simp only [List.map_cons, List.sum_cons]
    rcases List.mem_cons.1 hx with rfl | hx
    · omega
    · have := ih (fun x hx => h x (by simp [hx])) ⟨x, hx, hx'⟩
      omega

section
variable {env : RunEnv Op D} {hooks : List (Hook Op D H)} {rules : List (Rewrite Op D)} {b b1 : Runner Op D Backoff H} {d : Symbol → Nat}

theorem BackoffAt.full (h : BackoffAt A depth allow eg0 eqs env hooks rules d b) : Full b.egraph := by
  obtain ⟨U, hU⟩ := h.hist
  exact Full.of_hist hU h.clean

theorem BackoffAt.next (hA : ∀ i, A.modify i = .done) (hd : DiscContiguous Op) (hcyc : (A.at depth).allowCycles = true)
    (h : BackoffAt A depth allow eg0 eqs env hooks rules d b) (h1 : Runner.after env Backoff.scheduler hooks rules 1 b = some b1) :
    BackoffAt A depth allow eg0 eqs env hooks rules d b1 ∧ (∀ c t, Rep b.egraph c t → Rep b1.egraph c t) ∧ b1.iterations.length = b.iterations.length + 1 ∧
      (b1.debt rules d + 1 ≤ b.debt rules d ∨
        (b1.debt rules d ≤ b.debt rules d ∧ (∀ tl t, (tl, t) ∈ eqs → ClosedFrom b.egraph b1.egraph tl t) ∧
          ¬ ∀ r4 it, Runner.runOne env Backoff.scheduler hooks rules b = .ok (r4, it) → it.applied = [] ∧ r4.egraph.totalSize = b.egraph.totalSize ∧
            r4.egraph.numberOfClasses = b.egraph.numberOfClasses)) := by
  obtain ⟨U, hU⟩ := h.hist
  have ht : AreTightRules rules eqs := h.are.1
  obtain ⟨V, s1, s2, s3, s4, s5, s6, s7⟩ := Runner.backoff_step h.analysis h.ord hd hcyc h.read ht h.names hU h.clean h.wf h1
  have hmost0 : ∀ rw' ∈ rules, ∃ B, B < env.usizeMax ∧ b.AtMost env rw' B ∧ Covers env.bits (b.scheduler.ruleStats rw'.name).matchLimit (d rw'.name) B ∧
      (b.scheduler.ruleStats rw'.name).timesBanned ≤ d rw'.name ∧
      ∀ k bk, Runner.after env Backoff.scheduler hooks rules k b1 = some bk → bk.AtMost env rw' B := by
    intro rw' hrw
    obtain ⟨B, q1, q2, q3, q4⟩ := h.bound rw' hrw
    exact ⟨B, q1, q4 0 b rfl, q2, q3, fun k bk hk => q4 (k + 1) bk (Runner.after_succ h1 hk)⟩
  have hout : ∀ rw' ∈ rules, ∀ tl t, TightRule rw' tl t →
      (b1.scheduler.ruleStats rw'.name).debt (d rw'.name) (b.iterations.length + 1) + 1 ≤ (b.scheduler.ruleStats rw'.name).debt (d rw'.name) b.iterations.length ∨
      ((b1.scheduler.ruleStats rw'.name).debt (d rw'.name) (b.iterations.length + 1) ≤ (b.scheduler.ruleStats rw'.name).debt (d rw'.name) b.iterations.length ∧
        (b.scheduler.ruleStats rw'.name).bannedUntil ≤ b.iterations.length ∧
        (b1.scheduler.ruleStats rw'.name).timesBanned = (b.scheduler.ruleStats rw'.name).timesBanned ∧ ClosedFrom b.egraph b1.egraph tl t) := by
    intro rw' hrw tl t htr
    obtain ⟨B, q1, q2, q3, q4, -⟩ := hmost0 rw' hrw
    exact ((s6 rw' hrw tl t htr B q1 q2).debt q4 q3).2.2
  have hle : ∀ rw' ∈ rules, (b1.scheduler.ruleStats rw'.name).debt (d rw'.name) (b.iterations.length + 1) ≤
      (b.scheduler.ruleStats rw'.name).debt (d rw'.name) b.iterations.length := by
    intro rw' hrw
    obtain ⟨tl, t, -, htr⟩ := ht rw' hrw
    rcases hout rw' hrw tl t htr with h | ⟨h, -⟩ <;> omega
  refine ⟨⟨h.analysis, h.ord, h.read, h.are, h.names, ⟨_, Steps.trans hU s1⟩, s2, ?_, ?_, s4, fun name hn => ?_, fun rw' hrw => ?_⟩,
    (steps_grow s1 (hist_good hU)).2.rep, s3, ?_⟩
  · have h2 := h1
    unfold Runner.after at h2
    split at h2
    · cases h2
    next r it ho =>
    dsimp only at h2
    split at h2
    · cases h2
    cases h2
    obtain ⟨V1, g1, fuel, n1, hj1, hj2⟩ := Runner.runOne_last h.analysis h.ord hd backoff_honest (h.read.ok (N := A.at depth) (allow := allow)) ht.areRules hU h.clean ho
    exact (rebuilt_tidy hj1 hj2).2.apending
  · have h2 := h1
    unfold Runner.after at h2
    split at h2
    · cases h2
    next r it ho =>
    dsimp only at h2
    split at h2
    · cases h2
    cases h2
    have := Runner.runOne_inside hA h.analysis h.ord hd backoff_honest h.read ht hU h.clean h.inside ho
    exact this
  · have := s5 name hn
    have := h.others name hn
    omega
  · obtain ⟨B, q1, q2, q3, q4, q5⟩ := hmost0 rw' hrw
    obtain ⟨tl, t, -, htr⟩ := ht rw' hrw
    obtain ⟨o1, o2, -⟩ := (s6 rw' hrw tl t htr B q1 q2).debt q4 q3
    exact ⟨B, q1, o2, o1, q5⟩
  · by_cases hex : ∃ rw' ∈ rules, (b1.scheduler.ruleStats rw'.name).debt (d rw'.name) (b.iterations.length + 1) + 1 ≤
        (b.scheduler.ruleStats rw'.name).debt (d rw'.name) b.iterations.length
    · left
      unfold Runner.debt
      rw [s3]
      exact sum_lt_of hle hex
    · right
      have hout : ∀ rw' ∈ rules, ∀ tl t, TightRule rw' tl t → (b.scheduler.ruleStats rw'.name).bannedUntil ≤ b.iterations.length ∧
          (b1.scheduler.ruleStats rw'.name).timesBanned = (b.scheduler.ruleStats rw'.name).timesBanned ∧ ClosedFrom b.egraph b1.egraph tl t := by
        intro rw' hrw tl t htr
        rcases hout rw' hrw tl t htr with h | ⟨-, h⟩
        · exact absurd ⟨rw', hrw, h⟩ hex
        · exact h
      refine ⟨?_, fun tl t hm => ?_, fun hidle => ?_⟩
      · unfold Runner.debt
        rw [s3]
        exact sum_le_of hle
      · obtain ⟨rw', hrw, htr⟩ := h.are.2 tl t hm
        exact (hout rw' hrw tl t htr).2.2
      · obtain ⟨rw', hrw, hx⟩ := s7 hidle h.others
        obtain ⟨tl, t, -, htr⟩ := ht rw' hrw
        obtain ⟨q1, q2, -⟩ := hout rw' hrw tl t htr
        rcases hx with hx | hx
        · omega
        · exact hx q2

/-- The length of a run. -/
theorem Runner.runLoop_climb (hA : ∀ i, A.modify i = .done) (hd : DiscContiguous Op) (hcyc : (A.at depth).allowCycles = true)
    {k : Nat} {g0 : EGraph Op D} (hg0 : ∀ c t, Rep eg0 c t → Rep g0 c t) (hk : ∀ s t, Generated eg0 eqs s t → Climbed eg0 eqs k s t) :
    ∀ (f j : Nat) (b r' : Runner Op D Backoff H), BackoffAt A depth allow eg0 eqs env hooks rules d b → Climb eqs j g0 b.egraph →
      runLoop env Backoff.scheduler hooks rules f b = .ok r' → r'.iterations.length ≤ b.iterations.length + (k - j) + b.debt rules d + 1 := by
  intro f
  induction f with
  | zero => intro j b r' _ _ hl; cases hl
  | succ f ih =>
    intro j b r' hb hc hl
    obtain ⟨f', r1, it, e0, ho, e, h3⟩ := runLoop_step hl
    cases e0
    rcases h3 with ⟨s, _, rfl⟩ | ⟨_, _, _, _, _, _, _, _, e'⟩ | ⟨_, h4, h5⟩
    · simp only [List.length_append, List.length_singleton, e]; omega
    · rw [e', List.length_append, List.length_singleton, e]; omega
    · obtain ⟨q1, q2, q3, q4⟩ := hb.next hA hd hcyc h4
      rcases q4 with q4 | ⟨q4, q5, q6⟩
      · have := ih j _ r' q1 (hc.grow q1.full q2) h5
        omega
      · rcases Nat.lt_or_ge j k with hjk | hjk
        · have := ih (j + 1) _ r' q1 (hc.close q1.full q2 q5) h5
          omega
        · exfalso
          obtain ⟨V, hV⟩ := hb.hist
          have hF := hb.full
          refine q6 (fun r4 it' ho' => ?_)
          obtain ⟨t1, t2, t3, t4, -⟩ := Runner.runOne_still (M := b.egraph) (hM := Full.of_hist hV hb.clean) hA hb.analysis hb.ord hd
            backoff_honest backoff_counting backoff_limited hb.read hb.are.1 (fun tl t ht τ s w dd h1 h2 h3 => by
              obtain ⟨c, h4, h5⟩ := hk s w (.rule (hb.inside.rep h3 h3) ⟨tl, t, ht, τ, h1, h2⟩) j g0 b.egraph hjk hg0 hc
              exact (hF.rel h4 h5 dd).1 h3) hV hb.clean (Still.start hA hV hb.clean hb.queue) ho'
          exact ⟨t2, t1.size, t1.classes⟩

end

end Egg
