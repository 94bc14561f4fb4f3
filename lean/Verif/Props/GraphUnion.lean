import Verif.Lemmas.IdToPattern
import Verif.Props.UnionEqualities
import Verif.Props.Rebuild
/-
C38: `egraph_union` joins the equalities of two e-graphs.
-/
namespace Egg
variable {Op D D2 : Type} [DecidableEq Op] [Lang Op]

/-- Two terms are equal in an e-graph: some class represents both. -/
def EqIn (eg : EGraph Op D) : Term Op → Term Op → Prop := fun s t => ∃ c, Rep eg c s ∧ Rep eg c t

/-- The equations of two e-graphs together. -/
def EqInEither (g1 : EGraph Op D) (g2 : EGraph Op D2) : Term Op → Term Op → Prop :=
  fun s t => EqIn g1 s t ∨ EqIn g2 s t

namespace EGraph
variable {C : Cfg Op D} {E : Err → Prop} {N : Analysis Op D} {eg : EGraph Op D}

/-- One iteration of `egraph_union`: adds the two terms and unites them. -/
theorem unionGround_post (hN : HookOK C E N) (allow : Caller Op D)
    (hR : ∀ s t, C.R s t) (hJ : ∀ r a b, C.J r a b) {l e : PatternAst Op}
    {s t : Term Op} (hl : PatWF l) (hs : ExprTerm l (s.map PatOp.op)) (hln : ∀ n ∈ l, ∃ o, n.op = .op o)
    (he : PatWF e) (ht : ExprTerm e (t.map PatOp.op)) (hen : ∀ n ∈ e, ∃ o, n.op = .op o) (hg : Good C eg) (rule : Symbol) :
    Post E (eg.unionInstantiations N l e [] rule)
      (fun r => Good C r.1 ∧ ∃ a b, Steps N allow eg [⟨rule, a, b, s, t⟩] r.1) := by
  have hbl : ∀ (g : EGraph Op D) (p : PatternAst Op), (∀ n ∈ p, ∃ o, n.op = .op o) → Binds g [] p := by
    intro g p hp n hn v hv
    obtain ⟨o, ho⟩ := hp n hn
    rw [ho] at hv; cases hv
  unfold unionInstantiations
  refine Post.bind (x := addInstantiationNoncanonical N eg l []) (Post.and (addInst_post hN hl hg (hbl _ _ hln))
    (fun a ha => addInst_steps ha)) ?_
  rintro ⟨eg1, id1⟩ ⟨⟨h1, h2, h3, h4⟩, h5⟩
  refine Post.bind (x := addInstantiationNoncanonical N eg1 e []) (Post.and (addInst_post hN he h1 (hbl _ _ hen))
    (fun a ha => addInst_steps ha)) ?_
  rintro ⟨eg2, id2⟩ ⟨⟨g1, g2, g3, g4⟩, g5⟩
  have h3 : id1 < eg1.nodes.length := h3
  have g3 : id2 < eg2.nodes.length := g3
  have h3' : id1 < eg2.nodes.length := g2.lt h3
  have hu : Rep eg2 id1 s := rep_of_pmatch s (g2.pmatch h1.inv g1.inv (h4 _ hs))
  have hw : Rep eg2 id2 t := rep_of_pmatch t (g4 _ ht)
  refine Post.bind (x := performUnion N eg2 id1 id2 (some (.rule rule))) (Post.and
    ((Good.union_post (caller := rule) hN g1 hu hw (hR _ _) (hJ _ _ _)).2)
    (fun a ha => (show EGraph.unionTrusted N eg2 id1 id2 rule = .ok a from ha))) ?_
  rintro ⟨eg3, did⟩ ⟨⟨k1, k2, k3, k4⟩, k5⟩
  have hf := k1.inv.find (k2.lt h3')
  dsimp only at hf ⊢
  rw [hf]
  refine ⟨k1, id1, id2, ?_⟩
  have := Steps.tail (V := [⟨rule, id1, id2, s, t⟩]) (AddSteps.steps (allow := allow) (AddSteps.trans h5 g5))
    (.unionTrusted hu hw k5)
  simpa using this

theorem egraphUnionGo_post (hN : HookOK C E N) (allow : Caller Op D)
    (hR : ∀ s t, C.R s t) (hJ : ∀ r a b, C.J r a b) {varOf : Id → Var} {ord : Compiler Op → List (Id × Nat)} {cfuel : Nat}
    {other : EGraph Op D2} (hd : Dag other.nodes)
    (hE : ∀ i e, i < other.nodes.length → other.idToPattern varOf ord cfuel i [] = .error e → E e) :
    ∀ (l : List (Id × Id × Symbol)) (eg : EGraph Op D), Good C eg →
      (∀ x ∈ l, x.1 < other.nodes.length ∧ x.2.1 < other.nodes.length) →
      Post E (egraphUnionGo N varOf ord cfuel other eg l) (fun eg' => Good C eg' ∧ ∃ V, Steps N allow eg V eg' ∧
        ∀ s t r, (∃ v ∈ V, v.s = s ∧ v.t = t ∧ v.reason = r) ↔
          ∃ a b, (a, b, r) ∈ l ∧ TermOf other.nodes a s ∧ TermOf other.nodes b t) := by
  intro l
  induction l with
  | nil => intro eg hg _; exact ⟨hg, [], .refl, by simp⟩
  | cons x l ih =>
    intro eg hg hx
    obtain ⟨a, b, why⟩ := x
    obtain ⟨ha, hb⟩ := hx _ (List.mem_cons_self)
    obtain ⟨s, hs⟩ := hd.exists_term a ha
    obtain ⟨t, ht⟩ := hd.exists_term b hb
    obtain ⟨p, p1, p2, p3, p4, -⟩ := idToPattern_spec (ord := ord) hd varOf hs
    obtain ⟨q, q1, q2, q3, q4, -⟩ := idToPattern_spec (ord := ord) hd varOf ht
    unfold egraphUnionGo
    refine Post.bind (x := other.idToPattern varOf ord cfuel a []) (P := fun r : Pattern Op × Subst => r.1.ast = p) ?_ ?_
    · cases h : other.idToPattern varOf ord cfuel a [] with
      | error e => exact hE a e ha h
      | ok r => exact (p4 cfuel r.1 r.2 h).1
    rintro ⟨P, sb⟩ hP
    refine Post.bind (x := other.idToPattern varOf ord cfuel b []) (P := fun r : Pattern Op × Subst => r.1.ast = q) ?_ ?_
    · cases h : other.idToPattern varOf ord cfuel b [] with
      | error e => exact hE b e hb h
      | ok r => exact (q4 cfuel r.1 r.2 h).1
    rintro ⟨Q, sb'⟩ hQ
    dsimp only at hP hQ ⊢
    rw [hP, hQ]
    refine Post.bind (x := eg.unionInstantiations N p q [] why)
      (unionGround_post hN allow hR hJ p1 p2 p3 q1 q2 q3 hg why) ?_
    rintro ⟨eg1, r1, d1⟩ ⟨g1, i1, i2, g2⟩
    refine Post.mono (ih eg1 g1 (fun x h => hx x (by simp [h]))) ?_
    rintro eg2 ⟨k1, V, k2, k3⟩
    refine ⟨k1, V ++ [⟨why, i1, i2, s, t⟩], Steps.trans g2 k2, ?_⟩
    intro s' t' r
    constructor
    · rintro ⟨v, hv, rfl, rfl, rfl⟩
      rcases List.mem_append.1 hv with hv | hv
      · obtain ⟨a', b', h1, h2, h3⟩ := (k3 v.s v.t v.reason).1 ⟨v, hv, rfl, rfl, rfl⟩
        exact ⟨a', b', by simp [h1], h2, h3⟩
      · simp only [List.mem_singleton] at hv
        subst hv
        exact ⟨a, b, by simp, hs, ht⟩
    · rintro ⟨a', b', h1, h2, h3⟩
      rcases List.mem_cons.1 h1 with h1 | h1
      · simp only [Prod.mk.injEq] at h1
        obtain ⟨rfl, rfl, rfl⟩ := h1
        exact ⟨⟨r, i1, i2, s, t⟩, by simp, hs.unique h2, ht.unique h3, rfl⟩
      · obtain ⟨v, h, e1, e2, e3⟩ := (k3 s' t' r).2 ⟨a', b', h1, h2, h3⟩
        exact ⟨v, by simp [h], e1, e2, e3⟩

/-- With enough fuel for the pattern compiler, `id_to_pattern` succeeds on all ids. -/
theorem idToPattern_total {other : EGraph Op D2} (hd : Dag other.nodes) (varOf : Id → Var)
    {ord : Compiler Op → List (Id × Nat)} (hoc : OrdOK ord) :
    ∃ f0, ∀ cfuel, f0 ≤ cfuel → ∀ i, i < other.nodes.length → ∃ p, other.idToPattern varOf ord cfuel i [] = .ok (p, []) := by
  have key : ∀ k, k ≤ other.nodes.length →
      ∃ f0, ∀ cfuel, f0 ≤ cfuel → ∀ i, i < k → ∃ p, other.idToPattern varOf ord cfuel i [] = .ok (p, []) := by
    intro k
    induction k with
    | zero => intro _; exact ⟨0, fun _ _ i hi => absurd hi (Nat.not_lt_zero _)⟩
    | succ k ih =>
      intro hk
      obtain ⟨f1, h1⟩ := ih (by omega)
      obtain ⟨t, ht⟩ := hd.exists_term k (by omega)
      obtain ⟨_, _, _, _, _, h2⟩ := idToPattern_spec (ord := ord) hd varOf ht
      obtain ⟨f2, p, h2⟩ := h2 hoc
      refine ⟨max f1 f2, fun cfuel hc i hi => ?_⟩
      by_cases h : i = k
      · subst h; exact ⟨p, h2 _ (by omega)⟩
      · exact h1 _ (by omega) i (by omega)
  exact key _ (Nat.le_refl _)

end EGraph

section
variable {A : UserAnalysis Op D} {depth : Nat} {allow : Caller Op D} {U : List (UnionRec Op)}
  {A2 : UserAnalysis Op D2} {depth2 : Nat} {allow2 : Caller Op D2} {U2 : List (UnionRec Op)}
  {varOf : Id → Var} {ord : Compiler Op → List (Id × Nat)} {cfuel fuel : Nat} {eg eg' : EGraph Op D} {other : EGraph Op D2}

/-- The equations that follow from the recorded unions are those of the e-graph. -/
theorem eqIn_recorded (h2 : Hist (A2.at depth2) allow2 U2 other) {x : Explain Op} (hx : other.explain = some x) :
    (∀ s t, EqsAt other.nodes x.unionEqualities s t → EqIn other s t) ∧
    (∀ s t, EqIn other s t → GEq (EqsAt other.nodes x.unionEqualities) s t) := by
  have hg := hist_good h2
  constructor
  · rintro s t ⟨a, b, r, hm, hs, ht⟩
    obtain ⟨L, hL⟩ := hg.inv.expl x hx
    exact ⟨a, hg.inv.rep_of_termOf s hs, hg.inv.rep_congr hs.lt (hL.mem_unionEqualities hm).2.2.2.symm
      (hg.inv.rep_of_termOf t ht)⟩
  · rintro s t ⟨c, h1, h2⟩
    exact (hg.inv.recorded hx).rep_related h1 h2 rfl

/-- **C38**, the result is an ordinary e-graph: `egraph_union` is a sequence of calls of `add`,
`union_trusted` and, last, `rebuild`; the equations `V` that it asserts hold in the other e-graph
and imply all equations of the other e-graph. -/
theorem c38_union_steps (h : Hist (A.at depth) allow U eg) (h2 : Hist (A2.at depth2) allow2 U2 other)
    (hu : EGraph.egraphUnion (A.at depth) varOf ord cfuel fuel eg other = .ok eg') :
    ∃ V eg1 k, Steps (A.at depth) allow eg V eg1 ∧ EGraph.rebuild (A.at depth) fuel eg1 = .ok (eg', k) ∧
      (∀ s t, eqsOf V s t → EqIn other s t) ∧ (∀ s t, EqIn other s t → GEq (eqsOf V) s t) := by
  unfold EGraph.egraphUnion at hu
  rw [bind_eq_ok] at hu
  obtain ⟨l, hl, hu⟩ := hu
  rw [bind_eq_ok] at hu
  obtain ⟨eg1, h1, hu⟩ := hu
  rw [bind_eq_ok] at hu
  obtain ⟨⟨eg2, k⟩, hr, hu⟩ := hu
  cases hu
  obtain ⟨x, hx, rfl⟩ := getUnionEqualities_ok hl
  have hg2 := hist_good h2
  obtain ⟨L, hL⟩ := hg2.inv.expl x hx
  obtain ⟨_, V, hV, hVl⟩ := (EGraph.egraphUnionGo_post (E := anyErr) ((soundFor_true A).hookOK trivial depth) allow
    (fun _ _ => trivial) (fun _ _ _ => trivial) hg2.inv.core.dag (fun _ _ _ _ => trivial) x.unionEqualities eg
    (hist_good h) (fun y hy => ⟨(hL.mem_unionEqualities hy).2.1, (hL.mem_unionEqualities hy).2.2.1⟩)).elim h1
  obtain ⟨k1, k2⟩ := eqIn_recorded h2 hx
  have he : ∀ s t, eqsOf V s t ↔ EqsAt other.nodes x.unionEqualities s t := by
    intro s t
    constructor
    · rintro ⟨v, hv, rfl, rfl⟩
      obtain ⟨a, b, q⟩ := (hVl v.s v.t v.reason).1 ⟨v, hv, rfl, rfl, rfl⟩
      exact ⟨a, b, v.reason, q⟩
    · rintro ⟨a, b, r, q⟩
      obtain ⟨v, hv, e1, e2, _⟩ := (hVl s t r).2 ⟨a, b, q⟩
      exact ⟨v, hv, e1, e2⟩
  exact ⟨V, eg1, k, hV, hr, fun s t h => k1 s t ((he s t).1 h),
    fun s t h => GEq.least .geq (fun s t h => .ax ((he s t).2 h)) (k2 s t h)⟩

/-- **C38**: after `egraph_union`, two ids are in the same class iff terms that they represent are
equal by ground equational reasoning from the equations that held in one of the two e-graphs
before.  (Neither e-graph needs to be rebuilt.  The `modify` hook of the analysis must only make
unions that follow from these equations.) -/
theorem c38_union_iff (hA : SoundFor A (GEq (EqInEither eg other)) .geq)
    (h : Hist (A.at depth) allow U eg) (h2 : Hist (A2.at depth2) allow2 U2 other)
    (hu : EGraph.egraphUnion (A.at depth) varOf ord cfuel fuel eg other = .ok eg')
    {a b : Id} {s t : Term Op} (ha : Rep eg' a s) (hb : Rep eg' b t) :
    SameClass eg' a b ↔ GEq (EqInEither eg other) s t := by
  obtain ⟨V, eg1, k, hV, hr, hs, hc⟩ := c38_union_steps h h2 hu
  have hU := (hist_good_of_sound (soundFor_true A) h (fun _ _ _ => trivial))
  have hU' : ∀ s t, eqsOf U s t → GEq (EqInEither eg other) s t := by
    rintro s t ⟨u, hu, rfl, rfl⟩
    obtain ⟨h1, h2, h3⟩ := hU.2 u hu
    exact .ax (.inl ⟨u.a, h1, hU.1.inv.rep_congr (hU.1.inv.rep_lt h1) h3.symm h2⟩)
  have hh1 : Hist (A.at depth) allow (V ++ U) eg1 := Steps.trans h hV
  have hh : Hist (A.at depth) allow (V ++ U) eg' := Steps.tail (V := []) hh1 (.rebuild hr)
  have hVU : ∀ s t, eqsOf (V ++ U) s t → GEq (EqInEither eg other) s t := by
    rintro s t ⟨u, hu, e1, e2⟩
    rcases List.mem_append.1 hu with hu | hu
    · exact .ax (.inr (hs s t ⟨u, hu, e1, e2⟩))
    · exact hU' s t ⟨u, hu, e1, e2⟩
  have hg0 := (hist_good_of_sound hA hh1 hVU).1
  obtain ⟨hg, hgU⟩ := hist_good_of_sound hA hh hVU
  constructor
  · intro hab
    exact hg.sensible.sound a b s t hab ha hb
  · intro hst
    have hp : eg'.pending = [] := ((EGraph.rebuild_post trivial (hA.hookOK trivial depth) fuel hg0).elim hr).2.2.1.pending
    have hgrow := (steps_grow (Steps.tail (V := []) hV (.rebuild hr)) (hist_good h)).2
    -- equations of either e-graph hold in the result
    have hV' : ∀ s t, GEq (eqsOf V) s t → ∀ c, Rep eg' c s ↔ Rep eg' c t := fun s t h =>
      rebuilt_closed hg hp (U := V) (fun u hu => hgU u (by simp [hu])) h
    have hcl : ∀ c, Rep eg' c s ↔ Rep eg' c t := by
      refine GEq.least (R := fun s t => ∀ c, Rep eg' c s ↔ Rep eg' c t) (rebuilt_congruence hg) ?_ hst
      rintro s t (⟨c, h1, h2⟩ | h)
      · have h1 := hgrow.rep _ _ h1
        have h2 := hgrow.rep _ _ h2
        intro d
        constructor
        · intro hd
          exact hg.inv.rep_congr (hg.inv.rep_lt hd) (EGraph.InvW.rep_unique hg.inv hp _ hd h1).symm h2
        · intro hd
          exact hg.inv.rep_congr (hg.inv.rep_lt hd) (EGraph.InvW.rep_unique hg.inv hp _ hd h2).symm h1
      · exact hV' s t (hc s t h)
    rw [hg.inv.sameClass_iff]
    exact ⟨hg.inv.rep_lt ha, hg.inv.rep_lt hb, EGraph.InvW.rep_unique hg.inv hp t ((hcl a).1 ha) hb⟩

/-- **C38**, nothing is lost: ids of the e-graph keep their terms and stay together. -/
theorem c38_union_keeps (h : Hist (A.at depth) allow U eg) (h2 : Hist (A2.at depth2) allow2 U2 other)
    (hu : EGraph.egraphUnion (A.at depth) varOf ord cfuel fuel eg other = .ok eg') :
    (∀ a s, Rep eg a s → Rep eg' a s) ∧ (∀ a b, SameClass eg a b → SameClass eg' a b) := by
  obtain ⟨V, eg1, k, hV, hr, _⟩ := c38_union_steps h h2 hu
  obtain ⟨hg, hgrow⟩ := steps_grow (Steps.tail (V := []) hV (.rebuild hr)) (hist_good h)
  refine ⟨fun a s => hgrow.rep a s, fun a b hab => ?_⟩
  obtain ⟨h1, h2, h3⟩ := (hist_good h).inv.sameClass_iff.1 hab
  have := hgrow.len
  exact hg.inv.sameClass_iff.2 ⟨by omega, by omega, hgrow.rt a b h1 h2 h3⟩

/-- **C38**, `egraph_union` returns: it does not panic when the other e-graph has explanations on,
and terminates for an analysis that improves a datum only finitely often (from some amounts of
fuel on, for the pattern compiler and for `rebuild`, it returns). -/
theorem c38_union_returns {α : Type} [Preorder α] [WellFoundedLT α] {rank : D → α}
    (hA : FiniteImprovement A rank) (h : Hist (A.at (depth + 1)) allow U eg) (h2 : Hist (A2.at depth2) allow2 U2 other)
    (hx : other.explain.isSome = true) (hoc : OrdOK ord) :
    ∃ f0, ∀ cfuel, f0 ≤ cfuel → ∃ f1 eg', ∀ fuel, f1 ≤ fuel →
      EGraph.egraphUnion (A.at (depth + 1)) varOf ord cfuel fuel eg other = .ok eg' := by
  obtain ⟨x, hx⟩ := Option.isSome_iff_exists.1 hx
  have hg2 := hist_good h2
  obtain ⟨L, hL⟩ := hg2.inv.expl x hx
  obtain ⟨f0, hf⟩ := EGraph.idToPattern_total hg2.inv.core.dag varOf hoc
  refine ⟨f0, fun cfuel hc => ?_⟩
  have hl : other.getUnionEqualities = .ok x.unionEqualities := by unfold EGraph.getUnionEqualities; rw [hx]
  have hp := EGraph.egraphUnionGo_post (E := fun _ => False) (cfuel := cfuel) (ord := ord) (varOf := varOf) (hA.hookOK (depth := depth)) allow
    (fun _ _ => trivial) (fun _ _ _ => trivial) hg2.inv.core.dag
    (fun i e hi he => by obtain ⟨p, hp⟩ := hf cfuel hc i hi; rw [hp] at he; cases he) x.unionEqualities eg
    (hist_good h) (fun y hy => ⟨(hL.mem_unionEqualities hy).2.1, (hL.mem_unionEqualities hy).2.2.1⟩)
  cases hgo : EGraph.egraphUnionGo (A.at (depth + 1)) varOf ord cfuel other eg x.unionEqualities with
  | error e => rw [hgo] at hp; exact False.elim hp
  | ok eg1 =>
    rw [hgo] at hp
    obtain ⟨_, V, hV, _⟩ := hp
    obtain ⟨f1, r, hr⟩ := c09_rebuild_terminates hA (Steps.trans h hV : Hist (A.at (depth + 1)) allow (V ++ U) eg1)
    refine ⟨f1, r.1, fun fuel hfu => ?_⟩
    unfold EGraph.egraphUnion
    rw [hl, ok_bind, hgo, ok_bind, hr fuel hfu]
    rfl

/-- `egraph_union` panics if explanations are off in the other e-graph. -/
theorem c38_union_panic (h : other.explain = none) :
    EGraph.egraphUnion (A.at depth) varOf ord cfuel fuel eg other = .error .panic := by
  unfold EGraph.egraphUnion EGraph.getUnionEqualities
  rw [h]; rfl

end

namespace Ex

/-- The order of the compiler's table in the examples. -/
def ord0 : Compiler S → List (Id × Nat) := fun c => c.todo.keys

/-- `a`, `b`, `f a`, `f b` without equations, united with an e-graph in which `a = b`. -/
def gu : G := match EGraph.egraphUnion N0 Var.num ord0 20 20 e4 x5 with | .ok g => g | .error _ => e4

/-- Hypotheses of C38 are met: `a = b` holds in the other e-graph only; afterwards `f a = f b` holds. -/
example : SoundFor U0 (GEq (EqInEither e4 x5)) .geq ∧ Hist (U0.at 1) .noSet [] e4 ∧
    Hist (U0.at 1) .noSet [un] x5 ∧ OrdOK ord0 ∧ x5.explain.isSome = true ∧
    EGraph.egraphUnion (U0.at 1) Var.num ord0 20 20 e4 x5 = .ok gu ∧
    SameClass gu 2 3 ∧ ¬ SameClass e4 2 3 ∧ ¬ SameClass gu 0 2 :=
  ⟨soundFor_of_quiet (fun _ => rfl) _ _, hist4 _, histx5 _, fun _ => .refl _, rfl, rfl,
    ⟨_, rfl, rfl⟩, (by rintro ⟨r, h1, h2⟩; cases h1; cases h2), (by rintro ⟨r, h1, h2⟩; cases h1; cases h2)⟩

end Ex
end Egg
