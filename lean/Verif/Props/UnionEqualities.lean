import Verif.Lemmas.UnionEqs
import Verif.Props.Closure
/-
C35: the unions listed by `get_union_equalities`.
-/
namespace Egg
variable {Op D : Type} [DecidableEq Op] [Lang Op]

/-- The equations that a list of unions between ids asserts: between the terms of the
expressions that `id_to_expr` returns for the two ids. -/
def listedEqs (eg : EGraph Op D) (l : List (Id × Id × Symbol)) : Term Op → Term Op → Prop :=
  fun s t => ∃ a b r e1 e2, (a, b, r) ∈ l ∧ eg.idToExpr a = .ok e1 ∧ eg.idToExpr b = .ok e2 ∧
    ExprTerm e1 s ∧ ExprTerm e2 t

/-- `get_union_equalities` panics exactly when explanations are off. -/
theorem c35_panic (eg : EGraph Op D) :
    (eg.explain = none ∧ eg.getUnionEqualities = .error .panic) ∨ ∃ l, eg.getUnionEqualities = .ok l := by
  unfold EGraph.getUnionEqualities
  cases eg.explain with
  | none => exact .inl ⟨rfl, rfl⟩
  | some x => exact .inr ⟨_, rfl⟩

theorem getUnionEqualities_ok {eg : EGraph Op D} {l : List (Id × Id × Symbol)} (h : eg.getUnionEqualities = .ok l) :
    ∃ x, eg.explain = some x ∧ l = x.unionEqualities := by
  unfold EGraph.getUnionEqualities at h
  split at h
  · rename_i x hx; cases h; exact ⟨x, hx, rfl⟩
  · cases h

/-- **C35**, only asserted unions are listed: whatever relation `J` between reasons and ids all
the unions of the user (and of the `modify` hook) satisfy, every listed union satisfies it. -/
theorem c35_listed_sound {A : UserAnalysis Op D} {J : Symbol → Id → Id → Prop}
    (hA : A.OK (Cfg.ofR (fun _ _ => True) isCongruence_true J) anyErr) {depth : Nat}
    {allow : Caller Op D} {U : List (UnionRec Op)} {eg : EGraph Op D}
    (h : Hist (A.at depth) allow U eg) (hU : ∀ u ∈ U, J u.reason u.a u.b)
    {l : List (Id × Id × Symbol)} (hl : eg.getUnionEqualities = .ok l) {a b : Id} {r : Symbol}
    (hm : (a, b, r) ∈ l) : J r a b := by
  have hg := (EGraph.Hist.good (hA.hookOK trivial depth)
    (fun _ _ _ _ _ => ⟨fun _ _ => ⟨trivial, trivial⟩, fun _ _ => trivial⟩) h
    (fun u hu => ⟨trivial, hU u hu⟩)).1
  obtain ⟨x, hx, rfl⟩ := getUnionEqualities_ok hl
  obtain ⟨L, hL⟩ := hg.inv.expl x hx
  exact (hL.mem_unionEqualities hm).1

theorem ok_of_quiet {A : UserAnalysis Op D} (hA : ∀ i, A.modify i = .done)
    (R : Term Op → Term Op → Prop) (hR : IsCongruence R) (J : Symbol → Id → Id → Prop) :
    A.OK (Cfg.ofR R hR J) anyErr where
  make := fun eg n i ds _ => by
    cases A.make eg n i with
    | ok d => exact ⟨trivial, fun _ _ => trivial, fun _ _ => trivial⟩
    | error e => trivial
  remake := fun eg n i ds _ => by
    cases A.remake eg n i with
    | ok d => exact ⟨trivial, fun _ _ => trivial, fun _ _ => trivial⟩
    | error e => trivial
  mergeV := fun _ _ => trivial
  mergeL := fun _ _ => trivial
  mergeR := fun _ _ => trivial
  mergeLub := fun _ _ => trivial
  flagL := fun _ _ _ => trivial
  flagR := fun _ _ _ => trivial
  modify := fun depth eg i _ _ => by rw [hA]; trivial

/-- **C35**, only asserted unions are listed: without a `modify` hook every listed union is one
that the caller made, with the same two ids in the same order and the same reason. -/
theorem c35_listed_asserted {A : UserAnalysis Op D} (hA : ∀ i, A.modify i = .done) {depth : Nat}
    {allow : Caller Op D} {U : List (UnionRec Op)} {eg : EGraph Op D}
    (h : Hist (A.at depth) allow U eg) {l : List (Id × Id × Symbol)} (hl : eg.getUnionEqualities = .ok l)
    {a b : Id} {r : Symbol} (hm : (a, b, r) ∈ l) : ∃ u ∈ U, u.a = a ∧ u.b = b ∧ u.reason = r :=
  c35_listed_sound (J := fun r a b => ∃ u ∈ U, u.a = a ∧ u.b = b ∧ u.reason = r)
    (ok_of_quiet hA _ _ _) h (fun u hu => ⟨u, hu, rfl, rfl, rfl⟩) hl hm

/-- **C35**, the listed unions suffice: after any history (any analysis, any `modify` hook)
followed by `rebuild`, two ids are in the same class iff terms that they represent are equal by
ground equational reasoning from the listed unions alone. -/
theorem c35_listed_complete {A : UserAnalysis Op D} {depth : Nat}
    {allow : Caller Op D} {U : List (UnionRec Op)} {eg0 eg : EGraph Op D} {fuel k : Nat}
    (h : Hist (A.at depth) allow U eg0) (hr : EGraph.rebuild (A.at depth) fuel eg0 = .ok (eg, k))
    {l : List (Id × Id × Symbol)} (hl : eg.getUnionEqualities = .ok l)
    {a b : Id} {s t : Term Op} (ha : Rep eg a s) (hb : Rep eg b t) :
    SameClass eg a b ↔ GEq (listedEqs eg l) s t := by
  have hg0 := hist_good h
  have hg := hist_good (Steps.tail (V := []) h (.rebuild hr) : Hist (A.at depth) allow U eg)
  have hp : eg.pending = [] :=
    ((EGraph.rebuild_post trivial ((soundFor_true A).hookOK trivial depth) fuel hg0).elim hr).2.2.1.pending
  obtain ⟨x, hx, rfl⟩ := getUnionEqualities_ok hl
  have heqs : ∀ s t, EqsAt eg.nodes x.unionEqualities s t ↔ listedEqs eg x.unionEqualities s t := by
    intro s t
    constructor
    · rintro ⟨a, b, r, hm, hs, ht⟩
      obtain ⟨sa, h1, _, _, h2, _⟩ := idToExprTop_ok hg.inv.core.dag hs.lt
      obtain ⟨sb, h3, _, _, h4, _⟩ := idToExprTop_ok hg.inv.core.dag ht.lt
      exact ⟨a, b, r, sa.1, sb.1, hm, by simp [EGraph.idToExpr, h1], by simp [EGraph.idToExpr, h3], h2 s hs, h4 t ht⟩
    · rintro ⟨a, b, r, e1, e2, hm, he1, he2, hs, ht⟩
      obtain ⟨L, hL⟩ := hg.inv.expl x hx
      obtain ⟨_, hal, hbl, _⟩ := hL.mem_unionEqualities hm
      obtain ⟨ta, hta⟩ := hg.inv.core.dag.exists_term a hal
      obtain ⟨tb, htb⟩ := hg.inv.core.dag.exists_term b hbl
      obtain ⟨sa, h1, _, _, h2, _⟩ := idToExprTop_ok hg.inv.core.dag hal
      obtain ⟨sb, h3, _, _, h4, _⟩ := idToExprTop_ok hg.inv.core.dag hbl
      have e1' : sa.1 = e1 := by simpa [EGraph.idToExpr, h1] using he1
      have e2' : sb.1 = e2 := by simpa [EGraph.idToExpr, h3] using he2
      subst e1' e2'
      rw [hs.2.unique (h2 ta hta).2, ht.2.unique (h4 tb htb).2]
      exact ⟨a, b, r, hm, hta, htb⟩
  constructor
  · intro hab
    obtain ⟨_, _, h3⟩ := hg.inv.sameClass_iff.1 hab
    have := (hg.inv.recorded hx).rep_related ha hb h3
    exact GEq.least .geq (fun s t hst => .ax ((heqs s t).1 hst)) this
  · intro hst
    obtain ⟨L, hL⟩ := hg.inv.expl x hx
    have hcl : ∀ c, Rep eg c s ↔ Rep eg c t := by
      refine rebuilt_closed_rel hg hp ?_ hst
      intro s t hst
      obtain ⟨a, b, r, hm, hs, ht⟩ := (heqs s t).2 hst
      exact ⟨a, b, hg.inv.rep_of_termOf s hs, hg.inv.rep_of_termOf t ht, (hL.mem_unionEqualities hm).2.2.2⟩
    rw [hg.inv.sameClass_iff]
    exact ⟨hg.inv.rep_lt ha, hg.inv.rep_lt hb, EGraph.InvW.rep_unique hg.inv hp t ((hcl a).1 ha) hb⟩

/-- Hypotheses of C35 are met: after `union a b` and `rebuild` the list is exactly that union,
and the classes of `f a` and `f b` are equal because of it. -/
example : Hist (Ex.U0.at 1) .noSet [Ex.un] Ex.x5 ∧
    EGraph.rebuild (Ex.U0.at 1) 20 Ex.x5 = .ok (Ex.x6, 1) ∧
    Ex.x6.getUnionEqualities = .ok [(0, 1, Ex.un.reason)] ∧ SameClass Ex.x6 2 3 ∧ ¬ SameClass Ex.x6 0 2 :=
  ⟨Ex.histx5 _, rfl, rfl, ⟨_, rfl, rfl⟩, by rintro ⟨r, h1, h2⟩; cases h1; cases h2⟩

end Egg
