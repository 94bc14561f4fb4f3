import Verif.Props.Modify
import Verif.Props.Simplify
import Verif.Props.Rebuild
import Verif.Spec.Describe
/-
C59: data describe the terms of their classes.
-/
namespace Egg
variable {Op D : Type} [DecidableEq Op] [Lang Op]
variable {A : UserAnalysis Op D} {R : Term Op → Term Op → Prop} {hR : IsCongruence R} {V : D → Term Op → Prop}
  {hV : ∀ {s t d}, R s t → V d s → V d t}

theorem Describing.ok (h : Describing A R hR V hV) : A.OK (Cfg.ofV R hR V hV) (fun _ => True) where
  make := fun eg n i ds hd => by
    split
    · rename_i d hm; exact ⟨trivial, fun _ _ => trivial, h.make eg n i ds d hd hm⟩
    · trivial
  remake := fun eg n i ds hd => by
    split
    · rename_i d hm; exact ⟨trivial, fun _ _ => trivial, h.remake eg n i ds d hd hm⟩
    · trivial
  mergeV := fun h1 h2 => h.merge _ _ _ h1 h2
  mergeL := fun _ _ => trivial
  mergeR := fun _ _ => trivial
  mergeLub := fun _ _ => trivial
  flagL := fun _ _ _ => trivial
  flagR := fun _ _ _ => trivial
  modify := h.modify

/-- **C59.**  Let the analysis be a correct abstraction (`Describing`: e.g. constant folding, intervals, free
variables), whose `modify` may add, unite and set data.  After every history of API calls in which the requested unions are correct
(`R`), at every moment, rebuilt or not: the datum of a class describes every term the class represents, and terms of
one class are equal in the sense of `R`. -/
theorem c59_data_describes (hA : Describing A R hR V hV) {depth : Nat} {U : List (UnionRec Op)} {eg : EGraph Op D}
    (h : Hist (A.at depth) (SetsDescribing V) U eg) (hU : ∀ s t, eqsOf U s t → R s t) :
    (∀ i k t, eg.index i = .ok k → Rep eg i t → V k.data t) ∧
    ∀ a b s t, SameClass eg a b → Rep eg a s → Rep eg b t → R s t := by
  have hg := (EGraph.Hist.good (hA.ok.hookOK trivial depth) (fun eg i d _ ha => ⟨fun _ _ => ⟨trivial, trivial⟩, ha⟩) h
    (fun u hu => ⟨hU _ _ ⟨u, hu, rfl, rfl⟩, trivial⟩)).1
  exact ⟨hg.sensible.data, hg.sensible.sound⟩

/-- The same for a run: equality saturation is sound with an analysis whose `modify` relies on its data
(constant folding); the rules, the initial equalities and the hooks have to be correct for `R`. -/
theorem c59_run (hA : Describing A R hR V hV) {S H : Type} {depth : Nat} {U : List (UnionRec Op)}
    {env : RunEnv Op D} {sch : Scheduler Op D S} {hooks : List (Hook Op D H)} {rules : List (Rewrite Op D)}
    {eqs : List (Term (PatOp Op) × Term (PatOp Op))} {Q : Term Op → Term Op → Prop} {r r' : Runner Op D S H}
    (hN : env.analysis = A.at depth) (hord : ∀ i eg, (env.ord i eg).OK eg)
    (hd : DiscContiguous Op) (hs : sch.Honest env) (hh : HooksOK (A.at depth) (SetsDescribing V) Q hooks)
    (hr : AreRules (A.at depth) rules eqs) (h : Hist (A.at depth) (SetsDescribing V) U r.egraph)
    (hU : ∀ s t, eqsOf U s t → R s t) (hI : ∀ s t, RuleInstance eqs s t → R s t) (hQ : ∀ s t, Q s t → R s t)
    {f : Nat} (hrun : r.run env sch hooks rules f = .ok r') :
    (∀ i k t, r'.egraph.index i = .ok k → Rep r'.egraph i t → V k.data t) ∧
    ∀ a b s t, SameClass r'.egraph a b → Rep r'.egraph a s → Rep r'.egraph b t → R s t := by
  obtain ⟨_, W, s1, q1⟩ := c25_run_reach hN hord hd hs hh hr h hrun
  refine c59_data_describes hA (Steps.trans h s1) (fun s t hst => ?_)
  obtain ⟨u, hu, rfl, rfl⟩ := hst
  rcases List.mem_append.1 hu with hu | hu
  · rcases q1 u hu with hq | hq | hq
    · exact hQ _ _ hq
    · exact hI _ _ hq
    · exact hR.symm (hI _ _ hq)
  · exact hU _ _ ⟨u, hu, rfl, rfl⟩

/-- For a join analysis, after `rebuild`, the datum of a class is an upper bound of the abstract values of all
terms it represents. -/
theorem c59_join_bound {le : D → D → Prop} {mk : Op → List D → D}
    (hA : JoinAnalysis A le mk) {depth : Nat} {U : List (UnionRec Op)} {eg0 eg : EGraph Op D} {fuel k : Nat}
    (h0 : Hist (A.at depth) (EquivSet le) U eg0) (hr : EGraph.rebuild (A.at depth) fuel eg0 = .ok (eg, k)) :
    ∀ (t : Term Op) (i : Id) (cl : EClass Op D), eg.index i = .ok cl → Rep eg i t → le (absValue mk t) cl.data := by
  intro t
  induction t using Term.ind with
  | h op ts ih =>
    intro i cl hi ht
    rw [EGraph.rep_iff] at ht
    obtain ⟨r, cl', n, g1, g2, g3, rfl, g5⟩ := ht
    have : cl' = cl := by
      simp only [EGraph.index, g1, ok_bind, g2, unwrap] at hi
      cases hi; rfl
    subst this
    obtain ⟨ds, h1, h2⟩ := (c13_analysis_invariant hA h0 hr hi).1 n g3
    rw [absValue]
    refine hA.trans (hA.mono ?_) h2
    unfold EGraph.ChildData at h1
    clear h2 g3
    generalize n.children = cs at h1 g5
    induction g5 generalizing ds with
    | nil => cases h1; rw [absValues]; exact .nil
    | @cons c t cs ts hc _ ih' =>
      cases h1 with
      | cons hd hds =>
        obtain ⟨kc, k1, rfl⟩ := hd
        rw [absValues]
        exact .cons (ih t (by simp) c kc k1 hc) (ih' (fun t ht => ih t (by simp [ht])) _ hds)

/-- The analysis "some term contains `a`", after `b = a` and `rebuild`: the term `f a` contains `a`, hence the
datum of its class says so. -/
example (t : Term Ex.S) (i : Id) (cl : EClass Ex.S Bool) (hi : Ex.a5.index i = .ok cl) (ht : Rep Ex.a5 i t)
    (ha : absValue Ex.containsA t = true) : cl.data = true :=
  c59_join_bound Ex.joinUA (Ex.hista4 _) Ex.reba5 t i cl hi ht ha

example : Rep Ex.a5 1 Ex.tfa ∧ absValue Ex.containsA Ex.tfa = true :=
  ⟨Ex.rep_app1 (i := 0) rfl rfl (by decide) (Ex.rep_leaf rfl rfl (by decide)), by simp [Ex.tfa, Ex.ta, Ex.T, absValue, absValues, Ex.containsA]⟩

/-! ### Constant folding -/

namespace Fold

mutual
/-- The value of a term under an assignment of the variables (0 for an ill-formed sum). -/
def ev (ρ : Nat → Nat) : Term O → Nat
  | .node (.num k) _ => k
  | .node (.var n) _ => ρ n
  | .node .plus ts => match evs ρ ts with
    | [x, y] => x + y
    | _ => 0
def evs (ρ : Nat → Nat) : List (Term O) → List Nat
  | [] => []
  | t :: ts => ev ρ t :: evs ρ ts
end

variable {P : (Nat → Nat) → Prop}

/-- Same value under every assignment that is considered (`P`). -/
def SameVal (P : (Nat → Nat) → Prop) (s t : Term O) : Prop := ∀ ρ, P ρ → ev ρ s = ev ρ t

theorem sameVal : IsCongruence (SameVal P) where
  refl := fun _ _ _ => rfl
  symm := fun h ρ hρ => (h ρ hρ).symm
  trans := fun h1 h2 ρ hρ => (h1 ρ hρ).trans (h2 ρ hρ)
  congr := fun op ss ts h ρ hρ => by
    have : evs ρ ss = evs ρ ts := by
      induction h with
      | nil => rfl
      | cons h1 _ ih => rw [evs, evs, h1 ρ hρ, ih]
    cases op with
    | num k => rw [ev, ev]
    | var k => rw [ev, ev]
    | plus => rw [ev, ev, this]

/-- A known value is the value of the term, under every assignment. -/
def Val (P : (Nat → Nat) → Prop) (d : Option Nat) (t : Term O) : Prop := ∀ v, d = some v → ∀ ρ, P ρ → ev ρ t = v

theorem val_resp {s t : Term O} {d : Option Nat} (h : SameVal P s t) (hd : Val P d s) : Val P d t :=
  fun v hv ρ hρ => by rw [← h ρ hρ]; exact hd v hv ρ hρ

theorem eval_describes {eg : EGraph O (Option Nat)} {n : ENode O} {ds : List (Option Nat)} {d : Option Nat}
    (hc : EGraph.ChildData eg n ds) (h : eval eg n = .ok d) (ts : List (Term O)) (ht : List.Forall₂ (Val P) ds ts) : Val P d (.node n.op ts) := by
  obtain ⟨op, cs⟩ := n
  unfold eval at h
  dsimp only at h ⊢
  split at h
  · cases h
    intro v hv ρ hρ
    cases hv
    rw [ev]
  · rename_i a b
    rw [bind_eq_ok] at h
    obtain ⟨x, h1, h⟩ := h
    rw [bind_eq_ok] at h
    obtain ⟨y, h2, h⟩ := h
    cases h
    unfold EGraph.ChildData at hc
    obtain ⟨d1, ds1, ⟨k1, q1, rfl⟩, hc', rfl⟩ := List.forall₂_cons_left_iff.1 hc
    obtain ⟨d2, ds2, ⟨k2, q2, rfl⟩, hc'', rfl⟩ := List.forall₂_cons_left_iff.1 hc'
    cases hc''
    rw [h1] at q1; cases q1
    rw [h2] at q2; cases q2
    obtain ⟨t1, ts1, v1, ht', rfl⟩ := List.forall₂_cons_left_iff.1 ht
    obtain ⟨t2, ts2, v2, ht'', rfl⟩ := List.forall₂_cons_left_iff.1 ht'
    cases ht''
    intro v hv ρ hρ
    cases hx : x.data with
    | none => rw [hx] at hv; cases hv
    | some p =>
      cases hy : y.data with
      | none => rw [hx, hy] at hv; cases hv
      | some q =>
        rw [hx, hy] at hv
        cases hv
        rw [ev, evs, evs, evs, v1 _ hx ρ hρ, v2 _ hy ρ hρ]
  · cases h
    intro v hv
    cases hv

/-- Constant folding is a correct abstraction; `modify` relies on the datum being correct. -/
theorem describing : Describing U (SameVal P) sameVal (Val P) val_resp where
  make := fun eg n i ds d hc h => eval_describes hc h
  remake := fun eg n i ds d hc h => eval_describes hc h
  merge := by
    rintro (_ | x) (_ | y) t h1 h2 v hv ρ hρ <;> simp only [U] at hv <;> cases hv
    · exact h2 _ rfl ρ hρ
    · exact h1 _ rfl ρ hρ
    · exact h1 _ rfl ρ hρ
  modify := by
    intro depth eg i hs hv
    show Prog.Safe _ _ _ (Prog.read _) eg
    simp only [Prog.Safe]
    cases hk : eg.index i with
    | error e => exact trivial
    | ok k =>
      simp only
      cases hd : k.data with
      | none => exact trivial
      | some v =>
        refine ⟨Or.inr trivial, fun eg' j _ hl ⟨hj, hrep⟩ => ⟨Or.inr trivial, fun _ _ => ⟨?_, trivial⟩, fun _ _ _ _ _ => trivial⟩⟩
        obtain ⟨s, hsr⟩ := hs.inhabited i hv
        refine ⟨s, .node (.num v) [], hl.rep _ _ hsr, hrep [] .nil, fun ρ hρ => ?_⟩
        have := hs.data i k s hk hsr v hd ρ hρ
        rw [ev]; exact this

/-- The hypotheses are met by the example of C50: `x = 1` is asserted, which is correct for the assignments with `x = 1`.
The class of `x + 2` then has the datum 3; so by C59 all terms in it have the value 3. -/
theorem e6_correct : ∀ s t, eqsOf [un] s t → SameVal (fun ρ => ρ 0 = 1) s t := by
  rintro s t ⟨u, hu, rfl, rfl⟩
  rw [List.mem_singleton] at hu
  subst hu
  intro ρ hρ
  simp only [un, lit, ev]
  exact hρ

example : ∃ k, e6.index 2 = .ok k ∧ k.data = some 3 ∧ ∀ t, Rep e6 2 t → ∀ ρ, ρ 0 = 1 → ev ρ t = 3 := by
  obtain ⟨k, h1, h2⟩ := cls_data (eg := e6) (i := 2) (d := some 3) (by decide +kernel)
  exact ⟨k, h1, h2, fun t ht => (c59_data_describes (hR := sameVal) (describing (P := fun ρ => ρ 0 = 1)) (hist6 _) e6_correct).1 2 k t h1 ht 3 h2⟩

end Fold
end Egg
