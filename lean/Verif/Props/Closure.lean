import Verif.Lemmas.AddExpr
import Verif.Examples
/-
C01, C02, C07: equality in the e-graph is ground equational consequence of the
unions; no spurious equality at any moment; e-graphs only grow.
-/
namespace Egg
variable {Op D : Type} [DecidableEq Op] [Lang Op]

/-- Every pair of ids may be united for any reason (used when nothing is claimed
about explanations). -/
abbrev anyReason : Symbol → Id → Id → Prop := fun _ _ _ => True
abbrev anyErr : Err → Prop := fun _ => True

/-- The assumption on the analysis used below: the unions requested by its
`modify` hook are sound for `R`.  (Nothing is assumed of `make`, `merge`, …) -/
abbrev SoundFor (A : UserAnalysis Op D) (R : Term Op → Term Op → Prop) (hR : IsCongruence R) : Prop :=
  A.OK (Cfg.ofR R hR anyReason) anyErr

/-- An analysis whose `modify` does nothing meets the assumption for every `R`. -/
theorem soundFor_of_quiet {A : UserAnalysis Op D} (hA : ∀ i, A.modify i = .done)
    (R : Term Op → Term Op → Prop) (hR : IsCongruence R) : SoundFor A R hR where
  make := fun eg n i ds _ => by
    cases A.make eg n i with
    | ok d => exact ⟨trivial, fun _ _ => trivial, fun _ _ => trivial⟩
    | error e => trivial
  remake := fun eg n i ds _ => by
    cases A.remake eg n i with
    | ok d => exact ⟨trivial, fun _ _ => trivial, fun _ _ => trivial⟩
    | error e => trivial
  mergeV := fun _ _ => trivial
  mergeL := fun _ _ => trivial
  mergeR := fun _ _ => trivial
  mergeLub := fun _ _ => trivial
  flagL := fun _ _ _ => trivial
  flagR := fun _ _ _ => trivial
  modify := fun depth eg i _ _ => by rw [hA]; trivial

theorem hist_good_of_sound {A : UserAnalysis Op D} {R : Term Op → Term Op → Prop} {hR : IsCongruence R}
    (hA : SoundFor A R hR) {depth : Nat} {allow : Caller Op D} {U : List (UnionRec Op)}
    {eg : EGraph Op D} (h : Hist (A.at depth) allow U eg) (hU : ∀ s t, eqsOf U s t → R s t) :
    EGraph.Good (Cfg.ofR R hR anyReason) eg ∧
      ∀ u ∈ U, Rep eg u.a u.s ∧ Rep eg u.b u.t ∧ eg.rt u.a = eg.rt u.b :=
  EGraph.Hist.good (hA.hookOK trivial depth) (fun _ _ _ _ _ => ⟨fun _ _ => ⟨trivial, trivial⟩, fun _ _ => trivial⟩) h
    (fun u hu => ⟨hU _ _ ⟨u, hu, rfl, rfl⟩, trivial⟩)

/-! ### C02 -/

/-- **C02.**  In every state of every history, if two ids are in the same class
then any term of the first and any term of the second are related by every
congruence `R` that contains the asserted unions (and for which the unions
requested by the analysis' own `modify` hook are sound). -/
theorem c02_no_spurious_equality {A : UserAnalysis Op D} {R : Term Op → Term Op → Prop}
    (hR : IsCongruence R) (hA : SoundFor A R hR) {depth : Nat}
    {allow : Caller Op D} {U : List (UnionRec Op)} {eg : EGraph Op D}
    (h : Hist (A.at depth) allow U eg) (hU : ∀ s t, eqsOf U s t → R s t)
    {a b : Id} {s t : Term Op} (hab : SameClass eg a b) (ha : Rep eg a s) (hb : Rep eg b t) : R s t :=
  (hist_good_of_sound hA h hU).1.sensible.sound a b s t hab ha hb

/-- The states inside `rebuild`: after any number of iterations of the two inner
loops of `process_unions` (`src/egraph.rs:1350-1372`). -/
inductive MidRebuild (N : Analysis Op D) (eg : EGraph Op D) : EGraph Op D → Prop where
  | start : MidRebuild N eg eg
  | congruence {eg1 eg2 : EGraph Op D} {cls rest b} : MidRebuild N eg eg1 → eg1.pending = cls :: rest →
      EGraph.pendingStep N { eg1 with pending := rest } cls = .ok (eg2, b) → MidRebuild N eg eg2
  | analysis {eg1 eg2 : EGraph Op D} {cls q} : MidRebuild N eg eg1 → eg1.apending.pop = some (cls, q) →
      EGraph.analysisStep N { eg1 with apending := q } cls = .ok eg2 → MidRebuild N eg eg2

theorem midRebuild_good {C : Cfg Op D} {E : Err → Prop} {N : Analysis Op D} (hN : EGraph.HookOK C E N)
    {eg eg' : EGraph Op D} (hm : MidRebuild N eg eg') (h : EGraph.Good C eg) :
    EGraph.Good C eg' ∧ EGraph.Grow eg eg' := by
  induction hm with
  | start => exact ⟨h, EGraph.Grow.refl _⟩
  | congruence _ hp hs ih =>
    have := (EGraph.pendingStep_post hN ih.1 hp).elim hs
    exact ⟨this.1, ih.2.trans (this.2.grow ih.1 this.1)⟩
  | analysis _ hp hs ih =>
    have := (EGraph.analysisStep_post hN ih.1 hp).elim hs
    exact ⟨this.1, ih.2.trans (this.2.grow ih.1 this.1)⟩

/-- **C02**, in the middle of rebuilding. -/
theorem c02_no_spurious_equality_mid_rebuild {A : UserAnalysis Op D} {R : Term Op → Term Op → Prop}
    (hR : IsCongruence R) (hA : SoundFor A R hR) {depth : Nat}
    {allow : Caller Op D} {U : List (UnionRec Op)} {eg eg' : EGraph Op D}
    (h : Hist (A.at depth) allow U eg) (hU : ∀ s t, eqsOf U s t → R s t)
    (hm : MidRebuild (A.at depth) eg eg')
    {a b : Id} {s t : Term Op} (hab : SameClass eg' a b) (ha : Rep eg' a s) (hb : Rep eg' b t) : R s t :=
  (midRebuild_good (hA.hookOK trivial depth) hm (hist_good_of_sound hA h hU).1).1.sensible.sound
    a b s t hab ha hb

/-- Hypotheses of C02 are met: after `union a b` (not yet rebuilt) with the
trivial analysis, `a` and `b` are in the same class. -/
example : ∃ (R : Term Ex.S → Term Ex.S → Prop) (hR : IsCongruence R), SoundFor Ex.U0 R hR ∧
    Hist (Ex.U0.at 1) .noSet [Ex.un] Ex.e5 ∧ (∀ s t, eqsOf [Ex.un] s t → R s t) ∧
    SameClass Ex.e5 0 1 ∧ Rep Ex.e5 0 Ex.ta ∧ Rep Ex.e5 1 Ex.tb ∧ ¬ SameClass Ex.e5 2 3 :=
  ⟨GEq (eqsOf [Ex.un]), .geq, soundFor_of_quiet (fun _ => rfl) _ _, Ex.hist5 _, fun _ _ => .ax,
    ⟨0, rfl, rfl⟩, Ex.rep_leaf rfl rfl (by decide), Ex.rep_leaf rfl rfl (by decide),
    by rintro ⟨r, h1, h2⟩; cases h1; cases h2⟩

/-! ### C07 -/

theorem safe_true (N : Analysis Op D) : ∀ (p : Prog Op D) (eg : EGraph Op D),
    Sensible (Cfg.ofR _ isCongruence_true anyReason) eg →
    p.Safe (Cfg.ofR _ isCongruence_true anyReason) anyErr N eg := by
  intro p
  induction p with
  | done => intro eg _; trivial
  | panic => intro eg _; trivial
  | read k ih => intro eg h; exact ih eg eg h
  | add n k ih => intro eg h; exact ⟨Or.inr trivial, fun eg' i _ hl _ => ih i eg' hl.sensible⟩
  | union a b caller k ih =>
    intro eg h
    refine ⟨Or.inr trivial, ?_, fun eg' r _ hl _ => ih r eg' hl.sensible⟩
    intro ha hb
    obtain ⟨s, hs⟩ := h.inhabited a ha
    obtain ⟨t, ht⟩ := h.inhabited b hb
    exact ⟨⟨s, t, hs, ht, trivial⟩, trivial⟩
  | setData i d k ih =>
    intro eg h
    exact ⟨Or.inr trivial, ⟨fun _ _ => ⟨trivial, trivial⟩, fun _ _ => trivial⟩,
      fun eg' _ hl => ih eg' hl.sensible⟩

/-- Every analysis whatsoever (any `modify` program) is sound for the full
relation, so it meets the assumption of theorems that claim nothing about which
equalities hold. -/
theorem soundFor_true (A : UserAnalysis Op D) : SoundFor A _ isCongruence_true where
  make := fun eg n i ds _ => by
    cases A.make eg n i with
    | ok d => exact ⟨trivial, fun _ _ => trivial, fun _ _ => trivial⟩
    | error e => trivial
  remake := fun eg n i ds _ => by
    cases A.remake eg n i with
    | ok d => exact ⟨trivial, fun _ _ => trivial, fun _ _ => trivial⟩
    | error e => trivial
  mergeV := fun _ _ => trivial
  mergeL := fun _ _ => trivial
  mergeR := fun _ _ => trivial
  mergeLub := fun _ _ => trivial
  flagL := fun _ _ _ => trivial
  flagR := fun _ _ _ => trivial
  modify := fun depth eg i hs _ => safe_true _ _ eg hs

/-- Every history of every analysis leads to a well-formed state. -/
theorem hist_good {A : UserAnalysis Op D} {depth : Nat} {allow : Caller Op D}
    {U : List (UnionRec Op)} {eg : EGraph Op D} (h : Hist (A.at depth) allow U eg) :
    EGraph.Good (Cfg.ofR _ isCongruence_true anyReason) eg :=
  (hist_good_of_sound (soundFor_true A) h (fun _ _ _ => trivial)).1

theorem steps_grow {A : UserAnalysis Op D} {depth : Nat} {allow : Caller Op D}
    {V : List (UnionRec Op)} {eg eg' : EGraph Op D} (h : Steps (A.at depth) allow eg V eg')
    (hg : EGraph.Good (Cfg.ofR _ isCongruence_true anyReason) eg) :
    EGraph.Good (Cfg.ofR _ isCongruence_true anyReason) eg' ∧ EGraph.Grow eg eg' := by
  obtain ⟨g1, g2, _⟩ := EGraph.Steps.good ((soundFor_true A).hookOK trivial depth)
    (fun _ _ _ _ _ => ⟨fun _ _ => ⟨trivial, trivial⟩, fun _ _ => trivial⟩) h
    (fun _ _ => ⟨trivial, trivial⟩) hg
  exact ⟨g1, g2⟩

/-- Explanations stay switched on unless the caller switches them off. -/
theorem steps_expl {A : UserAnalysis Op D} {depth : Nat} {allow : Caller Op D}
    {V : List (UnionRec Op)} {eg eg' : EGraph Op D} (h : Steps (A.at depth) allow eg V eg')
    (hg : EGraph.Good (Cfg.ofR _ isCongruence_true anyReason) eg) (hd : ¬ allow.disables) (hx : eg.explain.isSome) :
    eg'.explain.isSome :=
  EGraph.Steps.expl ((soundFor_true A).hookOK trivial depth)
    (fun _ _ _ _ _ => ⟨fun _ _ => ⟨trivial, trivial⟩, fun _ _ => trivial⟩) h (fun _ _ => ⟨trivial, trivial⟩) hg hd hx

/-- **C07.**  Whatever happens later (for every analysis, whatever its hooks do),
valid ids stay valid, equal ids stay equal, and a term represented in the class
of an id stays represented there. -/
theorem c07_only_grow {A : UserAnalysis Op D} {depth : Nat}
    {allow : Caller Op D} {U V : List (UnionRec Op)} {eg eg' : EGraph Op D}
    (h : Hist (A.at depth) allow U eg) (h' : Steps (A.at depth) allow eg V eg') :
    (∀ i, Valid eg i → Valid eg' i) ∧
    (∀ i j, SameClass eg i j → SameClass eg' i j) ∧
    (∀ i t, Rep eg i t → Rep eg' i t) := by
  have hg := hist_good h
  obtain ⟨g1, g2⟩ := steps_grow h' hg
  have hl := g2.len
  refine ⟨?_, ?_, g2.rep⟩
  · intro i hi
    rw [hg.valid_iff] at hi
    rw [g1.valid_iff]
    omega
  · intro i j hij
    rw [hg.inv.sameClass_iff] at hij
    rw [g1.inv.sameClass_iff]
    exact ⟨by omega, by omega, g2.rt i j hij.1 hij.2.1 hij.2.2⟩

/-- Hypotheses of C07 are met by a history continued with a union and a rebuild. -/
example : Hist (Ex.U0.at 1) .noSet [] Ex.e4 ∧
    Steps (Ex.U0.at 1) .noSet Ex.e4 [Ex.un] Ex.e6 ∧ Valid Ex.e4 3 ∧
    Rep Ex.e4 0 Ex.ta :=
  ⟨Ex.hist4 _, .tail (V := []) (.tail (V := [Ex.un]) .refl (.union (r := true) Ex.rep_e4_a Ex.rep_e4_b rfl))
    (.rebuild Ex.reb6), ⟨3, rfl⟩, Ex.rep_e4_a⟩

/-! ### C01 -/

/-- Being represented by the same classes is a congruence. -/
theorem rebuilt_congruence {C : Cfg Op D} {eg : EGraph Op D} (h : EGraph.Good C eg) :
    IsCongruence (fun s t : Term Op => ∀ c, Rep eg c s ↔ Rep eg c t) := by
  refine ⟨fun _ _ => Iff.rfl, fun h c => (h c).symm, fun h1 h2 c => (h1 c).trans (h2 c), ?_⟩
  have key : ∀ op {ss ts : List (Term Op)}, List.Forall₂ (fun s t => ∀ c, Rep eg c s ↔ Rep eg c t) ss ts →
      ∀ c, Rep eg c (.node op ss) → Rep eg c (.node op ts) := by
    intro op ss ts hst c hr
    rw [h.inv.rep_iff] at hr ⊢
    obtain ⟨h1, k, n, h2, h3, h4, h5⟩ := hr
    exact ⟨h1, k, n, h2, h3, h4, forall₂_comp h5 hst (fun a b c _ _ _ hab hbc => (hbc a).1 hab)⟩
  intro op ss ts hst c
  refine ⟨key op hst c, key op (forall₂_flip (forall₂_mono_mem hst ?_)) c⟩
  intro a _ b _ hab c
  exact (hab c).symm

/-- After `rebuild` the classes are closed under every equation between terms of
one class. -/
theorem rebuilt_closed_rel {C : Cfg Op D} {eg : EGraph Op D} (h : EGraph.Good C eg) (hp : eg.pending = [])
    {Q : Term Op → Term Op → Prop} (hQ : ∀ s t, Q s t → ∃ a b, Rep eg a s ∧ Rep eg b t ∧ eg.rt a = eg.rt b)
    {s t : Term Op} (hst : GEq Q s t) : ∀ c, Rep eg c s ↔ Rep eg c t := by
  have hcong := rebuilt_congruence h
  refine GEq.least hcong ?_ hst
  intro s t hst c
  obtain ⟨a, b, h1, h2, h3⟩ := hQ s t hst
  constructor
  · intro hc
    have := EGraph.InvW.rep_unique h.inv hp _ hc h1
    exact h.inv.rep_congr (h.inv.rep_lt hc) (by rw [this, h3]) h2
  · intro hc
    have := EGraph.InvW.rep_unique h.inv hp _ hc h2
    exact h.inv.rep_congr (h.inv.rep_lt hc) (by rw [this, h3]) h1

theorem rebuilt_closed {C : Cfg Op D} {eg : EGraph Op D} (h : EGraph.Good C eg) (hp : eg.pending = [])
    {U : List (UnionRec Op)} (hU : ∀ u ∈ U, Rep eg u.a u.s ∧ Rep eg u.b u.t ∧ eg.rt u.a = eg.rt u.b)
    {s t : Term Op} (hst : GEq (eqsOf U) s t) : ∀ c, Rep eg c s ↔ Rep eg c t := by
  refine rebuilt_closed_rel h hp ?_ hst
  rintro s t ⟨u, hu, rfl, rfl⟩
  exact ⟨u.a, u.b, hU u hu⟩

/-- **C01**, for classes: after any history followed by `rebuild`, two ids are in
the same class iff terms they represent are equal by ground equational reasoning
from the asserted unions.  (`Rep` can be the term of an added expression, see
`c01_added_iff`.)  The `modify` hook may request unions as long as they follow
from the user's. -/
theorem c01_same_class_iff {A : UserAnalysis Op D} {depth : Nat}
    {allow : Caller Op D} {U : List (UnionRec Op)} {eg eg' : EGraph Op D} {fuel k : Nat}
    (hA : SoundFor A (GEq (eqsOf U)) .geq)
    (h : Hist (A.at depth) allow U eg) (hr : EGraph.rebuild (A.at depth) fuel eg = .ok (eg', k))
    {a b : Id} {s t : Term Op} (ha : Rep eg' a s) (hb : Rep eg' b t) :
    SameClass eg' a b ↔ GEq (eqsOf U) s t := by
  have hh : Hist (A.at depth) allow U eg' := Steps.tail (V := []) h (.rebuild hr)
  obtain ⟨hg, hU⟩ := hist_good_of_sound hA hh (fun _ _ => .ax)
  obtain ⟨hg0, _⟩ := hist_good_of_sound hA h (fun _ _ => .ax)
  constructor
  · intro hab
    exact hg.sensible.sound a b s t hab ha hb
  · intro hst
    have htidy := ((EGraph.rebuild_post trivial (hA.hookOK trivial depth) fuel hg0).elim hr).2.2.1
    have := (rebuilt_closed hg htidy.pending hU hst a).1 ha
    rw [hg.inv.sameClass_iff]
    exact ⟨hg.inv.rep_lt ha, hg.inv.rep_lt hb, EGraph.InvW.rep_unique hg.inv htidy.pending t this hb⟩

/-- The id returned by `add_expr` (and `add_expr_uncanonical`) represents the
expression's term, then and after any further operations. -/
theorem added_rep {A : UserAnalysis Op D} {depth : Nat} {allow : Caller Op D}
    {U V : List (UnionRec Op)} {eg eg1 eg2 : EGraph Op D} {e : List (ENode Op)} {a : Id} {s : Term Op}
    (h : Hist (A.at depth) allow U eg) (ha : EGraph.addExpr (A.at depth) eg e = .ok (eg1, a))
    (hs : ExprTerm e s) (h' : Steps (A.at depth) allow eg1 V eg2) : Rep eg2 a s := by
  have hg := hist_good h
  have h1 := (EGraph.addExpr_post ((soundFor_true A).hookOK trivial depth) (Or.inr trivial) hg).elim ha
  exact (steps_grow h' h1.1).2.rep _ _ (h1.2.2.2.2 s hs)

/-- **C01**, as the user sees it: add two expressions at any points of any
history, rebuild at the end; the two returned ids are in the same class iff the
equality of the two expressions follows from the asserted unions by reflexivity,
symmetry, transitivity and congruence. -/
theorem c01_added_iff {A : UserAnalysis Op D} {depth : Nat} {allow : Caller Op D}
    {U1 U2 U3 : List (UnionRec Op)} {g0 g1 g2 g3 g4 g5 : EGraph Op D} {e1 e2 : List (ENode Op)}
    {a b : Id} {s t : Term Op} {fuel k : Nat}
    (hA : ∀ i, A.modify i = .done)
    (h0 : Hist (A.at depth) allow U1 g0)
    (h1 : EGraph.addExpr (A.at depth) g0 e1 = .ok (g1, a)) (hs : ExprTerm e1 s)
    (h2 : Steps (A.at depth) allow g1 U2 g2)
    (h3 : EGraph.addExpr (A.at depth) g2 e2 = .ok (g3, b)) (ht : ExprTerm e2 t)
    (h4 : Steps (A.at depth) allow g3 U3 g4)
    (h5 : EGraph.rebuild (A.at depth) fuel g4 = .ok (g5, k)) :
    SameClass g5 a b ↔ GEq (eqsOf (U3 ++ U2 ++ U1)) s t := by
  have k1 : Hist (A.at depth) allow U1 g1 := by
    have := Steps.trans h0 (EGraph.addExpr_steps (allow := allow) h1); simpa [Hist] using this
  have k2 : Hist (A.at depth) allow (U2 ++ U1) g2 := Steps.trans k1 h2
  have k3 : Hist (A.at depth) allow (U2 ++ U1) g3 := by
    have := Steps.trans k2 (EGraph.addExpr_steps (allow := allow) h3); simpa [Hist] using this
  have k4 : Hist (A.at depth) allow (U3 ++ U2 ++ U1) g4 := by
    have := Steps.trans k3 h4; simpa [Hist, List.append_assoc] using this
  have s45 : Steps (A.at depth) allow g4 [] g5 := Steps.single (.rebuild h5)
  have s35 := Steps.trans h4 s45
  have s15 := Steps.trans (Steps.trans h2 (EGraph.addExpr_steps (allow := allow) h3)) s35
  exact c01_same_class_iff (soundFor_of_quiet hA _ _) k4 h5 (added_rep h0 h1 hs s15) (added_rep k2 h3 ht s35)

/-- Hypotheses of C01 are met: `a`, `b`, `f a`, `f b` added, `a` united with `b`,
rebuilt; and the conclusion is not trivial (`a` and `f a` stay apart). -/
example : SoundFor Ex.U0 (GEq (eqsOf [Ex.un])) .geq ∧ Hist (Ex.U0.at 1) .noSet [Ex.un] Ex.e5 ∧
    EGraph.rebuild (Ex.U0.at 1) 20 Ex.e5 = .ok (Ex.e6, 1) ∧
    Rep Ex.e6 2 Ex.tfa ∧ Rep Ex.e6 3 Ex.tfb ∧ SameClass Ex.e6 2 3 ∧ ¬ SameClass Ex.e6 0 2 :=
  ⟨soundFor_of_quiet (fun _ => rfl) _ _, Ex.hist5 _, rfl, Ex.rep_e6_fa, Ex.rep_e6_fb, ⟨2, rfl, rfl⟩,
    by rintro ⟨r, h1, h2⟩; cases h1; cases h2⟩

/-- Hypotheses of `c01_added_iff` are met: `f a` and `f b` are added as
expressions, then their leaves are united. -/
example : ∃ (g1 g3 g4 g5 : Ex.G) (a b : Id) (U3 : List (UnionRec Ex.S)) (k : Nat),
    Hist (Ex.U0.at 1) .noSet [] (EGraph.new : Ex.G) ∧
    EGraph.addExpr (Ex.U0.at 1) (EGraph.new : Ex.G) [Ex.leaf .a, Ex.app .f [0]] = .ok (g1, a) ∧
    ExprTerm [Ex.leaf .a, Ex.app .f [0]] Ex.tfa ∧
    EGraph.addExpr (Ex.U0.at 1) g1 [Ex.leaf .b, Ex.app .f [0]] = .ok (g3, b) ∧
    Steps (Ex.U0.at 1) .noSet g3 U3 g4 ∧ U3 ≠ [] ∧
    EGraph.rebuild (Ex.U0.at 1) 20 g4 = .ok (g5, k) ∧ a ≠ b ∧ SameClass g5 a b := by
  refine ⟨_, Ex.st (EGraph.addExpr (Ex.U0.at 1) (Ex.st (EGraph.addExpr (Ex.U0.at 1) (EGraph.new : Ex.G)
    [Ex.leaf .a, Ex.app .f [0]])) [Ex.leaf .b, Ex.app .f [0]]), _, _, 1, 3, [⟨7, 0, 2, Ex.ta, Ex.tb⟩], 1, .refl, rfl,
    ⟨by simp, ?_⟩, rfl, Steps.single (.union (r := true) (caller := 7)
      (Ex.rep_leaf rfl rfl (by decide)) (Ex.rep_leaf rfl rfl (by decide)) rfl), by simp, rfl, by decide, ⟨1, rfl, rfl⟩⟩
  exact termOf_iff.2 ⟨Ex.app .f [0], rfl, rfl, .cons (termOf_iff.2 ⟨Ex.leaf .a, rfl, rfl, .nil⟩) .nil⟩

end Egg
