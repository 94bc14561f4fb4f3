import Verif.Lemmas.Cut
import Verif.Props.IdToExpr
import Verif.Props.VarText
import Verif.Examples
/-
C65: `id_to_pattern` with substitutions.
-/
namespace Egg
variable {Op D : Type}

/-- `src/egraph.rs:417`: the variable `format!("?{}", node_id).parse().unwrap()`. -/
def idVar (i : Id) : Var := .sym ('?' :: showNat i)

/-- The text of the variable of an id is read as that variable, which is different for
different ids. -/
theorem c65_variable (i : Id) : parseVar ('?' :: showNat i) = .ok (idVar i) ∧ ∀ j, idVar i = idVar j → i = j := by
  constructor
  · obtain ⟨h1, h2, _⟩ := showNat_spec i
    unfold idVar
    cases hs : showNat i with
    | nil => exact absurd hs h1
    | cons c cs =>
      have hd : IsDigit c := h2 c (by rw [hs]; simp)
      have hc : c ≠ '#' := by rintro rfl; exact absurd hd (by unfold IsDigit; decide)
      unfold parseVar
      split
      · next e => simp only [List.cons.injEq, true_and] at e; exact absurd e.1 hc
      · next e => simp only [List.cons.injEq, true_and] at e; rw [e.1, e.2]
      · next h => exact absurd rfl (h c cs)
  · intro j h
    injection h with h
    injection h with _ h
    exact showNat_injective h

theorem idVar_injective : Function.Injective idVar := fun i j h => (c65_variable i).2 j h

variable [DecidableEq Op] [Lang Op]
variable {A : UserAnalysis Op D} {depth : Nat} {allow : Caller Op D} {U : List (UnionRec Op)} {eg : EGraph Op D}

/-- **C65.** For a valid id and whatever substitutions, `id_to_pattern` returns the pattern that is
the term of the id with a variable for each of the ids listed, and a substitution that binds exactly the
variables of the pattern, to the ids given for them. -/
theorem c65_id_to_pattern (h : Hist (A.at depth) allow U eg) {i : Id} (hi : Valid eg i) (subs : AMap Id Id)
    {ord : Compiler Op → List (Id × Nat)} (hoc : OrdOK ord) :
    ∃ t p sb f0, Cut idVar subs eg.nodes i t ∧ (∀ f, f0 ≤ f → eg.idToPattern idVar ord f i subs = .ok (p, sb)) ∧
      IsPattern p t ∧ (∀ v e, sb.get v = some e ↔ ∃ j, v = idVar j ∧ Occurs v t ∧ subs.get? j = some e) := by
  have hg := hist_good h
  exact idToPattern_cut hg.inv.core.dag idVar_injective subs hoc (hg.inv.valid_iff.1 hi)

omit [DecidableEq Op] [Lang Op] in
/-- The pattern of an id is determined. -/
theorem c65_unique {varOf : Id → Var} {subs : AMap Id Id} {nodes : List (ENode Op)} {i : Id} {s t : Term (PatOp Op)}
    (h : Cut varOf subs nodes i s) (h' : Cut varOf subs nodes i t) : s = t := by
  induction s using Term.ind generalizing i t with
  | h op ss ih =>
    cases h with
    | var h1 =>
      cases h' with
      | var _ => rfl
      | node h2 => rw [h1] at h2; cases h2
    | node h1 h2 h3 =>
      cases h' with
      | var h4 => rw [h1] at h4; cases h4
      | node h4 h5 h6 =>
        rw [h2] at h5; cases h5
        congr 1
        have := forall₂_comp (forall₂_flip h3) h6 (fun a b c ha _ _ hab hbc => ih a ha hab hbc)
        clear h3 h6 ih
        induction this with
        | nil => rfl
        | cons h _ ih => rw [h, ih]

omit [DecidableEq Op] [Lang Op] in
/-- Putting the terms of the ids back for their variables gives the term of the id. -/
theorem c65_instance {varOf : Id → Var} {subs : AMap Id Id} {nodes : List (ENode Op)} {i : Id} {t : Term (PatOp Op)}
    (h : Cut varOf subs nodes i t) {τ : Var → Term Op} (hτ : ∀ j e s, subs.get? j = some e → TermOf nodes j s → τ (varOf j) = s)
    {s : Term Op} (hs : TermOf nodes i s) : Inst τ t s := by
  induction t using Term.ind generalizing i s with
  | h op ts ih =>
    cases h with
    | var h1 => rw [← hτ _ _ _ h1 hs]; exact .var
    | @node _ n _ h1 h2 h3 =>
      cases s with
      | node o ss =>
        obtain ⟨m, g1, g2, g3⟩ := termOf_iff.1 hs
        rw [h2] at g1; cases g1
        subst g2
        have := forall₂_comp (R := fun a b => Cut varOf subs nodes b a) (forall₂_flip h3) g3 (T := fun a c => Inst τ a c)
          (fun a b c ha _ _ hab hbc => ih a ha hab hbc)
        rw [forall₂_iff_get?] at this
        exact .node this.1 this.2

/-- If every substituted id is in the class given for it, the pattern matches, under the substitution that is returned, in the class of
the id. -/
theorem c65_matches (h : Hist (A.at depth) allow U eg) {i : Id} {subs : AMap Id Id} {t : Term (PatOp Op)}
    (ht : Cut idVar subs eg.nodes i t) (hi : Valid eg i) (hs : ∀ j e, subs.get? j = some e → Valid eg j → SameClass eg e j)
    {sb : Subst} (hsb : ∀ v e, sb.get v = some e ↔ ∃ j, v = idVar j ∧ Occurs v t ∧ subs.get? j = some e) :
    PMatch eg sb.get i t := by
  have hg := hist_good h
  suffices ∀ (u : Term (PatOp Op)) (k : Id), Cut idVar subs eg.nodes k u → k < eg.nodes.length →
      (∀ v, Occurs v u → Occurs v t) → PMatch eg sb.get k u from this t i ht (hg.inv.valid_iff.1 hi) (fun _ h => h)
  intro u
  induction u using Term.ind with
  | h op us ih =>
    intro k hk hkl ho
    cases hk with
    | @var _ e h1 => exact .var ((hsb _ e).2 ⟨k, rfl, ho _ .refl, h1⟩) (hs k e h1 (hg.inv.valid_iff.2 hkl))
    | @node _ n _ h1 h2 h3 =>
      obtain ⟨s, m, g1, g2, g3⟩ := hg.inv.core.nodesCls k n h2
      obtain ⟨cl, hcl, rfl⟩ := EGraph.cls_of_sk g1
      rw [← g3.1]
      have hch : List.Forall₂ (fun a u => PMatch eg sb.get a u) m.children us := by
        have e := forall₂_map_eq.2 g3.2
        refine forall₂_comp e h3 ?_
        intro a b u ha hb hu hab hbu
        have hbl := (hg.inv.core.dag k n h2 b hb).trans hkl
        have := ih u hu b hbu hbl (fun v hv => ho v (.arg hu hv))
        exact hg.inv.pmatch_congr (hg.inv.sameClass_iff.2 ⟨hbl, hg.inv.core.clsNodeLt g1 g2 a ha, hab.symm⟩) this
      rw [forall₂_iff_get?] at hch
      exact .node (hg.inv.index_iff.2 ⟨hkl, hcl⟩) g2 hch.1 hch.2

/-- In the e-graph with `a`, `b`, `f a`, `f b` (after the union of `a` and `b`), the id of `f a` with `b` given for the id of `a`
is the pattern `f ?0`; it matches with `?0` bound to the class of `b`. -/
example (allow) : Hist Ex.N0 allow [Ex.un] Ex.e6 ∧ Valid Ex.e6 2 ∧
    Cut idVar [(0, 1)] Ex.e6.nodes 2 (.node (.op .f) [.node (.var (idVar 0)) []]) ∧ SameClass Ex.e6 1 0 := by
  refine ⟨Ex.hist6 allow, ⟨_, rfl⟩, ?_, ?_⟩
  · exact .node (n := Ex.app .f [0]) rfl rfl (.cons (.var (e := 1) rfl) .nil)
  · exact ⟨_, rfl, rfl⟩

end Egg
