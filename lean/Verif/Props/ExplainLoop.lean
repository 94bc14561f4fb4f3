import Verif.ExampleLoop
import Verif.Props.Explanations
/-
C33, finding: with the (default) optimization of lengths, a request for an explanation may never return.
-/
namespace Egg
namespace Loop

theorem step_hist {e e' : EGraph O Unit} {U : List (UnionRec O)} (h : Hist N0 .noSet U e) (c : Cmd) (hs : step e c = .ok e') :
    ∃ U', Hist N0 .noSet U' e' := by
  cases c with
  | add n =>
    obtain ⟨⟨e1, i⟩, h1, h2⟩ := bind_eq_ok.1 hs
    cases h2
    exact ⟨_, .tail (V := []) h (.add h1)⟩
  | union a b r =>
    obtain ⟨⟨e1, i⟩, h1, h2⟩ := bind_eq_ok.1 hs
    cases h2
    have hg := hist_good h
    have hv : Valid e a ∧ Valid e b := by
      by_contra hc
      have := (EGraph.union_error (N := N0) (caller := r) hg hc).2
      rw [h1] at this; cases this
    obtain ⟨s, hs⟩ := hg.inv.exists_rep (hg.valid_iff.1 hv.1)
    obtain ⟨t, ht⟩ := hg.inv.exists_rep (hg.valid_iff.1 hv.2)
    exact ⟨_, .tail h (.unionTrusted hs ht h1)⟩
  | rebuild =>
    obtain ⟨⟨e1, i⟩, h1, h2⟩ := bind_eq_ok.1 hs
    cases h2
    exact ⟨_, .tail (V := []) h (.rebuild h1)⟩
  | query ch a b =>
    obtain ⟨⟨p, e1⟩, h1, h2⟩ := bind_eq_ok.1 hs
    cases h2
    exact ⟨_, .tail (V := []) h (.query (fun _ _ _ => trivial) h1)⟩

theorem run_hist : ∀ (cs : List Cmd) {e e' : EGraph O Unit} {U : List (UnionRec O)}, Hist N0 .noSet U e → run cs e = .ok e' →
    ∃ U', Hist N0 .noSet U' e'
  | [], e, e', U, h, hr => by cases hr; exact ⟨U, h⟩
  | c :: cs, e, e', U, h, hr => by
    unfold run at hr
    rw [List.foldlM_cons] at hr
    obtain ⟨e1, h1, h2⟩ := bind_eq_ok.1 hr
    obtain ⟨U1, h3⟩ := step_hist h c h1
    exact run_hist cs h3 h2

theorem hist : ∃ U, Hist N0 .noSet U eg :=
  run_hist all (e := start) (U := []) (.tail (V := []) .refl (.explain rfl)) run_ok

theorem request (fuel : Nat) : eg.explainIdEquivalence chr fuel 6 4 = .error .fuel := by
  obtain ⟨_, _, _, _, ⟨hrt, hlen⟩, hx, ho⟩ := facts
  obtain ⟨U, hh⟩ := hist
  have hg := hist_good hh
  unfold EGraph.explainIdEquivalence
  rw [hg.inv.find (by omega), hg.inv.find (by omega)]
  simp only [ok_bind]
  rw [if_neg (not_not_intro hrt)]
  have : eg.explain = some x0 := by
    unfold x0
    cases h : eg.explain with
    | none => rw [h] at hx; cases hx
    | some x => rfl
  rw [this]
  simp only
  unfold Explain.explainEquivalence
  rw [if_pos ho]
  have hm : FuelMono (fun f => x0.calculateShortestExplanations chr eg.nodes eg.uf eg.classes.keys f 6 4) :=
    fun f => Explain.calculateShortestExplanations_mono x0 chr eg.nodes eg.uf eg.classes.keys f 6 4
  rcases hm.eq_or opt_ok fuel with h | h
  · rw [h]; rfl
  · rw [h]
    simp only [ok_bind, never fuel]
    rfl

end Loop

/-- **C33, finding.**  There is a history of adds, unions, rebuilds and one request for an explanation, all of which
succeed, after which the request for the explanation of an equality that holds does not return,
however large the bound on the recursion depth.  (Entries of `shortest_explanation_memo` of the first request
become part of a cycle when the second request replaces only some of them.) -/
theorem c33_optimized_counterexample : ∃ (U : List (UnionRec Loop.O)) (eg : EGraph Loop.O Unit) (ch : Explain.Choices) (a b : Id),
    Hist (Loop.U0.at 1) .noSet U eg ∧ SameClass eg a b ∧ ∀ fuel, eg.explainIdEquivalence ch fuel a b = .error .fuel := by
  obtain ⟨U, hh⟩ := Loop.hist
  obtain ⟨_, _, _, _, ⟨hrt, hlen⟩, _, _⟩ := Loop.facts
  refine ⟨U, Loop.eg, Loop.chr, 6, 4, hh, ?_, Loop.request⟩
  exact (hist_good hh).inv.sameClass_iff.2 ⟨by omega, by omega, hrt⟩

/-- **C33**: whether and what a request returns does not depend on the fuel of the model, except that
too little fuel gives no answer. -/
theorem c33_fuel {Op D : Type} [DecidableEq Op] [Lang Op] (eg : EGraph Op D) (ch : Explain.Choices) (a b : Id) {fuel : Nat}
    {r : List (TreeTerm Op) × EGraph Op D} (h : eg.explainIdEquivalence ch fuel a b = .ok r) (fuel' : Nat) :
    eg.explainIdEquivalence ch fuel' a b = .error .fuel ∨ eg.explainIdEquivalence ch fuel' a b = .ok r :=
  (eg.explainIdEquivalence_mono ch a b).eq_or h fuel'

end Egg
