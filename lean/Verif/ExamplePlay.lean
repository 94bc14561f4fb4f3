import Verif.Examples
import Verif.Props.Closure
/-
Scripts of calls, for examples.
-/
namespace Egg

/-- Calls of a script. -/
inductive Ex.Call where
  | add (n : ENode Ex.S)
  | union (a b : Id) (reason : Symbol)
  | rebuild

/-- Runs a script. -/
def Ex.play : List Ex.Call → Ex.G → Res Ex.G
  | [], eg => .ok eg
  | .add n :: cs, eg => do
    let (eg, _) ← EGraph.addUncanonical Ex.N0 eg n
    Ex.play cs eg
  | .union a b r :: cs, eg => do
    if a < eg.nodes.length ∧ b < eg.nodes.length then do
      let (eg, _) ← EGraph.union Ex.N0 eg a b r
      Ex.play cs eg
    else .error .panic
  | .rebuild :: cs, eg => do
    let (eg, _) ← EGraph.rebuild Ex.N0 20 eg
    Ex.play cs eg

theorem Ex.play_hist (allow) : ∀ (cs : List Ex.Call) (U : List (UnionRec Ex.S)) (eg eg' : Ex.G), Hist Ex.N0 allow U eg → Ex.play cs eg = .ok eg' →
    ∃ U', Hist Ex.N0 allow U' eg' := by
  intro cs
  induction cs with
  | nil => intro U eg eg' h he; cases he; exact ⟨U, h⟩
  | cons c cs ih =>
    intro U eg eg' h he
    cases c with
    | add n =>
      obtain ⟨⟨eg1, i⟩, h1, he⟩ := bind_eq_ok.1 he
      exact ih _ _ _ (Steps.tail (V := []) h (.add h1)) he
    | union a b r =>
      have hg := hist_good h
      unfold Ex.play at he
      split at he
      · rename_i hab
        obtain ⟨⟨eg1, i⟩, h1, he⟩ := bind_eq_ok.1 he
        obtain ⟨u, hu⟩ := hg.inv.exists_rep hab.1
        obtain ⟨w, hw⟩ := hg.inv.exists_rep hab.2
        exact ih _ _ _ (Steps.tail h (.union hu hw h1)) he
      · cases he
    | rebuild =>
      obtain ⟨⟨eg1, i⟩, h1, he⟩ := bind_eq_ok.1 he
      exact ih _ _ _ (Steps.tail (V := []) h (.rebuild h1)) he

end Egg
