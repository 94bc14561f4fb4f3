import Verif.Model.ShortPath
import Verif.Examples
/-
One way to resolve the arbitrary choices in the optimization of explanations, used by examples.
-/
namespace Egg

/-- Takes a cheapest element out of a list. -/
def popMin : List (Nat × Connection) → Option ((Nat × Connection) × List (Nat × Connection))
  | [] => none
  | a :: l => match popMin l with
    | none => some (a, [])
    | some (b, r) => if a.1 ≤ b.1 then some (a, b :: r) else some (b, a :: r)

theorem popMin_some : ∀ l a rest, popMin l = some (a, rest) → l.Perm (a :: rest) ∧ ∀ b ∈ l, a.1 ≤ b.1 := by
  intro l
  induction l with
  | nil => intro a rest h; cases h
  | cons x l ih =>
    intro a rest h
    unfold popMin at h
    split at h
    · rename_i h0
      cases h
      have : l = [] := by
        cases l with
        | nil => rfl
        | cons y l =>
          unfold popMin at h0
          split at h0
          · cases h0
          · split at h0 <;> cases h0
      subst this
      exact ⟨.refl _, by simp⟩
    · rename_i b r h0
      obtain ⟨h1, h2⟩ := ih b r h0
      split at h
      · rename_i hle
        cases h
        refine ⟨h1.cons _, ?_⟩
        intro c hc
        rcases List.mem_cons.1 hc with rfl | hc
        · exact le_refl _
        · exact le_trans hle (h2 c hc)
      · rename_i hle
        cases h
        refine ⟨(h1.cons _).trans (.swap _ _ _), ?_⟩
        intro c hc
        rcases List.mem_cons.1 hc with rfl | hc
        · omega
        · exact h2 c hc

/-- Hash sets are iterated in the order of the list. -/
def Ex.ch0 : Explain.Choices where
  order := id
  pop := popMin
  orderPerm := fun l => .refl _
  popNone := fun l h => by
    cases l with
    | nil => rfl
    | cons y l =>
      unfold popMin at h
      split at h
      · cases h
      · split at h <;> cases h
  popSome := popMin_some


/-- The result is not an error. -/
def isOk {α : Type} : Res α → Bool
  | .ok _ => true
  | .error _ => false

theorem exists_of_isOk {α β : Type} {r : Res (α × β)} (h : isOk r = true) : ∃ p q, r = .ok (p, q) := by
  cases r with
  | ok x => exact ⟨x.1, x.2, rfl⟩
  | error e => cases h

end Egg
