import Verif.Model.Merge
import Verif.Spec.Join
import Mathlib.Order.WithBot
import Mathlib.Data.Fin.Basic
/-
C14: the merge helpers honour the `DidMerge` contract.
-/
namespace Egg
variable {T : Type}

/-- The contract documented at `DidMerge` (`src/language.rs:697-708`), in its exact
form: the first flag says whether the stored value changed, the second whether the
stored value differs from the second argument. -/
def ExactMerge (merge : T → T → T × Bool × Bool) : Prop :=
  ∀ a b, ((merge a b).2.1 = true ↔ (merge a b).1 ≠ a) ∧ ((merge a b).2.2 = true ↔ (merge a b).1 ≠ b)

/-- `merge_max` stores the maximum and its flags are exact. -/
theorem c14_merge_max [LinearOrder T] :
    (∀ a b : T, (mergeMax a b).1 = max a b) ∧ ExactMerge (mergeMax (T := T)) := by
  have key : ∀ a b : T, (a < b ∧ mergeMax a b = (b, true, false)) ∨ (a = b ∧ mergeMax a b = (a, false, false)) ∨
      (b < a ∧ mergeMax a b = (a, false, true)) := by
    intro a b
    rcases lt_trichotomy a b with h | h | h
    · exact .inl ⟨h, by simp [mergeMax, compare_lt_iff_lt.2 h]⟩
    · exact .inr (.inl ⟨h, by simp [mergeMax, compare_eq_iff_eq.2 h]⟩)
    · exact .inr (.inr ⟨h, by simp [mergeMax, compare_gt_iff_gt.2 h]⟩)
  constructor
  · intro a b
    rcases key a b with ⟨h, e⟩ | ⟨h, e⟩ | ⟨h, e⟩ <;> rw [e]
    · exact (max_eq_right h.le).symm
    · subst h; exact (max_self a).symm
    · exact (max_eq_left h.le).symm
  · intro a b
    rcases key a b with ⟨h, e⟩ | ⟨h, e⟩ | ⟨h, e⟩ <;> rw [e]
    · exact ⟨⟨fun _ => h.ne', fun _ => rfl⟩, by simp⟩
    · simp [h]
    · exact ⟨by simp, ⟨fun _ => h.ne', fun _ => rfl⟩⟩

/-- `merge_min` stores the minimum and its flags are exact. -/
theorem c14_merge_min [LinearOrder T] :
    (∀ a b : T, (mergeMin a b).1 = min a b) ∧ ExactMerge (mergeMin (T := T)) := by
  have key : ∀ a b : T, (a < b ∧ mergeMin a b = (a, false, true)) ∨ (a = b ∧ mergeMin a b = (a, false, false)) ∨
      (b < a ∧ mergeMin a b = (b, true, false)) := by
    intro a b
    rcases lt_trichotomy a b with h | h | h
    · exact .inl ⟨h, by simp [mergeMin, compare_lt_iff_lt.2 h]⟩
    · exact .inr (.inl ⟨h, by simp [mergeMin, compare_eq_iff_eq.2 h]⟩)
    · exact .inr (.inr ⟨h, by simp [mergeMin, compare_gt_iff_gt.2 h]⟩)
  constructor
  · intro a b
    rcases key a b with ⟨h, e⟩ | ⟨h, e⟩ | ⟨h, e⟩ <;> rw [e]
    · exact (min_eq_left h.le).symm
    · subst h; exact (min_self a).symm
    · exact (min_eq_right h.le).symm
  · intro a b
    rcases key a b with ⟨h, e⟩ | ⟨h, e⟩ | ⟨h, e⟩ <;> rw [e]
    · exact ⟨by simp, ⟨fun _ => h.ne, fun _ => rfl⟩⟩
    · simp [h]
    · exact ⟨⟨fun _ => h.ne, fun _ => rfl⟩, by simp⟩

/-- `merge_option` keeps a `Some`, prefers it over `None`, merges two `Some`s with the given
function, and is exact whenever that function is. -/
theorem c14_merge_option (f : T → T → T × Bool × Bool) :
    (mergeOption f none none).1 = none ∧
    (∀ a, (mergeOption f (some a) none).1 = some a) ∧
    (∀ b, (mergeOption f none (some b)).1 = some b) ∧
    (∀ a b, (mergeOption f (some a) (some b)).1 = some (f a b).1 ∧
      (mergeOption f (some a) (some b)).2 = (f a b).2) ∧
    (ExactMerge f → ExactMerge (mergeOption f)) := by
  refine ⟨rfl, fun _ => rfl, fun _ => rfl, fun _ _ => ⟨rfl, rfl⟩, ?_⟩
  intro h a b
  cases a <;> cases b <;> simp [mergeOption]
  rename_i a b
  exact h a b

/-- Exact merges combined component-wise with the `|` of `DidMerge` are exact. -/
theorem c14_merge_pair {S : Type} (f : T → T → T × Bool × Bool) (g : S → S → S × Bool × Bool)
    (hf : ExactMerge f) (hg : ExactMerge g) :
    ExactMerge (fun (a b : T × S) => (((f a.1 b.1).1, (g a.2 b.2).1), didMergeOr (f a.1 b.1).2 (g a.2 b.2).2)) := by
  intro a b
  have h1 := hf a.1 b.1
  have h2 := hg a.2 b.2
  obtain ⟨a1, a2⟩ := a
  obtain ⟨b1, b2⟩ := b
  simp only [didMergeOr, Bool.or_eq_true, ne_eq, Prod.mk.injEq, not_and_or] at *
  exact ⟨or_congr h1.1 h2.1, or_congr h1.2 h2.2⟩

/-- What a join analysis needs of its merge function (`JoinAnalysis` of `Spec/Join.lean`,
used by the theorems on analysis data) holds for `merge_max` in the given order … -/
theorem c14_max_is_join [LinearOrder T] (a b u : T) :
    a ≤ (mergeMax a b).1 ∧ b ≤ (mergeMax a b).1 ∧ (a ≤ u → b ≤ u → (mergeMax a b).1 ≤ u) ∧
    ((mergeMax a b).2.1 = false → (mergeMax a b).1 ≤ a) ∧ ((mergeMax a b).2.2 = false → (mergeMax a b).1 ≤ b) := by
  obtain ⟨h, e⟩ := c14_merge_max (T := T)
  have e := e a b
  refine ⟨by rw [h]; exact le_max_left _ _, by rw [h]; exact le_max_right _ _, fun x y => by rw [h]; exact max_le x y,
    fun hh => ?_, fun hh => ?_⟩
  · by_contra hc; exact absurd (e.1.2 (fun he => hc he.le)) (by simp [hh])
  · by_contra hc; exact absurd (e.2.2 (fun he => hc he.le)) (by simp [hh])

/-- … and for `merge_min` in the reversed order. -/
theorem c14_min_is_join [LinearOrder T] (a b u : T) :
    (mergeMin a b).1 ≤ a ∧ (mergeMin a b).1 ≤ b ∧ (u ≤ a → u ≤ b → u ≤ (mergeMin a b).1) ∧
    ((mergeMin a b).2.1 = false → a ≤ (mergeMin a b).1) ∧ ((mergeMin a b).2.2 = false → b ≤ (mergeMin a b).1) := by
  obtain ⟨h, e⟩ := c14_merge_min (T := T)
  have e := e a b
  refine ⟨by rw [h]; exact min_le_left _ _, by rw [h]; exact min_le_right _ _, fun x y => by rw [h]; exact le_min x y,
    fun hh => ?_, fun hh => ?_⟩
  · by_contra hc; exact absurd (e.1.2 (fun he => hc he.ge)) (by simp [hh])
  · by_contra hc; exact absurd (e.2.2 (fun he => hc he.ge)) (by simp [hh])

/-- The hypothesis `ExactMerge f` of `c14_merge_option` is met. -/
example : ExactMerge (mergeOption (mergeOption (mergeMax (T := Nat)))) :=
  (c14_merge_option _).2.2.2.2 ((c14_merge_option _).2.2.2.2 c14_merge_max.2)

example : mergeOption mergeMax (some 3) (some 5) = (some 5, true, false) ∧
    mergeMin 3 5 = (3, false, true) ∧ mergeMax 4 4 = (4, false, false) := by decide

end Egg
