import Verif.Model.Base
import Verif.Lemmas.Basic
import Mathlib.Order.Lattice
/-
Computations that return the same value for all large enough values of their bound.
-/
namespace Egg
variable {ι : Type} [SemilatticeSup ι] {α β : Type}

/-- From some bound on, `F` returns the same value, and it satisfies `P`. -/
def Returns (F : ι → Res α) (P : α → Prop) : Prop := ∃ f0 v, P v ∧ ∀ f, f0 ≤ f → F f = .ok v

namespace Returns

theorem ret [Nonempty ι] {v : α} {P : α → Prop} (h : P v) : Returns (fun _ : ι => (.ok v : Res α)) P :=
  ⟨Classical.arbitrary ι, v, h, fun _ _ => rfl⟩

theorem const [Nonempty ι] {r : Res α} {v : α} {P : α → Prop} (e : r = .ok v) (h : P v) : Returns (fun _ : ι => r) P :=
  ⟨Classical.arbitrary ι, v, h, fun _ _ => e⟩

theorem bind {F : ι → Res α} {G : α → ι → Res β} {P : α → Prop} {Q : β → Prop} (h : Returns F P)
    (h' : ∀ v, P v → Returns (G v) Q) : Returns (fun f => F f >>= fun v => G v f) Q := by
  obtain ⟨f1, v, hv, h1⟩ := h
  obtain ⟨f2, w, hw, h2⟩ := h' v hv
  refine ⟨f1 ⊔ f2, w, hw, fun f hf => ?_⟩
  show (F f >>= fun v => G v f) = _
  rw [h1 f (le_trans le_sup_left hf), ok_bind]
  exact h2 f (le_trans le_sup_right hf)

theorem mono {F : ι → Res α} {P Q : α → Prop} (h : Returns F P) (h' : ∀ v, P v → Q v) : Returns F Q := by
  obtain ⟨f1, v, hv, h1⟩ := h
  exact ⟨f1, v, h' v hv, h1⟩

theorem congr {F G : ι → Res α} {P : α → Prop} (h : Returns G P) (e : ∀ f, F f = G f) : Returns F P := by
  rwa [show F = G from funext e]

theorem succ {F G : Nat → Res α} {P : α → Prop} (h : Returns G P) (e : ∀ f, F (f + 1) = G f) : Returns F P := by
  obtain ⟨f1, v, hv, h1⟩ := h
  refine ⟨f1 + 1, v, hv, fun f hf => ?_⟩
  obtain ⟨f, rfl⟩ : ∃ k, f = k + 1 := ⟨f - 1, by omega⟩
  rw [e]
  exact h1 f (by omega)

theorem succ' {F : Nat → Res α} {P : α → Prop} (h : Returns (fun f => F (f + 1)) P) : Returns F P := succ h (fun _ => rfl)

theorem succ2' {F : Nat × Nat → Res α} {P : α → Prop} (h : Returns (fun p : Nat × Nat => F (p.1, p.2 + 1)) P) : Returns F P := by
  obtain ⟨⟨a1, f1⟩, v, hv, h1⟩ := h
  refine ⟨(a1, f1 + 1), v, hv, ?_⟩
  rintro ⟨a, f⟩ hf
  obtain ⟨ha, hf⟩ := Prod.mk_le_mk.1 hf
  obtain ⟨f, rfl⟩ : ∃ k, f = k + 1 := ⟨f - 1, by omega⟩
  exact h1 (a, f) (Prod.mk_le_mk.2 ⟨ha, by omega⟩)

theorem succ2 {F G : Nat × Nat → Res α} {P : α → Prop} (h : Returns G P) (e : ∀ a f, F (a, f + 1) = G (a, f)) : Returns F P := by
  obtain ⟨⟨a1, f1⟩, v, hv, h1⟩ := h
  refine ⟨(a1, f1 + 1), v, hv, ?_⟩
  rintro ⟨a, f⟩ hf
  obtain ⟨ha, hf⟩ := Prod.mk_le_mk.1 hf
  obtain ⟨f, rfl⟩ : ∃ k, f = k + 1 := ⟨f - 1, by omega⟩
  rw [e]
  exact h1 _ (Prod.mk_le_mk.2 ⟨ha, by omega⟩)

theorem lift {F : Nat → Res α} {P : α → Prop} (h : Returns F P) : Returns (fun p : Nat × Nat => F p.1) P := by
  obtain ⟨f1, v, hv, h1⟩ := h
  exact ⟨(f1, 0), v, hv, fun f hf => h1 f.1 hf.1⟩

theorem diag {F : Nat × Nat → Res α} {P : α → Prop} (h : Returns F P) : Returns (fun f : Nat => F (f, f)) P := by
  obtain ⟨⟨a, b⟩, v, hv, h1⟩ := h
  exact ⟨a ⊔ b, v, hv, fun f hf => h1 _ (Prod.mk_le_mk.2 ⟨le_trans le_sup_left hf, le_trans le_sup_right hf⟩)⟩

/-- A fold, with an invariant about the elements already visited. -/
theorem foldlM [Nonempty ι] {I : List β → α → Prop} {g : ι → α → β → Res α} :
    ∀ (l pre : List β) (a : α), I pre a →
      (∀ p b post a, pre ++ l = p ++ b :: post → I p a → Returns (fun f => g f a b) (I (p ++ [b]))) →
      Returns (fun f => l.foldlM (g f) a) (I (pre ++ l)) := by
  intro l
  induction l with
  | nil => intro pre a h _; simpa using Returns.ret (ι := ι) (v := a) h
  | cons b l ih =>
    intro pre a h hs
    have h1 := hs pre b l a rfl h
    simp only [List.foldlM_cons]
    refine bind h1 fun a' ha' => ?_
    have := ih (pre ++ [b]) a' ha' (by
      intro p c post a'' e hi
      exact hs p c post a'' (by simpa using e) hi)
    simpa using this

theorem foldlM' [Nonempty ι] {I : α → Prop} {g : ι → α → β → Res α} {l : List β} {a : α} (h : I a)
    (hs : ∀ b ∈ l, ∀ a, I a → Returns (fun f => g f a b) I) : Returns (fun f => l.foldlM (g f) a) I :=
  (foldlM (I := fun _ => I) l [] a h (by
    intro p b post a e hi
    exact hs b (by simp at e; simp [e]) a hi)).mono (fun _ h => h)

end Returns
end Egg
