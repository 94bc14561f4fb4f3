import Verif.Lemmas.Closed
import Verif.Lemmas.Clean
/-
`union`, `set_analysis_data` and `rebuild` leave the node table alone when the `modify` hook does.
-/
namespace Egg
variable {Op D : Type} [DecidableEq Op] [Lang Op]
namespace EGraph
variable {eg : EGraph Op D} {N : Analysis Op D}

theorem performUnion_nodes (hN : QuietMod N) {e1 e2 : Id} {r : Option Justification} {eg' : EGraph Op D} {b : Bool}
    (h : performUnion N eg e1 e2 r = .ok (eg', b)) : eg'.nodes = eg.nodes := by
  unfold performUnion at h
  rw [bind_eq_ok] at h
  obtain ⟨⟨u1, i1⟩, _, h⟩ := h
  rw [bind_eq_ok] at h
  obtain ⟨⟨u2, i2⟩, _, h⟩ := h
  simp only at h
  split at h
  · split at h
    · rw [bind_eq_ok] at h
      obtain ⟨x, _, h⟩ := h
      cases h; rfl
    · cases h; rfl
  · rw [bind_eq_ok] at h
    obtain ⟨c1, _, h⟩ := h
    rw [bind_eq_ok] at h
    obtain ⟨c2, _, h⟩ := h
    generalize (if c1.parents.length < c2.parents.length then (i2, i1) else (i1, i2)) = ids at h
    iterate 4 (rw [bind_eq_ok] at h; obtain ⟨_, _, h⟩ := h)
    split at h
    · cases h
    · rw [bind_eq_ok] at h
      obtain ⟨eg2, hm, h⟩ := h
      cases h
      have := hN _ _ _ hm
      subst this
      rfl

theorem union_nodes (hN : QuietMod N) {a b : Id} {caller : Symbol} {eg' : EGraph Op D} {r : Bool} :
    (union N eg a b caller = .ok (eg', r) → eg'.nodes = eg.nodes) ∧
    (unionTrusted N eg a b caller = .ok (eg', r) → eg'.nodes = eg.nodes) := by
  refine ⟨?_, performUnion_nodes hN⟩
  unfold union
  split
  · exact performUnion_nodes hN
  · exact performUnion_nodes hN

theorem setData_nodes (hN : QuietMod N) {i : Id} {d : D} {eg' : EGraph Op D}
    (h : setAnalysisData N eg i d = .ok eg') : eg'.nodes = eg.nodes := by
  obtain ⟨uf, id, k, _, _, hm⟩ := setData_mid h
  rw [hN _ _ _ hm]

theorem pendingStep_nodes (hN : QuietMod N) {cls : Id} {eg' : EGraph Op D} {b : Bool}
    (h : pendingStep N eg cls = .ok (eg', b)) : eg'.nodes = eg.nodes := by
  unfold pendingStep at h
  rw [bind_eq_ok] at h
  obtain ⟨n, _, h⟩ := h
  rw [bind_eq_ok] at h
  obtain ⟨⟨uf, cs⟩, _, h⟩ := h
  dsimp only at h
  split at h
  · cases h; rfl
  · have := performUnion_nodes hN h
    exact this

theorem pendingLoop_nodes (hN : QuietMod N) : ∀ (f : Nat) (eg : EGraph Op D) (k : Nat) {r}, pendingLoop N f eg k = .ok r →
    r.1.nodes = eg.nodes := by
  intro f
  induction f with
  | zero => intro eg k r h; cases h
  | succ f ih =>
    intro eg k r h
    unfold pendingLoop at h
    split at h
    · cases h; rfl
    · rw [bind_eq_ok] at h
      obtain ⟨⟨eg1, b⟩, h1, h⟩ := h
      rw [ih _ _ h, pendingStep_nodes hN h1]

theorem analysisStep_nodes (hN : QuietMod N) {cls : Id} {eg' : EGraph Op D} 
    (h : analysisStep N eg cls = .ok eg') : eg'.nodes = eg.nodes := by
  unfold analysisStep at h
  rw [bind_eq_ok] at h
  obtain ⟨n, _, h⟩ := h
  rw [bind_eq_ok] at h
  obtain ⟨⟨uf, cs⟩, _, h⟩ := h
  rw [bind_eq_ok] at h
  obtain ⟨d, _, h⟩ := h
  rw [bind_eq_ok] at h
  obtain ⟨k, _, h⟩ := h
  dsimp only at h
  split at h
  · rw [hN _ _ _ h]
  · cases h; rfl

theorem analysisLoop_nodes (hN : QuietMod N) : ∀ (f : Nat) (eg : EGraph Op D) {r}, analysisLoop N f eg = .ok r →
    r.nodes = eg.nodes := by
  intro f
  induction f with
  | zero => intro eg r h; cases h
  | succ f ih =>
    intro eg r h
    unfold analysisLoop at h
    split at h
    · cases h; rfl
    · rw [bind_eq_ok] at h
      obtain ⟨eg1, h1, h⟩ := h
      rw [ih _ h, analysisStep_nodes hN h1]

theorem processUnions_nodes (hN : QuietMod N) : ∀ (f : Nat) (eg : EGraph Op D) (k : Nat) {r}, processUnions N f eg k = .ok r →
    r.1.nodes = eg.nodes := by
  intro f
  induction f with
  | zero => intro eg k r h; cases h
  | succ f ih =>
    intro eg k r h
    unfold processUnions at h
    split at h
    · cases h; rfl
    · rw [bind_eq_ok] at h
      obtain ⟨⟨eg1, k1⟩, h1, h⟩ := h
      rw [bind_eq_ok] at h
      obtain ⟨eg2, h2, h⟩ := h
      rw [ih _ _ h, analysisLoop_nodes hN _ _ h2, pendingLoop_nodes hN _ _ _ h1]

theorem rebuild_nodes (hN : QuietMod N) {fuel : Nat} {eg' : EGraph Op D} {k : Nat}
    (h : rebuild N fuel eg = .ok (eg', k)) : eg'.nodes = eg.nodes := by
  unfold rebuild rebuildClasses at h
  rw [bind_eq_ok] at h
  obtain ⟨⟨eg1, k1⟩, h1, h⟩ := h
  rw [bind_eq_ok] at h
  obtain ⟨⟨eg2, k2⟩, h2, h⟩ := h
  rw [bind_eq_ok] at h2
  obtain ⟨⟨u, b, c, t⟩, _, h2⟩ := h2
  cases h2
  cases h
  exact processUnions_nodes hN _ _ _ h1

theorem explain_nodes {eg' : EGraph Op D} : (eg.withExplanationsEnabled = .ok eg' → eg'.nodes = eg.nodes) ∧
    (eg.withoutExplanationLengthOptimization = .ok eg' → eg'.nodes = eg.nodes) := by
  constructor
  · unfold withExplanationsEnabled
    intro h
    split at h
    · cases h; rfl
    · split at h
      · cases h
      · cases h; rfl
  · unfold withoutExplanationLengthOptimization
    intro h
    split at h
    · cases h; rfl
    · cases h

end EGraph
end Egg
