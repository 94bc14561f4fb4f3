import Verif.Spec.Guard
import Verif.Props.MultiRule
import Verif.Props.Describe
/-
Lemmas for C89.
-/
namespace Egg
variable {Op D : Type} [DecidableEq Op] [Lang Op]
variable {A : UserAnalysis Op D} {depth : Nat} {allow : Caller Op D} {R : Term Op → Term Op → Prop} {N : Analysis Op D}
  {P P' : (Var → Term Op) → Prop} {a b c : EGraph Op D} {lp rp : Pattern Op} {tl t : Term (PatOp Op)}

theorem SoundSteps.refl : SoundSteps N allow R a a := ⟨[], .refl, by simp⟩

theorem SoundSteps.trans (h : SoundSteps N allow R a b) (h' : SoundSteps N allow R b c) : SoundSteps N allow R a c := Reach.trans h h'

theorem SoundSteps.adds (h : AddSteps N a b) : SoundSteps N allow R a b := Reach.adds h

theorem SoundState.steps (h : SoundState N allow R a) (h' : SoundSteps N allow R a b) : SoundState N allow R b := by
  obtain ⟨U, h1, h2⟩ := h
  obtain ⟨W, h3, h4⟩ := h'
  refine ⟨W ++ U, Steps.trans h1 h3, fun u hu => ?_⟩
  rcases List.mem_append.1 hu with hu | hu
  · exact h4 u hu
  · exact h2 u hu

theorem SoundState.good (h : SoundState (A.at depth) allow R a) :
    EGraph.Good (Cfg.ofR (fun _ _ => True) isCongruence_true anyReason) a := hist_good h.choose_spec.1

/-- What is known of the terms of the bound classes stays known when terms are added. -/
theorem known_stays (hR : IsCongruence R) (hS : SoundlyMerging (A.at depth) allow R) (hP : Respects R P) (h : SoundState (A.at depth) allow R a)
    {s : Subst} (hs : BindsIds a s) (ha : AddSteps (A.at depth) a b) (hk : ∀ τ, Assigns a s τ → P τ) : ∀ τ, Assigns b s τ → P τ := by
  intro τ hτ
  classical
  obtain ⟨gb, xb⟩ := AddSteps.ext ((soundFor_true A).hookOK trivial depth) ha h.good
  have hb : SoundState (A.at depth) allow R b := h.steps (.adds ha)
  have hex : ∀ v x, s.get v = some x → ∃ t, Rep a x t := fun v x hx => h.good.inv.exists_rep (h.good.valid_iff.1 (hs v x hx))
  refine hP (fun v => if hv : ∃ t x, s.get v = some x ∧ Rep a x t then hv.choose else τ v) τ (fun v => ?_) (hk _ fun v x hx => ?_)
  · by_cases hv : ∃ t x, s.get v = some x ∧ Rep a x t
    · simp only [dif_pos hv]
      obtain ⟨x, h1, h2⟩ := hv.choose_spec
      have h3 := hτ v x h1
      have h4 := xb.rep h.good.inv gb.inv _ h2
      obtain ⟨r, hr⟩ := gb.valid_iff.2 (gb.inv.rep_lt h3)
      exact hS b hb x x _ _ ⟨r, hr, hr⟩ h4 h3
    · simp only [dif_neg hv]
      exact hR.refl _
  · have hv : ∃ t x, s.get v = some x ∧ Rep a x t := by
      obtain ⟨t, ht⟩ := hex v x hx
      exact ⟨t, x, hx, ht⟩
    simp only [dif_pos hv]
    obtain ⟨x', h1, h2⟩ := hv.choose_spec
    rw [hx] at h1; cases h1
    exact h2

end Egg
