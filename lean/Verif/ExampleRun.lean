import Verif.Lemmas.Run
/-
A small run, for the examples.
-/
namespace Egg

/-- The rule `(f ?x) => (g ?x)`. -/
def Ex.ruleFG : Rewrite Ex.S Unit := ⟨9, Ex.patFx.searcher, Ex.patGx.applier⟩
def Ex.renv : RunEnv Ex.S Unit := ⟨Ex.N0, fun _ eg => Ex.ord eg, fun _ => 0, 20, 8⟩
def Ex.runner {S : Type} (s : S) : Runner Ex.S Unit S Unit := { (Runner.new s () : Runner Ex.S Unit S Unit) with egraph := Ex.e6 }
def Ex.stR {S : Type} (d : S) (x : Res (Runner Ex.S Unit S Unit)) : Runner Ex.S Unit S Unit := match x with | .ok r => r | _ => Ex.runner d

theorem Ex.patternRule : PatternRule Ex.ruleFG Ex.termFx Ex.termGx :=
  ⟨Ex.patFx, Ex.patGx, Ex.isPatFx, Ex.live, Ex.isPatGx, rfl⟩

def Ex.done1 : Runner Ex.S Unit Unit Unit := Ex.stR () ((Ex.runner ()).run Ex.renv simpleScheduler [] [Ex.ruleFG] 10)

theorem Ex.hooksOK (Q) (allow) : HooksOK (H := Unit) (Ex.U0.at 1) allow Q [] := by
  intro k hk; cases hk


theorem Ex.areRules' (N) : AreRules N [Ex.ruleFG] [(Ex.termFx, Ex.termGx)] := by
  intro rw' h
  simp only [List.mem_singleton] at h
  subst h
  exact ⟨_, _, by simp, Or.inl Ex.patternRule⟩

end Egg
