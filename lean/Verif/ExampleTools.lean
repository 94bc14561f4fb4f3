import Verif.Lemmas.Pattern
/-
Executable checks used only by examples.
-/
namespace Egg
variable {Op : Type}

theorem RecExpr.isDagFrom_iff : ∀ (e : List (ENode Op)) (k : Nat), RecExpr.isDagFrom k e = true ↔
    ∀ (i : Nat) (n : ENode Op), e[i]? = some n → ∀ c ∈ n.children, c < k + i
  | [], k => by simp [RecExpr.isDagFrom]
  | n :: e, k => by
    simp only [RecExpr.isDagFrom, Bool.and_eq_true, List.all_eq_true, decide_eq_true_eq, isDagFrom_iff e (k + 1)]
    constructor
    · rintro ⟨h1, h2⟩ i m hm c hc
      cases i with
      | zero => simp at hm; subst hm; exact h1 c hc
      | succ i => have := h2 i m (by simpa using hm) c hc; omega
    · intro h
      refine ⟨fun c hc => h 0 n rfl c hc, fun i m hm c hc => ?_⟩
      have := h (i + 1) m (by simpa using hm) c hc
      omega

/-- `is_dag` tests that children precede parents. -/
theorem RecExpr.isDag_iff {e : List (ENode Op)} : RecExpr.isDag e = true ↔
    ∀ (i : Nat) (n : ENode Op), e[i]? = some n → ∀ c ∈ n.children, c < i := by
  unfold RecExpr.isDag
  rw [isDagFrom_iff]
  simp

def varLeafB (n : ENode (PatOp Op)) : Bool :=
  match n.op with
  | .var _ => n.children.isEmpty
  | .op _ => true

theorem patWF_of {e : PatternAst Op} (h1 : e.isEmpty = false) (h2 : RecExpr.isDag e = true) (h3 : e.all varLeafB = true) :
    PatWF e := by
  refine ⟨⟨by rintro rfl; simp at h1, RecExpr.isDag_iff.1 h2⟩, ?_⟩
  intro n hn v hv
  have := List.all_eq_true.1 h3 n hn
  unfold varLeafB at this
  rw [hv] at this
  simpa using this

theorem wfExpr_of {e : List (ENode Op)} (h1 : e.isEmpty = false) (h2 : RecExpr.isDag e = true) : WFExpr e :=
  ⟨by rintro rfl; simp at h1, RecExpr.isDag_iff.1 h2⟩

/-- The term of a node, computed. -/
def evalTerm (e : List (ENode Op)) : Nat → Id → Option (Term Op)
  | 0, _ => none
  | f + 1, i =>
    match e[i]? with
    | none => none
    | some n =>
      match n.children.mapM (evalTerm e f) with
      | none => none
      | some ts => some (.node n.op ts)

theorem evalTerm_sound {e : List (ENode Op)} : ∀ (f : Nat) (i : Id) (t : Term Op), evalTerm e f i = some t → TermOf e i t
  | 0, _, _, h => by cases h
  | f + 1, i, t, h => by
    unfold evalTerm at h
    split at h
    · cases h
    · next n hn =>
      split at h
      · cases h
      · next ts hts =>
        cases h
        rw [termOf_iff]
        refine ⟨n, hn, rfl, ?_⟩
        generalize n.children = cs at hts
        induction cs generalizing ts with
        | nil => simp at hts; subst hts; exact .nil
        | cons c cs ih =>
          rw [List.mapM_cons] at hts
          simp only [Option.bind_eq_bind, Option.bind_eq_some_iff, Option.pure_def] at hts
          obtain ⟨t', h1, ts', h2, h3⟩ := hts
          cases h3
          exact .cons (evalTerm_sound f c t' h1) (ih ts' h2)

theorem exprTerm_of {e : List (ENode Op)} {f : Nat} {t : Term Op} (h1 : e.isEmpty = false)
    (h2 : evalTerm e f (e.length - 1) = some t) : ExprTerm e t :=
  ⟨by rintro rfl; simp at h1, evalTerm_sound _ _ _ h2⟩

end Egg
