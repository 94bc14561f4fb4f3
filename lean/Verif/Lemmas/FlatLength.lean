import Verif.Lemmas.Flatten
/-
The length of a flattened explanation: one more than the number of rules applied in it.
-/
namespace Egg
variable {Op : Type}
open FlatTerm

namespace TreeTerm

mutual
/-- Number of rules applied in a tree term, its own annotation included. -/
def rules : TreeTerm Op → Nat
  | mk _ b f cps => (if b.isSome || f.isSome then 1 else 0) + rulesAll cps
/-- Number of rules applied in the child proofs of a tree term. -/
def rulesAll : List (List (TreeTerm Op)) → Nat
  | [] => 0
  | p :: ps => rulesProof p + rulesAll ps
/-- Number of rules applied in a proof; an annotation on its first tree term does not count. -/
def rulesProof : List (TreeTerm Op) → Nat
  | [] => 0
  | mk _ _ _ cps :: ts => rulesAll cps + rulesSteps ts
/-- Number of rules applied in the steps of a proof. -/
def rulesSteps : List (TreeTerm Op) → Nat
  | [] => 0
  | t :: ts => rules t + rulesSteps ts
end

theorem flattenLoop_length (o : Op) : ∀ (cps : List (List (FlatTerm Op))) (i : Nat) (reps done : List (FlatTerm Op)) (last : FlatTerm Op)
    (out : List (FlatTerm Op)), flattenLoop o i cps reps done last = .ok out →
    out.length + cps.length = done.length + 1 + (cps.map List.length).sum := by
  intro cps
  induction cps with
  | nil => intro i reps done last out h; rw [flattenLoop] at h; cases h; simp
  | cons cp cps ih =>
    intro i reps done last out h
    rw [flattenLoop] at h
    obtain ⟨c0, h1, h⟩ := bind_eq_ok.1 h
    obtain ⟨cl, h2, h⟩ := bind_eq_ok.1 h
    obtain ⟨la, h3, h⟩ := bind_eq_ok.1 h
    have := ih _ _ _ _ _ h
    cases cp with
    | nil => simp [first, unwrap] at h1
    | cons c cp =>
      simp at this ⊢
      omega

theorem assemble_length {o : Op} {b f : Option Symbol} {cps : List (List (FlatTerm Op))} {out : List (FlatTerm Op)}
    (h : assemble o b f cps = .ok out) : out.length + cps.length = 1 + (cps.map List.length).sum ∧
      ∃ o' cs fs, out = .mk o' b f cs :: fs := by
  unfold assemble at h
  obtain ⟨reps, _, h⟩ := bind_eq_ok.1 h
  obtain ⟨pr, h2, h⟩ := bind_eq_ok.1 h
  have := flattenLoop_length _ _ _ _ _ _ _ h2
  cases pr with
  | nil => cases h
  | cons f fs =>
    cases h
    exact ⟨by simpa using this, _, _, _, rfl⟩

theorem glue_length {acc e fl : List (FlatTerm Op)} {e0 : FlatTerm Op} {es : List (FlatTerm Op)} (hacc : acc ≠ []) (he : e = e0 :: es) (h : glue acc e = .ok fl) :
    fl.length = acc.length + (if e0.hasForward || e0.hasBackward then 1 else 0) + es.length := by
  subst he
  unfold glue at h
  cases hl : acc.getLast? with
  | none => rw [List.getLast?_eq_none_iff] at hl; exact absurd hl hacc
  | some last =>
    simp only [hl, first, List.head?_cons, unwrap, ok_bind] at h
    cases h1 : e0.hasForward <;> cases h2 : e0.hasBackward <;> simp only [h1, h2, Bool.not_false, Bool.not_true, Bool.and_true, Bool.and_false, Bool.false_and, Bool.and_self, if_true, Bool.false_eq_true, if_false] at h
    · obtain ⟨e, _, h⟩ := bind_eq_ok.1 h
      cases h
      have : 0 < acc.length := List.length_pos_iff.2 hacc
      simp
      omega
    all_goals
      cases h
      simp
      omega

/-- The first term of a flattened tree term is annotated if the tree term is. -/
theorem first_annotated {J : Symbol → Term Op → Term Op → Prop} {tr : TreeTerm Op} {s t : Term Op} (h : TreeFrom J tr s t)
    {e : List (FlatTerm Op)} (he : flattenExplanation tr = .ok e) :
    ∃ e0 es, e = e0 :: es ∧ (e0.hasForward || e0.hasBackward) = (tr.bwd.isSome || tr.fwd.isSome) := by
  obtain ⟨fl, h1, o, cs, fs, rfl, h2, _⟩ := flatten_tree tr h
  rw [he] at h1; cases h1
  refine ⟨_, _, rfl, ?_⟩
  have h3 : anyForward cs = false := by rw [anyForward_eq]; simpa using fun c hc => (h2 c hc).no.1
  have h4 : anyBackward cs = false := by rw [anyBackward_eq]; simpa using fun c hc => (h2 c hc).no.2
  rw [hasForward, hasBackward, h3, h4, Bool.or_false, Bool.or_false, Bool.or_comm]

theorem glue_ne {acc e fl : List (FlatTerm Op)} {e0 : FlatTerm Op} {es : List (FlatTerm Op)} (he : e = e0 :: es) (h : glue acc e = .ok fl) : fl ≠ [] := by
  by_cases ha : acc = []
  · subst ha
    simp only [glue, List.getLast?_nil] at h
    cases h
    rw [he]; simp
  · have := glue_length ha he h
    have h1 : 0 < acc.length := List.length_pos_iff.2 ha
    apply List.length_pos_iff.1
    omega

mutual
theorem tree_length {J : Symbol → Term Op → Term Op → Prop} : ∀ (tr : TreeTerm Op) {s t : Term Op}, TreeFrom J tr s t →
    ∀ {fl}, flattenExplanation tr = .ok fl → fl.length = 1 + rulesAll tr.childProofs
  | .mk o b f cps, _, _, .mk h, fl, hfl => by
    rw [flattenExplanation] at hfl
    obtain ⟨fls, h1, hfl⟩ := bind_eq_ok.1 hfl
    obtain ⟨h2, h3⟩ := children_length cps h h1
    obtain ⟨h4, _⟩ := assemble_length hfl
    show fl.length = 1 + rulesAll cps
    omega
theorem children_length {J : Symbol → Term Op → Term Op → Prop} : ∀ (cps : List (List (TreeTerm Op))) {ss ts : List (Term Op)},
    ProofsFrom J cps ss ts → ∀ {fls}, flattenChildren cps = .ok fls →
      fls.length = cps.length ∧ (fls.map List.length).sum = cps.length + rulesAll cps
  | [], _, _, .nil, fls, h => by rw [flattenChildren] at h; cases h; simp [rulesAll]
  | p :: ps, _, _, .cons h h', fls, hf => by
    rw [flattenChildren] at hf
    obtain ⟨f, h1, hf⟩ := bind_eq_ok.1 hf
    obtain ⟨fs, h2, hf⟩ := bind_eq_ok.1 hf
    cases hf
    have h3 := proof_length p h h1
    obtain ⟨h4, h5⟩ := children_length ps h' h2
    simp only [List.length_cons, List.map_cons, List.sum_cons, rulesAll]
    omega
/-- The length of a flattened proof. -/
theorem proof_length {J : Symbol → Term Op → Term Op → Prop} : ∀ (p : List (TreeTerm Op)) {s t : Term Op}, ValidTree J s p t →
    ∀ {fl}, flattenProof p [] = .ok fl → fl.length = 1 + rulesProof p
  | .mk o _ _ cps :: trs, s, t, .mk (u := u) h h', fl, hf => by
    rw [flattenProof] at hf
    obtain ⟨e, h1, hf⟩ := bind_eq_ok.1 hf
    obtain ⟨acc, h2, hf⟩ := bind_eq_ok.1 hf
    have h3 := tree_length (.mk o none none cps) h h1
    simp only [glue, List.getLast?_nil] at h2
    cases h2
    obtain ⟨e0, es, he, _⟩ := first_annotated h h1
    have h4 := steps_length trs h' (by rw [he]; simp) hf
    simp only [childProofs] at h3
    rw [rulesProof]
    omega
theorem steps_length {J : Symbol → Term Op → Term Op → Prop} : ∀ (trs : List (TreeTerm Op)) {u t : Term Op} {acc : List (FlatTerm Op)},
    TreeSteps J u trs t → acc ≠ [] → ∀ {fl}, flattenProof trs acc = .ok fl → fl.length = acc.length + rulesSteps trs
  | [], _, _, acc, .nil, _, fl, hf => by rw [flattenProof] at hf; cases hf; simp [rulesSteps]
  | .mk o b f cps :: trs, u, t, acc, .cons (u := u') h h', ha, fl, hf => by
    have hT : ∃ w, TreeFrom J (.mk o b f cps) w u' := by
      cases h with
      | fwd _ hT => exact ⟨_, hT⟩
      | bwd _ hT => exact ⟨_, hT⟩
      | congr hT => exact ⟨_, hT⟩
    have h1 : ∀ {fl}, flattenExplanation (.mk o b f cps) = .ok fl → fl.length = 1 + rulesAll cps := by
      cases h with
      | fwd _ hT => exact fun hfl => tree_length _ hT hfl
      | bwd _ hT => exact fun hfl => tree_length _ hT hfl
      | congr hT => exact fun hfl => tree_length _ hT hfl
    rw [flattenProof] at hf
    obtain ⟨e, h2, hf⟩ := bind_eq_ok.1 hf
    obtain ⟨acc', h3, hf⟩ := bind_eq_ok.1 hf
    obtain ⟨w, hT⟩ := hT
    obtain ⟨e0, es, he, hann⟩ := first_annotated hT h2
    have h4 := glue_length ha he h3
    rw [hann] at h4
    have h5 := steps_length trs h' (glue_ne he h3) hf
    have h6 := h1 h2
    rw [he] at h6
    simp only [List.length_cons, bwd, fwd] at h4 h6
    rw [rulesSteps, rules]
    cases b <;> cases f <;> simp at h4 ⊢ <;> omega
end

end TreeTerm
end Egg
