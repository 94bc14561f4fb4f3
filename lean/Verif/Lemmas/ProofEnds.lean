import Verif.Model.ProofText
import Verif.Lemmas.ProofText
/-
The first and last terms of tree-shaped proofs.
-/
namespace Egg.TreeTerm
variable {Op : Type} {J : Symbol → Term Op → Term Op → Prop}

mutual
theorem ends_tree : ∀ {tr : TreeTerm Op} {s t : Term Op}, TreeFrom J tr s t →
    (∃ f, tr.getInitial = .ok f ∧ f.term = s) ∧ ∃ l, tr.getLast = .ok l ∧ l.term = t
  | _, _, _, .mk (o := o) (b := b) (f := f) h => by
    obtain ⟨⟨fs, h1, h2⟩, ls, h3, h4⟩ := ends_proofs h
    refine ⟨⟨.mk o b f fs, ?_, ?_⟩, .mk o b f ls, ?_, ?_⟩
    · rw [getInitial, h1]; rfl
    · rw [FlatTerm.term_eq, h2]
    · rw [getLast, h3]; rfl
    · rw [FlatTerm.term_eq, h4]
termination_by structural _ _ _ h => h
theorem ends_proofs : ∀ {ps : List (List (TreeTerm Op))} {ss ts : List (Term Op)}, ProofsFrom J ps ss ts →
    (∃ fs, initials ps = .ok fs ∧ fs.map FlatTerm.term = ss) ∧ ∃ ls, lasts ps = .ok ls ∧ ls.map FlatTerm.term = ts
  | _, _, _, .nil => ⟨⟨[], by rw [initials], rfl⟩, [], by rw [lasts], rfl⟩
  | _, _, _, .cons h1 h2 => by
    obtain ⟨tr, trs, f, l, rfl, a1, a2, a3, a4⟩ := ends_valid h1
    obtain ⟨⟨fs, b1, b2⟩, ls, b3, b4⟩ := ends_proofs h2
    refine ⟨⟨f :: fs, ?_, ?_⟩, l :: ls, ?_, ?_⟩
    · rw [initials, a1, b1]; rfl
    · rw [List.map_cons, a2, b2]
    · rw [lasts, a3, b3]; rfl
    · rw [List.map_cons, a4, b4]
termination_by structural _ _ _ h => h
theorem ends_step : ∀ {s : Term Op} {tr : TreeTerm Op} {t : Term Op}, TreeStep J s tr t → ∃ l, tr.getLast = .ok l ∧ l.term = t
  | _, _, _, .fwd _ h => (ends_tree h).2
  | _, _, _, .bwd _ h => (ends_tree h).2
  | _, _, _, .congr h => (ends_tree h).2
termination_by structural _ _ _ h => h
theorem ends_steps : ∀ {s : Term Op} {trs : List (TreeTerm Op)} {t : Term Op}, TreeSteps J s trs t →
    (trs = [] ∧ s = t) ∨ ∃ tr trs', trs = tr :: trs' ∧ ∃ l, lastOf trs = .ok l ∧ l.term = t
  | _, _, _, .nil => .inl ⟨rfl, rfl⟩
  | _, _, _, .cons (tr := tr) h1 h2 => by
    obtain ⟨l, a1, a2⟩ := ends_step h1
    rcases ends_steps h2 with ⟨rfl, rfl⟩ | ⟨tr', trs', rfl, l', b1, b2⟩
    · exact .inr ⟨tr, [], rfl, l, by rw [lastOf]; exact a1, a2⟩
    · exact .inr ⟨tr, _, rfl, l', by rw [lastOf]; exact b1, b2⟩
termination_by structural _ _ _ h => h
theorem ends_valid : ∀ {s : Term Op} {p : List (TreeTerm Op)} {t : Term Op}, ValidTree J s p t →
    ∃ tr trs f l, p = tr :: trs ∧ tr.getInitial = .ok f ∧ f.term = s ∧ lastOf p = .ok l ∧ l.term = t
  | _, _, _, .mk h1 h2 => by
    obtain ⟨⟨f, a1, a2⟩, l, a3, a4⟩ := ends_tree h1
    rcases ends_steps h2 with ⟨rfl, rfl⟩ | ⟨tr', trs', rfl, l', b1, b2⟩
    · exact ⟨_, _, f, l, rfl, a1, a2, by rw [lastOf]; exact a3, a4⟩
    · exact ⟨_, _, f, l', rfl, a1, a2, by rw [lastOf]; exact b1, b2⟩
termination_by structural _ _ _ h => h
end

end Egg.TreeTerm
