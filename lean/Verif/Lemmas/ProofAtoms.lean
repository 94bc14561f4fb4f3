import Verif.Lemmas.ProofSharing
import Verif.Props.SexpText
import Verif.Props.VarText
/-
The atoms of the let-bound form of explanations.
-/
namespace Egg
variable {Op : Type} {T : OpText Op} {name : Symbol → List Char} {P : List Char → Prop}

/-- The words of the formats. -/
structure WordsOK (P : List Char → Prop) : Prop where
  fwd : P "Rewrite=>".toList
  bwd : P "Rewrite<=".toList
  expl : P "Explanation".toList

namespace RcTree

mutual
theorem sexpWith_atoms (hw : WordsOK P) {b : AMap Nat Sexp} (hb : ∀ p s, b.get? p = some s → s.AllAtoms P) : ∀ (t : RcTree Op) {s : Sexp},
    t.tree.Texts T name P → sexpWith T name b t = .ok s → s.AllAtoms P
  | .mk p c l o bw fw cps, s, ht, h => by
    rw [tree_mk] at ht
    rw [sexpWith] at h
    obtain ⟨e, he, h⟩ := bind_eq_ok.1 h
    cases h
    cases ht with
    | mk ho hr hc =>
      refine FlatTerm.annotate_atoms ?_ hr hw.fwd hw.bwd
      cases cps with
      | nil =>
        cases he
        rw [Sexp.AllAtoms]; exact ho
      | cons q qs =>
        simp only [List.isEmpty_cons, Bool.false_eq_true, if_false] at he
        obtain ⟨ss, hss, he⟩ := bind_eq_ok.1 he
        cases he
        rw [Sexp.AllAtoms, AllItems, Sexp.AllAtoms]
        exact ⟨by simp, ho, proofsWith_atoms hw hb (q :: qs) (fun r hr t ht => hc (r.map tree) (List.mem_map_of_mem hr) _ (List.mem_map_of_mem ht)) hss⟩
theorem proofsWith_atoms (hw : WordsOK P) {b : AMap Nat Sexp} (hb : ∀ p s, b.get? p = some s → s.AllAtoms P) : ∀ (ps : List (List (RcTree Op))) {ss : List Sexp},
    (∀ p ∈ ps, ∀ t ∈ p, t.tree.Texts T name P) → proofsWith T name b ps = .ok ss → AllItems P ss
  | [], ss, _, h => by rw [proofsWith] at h; cases h; rw [AllItems]; trivial
  | p :: ps, ss, ht, h => by
    rw [proofsWith] at h
    obtain ⟨s, hs, h⟩ := bind_eq_ok.1 h
    obtain ⟨ss, hss, h⟩ := bind_eq_ok.1 h
    cases h
    rw [AllItems]
    exact ⟨proofWith_atoms hw hb p (ht p (.head _)) hs, proofsWith_atoms hw hb ps (fun q hq => ht q (.tail _ hq)) hss⟩
theorem proofWith_atoms (hw : WordsOK P) {b : AMap Nat Sexp} (hb : ∀ p s, b.get? p = some s → s.AllAtoms P) : ∀ (p : List (RcTree Op)) {s : Sexp},
    (∀ t ∈ p, t.tree.Texts T name P) → proofWith T name b p = .ok s → s.AllAtoms P
  | [], s, _, h => by rw [proofWith] at h; cases h
  | [t], s, ht, h => by
    rw [proofWith] at h
    cases hg : b.get? t.ptr with
    | some s' => rw [hg] at h; cases h; exact hb _ _ hg
    | none => rw [hg] at h; exact sexpWith_atoms hw hb t (ht t (.head _)) h
  | t :: t' :: ts, s, ht, h => by
    rw [proofWith] at h
    obtain ⟨ss, hss, h⟩ := bind_eq_ok.1 h
    cases h
    rw [Sexp.AllAtoms, AllItems, Sexp.AllAtoms]
    exact ⟨by simp, hw.expl, allWith_atoms hw hb (t :: t' :: ts) ht hss⟩
theorem allWith_atoms (hw : WordsOK P) {b : AMap Nat Sexp} (hb : ∀ p s, b.get? p = some s → s.AllAtoms P) : ∀ (ts : List (RcTree Op)) {ss : List Sexp},
    (∀ t ∈ ts, t.tree.Texts T name P) → allWith T name b ts = .ok ss → AllItems P ss
  | [], ss, _, h => by rw [allWith] at h; cases h; rw [AllItems]; trivial
  | t :: ts, ss, ht, h => by
    rw [allWith] at h
    cases hg : b.get? t.ptr with
    | some s' =>
      rw [hg] at h
      obtain ⟨s0, hs0, h⟩ := bind_eq_ok.1 h
      cases hs0
      obtain ⟨ss, hss, h⟩ := bind_eq_ok.1 h
      cases h
      rw [AllItems]
      exact ⟨hb _ _ hg, allWith_atoms hw hb ts (fun q hq => ht q (.tail _ hq)) hss⟩
    | none =>
      rw [hg] at h
      obtain ⟨s, hs, h⟩ := bind_eq_ok.1 h
      obtain ⟨ss, hss, h⟩ := bind_eq_ok.1 h
      cases h
      rw [AllItems]
      exact ⟨sexpWith_atoms hw hb t (ht t (.head _)) hs, allWith_atoms hw hb ts (fun q hq => ht q (.tail _ hq)) hss⟩
end

theorem genBindings_atoms (hw : WordsOK P) (hn : ∀ n, P (bindName n)) : ∀ (ts : List (RcTree Op)) (b b' : AMap Nat Sexp) (gen gen' : List (List Char × Sexp)),
    (∀ t ∈ ts, t.tree.Texts T name P) → (∀ p s, b.get? p = some s → s.AllAtoms P) → (∀ x e, (x, e) ∈ gen → P x ∧ e.AllAtoms P) →
    genBindings T name ts (b, gen) = .ok (b', gen') →
    (∀ p s, b'.get? p = some s → s.AllAtoms P) ∧ ∀ x e, (x, e) ∈ gen' → P x ∧ e.AllAtoms P
  | [], b, b', gen, gen', _, hb, hg, h => by rw [genBindings] at h; cases h; exact ⟨hb, hg⟩
  | t :: ts, b, b', gen, gen', ht, hb, hg, h => by
    rw [genBindings] at h
    have ht' := fun u hu => ht u (.tail _ hu)
    split at h
    · obtain ⟨ast, ha, h⟩ := bind_eq_ok.1 h
      refine genBindings_atoms hw hn ts _ _ _ _ ht' ?_ ?_ h
      · intro p s hp
        rw [AMap.get?_insert] at hp
        split at hp
        · cases hp; rw [Sexp.AllAtoms]; exact hn _
        · exact hb p s hp
      · intro x e hx
        rcases List.mem_append.1 hx with hx | hx
        · exact hg x e hx
        · cases List.mem_singleton.1 hx
          exact ⟨hn _, sexpWith_atoms hw hb t (ht t (.head _)) ha⟩
    · exact genBindings_atoms hw hn ts _ _ _ _ ht' hb hg h

theorem wrapLets_atoms (hl : P "let".toList) : ∀ (gen : List (List Char × Sexp)) (body : Sexp), (∀ x e, (x, e) ∈ gen → P x ∧ e.AllAtoms P) →
    body.AllAtoms P → (wrapLets gen body).AllAtoms P
  | [], body, _, h => h
  | (x, e) :: gen, body, hg, h => by
    rw [wrapLets]
    obtain ⟨h1, h2⟩ := hg x e (.head _)
    simp only [Sexp.AllAtoms, AllItems]
    exact ⟨by simp, hl, ⟨by simp, h1, h2, trivial⟩, wrapLets_atoms hl gen body (fun x e h => hg x e (.tail _ h)) h, trivial⟩

theorem sexpWithLet_atoms (hw : WordsOK P) (hl : P "let".toList) (hn : ∀ n, P (bindName n)) {ts : List (RcTree Op)}
    (htext : ∀ t ∈ ts, t.tree.Texts T name P) {s : Sexp} (h : sexpWithLet T name ts = .ok s) : s.AllAtoms P := by
  unfold sexpWithLet at h
  obtain ⟨⟨b, gen⟩, hg, h⟩ := bind_eq_ok.1 h
  obtain ⟨items, hi, h⟩ := bind_eq_ok.1 h
  cases h
  obtain ⟨h1, h2⟩ := genBindings_atoms hw hn _ _ _ _ _ (by
    intro u hu
    rcases findInAll_occurs ts _ u hu with h | ⟨t, ht, h⟩
    · cases h
    · exact Texts.of_occurs h (htext t ht)) (fun p s h => by cases h) (fun x e h => by cases h) hg
  refine wrapLets_atoms hl gen _ h2 ?_
  rw [Sexp.AllAtoms, AllItems, Sexp.AllAtoms]
  exact ⟨by simp, hw.expl, allWith_atoms hw h1 ts htext hi⟩

end RcTree

theorem bindName_plain (n : Nat) : PlainAtom (RcTree.bindName n) := by
  obtain ⟨hne, hd, _⟩ := showNat_spec n
  have hdig : ∀ c ∈ showNat n, isWs c = false ∧ c ≠ '(' ∧ c ≠ ')' ∧ c ≠ '"' := by
    intro c hc
    have := (isDigit_iff c).1 (hd c hc)
    refine ⟨?_, ?_, ?_, ?_⟩
    · by_contra h
      simp [isWs] at h
      omega
    · rintro rfl; revert this; decide
    · rintro rfl; revert this; decide
    · rintro rfl; revert this; decide
  refine ⟨⟨by simp [RcTree.bindName], ?_, by simp [RcTree.bindName]⟩, ?_⟩
  · intro c hc
    rw [RcTree.bindName] at hc
    rcases List.mem_cons.1 hc with rfl | hc
    · decide
    · rcases List.mem_cons.1 hc with rfl | hc
      · decide
      · exact ⟨(hdig c hc).1, (hdig c hc).2.1, (hdig c hc).2.2.1⟩
  · rw [RcTree.bindName]
    intro h
    have hl : '"' ∈ 'v' :: '_' :: showNat n := List.mem_of_getLast? h
    rcases List.mem_cons.1 hl with hl | hl
    · revert hl; decide
    · rcases List.mem_cons.1 hl with hl | hl
      · revert hl; decide
      · exact (hdig _ hl).2.2.2 rfl

end Egg
