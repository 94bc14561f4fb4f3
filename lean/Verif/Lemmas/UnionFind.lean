import Verif.Model.UnionFind
import Mathlib.Data.Finset.Card
import Mathlib.Data.Finset.Range
import Mathlib.Data.Finset.Filter
/-
Facts about the union-find model.
-/
namespace Egg
namespace UF

/-- Well-formedness: every parent is in range and there is a rank that strictly
decreases along every proper parent edge (so the table is a forest). -/
def WF (ps : UF) : Prop :=
  ∃ d : Id → Nat, ∀ i p, ps[i]? = some p → p < ps.length ∧ (p ≠ i → d p < d i)

/-- `RootOf ps i r`: following parents from `i` ends in `r`. -/
inductive RootOf (ps : UF) : Id → Id → Prop where
  | base {i} : ps[i]? = some i → RootOf ps i i
  | step {i p r} : ps[i]? = some p → p ≠ i → RootOf ps p r → RootOf ps i r

theorem RootOf.unique {ps : UF} {i r r' : Id} (h : RootOf ps i r) (h' : RootOf ps i r') :
    r = r' := by
  induction h generalizing r' with
  | base h0 =>
    cases h' with
    | base => rfl
    | step h1 h2 _ => rw [h0] at h1; cases h1; exact absurd rfl h2
  | step h0 h1 _ ih =>
    cases h' with
    | base h2 => rw [h0] at h2; cases h2; exact absurd rfl h1
    | step h2 _ h4 => rw [h0] at h2; cases h2; exact ih h4

theorem RootOf.fixed {ps : UF} {i r : Id} (h : RootOf ps i r) : ps[r]? = some r := by
  induction h with
  | base h => exact h
  | step _ _ _ ih => exact ih

theorem RootOf.self {ps : UF} {i r : Id} (h : RootOf ps i r) : RootOf ps r r := .base h.fixed

theorem RootOf.lt {ps : UF} {i r : Id} (h : RootOf ps i r) : i < ps.length := by
  cases h with
  | base h => exact (List.getElem?_eq_some_iff.1 h).1
  | step h _ _ => exact (List.getElem?_eq_some_iff.1 h).1

theorem RootOf.lt_root {ps : UF} {i r : Id} (h : RootOf ps i r) : r < ps.length :=
  h.self.lt

/-- In a well-formed table there is a rank bounded by the table size. -/
theorem WF.bounded {ps : UF} (h : WF ps) :
    ∃ d : Id → Nat, ∀ i p, ps[i]? = some p → p < ps.length ∧ d i < ps.length ∧ (p ≠ i → d p < d i) := by
  obtain ⟨d, hd⟩ := h
  refine ⟨fun i => ((Finset.range ps.length).filter (fun j => d j < d i)).card, ?_⟩
  intro i p hp
  obtain ⟨hlt, hdec⟩ := hd i p hp
  have hi : i < ps.length := (List.getElem?_eq_some_iff.1 hp).1
  refine ⟨hlt, ?_, ?_⟩
  · have : ((Finset.range ps.length).filter (fun j => d j < d i)).card < (Finset.range ps.length).card := by
      apply Finset.card_lt_card
      rw [Finset.ssubset_iff_of_subset (Finset.filter_subset _ _)]
      exact ⟨i, by simpa using hi, by simp⟩
    simpa using this
  · intro hne
    have hlt' := hdec hne
    apply Finset.card_lt_card
    rw [Finset.ssubset_iff_of_subset]
    · exact ⟨p, by simpa using ⟨hlt, hlt'⟩, by simp⟩
    · intro x hx
      simp only [Finset.mem_filter, Finset.mem_range] at hx ⊢
      exact ⟨hx.1, by omega⟩

theorem findLoop_eq_ok {ps : UF} {d : Id → Nat}
    (hd : ∀ i p, ps[i]? = some p → p < ps.length ∧ (p ≠ i → d p < d i)) :
    ∀ k i, i < ps.length → d i < k → ∃ r, findLoop k ps i = .ok r ∧ RootOf ps i r := by
  intro k
  induction k with
  | zero => intro i _ h; omega
  | succ k ih =>
    intro i hi hk
    obtain ⟨p, hp⟩ : ∃ p, ps[i]? = some p := ⟨ps[i], List.getElem?_eq_getElem hi⟩
    simp only [findLoop, hp]
    by_cases hip : i = p
    · subst hip
      simp only [if_true]
      exact ⟨i, rfl, .base hp⟩
    · obtain ⟨hlt, hdec⟩ := hd i p hp
      have := hdec (Ne.symm hip)
      obtain ⟨r, hr, hR⟩ := ih p hlt (by omega)
      simp only [if_neg hip]
      exact ⟨r, hr, .step hp (Ne.symm hip) hR⟩

theorem findLoop_sound {ps : UF} : ∀ k i r, findLoop k ps i = .ok r → RootOf ps i r := by
  intro k
  induction k with
  | zero => intro i r h; simp [findLoop] at h
  | succ k ih =>
    intro i r h
    simp only [findLoop] at h
    split at h
    · simp at h
    · rename_i p hp
      split at h
      · rename_i heq
        subst heq
        cases h
        exact .base hp
      · rename_i hne
        exact .step hp (Ne.symm hne) (ih _ _ h)

theorem find_sound {ps : UF} {i r : Id} (h : find ps i = .ok r) : RootOf ps i r :=
  findLoop_sound _ _ _ h

theorem WF.exists_root {ps : UF} (h : WF ps) {i : Id} (hi : i < ps.length) :
    ∃ r, find ps i = .ok r ∧ RootOf ps i r := by
  obtain ⟨d, hd⟩ := h.bounded
  obtain ⟨p, hp⟩ : ∃ p, ps[i]? = some p := ⟨ps[i], List.getElem?_eq_getElem hi⟩
  have := (hd i p hp).2.1
  exact findLoop_eq_ok (d := d) (fun i p h => ⟨(hd i p h).1, (hd i p h).2.2⟩) (ps.length + 1) i hi
    (by omega)

/-- The representative of `i` (equal to `i` itself if `find` fails). -/
def root (ps : UF) (i : Id) : Id :=
  match find ps i with
  | .ok r => r
  | .error _ => i

theorem find_eq_ok {ps : UF} (h : WF ps) {i : Id} (hi : i < ps.length) :
    find ps i = .ok (root ps i) := by
  obtain ⟨r, hr, _⟩ := h.exists_root hi
  simp [root, hr]

theorem rootOf_root {ps : UF} (h : WF ps) {i : Id} (hi : i < ps.length) :
    RootOf ps i (root ps i) := find_sound (find_eq_ok h hi)

theorem RootOf.root_eq {ps : UF} (h : WF ps) {i r : Id} (hr : RootOf ps i r) : root ps i = r :=
  (rootOf_root h hr.lt).unique hr

theorem root_lt {ps : UF} (h : WF ps) {i : Id} (hi : i < ps.length) : root ps i < ps.length :=
  (rootOf_root h hi).lt_root

theorem root_root {ps : UF} (h : WF ps) {i : Id} (hi : i < ps.length) :
    root ps (root ps i) = root ps i :=
  (rootOf_root h hi).self.root_eq h

theorem getElem_root {ps : UF} (h : WF ps) {i : Id} (hi : i < ps.length) :
    ps[root ps i]? = some (root ps i) := (rootOf_root h hi).fixed

theorem find_error_of_ge {ps : UF} {i : Id} (hi : ¬ i < ps.length) : find ps i = .error .panic := by
  have : ps[i]? = none := List.getElem?_eq_none (by omega)
  simp [find, findLoop, this]

theorem root_of_ge {ps : UF} {i : Id} (hi : ¬ i < ps.length) : root ps i = i := by
  simp [root, find_error_of_ge hi]

theorem find_ok_iff {ps : UF} (h : WF ps) {i r : Id} :
    find ps i = .ok r ↔ i < ps.length ∧ root ps i = r := by
  constructor
  · intro hf
    have := find_sound hf
    exact ⟨this.lt, this.root_eq h⟩
  · rintro ⟨hi, rfl⟩
    exact find_eq_ok h hi

theorem root_eq_self_iff {ps : UF} (h : WF ps) {i : Id} (hi : i < ps.length) :
    root ps i = i ↔ ps[i]? = some i := by
  constructor
  · intro he
    have := getElem_root h hi
    rwa [he] at this
  · intro he
    exact (RootOf.base he).root_eq h

/-! ### empty and make_set -/

theorem wf_nil : WF [] := ⟨fun _ => 0, by intro i p h; simp at h⟩

theorem wf_makeSet {ps : UF} (h : WF ps) : WF (ps ++ [ps.length]) := by
  obtain ⟨d, hd⟩ := h
  refine ⟨d, ?_⟩
  intro i p hp
  rw [List.getElem?_append] at hp
  split at hp
  · have := hd i p hp
    exact ⟨by simp; omega, this.2⟩
  · rw [List.getElem?_singleton] at hp
    split at hp
    · simp at hp
      subst hp
      refine ⟨by simp, ?_⟩
      intro hne
      exfalso
      omega
    · simp at hp

theorem rootOf_makeSet {ps : UF} {i r : Id} (h : RootOf ps i r) :
    RootOf (ps ++ [ps.length]) i r := by
  have key : ∀ {i p : Id}, ps[i]? = some p → (ps ++ [ps.length])[i]? = some p := by
    intro i p h
    rw [List.getElem?_append_left (List.getElem?_eq_some_iff.1 h).1, h]
  induction h with
  | base h => exact .base (key h)
  | step h hne _ ih => exact .step (key h) hne ih

theorem root_makeSet {ps : UF} (h : WF ps) {i : Id} (hi : i < ps.length) :
    root (ps ++ [ps.length]) i = root ps i :=
  (rootOf_makeSet (rootOf_root h hi)).root_eq (wf_makeSet h)

theorem root_makeSet_new {ps : UF} (h : WF ps) : root (ps ++ [ps.length]) ps.length = ps.length := by
  apply (RootOf.base _).root_eq (wf_makeSet h)
  simp

/-! ### path halving -/

/-- Redirecting one parent edge to the grandparent keeps all roots. -/
theorem wf_set_grand {ps : UF} (h : WF ps) {i p g : Id} (hp : ps[i]? = some p) (hne : i ≠ p)
    (hg : ps[p]? = some g) :
    WF (ps.set i g) ∧ ∀ j r, RootOf ps j r → RootOf (ps.set i g) j r := by
  obtain ⟨d, hd⟩ := h
  have hi : i < ps.length := (List.getElem?_eq_some_iff.1 hp).1
  have hdp := hd i p hp
  have hdg := hd p g hg
  have hlt : d g < d i := by
    by_cases hgp : g = p
    · subst hgp; exact hdp.2 (Ne.symm hne)
    · have := hdp.2 (Ne.symm hne); have := hdg.2 hgp; omega
  have hgi : g ≠ i := by intro e; subst e; omega
  refine ⟨⟨d, ?_⟩, ?_⟩
  · intro j q hq
    rw [List.getElem?_set] at hq
    split at hq
    · rename_i e; subst e
      simp [hi] at hq
      subst hq
      exact ⟨by simpa using hdg.1, fun _ => hlt⟩
    · simpa using hd j q hq
  · intro j r hr
    have key : ∀ {j q}, ps[j]? = some q → j ≠ i → (ps.set i g)[j]? = some q := by
      intro j q h hj
      rw [List.getElem?_set, if_neg (Ne.symm hj), h]
    have hset : (ps.set i g)[i]? = some g := by
      rw [List.getElem?_set]; simp [hi]
    induction hr with
    | base h0 =>
      rename_i j
      by_cases hj : j = i
      · subst hj; rw [hp] at h0; cases h0; exact absurd rfl hne
      · exact .base (key h0 hj)
    | step h0 h1 h2 ih =>
      rename_i j q r
      by_cases hj : j = i
      · subst hj
        rw [hp] at h0; cases h0
        refine .step hset hgi ?_
        cases ih with
        | base h3 =>
          rw [key hg (Ne.symm hne)] at h3
          cases h3
          exact .base (key hg (Ne.symm hne))
        | step h3 h4 h5 =>
          rw [key hg (Ne.symm hne)] at h3
          cases h3
          exact h5
      · exact .step (key h0 hj) h1 ih

/-- `Same ps ps'`: same ids, same representatives. -/
structure Same (ps ps' : UF) : Prop where
  wf : WF ps'
  len : ps'.length = ps.length
  root : ∀ i, root ps' i = root ps i

theorem Same.refl {ps : UF} (h : WF ps) : Same ps ps := ⟨h, rfl, fun _ => rfl⟩

theorem Same.trans {a b c : UF} (h : Same a b) (h' : Same b c) : Same a c :=
  ⟨h'.wf, h'.len.trans h.len, fun i => (h'.root i).trans (h.root i)⟩

theorem same_of_rootOf {ps ps' : UF} (h : WF ps) (h' : WF ps') (hl : ps'.length = ps.length)
    (hr : ∀ j r, RootOf ps j r → RootOf ps' j r) : Same ps ps' := by
  refine ⟨h', hl, ?_⟩
  intro i
  by_cases hi : i < ps.length
  · exact (hr _ _ (rootOf_root h hi)).root_eq h'
  · rw [root_of_ge hi, root_of_ge (by omega)]

theorem findMutLoop_ok {d : Id → Nat} :
    ∀ k (ps : UF) i, (∀ i p, ps[i]? = some p → p < ps.length ∧ (p ≠ i → d p < d i)) →
      i < ps.length → d i < k →
      ∃ ps', findMutLoop k ps i = .ok (ps', root ps i) ∧ Same ps ps' := by
  intro k
  induction k with
  | zero => intro ps i _ _ h; omega
  | succ k ih =>
    intro ps i hd hi hk
    have hwf : WF ps := ⟨d, hd⟩
    obtain ⟨p, hp⟩ : ∃ p, ps[i]? = some p := ⟨ps[i], List.getElem?_eq_getElem hi⟩
    simp only [findMutLoop, hp]
    by_cases hip : i = p
    · subst hip
      simp only [if_true]
      exact ⟨ps, by rw [(RootOf.base hp).root_eq hwf], Same.refl hwf⟩
    · obtain ⟨hlt, hdec⟩ := hd i p hp
      obtain ⟨g, hg⟩ : ∃ g, ps[p]? = some g := ⟨ps[p], List.getElem?_eq_getElem hlt⟩
      simp only [if_neg hip, hg]
      have hdg := hd p g hg
      have h1 : d g < d i := by
        by_cases hgp : g = p
        · subst hgp; exact hdec (Ne.symm hip)
        · have := hdec (Ne.symm hip); have := hdg.2 hgp; omega
      obtain ⟨hwf', hroots⟩ := wf_set_grand hwf hp hip hg
      have hsame : Same ps (ps.set i g) := same_of_rootOf hwf hwf' (by simp) hroots
      have hd' : ∀ j q, (ps.set i g)[j]? = some q → q < (ps.set i g).length ∧ (q ≠ j → d q < d j) := by
        intro j q hq
        rw [List.getElem?_set] at hq
        split at hq
        · rename_i e; subst e
          simp [hi] at hq
          subst hq
          exact ⟨by simpa using hdg.1, fun _ => h1⟩
        · simpa using hd j q hq
      obtain ⟨ps', hps', hs'⟩ := ih (ps.set i g) g hd' (by simpa using hdg.1) (by omega)
      refine ⟨ps', ?_, hsame.trans hs'⟩
      rw [hps', hsame.root]
      have e1 : root ps i = root ps g := by
        have hri := rootOf_root hwf hi
        generalize hr : root ps i = r at hri ⊢
        cases hri with
        | base h0 => rw [hp] at h0; cases h0; exact absurd rfl hip
        | step h0 h2 h3 =>
          rw [hp] at h0; cases h0
          cases h3 with
          | base h4 =>
            rw [hg] at h4
            injection h4 with h4
            subst h4
            exact ((RootOf.base hg).root_eq hwf).symm
          | step h4 _ h5 => rw [hg] at h4; cases h4; exact (h5.root_eq hwf).symm
      rw [e1]

/-- `find_mut` returns the representative and keeps every representative. -/
theorem findMut_ok {ps : UF} (h : WF ps) {i : Id} (hi : i < ps.length) :
    ∃ ps', findMut ps i = .ok (ps', root ps i) ∧ Same ps ps' := by
  obtain ⟨d, hd⟩ := h.bounded
  obtain ⟨p, hp⟩ : ∃ p, ps[i]? = some p := ⟨ps[i], List.getElem?_eq_getElem hi⟩
  have := (hd i p hp).2.1
  exact findMutLoop_ok (d := d) (ps.length + 1) ps i
    (fun i p h => ⟨(hd i p h).1, (hd i p h).2.2⟩) hi (by omega)

theorem findMutList_ok {ps : UF} (h : WF ps) {is : List Id} (his : ∀ i ∈ is, i < ps.length) :
    ∃ ps', findMutList ps is = .ok (ps', is.map (root ps)) ∧ Same ps ps' := by
  induction is generalizing ps with
  | nil => exact ⟨ps, rfl, Same.refl h⟩
  | cons i is ih =>
    obtain ⟨ps1, h1, s1⟩ := findMut_ok h (his i (by simp))
    obtain ⟨ps2, h2, s2⟩ := ih s1.wf (fun j hj => by rw [s1.len]; exact his j (by simp [hj]))
    refine ⟨ps2, ?_, s1.trans s2⟩
    simp only [findMutList, h1, h2, bind, Except.bind, pure, Except.pure, List.map_cons]
    have : is.map (root ps1) = is.map (root ps) := List.map_congr_left (fun j _ => s1.root j)
    rw [this]

/-! ### union -/

/-- Hanging the root `b` below any vertex `a` of a different tree. -/
theorem link_spec {ps : UF} (h : WF ps) {a b : Id} (ha : a < ps.length) (hb : b < ps.length)
    (hrb : root ps b = b) (hab : root ps a ≠ b) :
    WF (ps.set b a) ∧ ∀ i, i < ps.length →
      root (ps.set b a) i = if root ps i = b then root ps a else root ps i := by
  have hne : a ≠ b := by
    intro e; subst e; exact hab hrb
  have hpb := (root_eq_self_iff h hb).1 hrb
  have hsetb : (ps.set b a)[b]? = some a := by
    rw [List.getElem?_set]; simp [hb]
  have key : ∀ {j q}, ps[j]? = some q → j ≠ b → (ps.set b a)[j]? = some q := by
    intro j q h hj
    rw [List.getElem?_set, if_neg (Ne.symm hj), h]
  have hwf : WF (ps.set b a) := by
    obtain ⟨d, hd⟩ := h
    refine ⟨fun i => if root ps i = b then d i + d a + 1 else d i, ?_⟩
    intro j q hq
    rw [List.getElem?_set] at hq
    split at hq
    · rename_i e; subst e
      simp [hb] at hq
      subst hq
      refine ⟨by simpa using ha, ?_⟩
      intro _
      simp only [hrb, if_neg hab, if_true]
      omega
    · have hjq := hd j q hq
      refine ⟨by simpa using hjq.1, ?_⟩
      intro hne
      have hlt := hjq.2 hne
      have hr : root ps j = root ps q := by
        have hj : j < ps.length := (List.getElem?_eq_some_iff.1 hq).1
        exact (RootOf.step hq hne (rootOf_root ⟨d, hd⟩ hjq.1)).root_eq ⟨d, hd⟩
      simp only [hr]
      split <;> omega
  have hother : ∀ i r, RootOf ps i r → r ≠ b → RootOf (ps.set b a) i r := by
    intro i r hr
    induction hr with
    | base h0 => intro hj; exact .base (key h0 hj)
    | @step j q r h0 h1 h2 ih =>
      intro hrb'
      have hjb : j ≠ b := by
        intro e; subst e
        rw [hpb] at h0; cases h0; exact h1 rfl
      exact .step (key h0 hjb) h1 (ih hrb')
  refine ⟨hwf, ?_⟩
  intro i hi
  have hr := rootOf_root h hi
  apply RootOf.root_eq hwf
  generalize root ps i = r at hr ⊢
  by_cases hrb' : r = b
  · rw [if_pos hrb']
    have hra := hother a _ (rootOf_root h ha) hab
    induction hr with
    | @base j h0 => subst hrb'; exact .step hsetb hne hra
    | @step j q r h0 h1 h2 ih =>
      have hjb : j ≠ b := by
        intro e; subst e
        rw [hpb] at h0; cases h0; exact h1 rfl
      exact .step (key h0 hjb) h1 (ih h2.lt hrb')
  · rw [if_neg hrb']; exact hother _ _ hr hrb'

theorem union_spec {ps : UF} (h : WF ps) {a b : Id} (ha : a < ps.length) (hb : b < ps.length)
    (hra : root ps a = a) (hrb : root ps b = b) (hab : a ≠ b) :
    WF (ps.set b a) ∧ ∀ i, i < ps.length →
      root (ps.set b a) i = if root ps i = b then a else root ps i := by
  have := link_spec h ha hb hrb (by rw [hra]; exact hab)
  rw [hra] at this
  exact this

/-- Cutting the parent edge of `v`. -/
theorem cut_spec {ps : UF} (h : WF ps) {v : Id} (hv : v < ps.length) :
    WF (ps.set v v) ∧ root (ps.set v v) v = v ∧ ∀ i, i < ps.length →
      (root (ps.set v v) i = root ps i ∨ (root (ps.set v v) i = v ∧ root ps i = root ps v)) := by
  have hwf : WF (ps.set v v) := by
    obtain ⟨d, hd⟩ := h
    refine ⟨d, ?_⟩
    intro j q hq
    rw [List.getElem?_set] at hq
    split at hq
    · rename_i e; subst e
      simp [hv] at hq
      subst hq
      exact ⟨by simpa using hv, fun h => absurd rfl h⟩
    · simpa using hd j q hq
  have hself : (ps.set v v)[v]? = some v := by rw [List.getElem?_set]; simp [hv]
  refine ⟨hwf, (RootOf.base hself).root_eq hwf, ?_⟩
  intro i hi
  have hr := rootOf_root h hi
  have hrv := rootOf_root h hv
  generalize hri : root ps i = r at hr
  have : RootOf (ps.set v v) i r ∨ (RootOf (ps.set v v) i v ∧ RootOf ps v r) := by
    clear hri
    induction hr with
    | @base j h0 =>
      by_cases hj : j = v
      · subst hj; exact Or.inl (.base hself)
      · left; apply RootOf.base; rw [List.getElem?_set, if_neg (Ne.symm hj), h0]
    | @step j q r h0 h1 h2 ih =>
      by_cases hj : j = v
      · subst hj; exact Or.inr ⟨.base hself, .step h0 h1 h2⟩
      · have hs : (ps.set v v)[j]? = some q := by rw [List.getElem?_set, if_neg (Ne.symm hj), h0]
        rcases ih h2.lt with ih | ih
        · exact Or.inl (.step hs h1 ih)
        · exact Or.inr ⟨.step hs h1 ih.1, ih.2⟩
  rcases this with h1 | ⟨h1, h2⟩
  · exact Or.inl (h1.root_eq hwf)
  · exact Or.inr ⟨h1.root_eq hwf, (hrv.unique h2).symm⟩

end UF
end Egg
