import Verif.Lemmas.Struct
import Mathlib.Order.WellFoundedSet
import Mathlib.Order.WithBot
import Mathlib.Order.WellFounded
import Mathlib.Data.DFinsupp.WellFounded
/-
Termination of `rebuild` for a quiet hook and data that can only improve finitely
often.
-/
namespace Egg
variable {Op D : Type} [DecidableEq Op] [Lang Op]
namespace EGraph
variable {W : Id → Id → Prop} {C : Cfg Op D} {eg : EGraph Op D} {N : Analysis Op D}

theorem pendingLoop_mono : ∀ {f f' : Nat} {eg : EGraph Op D} {k : Nat} {r}, f ≤ f' → pendingLoop N f eg k = .ok r →
    pendingLoop N f' eg k = .ok r := by
  intro f
  induction f with
  | zero => intro f' eg k r _ h; cases h
  | succ f ih =>
    intro f' eg k r hf h
    obtain ⟨f', rfl⟩ : ∃ g, f' = g + 1 := ⟨f' - 1, by omega⟩
    unfold pendingLoop at h ⊢
    split at h
    · exact h
    · rw [bind_eq_ok] at h ⊢
      obtain ⟨x, h1, h2⟩ := h
      exact ⟨x, h1, ih (by omega) h2⟩

theorem analysisLoop_mono : ∀ {f f' : Nat} {eg : EGraph Op D} {r}, f ≤ f' → analysisLoop N f eg = .ok r →
    analysisLoop N f' eg = .ok r := by
  intro f
  induction f with
  | zero => intro f' eg r _ h; cases h
  | succ f ih =>
    intro f' eg r hf h
    obtain ⟨f', rfl⟩ : ∃ g, f' = g + 1 := ⟨f' - 1, by omega⟩
    unfold analysisLoop at h ⊢
    split at h
    · exact h
    · rw [bind_eq_ok] at h ⊢
      obtain ⟨x, h1, h2⟩ := h
      exact ⟨x, h1, ih (by omega) h2⟩

theorem processUnions_mono : ∀ {f f' : Nat} {eg : EGraph Op D} {k : Nat} {r}, f ≤ f' →
    processUnions N f eg k = .ok r → processUnions N f' eg k = .ok r := by
  intro f
  induction f with
  | zero => intro f' eg k r _ h; cases h
  | succ f ih =>
    intro f' eg k r hf h
    obtain ⟨f', rfl⟩ : ∃ g, f' = g + 1 := ⟨f' - 1, by omega⟩
    unfold processUnions at h ⊢
    split at h
    · rename_i hc; rw [if_pos hc]; exact h
    · rename_i hc
      rw [if_neg hc]
      rw [bind_eq_ok] at h ⊢
      obtain ⟨x, h1, h2⟩ := h
      rw [bind_eq_ok] at h2
      obtain ⟨y, h2, h3⟩ := h2
      refine ⟨x, pendingLoop_mono (by omega) h1, ?_⟩
      rw [bind_eq_ok]
      exact ⟨y, analysisLoop_mono (by omega) h2, ih (by omega) h3⟩

/-- A rebuild that succeeds, succeeds in the same way with more fuel. -/
theorem rebuild_mono {f f' : Nat} {r} (hf : f ≤ f') (h : rebuild N f eg = .ok r) : rebuild N f' eg = .ok r := by
  unfold rebuild at h ⊢
  rw [bind_eq_ok] at h ⊢
  obtain ⟨x, h1, h2⟩ := h
  exact ⟨x, processUnions_mono hf h1, h2⟩

/-- The hook does nothing. -/
def Quiet (N : Analysis Op D) : Prop := ∀ eg i, N.modify eg i = .ok eg

theorem linked_length {eg1 : EGraph Op D} {a b : Id} {c1 c2 : EClass Op D} (hl : Linked N eg eg1 a b c1 c2)
    (h : InvW W C eg) (h1 : Inv C eg1) : eg1.classes.length < eg.classes.length := by
  have : eg.classes.length = eg1.classes.length + 1 := by
    refine length_of_keys_succ (x := b) h1.clsNodup h.clsNodup ?_ ?_
    · rw [hl.classes, AMap.get?_insert, if_neg hl.ne, AMap.get?_erase, if_pos rfl]
    · intro c
      rw [hl.classes, AMap.get?_insert]
      by_cases hca : c = a
      · subst hca; simp [hl.get1]
      · rw [if_neg (fun e => hca e.symm), AMap.get?_erase]
        by_cases hcb : c = b
        · subst hcb; simp [hl.get2]
        · simp [hcb, Ne.symm hcb]
  omega

theorem pendingStep_term (hQ : Quiet N) (hN : HookOK C (fun _ => False) N) {cls : Id} {rest : List Id}
    (h : Good C eg) (hp : eg.pending = cls :: rest) :
    ∃ eg1 b, pendingStep N { eg with pending := rest } cls = .ok (eg1, b) ∧ Good C eg1 ∧
      (eg1.classes.length < eg.classes.length ∨
        eg1.classes.length = eg.classes.length ∧ eg1.pending.length < eg.pending.length) := by
  have hpost := pendingStep_post hN h hp
  obtain ⟨node, uf, hn, hs, heq, hinv⟩ := pendingStep_eq N h.inv hp
  cases hr : pendingStep N { eg with pending := rest } cls with
  | error e => rw [hr] at hpost; exact False.elim hpost
  | ok r =>
    obtain ⟨eg1, b⟩ := r
    rw [hr] at hpost
    refine ⟨eg1, b, rfl, hpost.1, ?_⟩
    rw [hr] at heq
    cases hm : eg.mem (node.mapChildren eg.rt) with
    | none =>
      rw [hm] at heq
      cases heq
      right
      simp [hp]
    | some m =>
      rw [hm] at heq hinv
      simp only at heq hinv
      obtain ⟨h1, h2, h3, h4⟩ := pending_union_pre (rest := rest)
        (mm := eg.memo.insert (node.mapChildren eg.rt) cls) h.inv hn hs hm
      have hg : ({ eg with pending := rest, uf := uf, memo := eg.memo.insert (node.mapChildren eg.rt) cls } : EGraph Op D).rt = eg.rt := by
        funext i; exact hs.root i
      rcases performUnion_cases (N := N) (eg := { eg with pending := rest, uf := uf, memo := eg.memo.insert (node.mapChildren eg.rt) cls })
        (rule := some .congruence) (by rw [hg]; exact hinv) h1 h2 h3 h4 with
        ⟨_, eg', q2, _, _, _, _, q7, _, q9, _⟩ | ⟨_, eg2, a, b', c1, c2, _, q3, q4, q5, _⟩
      · rw [q2] at heq; cases heq
        right
        rw [q9, q7]
        simp [hp]
      · rw [q5, hQ] at heq
        cases heq
        left
        have := linked_length q3 hinv q4
        exact this

theorem pendingLoop_term (hQ : Quiet N) (hN : HookOK C (fun _ => False) N) : ∀ (a b : Nat) (eg : EGraph Op D) (k : Nat),
    Good C eg → eg.classes.length = a → eg.pending.length = b → ∃ f r, pendingLoop N f eg k = .ok r := by
  intro a
  induction a using Nat.strong_induction_on with
  | _ a iha =>
    intro b
    induction b using Nat.strong_induction_on with
    | _ b ihb =>
      intro eg k h ha hb
      cases hp : eg.pending with
      | nil => exact ⟨1, (eg, k), by unfold pendingLoop; rw [hp]⟩
      | cons cls rest =>
        obtain ⟨eg1, bb, h1, h2, h3⟩ := pendingStep_term hQ hN h hp
        have : ∃ f r, pendingLoop N f eg1 (if bb then k + 1 else k) = .ok r := by
          rcases h3 with h3 | ⟨h3, h4⟩
          · exact iha _ (by omega) _ eg1 _ h2 rfl rfl
          · exact ihb _ (by omega) eg1 _ h2 (by omega) rfl
        obtain ⟨f, r, hf⟩ := this
        refine ⟨f + 1, r, ?_⟩
        unfold pendingLoop
        rw [hp]
        simp only [h1, ok_bind]
        exact hf

variable {α : Type} [Preorder α] [WellFoundedLT α]

/-- How far the data are from the bottom of the well-founded order. -/
def gap (rank : D → α) (L : Nat) (eg : EGraph Op D) : Fin L → WithTop α :=
  fun i => ((eg.dt (eg.rt i.1)).map rank : Option α)

theorem analysisStep_term (hQ : Quiet N) (hN : HookOK C (fun _ => False) N) {rank : D → α}
    (hle : ∀ a b, rank (N.merge a b).1 ≤ rank a) (hlt : ∀ a b, (N.merge a b).2.1 = true → rank (N.merge a b).1 < rank a)
    {cls : Id} {q : UniqueQueue Id} (h : Good C eg) (hp : eg.apending.pop = some (cls, q)) :
    ∃ eg1, analysisStep N { eg with apending := q } cls = .ok eg1 ∧ Good C eg1 ∧
      eg1.nodes = eg.nodes ∧ eg1.pending = eg.pending ∧
      (gap rank eg.nodes.length eg1 < gap rank eg.nodes.length eg ∨
        gap rank eg.nodes.length eg1 ≤ gap rank eg.nodes.length eg ∧ eg1.apending.queue.length < eg.apending.queue.length) := by
  have hpost := analysisStep_post hN h hp
  obtain ⟨hq1, hq2⟩ := UniqueQueue.pop_some h.inv.apq hp
  have hcls : cls < eg.nodes.length := by
    refine (h.inv.core.apOk cls ?_).1
    rw [hq2]; simp
  cases hr : analysisStep N { eg with apending := q } cls with
  | error e => rw [hr] at hpost; exact False.elim hpost
  | ok eg1 =>
    rw [hr] at hpost
    refine ⟨eg1, rfl, hpost.1, ?_⟩
    have hn : eg.nodes[cls]? = some eg.nodes[cls] := List.getElem?_eq_getElem hcls
    unfold analysisStep at hr
    rw [getIdx_eq_ok.2 (show ({ eg with apending := q } : EGraph Op D).nodes[cls]? = _ from hn)] at hr
    obtain ⟨uf, hf, hs⟩ := h.inv.findMut hcls
    simp only [ok_bind, hf] at hr
    rw [bind_eq_ok] at hr
    obtain ⟨d, _, hr⟩ := hr
    rw [bind_eq_ok] at hr
    obtain ⟨k, hk, hr⟩ := hr
    have hk : eg.classes.get? (eg.rt cls) = some k := unwrap_eq_ok.1 hk
    have key : ∀ g : EGraph Op D, g.uf = uf →
        g.classes = eg.classes.insert (eg.rt cls) { k with data := (N.merge k.data d).1 } →
        gap rank eg.nodes.length g ≤ gap rank eg.nodes.length eg ∧
        (rank (N.merge k.data d).1 < rank k.data → gap rank eg.nodes.length g < gap rank eg.nodes.length eg) := by
      intro g g1 g2
      have hrt : g.rt = eg.rt := by funext i; show UF.root g.uf i = _; rw [g1]; exact hs.root i
      have hdt : ∀ i, g.dt (eg.rt i) = if eg.rt i = eg.rt cls then some (N.merge k.data d).1 else eg.dt (eg.rt i) := by
        intro i
        simp only [dt, g2, AMap.get?_insert]
        split
        · rename_i e; rw [if_pos e.symm]; rfl
        · rename_i e; rw [if_neg (Ne.symm e)]
      have hdk : eg.dt (eg.rt cls) = some k.data := by simp [dt, hk]
      have h1 : gap rank eg.nodes.length g ≤ gap rank eg.nodes.length eg := by
        intro i
        simp only [gap, hrt, hdt]
        split
        · rename_i e
          rw [e, hdk]
          exact WithTop.coe_le_coe.2 (hle _ _)
        · exact le_refl _
      refine ⟨h1, fun hlt' => ?_⟩
      rw [Pi.lt_def]
      refine ⟨h1, ⟨cls, hcls⟩, ?_⟩
      simp only [gap, hrt, hdt, if_true, hdk]
      exact WithTop.coe_lt_coe.2 hlt'
    split at hr
    · rename_i hflag
      rw [hQ] at hr
      cases hr
      exact ⟨rfl, rfl, Or.inl ((key _ (by rfl) (by rfl)).2 (hlt _ _ hflag))⟩
    · cases hr
      refine ⟨rfl, rfl, Or.inr ⟨(key _ (by rfl) (by rfl)).1, ?_⟩⟩
      rw [hq2]; simp

theorem analysisLoop_term (hQ : Quiet N) (hN : HookOK C (fun _ => False) N) {rank : D → α}
    (hle : ∀ a b, rank (N.merge a b).1 ≤ rank a) (hlt : ∀ a b, (N.merge a b).2.1 = true → rank (N.merge a b).1 < rank a)
    (L : Nat) : ∀ (g : Fin L → WithTop α) (b : Nat) (eg : EGraph Op D), Good C eg → eg.nodes.length = L →
      gap rank L eg ≤ g → eg.apending.queue.length = b →
      ∃ f r, analysisLoop N f eg = .ok r ∧ r.pending = eg.pending := by
  intro g
  induction g using WellFoundedLT.induction with
  | ind g ihg =>
    intro b
    induction b using Nat.strong_induction_on with
    | _ b ihb =>
      intro eg h hL hg hb
      cases hp : eg.apending.pop with
      | none => exact ⟨1, eg, by unfold analysisLoop; rw [hp], rfl⟩
      | some cq =>
        obtain ⟨cls, q⟩ := cq
        subst hL
        obtain ⟨eg1, h1, h2, h3, h4, h5⟩ := analysisStep_term hQ hN hle hlt h hp
        have : ∃ f r, analysisLoop N f eg1 = .ok r ∧ r.pending = eg1.pending := by
          rcases h5 with h5 | ⟨h5, h6⟩
          · exact ihg _ (lt_of_lt_of_le h5 hg) _ eg1 h2 (by rw [h3]) (le_refl _) rfl
          · exact ihb _ (by omega) eg1 h2 (by rw [h3]) (le_trans h5 hg) rfl
        obtain ⟨f, r, hf, hr⟩ := this
        refine ⟨f + 1, r, ?_, by rw [hr, h4]⟩
        unfold analysisLoop
        rw [hp]
        simp only [h1, ok_bind]
        exact hf

theorem rebuild_term (hQ : Quiet N) (hN : HookOK C (fun _ => False) N) {rank : D → α}
    (hle : ∀ a b, rank (N.merge a b).1 ≤ rank a) (hlt : ∀ a b, (N.merge a b).2.1 = true → rank (N.merge a b).1 < rank a)
    (h : Good C eg) : ∃ f0 r, ∀ f, f0 ≤ f → rebuild N f eg = .ok r := by
  have hN' := hN.mono (E' := fun _ => True) (fun _ _ => trivial)
  obtain ⟨f1, ⟨eg1, k1⟩, h1⟩ := pendingLoop_term hQ hN _ _ eg 0 h rfl rfl
  have g1 := (pendingLoop_post trivial hN' f1 eg 0 h).elim h1
  obtain ⟨f2, eg2, h2, h2'⟩ := analysisLoop_term hQ hN hle hlt _ _ _ eg1 g1.1 rfl (le_refl _) rfl
  have g2 := (analysisLoop_post trivial hN' f2 eg1 g1.1).elim h2
  have hp : ∃ r, processUnions N (f1 + f2 + 2) eg 0 = .ok r := by
    unfold processUnions
    split
    · exact ⟨_, rfl⟩
    · rw [pendingLoop_mono (f' := f1 + f2 + 1) (by omega) h1, ok_bind]
      dsimp only
      rw [analysisLoop_mono (f' := f1 + f2 + 1) (by omega) h2, ok_bind]
      unfold processUnions
      have e1 : eg1.pending = [] := g1.2.2
      rw [if_pos (by simp [h2', e1, UniqueQueue.isEmpty, g2.2.2])]
      exact ⟨_, rfl⟩
  obtain ⟨⟨eg3, k3⟩, h3⟩ := hp
  have g3 := (processUnions_post trivial hN' _ eg 0 h).elim h3
  obtain ⟨eg4, t, h4, _⟩ := rebuildClasses_good g3.1 g3.2.2.1 g3.2.2.2
  refine ⟨f1 + f2 + 2, ({ eg4 with clean := true }, k3), ?_⟩
  intro f hf
  refine rebuild_mono hf ?_
  unfold rebuild
  simp only [h3, ok_bind, h4]
  rfl

end EGraph
end Egg
