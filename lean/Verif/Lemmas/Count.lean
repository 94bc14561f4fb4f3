import Verif.Lemmas.Closed
/-
What `union` and `rebuild` return, in terms of the number of classes.
-/
namespace Egg
variable {Op D : Type} [DecidableEq Op] [Lang Op]
namespace EGraph
variable {C : Cfg Op D} {eg : EGraph Op D} {E : Err → Prop} {N : Analysis Op D}

theorem performUnion_count (hq : QuietMod N) {e1 e2 : Id} {rule : Option Justification}
    (h : InvW (WP (eg.rt e1) (eg.rt e2)) C eg) (he1 : e1 < eg.nodes.length) (he2 : e2 < eg.nodes.length)
    (hR : ∀ s t, TermOf eg.nodes e1 s → TermOf eg.nodes e2 t → C.R s t)
    (hJ : JustOK C eg e1 e2 rule) {r : EGraph Op D × Bool} (hr : performUnion N eg e1 e2 rule = .ok r) :
    eg.numberOfClasses = r.1.numberOfClasses + (if r.2 then 1 else 0) := by
  unfold numberOfClasses
  rcases performUnion_cases (N := N) h he1 he2 hR hJ with ⟨h1, eg', h2, h3, h4, h5, h7, _, h8, h9, _, _, h6⟩ |
    ⟨h1, eg1, a, b, c1, c2, h2, h3, h4, h5, _⟩
  · rw [h2] at hr; cases hr
    simp [h9]
  · rw [h5] at hr
    obtain ⟨eg', hm, hr⟩ := bind_eq_ok.1 hr
    cases hr
    have := hq _ _ _ hm
    subst this
    have ha : a ∈ AMap.keys (eg.classes.erase b) := by
      rw [← AMap.get?_isSome_iff, AMap.get?_erase, if_neg (fun e => h3.ne e.symm), h3.get1]; rfl
    have hb : b ∈ AMap.keys eg.classes := by rw [← AMap.get?_isSome_iff, h3.get2]; rfl
    simp only [h3.classes, AMap.length_insert, if_pos ha, if_true]
    exact (AMap.length_erase_of_mem h.clsNodup hb).symm

theorem pendingStep_count (hq : QuietMod N) {cls : Id} {rest : List Id}
    (h : Good C eg) (hp : eg.pending = cls :: rest) {r : EGraph Op D × Bool}
    (hr : pendingStep N { eg with pending := rest } cls = .ok r) :
    eg.numberOfClasses = r.1.numberOfClasses + (if r.2 then 1 else 0) := by
  obtain ⟨node, uf, hn, hs, heq, hinv⟩ := pendingStep_eq N h.inv hp
  rw [heq] at hr
  have hrt : ∀ (g : EGraph Op D), g.uf = uf → g.rt = eg.rt := by
    intro g hg; funext i; show UF.root g.uf i = _; rw [hg]; exact hs.root i
  cases hm : eg.mem (node.mapChildren eg.rt) with
  | none =>
    rw [hm] at hinv hr
    cases hr
    rfl
  | some m =>
    rw [hm] at hinv hr
    obtain ⟨h1, h2, h3, h4⟩ := pending_union_pre (rest := rest)
      (mm := eg.memo.insert (node.mapChildren eg.rt) cls) h.inv hn hs hm
    have hg := hrt { eg with pending := rest, uf := uf, memo := eg.memo.insert (node.mapChildren eg.rt) cls } rfl
    have := performUnion_count (C := C) (eg := { eg with pending := rest, uf := uf, memo := eg.memo.insert (node.mapChildren eg.rt) cls })
      hq (by rw [hg]; exact hinv) h1 h2 h3 h4 hr
    exact this

theorem pendingLoop_count (hN : HookOK C E N) (hq : QuietMod N) :
    ∀ (f : Nat) (eg : EGraph Op D) (k : Nat), Good C eg → ∀ r, pendingLoop N f eg k = .ok r →
      eg.numberOfClasses + k = r.1.numberOfClasses + r.2 := by
  intro f
  induction f with
  | zero => intro eg k _ r hr; cases hr
  | succ f ih =>
    intro eg k h r hr
    unfold pendingLoop at hr
    cases hp : eg.pending with
    | nil => rw [hp] at hr; cases hr; rfl
    | cons cls rest =>
      rw [hp] at hr
      obtain ⟨⟨eg1, b⟩, h1, hr⟩ := bind_eq_ok.1 hr
      have h2 := ih eg1 _ ((pendingStep_post hN h hp).elim h1).1 r hr
      have h3 := pendingStep_count hq h hp h1
      cases b <;> simp at h2 h3 <;> omega

theorem analysisStep_count (hN : HookOK C E N) (hq : QuietMod N) {cls : Id}
    {q : UniqueQueue Id} (h : Good C eg) (hp : eg.apending.pop = some (cls, q)) {eg' : EGraph Op D}
    (hr : analysisStep N { eg with apending := q } cls = .ok eg') : eg'.numberOfClasses = eg.numberOfClasses := by
  obtain ⟨hcls, n, uf, k, ds, hs, hc, hcd, heq, hgood⟩ := analysisStep_cases hN h hp
  rw [heq] at hr
  obtain ⟨d, hd, hr⟩ := bind_eq_ok.1 hr
  have hk : eg.rt cls ∈ AMap.keys eg.classes := by rw [← AMap.get?_isSome_iff, hc]; rfl
  split at hr
  · have := hq _ _ _ hr
    subst this
    simp only [numberOfClasses, AMap.length_insert, if_pos hk]
  · cases hr
    simp only [numberOfClasses, AMap.length_insert, if_pos hk]

theorem analysisLoop_count (hN : HookOK C E N) (hq : QuietMod N) :
    ∀ (f : Nat) (eg : EGraph Op D), Good C eg → ∀ r, analysisLoop N f eg = .ok r → r.numberOfClasses = eg.numberOfClasses := by
  intro f
  induction f with
  | zero => intro eg _ r hr; cases hr
  | succ f ih =>
    intro eg h r hr
    unfold analysisLoop at hr
    cases hp : eg.apending.pop with
    | none => rw [hp] at hr; cases hr; rfl
    | some cq =>
      obtain ⟨cls, q⟩ := cq
      rw [hp] at hr
      obtain ⟨eg1, h1, hr⟩ := bind_eq_ok.1 hr
      rw [ih eg1 ((analysisStep_post hN h hp).elim h1).1 r hr, analysisStep_count hN hq h hp h1]

theorem processUnions_count (hN : HookOK C E N) (hq : QuietMod N) :
    ∀ (f : Nat) (eg : EGraph Op D) (k : Nat), Good C eg → ∀ r, processUnions N f eg k = .ok r →
      eg.numberOfClasses + k = r.1.numberOfClasses + r.2 := by
  have hN := hN.mono (E' := fun _ => True) (fun _ _ => trivial)
  intro f
  induction f with
  | zero => intro eg k _ r hr; cases hr
  | succ f ih =>
    intro eg k h r hr
    unfold processUnions at hr
    split at hr
    · cases hr; rfl
    · obtain ⟨⟨eg1, k1⟩, h1, hr⟩ := bind_eq_ok.1 hr
      obtain ⟨eg2, h2, hr⟩ := bind_eq_ok.1 hr
      have g1 := ((pendingLoop_post trivial hN f eg k h).elim h1).1
      have h3 := ih eg2 _ ((analysisLoop_post trivial hN f eg1 g1).elim h2).1 r hr
      rw [analysisLoop_count hN hq f eg1 g1 _ h2] at h3
      have h4 := pendingLoop_count hN hq f eg k h _ h1
      simp only at h3 h4
      omega

theorem rebuild_count (hN : HookOK C E N) (hq : QuietMod N) {fuel : Nat} (h : Good C eg)
    {r : EGraph Op D × Nat} (hr : rebuild N fuel eg = .ok r) :
    eg.numberOfClasses = r.1.numberOfClasses + r.2 := by
  have hN := hN.mono (E' := fun _ => True) (fun _ _ => trivial)
  unfold rebuild at hr
  obtain ⟨⟨eg1, k⟩, h1, hr⟩ := bind_eq_ok.1 hr
  have hk1 := processUnions_count hN hq fuel eg 0 h _ h1
  obtain ⟨p1, p2, p3, p4⟩ := (processUnions_post trivial hN fuel eg 0 h).elim h1
  obtain ⟨uf, b, t, g1, _⟩ := rebuildClasses_ok p1.inv
  simp only [g1, ok_bind] at hr
  cases hr
  simp only [numberOfClasses, List.length_map] at hk1 ⊢
  omega

end EGraph
end Egg
