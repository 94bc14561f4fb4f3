import Verif.Lemmas.Hist
import Verif.Spec.Structure
/-
The clean flag: while it is set there is no unfinished congruence work.
-/
namespace Egg
variable {Op D : Type} [DecidableEq Op] [Lang Op]
namespace EGraph
variable {W : Id → Id → Prop} {C : Cfg Op D} {eg : EGraph Op D} {E : Err → Prop} {N : Analysis Op D}

/-- `Tidy` without the analysis queue. -/
structure TidyP (eg : EGraph Op D) : Prop where
  pending : eg.pending = []
  canon : ∀ c k, eg.classes.get? c = some k → ∀ n ∈ k.nodes, n.mapChildren eg.rt = n
  sorted : ∀ c k, eg.classes.get? c = some k →
    k.nodes.Pairwise (fun x y => Lang.le x y = true ∧ x ≠ y)
  ixNodup : ixNodup eg.byOp
  index : ∀ d x, ixMem eg.byOp d x ↔ ∃ k, eg.classes.get? x = some k ∧ ∃ n ∈ k.nodes, Lang.disc n.op = d

theorem Tidy.tidyP (h : Tidy eg) : TidyP eg := ⟨h.pending, h.canon, h.sorted, h.ixNodup, h.index⟩

theorem TidyP.rebuilt (h : TidyP eg) (hg : Inv C eg) : Rebuilt eg := by
  have hch : ∀ c cl, eg.classes.get? c = some cl → ∀ n ∈ cl.nodes, ∀ ch ∈ n.children, eg.find ch = .ok ch := by
    intro c cl hk n hn ch hch
    rw [hg.find_iff]
    refine ⟨hg.core.clsNodeLt (sk_eq hk) hn ch hch, ?_⟩
    have := congrArg ENode.children (h.canon c cl hk n hn)
    simp only [ENode.mapChildren] at this
    have h2 : n.children.map eg.rt = n.children.map id := by rw [this, List.map_id]
    exact List.map_inj_left.1 h2 ch hch
  refine ⟨h.pending, ?_, hch, h.sorted, ?_, h.ixNodup, h.index⟩
  · intro c cl hk
    exact hg.find_iff.2 ((hg.core.clsKey c).1 (by simp [sk, hk]))
  · intro c c' cl cl' n hk hk' hn hn'
    obtain ⟨i, m, h1, h2, h3⟩ := hg.core.clsNodes c _ (sk_eq hk) n hn
    obtain ⟨i', m', h1', h2', h3'⟩ := hg.core.clsNodes c' _ (sk_eq hk') n hn'
    have := InvW.congruent_eq hg h.pending h1 h1' (h3.symm.trans h3')
    rw [h2, h2'] at this
    exact this

theorem TidyP.frame {eg' : EGraph Op D} (h : TidyP eg) (hg : InvW W C eg) (h1 : eg'.pending = eg.pending)
    (h2 : eg'.byOp = eg.byOp) (h3 : ∀ i, i < eg.nodes.length → eg'.rt i = eg.rt i)
    (h4 : ∀ c, (eg'.classes.get? c).map EClass.nodes = (eg.classes.get? c).map EClass.nodes) : TidyP eg' := by
  have hcl : ∀ c k, eg'.classes.get? c = some k → ∃ k', eg.classes.get? c = some k' ∧ k'.nodes = k.nodes := by
    intro c k hk
    have := h4 c
    rw [hk] at this
    cases hc : eg.classes.get? c with
    | none => rw [hc] at this; simp at this
    | some k' => rw [hc] at this; simp at this; exact ⟨k', rfl, this.symm⟩
  refine ⟨h1.trans h.pending, ?_, ?_, by rw [h2]; exact h.ixNodup, ?_⟩
  · intro c k hk n hn
    obtain ⟨k', hk', e⟩ := hcl c k hk
    rw [← e] at hn
    have := h.canon c k' hk' n hn
    refine Eq.trans ?_ this
    simp only [ENode.mapChildren, ENode.mk.injEq, true_and]
    exact List.map_congr_left (fun ch hch => h3 ch (hg.core.clsNodeLt (sk_eq hk') hn ch hch))
  · intro c k hk
    obtain ⟨k', hk', e⟩ := hcl c k hk
    rw [← e]; exact h.sorted c k' hk'
  · intro d x
    rw [h2, h.index]
    constructor
    · rintro ⟨k, hk, hn⟩
      have := h4 x
      rw [hk] at this
      cases hc : eg'.classes.get? x with
      | none => rw [hc] at this; simp at this
      | some k' => rw [hc] at this; simp at this; exact ⟨k', rfl, by rw [this]; exact hn⟩
    · rintro ⟨k, hk, hn⟩
      obtain ⟨k', hk', e⟩ := hcl x k hk
      exact ⟨k', hk', by rw [e]; exact hn⟩

/-- The hook never sets the clean flag. -/
def CleanMono (N : Analysis Op D) : Prop := ∀ eg i eg', N.modify eg i = .ok eg' → eg'.clean = true → eg.clean = true

theorem performUnion_clean (hN : CleanMono N) {e1 e2 : Id} {r : Option Justification} {eg' : EGraph Op D} {b : Bool}
    (h : performUnion N eg e1 e2 r = .ok (eg', b)) : eg'.clean = false := by
  unfold performUnion at h
  rw [bind_eq_ok] at h
  obtain ⟨⟨u1, i1⟩, _, h⟩ := h
  rw [bind_eq_ok] at h
  obtain ⟨⟨u2, i2⟩, _, h⟩ := h
  simp only at h
  split at h
  · split at h
    · rw [bind_eq_ok] at h
      obtain ⟨x, _, h⟩ := h
      cases h; rfl
    · cases h; rfl
  · rw [bind_eq_ok] at h
    obtain ⟨c1, _, h⟩ := h
    rw [bind_eq_ok] at h
    obtain ⟨c2, _, h⟩ := h
    generalize (if c1.parents.length < c2.parents.length then (i2, i1) else (i1, i2)) = ids at h
    iterate 4 (rw [bind_eq_ok] at h; obtain ⟨_, _, h⟩ := h)
    split at h
    · cases h
    · rw [bind_eq_ok] at h
      obtain ⟨eg2, hm, h⟩ := h
      cases h
      have := hN _ _ _ hm
      by_contra hc
      simp only [Bool.not_eq_false] at hc
      have := this hc
      simp [linkClasses] at this

theorem union_clean (hN : CleanMono N) {a b : Id} {caller : Symbol} {eg' : EGraph Op D} {r : Bool} :
    (union N eg a b caller = .ok (eg', r) → eg'.clean = false) ∧
    (unionTrusted N eg a b caller = .ok (eg', r) → eg'.clean = false) := by
  refine ⟨?_, performUnion_clean hN⟩
  unfold union
  split
  · exact performUnion_clean hN
  · exact performUnion_clean hN

theorem addUncanonical_clean {n : ENode Op} {eg' : EGraph Op D} {i : Id}
    (h : addUncanonical N eg n = .ok (eg', i)) (hc : eg'.clean = true) : eg.clean = true := by
  unfold addUncanonical at h
  rw [bind_eq_ok] at h
  obtain ⟨m, _, h⟩ := h
  simp only at h
  split at h
  · rw [bind_eq_ok] at h
    obtain ⟨j, _, h⟩ := h
    split at h
    · cases h; exact hc
    · split at h
      · cases h; exact hc
      · iterate 3 (rw [bind_eq_ok] at h; obtain ⟨_, _, h⟩ := h)
        cases h; exact hc
  · iterate 3 (rw [bind_eq_ok] at h; obtain ⟨_, _, h⟩ := h)
    cases h
    simp at hc

theorem setData_mid {i : Id} {d : D} {eg' : EGraph Op D} (h : setAnalysisData N eg i d = .ok eg') :
    ∃ uf id k, UF.findMut eg.uf i = .ok (uf, id) ∧ eg.classes.get? id = some k ∧
      N.modify { eg with
        uf := uf
        classes := eg.classes.insert id { k with data := d }
        apending := eg.apending.extend k.parents } id = .ok eg' := by
  unfold setAnalysisData at h
  rw [bind_eq_ok] at h
  obtain ⟨⟨uf, id⟩, h1, h⟩ := h
  rw [bind_eq_ok] at h
  obtain ⟨k, h2, h⟩ := h
  exact ⟨uf, id, k, h1, unwrap_eq_ok.1 h2, h⟩

theorem setData_clean (hN : CleanMono N) {i : Id} {d : D} {eg' : EGraph Op D}
    (h : setAnalysisData N eg i d = .ok eg') (hc : eg'.clean = true) : eg.clean = true := by
  obtain ⟨uf, id, k, _, _, hm⟩ := setData_mid h
  exact hN { eg with
    uf := uf
    classes := eg.classes.insert id { k with data := d }
    apending := eg.apending.extend k.parents } _ _ hm hc

theorem Prog.run_clean (hN : CleanMono N) : ∀ (p : Prog Op D) (eg eg' : EGraph Op D), p.run N eg = .ok eg' →
    eg'.clean = true → eg.clean = true := by
  intro p
  induction p with
  | done => intro eg eg' h hc; cases h; exact hc
  | panic => intro eg eg' h; cases h
  | read k ih => intro eg eg' h hc; exact ih eg eg eg' h hc
  | add n k ih =>
    intro eg eg' h hc
    unfold Prog.run at h
    rw [bind_eq_ok] at h
    obtain ⟨⟨eg1, i⟩, h1, h2⟩ := h
    have := ih i eg1 eg' h2 hc
    unfold add at h1
    rw [bind_eq_ok] at h1
    obtain ⟨⟨eg2, j⟩, h3, h4⟩ := h1
    rw [bind_eq_ok] at h4
    obtain ⟨_, _, h4⟩ := h4
    cases h4
    exact addUncanonical_clean h3 this
  | union a b caller k ih =>
    intro eg eg' h hc
    unfold Prog.run at h
    rw [bind_eq_ok] at h
    obtain ⟨⟨eg1, r⟩, h1, h2⟩ := h
    have := ih r eg1 eg' h2 hc
    rw [(union_clean hN).1 h1] at this
    cases this
  | setData i d k ih =>
    intro eg eg' h hc
    unfold Prog.run at h
    rw [bind_eq_ok] at h
    obtain ⟨eg1, h1, h2⟩ := h
    exact setData_clean hN h1 (ih eg1 eg' h2 hc)

theorem cleanMono_at (A : UserAnalysis Op D) : ∀ depth, CleanMono (A.at depth) := by
  intro depth
  induction depth with
  | zero => intro eg i eg' h; cases h
  | succ depth ih => intro eg i eg' h hc; exact Prog.run_clean ih _ _ _ h hc

/-- When the flag is still set after the hook, the state is as tidy as before. -/
def CleanTidy (C : Cfg Op D) (N : Analysis Op D) : Prop :=
  ∀ eg i eg', Good C eg → i < eg.nodes.length → N.modify eg i = .ok eg' → eg'.clean = true → TidyP eg → TidyP eg'

theorem addUncanonical_tidy (h : Good C eg) {n : ENode Op} {eg' : EGraph Op D} {i : Id}
    (ha : addUncanonical N eg n = .ok (eg', i)) (hc : eg'.clean = true) (ht : TidyP eg) : TidyP eg' := by
  by_cases hn : ∀ c ∈ n.children, Valid eg c
  · have hn' : ∀ c ∈ n.children, c < eg.nodes.length := fun c hc => h.valid_iff.1 (hn c hc)
    rcases addUncanonical_cases N h.inv hn' with ⟨e, j, nj, _, g2, _⟩ | ⟨e, x, eg1, g1, _, _, g4, g5, g6⟩ | ⟨_, eg1, _, g3⟩
    · rw [ha] at g2; cases g2; exact ht
    · rw [ha] at g4; cases g4
      refine ht.frame h.inv g6.pending g6.byOp ?_ (fun c => by rw [g6.classes])
      intro i hi
      rw [g6.rt, if_neg (by omega)]
    · rw [ha] at g3
      have g3 := g3.symm
      rw [bind_eq_ok] at g3
      obtain ⟨d, _, g3⟩ := g3
      rw [bind_eq_ok] at g3
      obtain ⟨eg2, _, g3⟩ := g3
      cases g3
      simp at hc
  · rw [addUncanonical_error h hn] at ha; cases ha

theorem setData_tidy (hN : CleanTidy C N) (h : Good C eg) {i : Id} {d : D} {eg' : EGraph Op D} (hs : SetOK C eg i d)
    (ha : setAnalysisData N eg i d = .ok eg') (hc : eg'.clean = true) (ht : TidyP eg) : TidyP eg' := by
  by_cases hv : Valid eg i
  · have hi := h.valid_iff.1 hv
    obtain ⟨uf, hf, hsame⟩ := h.inv.findMut hi
    obtain ⟨k, hk', hk⟩ := h.inv.index hi
    obtain ⟨uf1, id1, k1, q1, q2, q3⟩ := setData_mid ha
    rw [hf] at q1; cases q1
    rw [hk] at q2; cases q2
    have hV : ∀ (j : Id) t, eg.rt j = eg.rt i → TermOf eg.nodes j t → C.V d t := by
      intro j t e ht
      exact hs.2 t (h.inv.rep_congr hi e (h.inv.rep_of_termOf t ht))
    have hd := hs.1
    have h2 := h.setData hsame hk d (UniqueQueue.inv_extend h.inv.apq k.parents)
      (fun p hp => (UniqueQueue.mem_extend h.inv.apq _ _).1 hp)
      (Or.inr (hd k hk').2) (hd k hk').1 hV (fun u hu _ => C.leTrans (hd k hk').2 hu)
      (fun j n _ hj _ => Or.inl ((UniqueQueue.mem_extend h.inv.apq _ _).2 (Or.inl hj)))
    refine hN _ _ _ h2 (h.inv.core.rtLt _ hi) q3 hc ?_
    refine ht.frame h.inv rfl rfl (fun i _ => hsame.root i) ?_
    intro c
    simp only [AMap.get?_insert]
    split
    · rename_i e
      subst e
      rw [hk]; rfl
    · rfl
  · rw [setData_error h hv] at ha; cases ha

theorem Prog.run_tidy (hH : HookOK C (fun _ => True) N) (hN : CleanMono N) (hT : CleanTidy C N) :
    ∀ (p : Prog Op D) (eg eg' : EGraph Op D), Good C eg → p.Safe C (fun _ => True) N eg → p.run N eg = .ok eg' →
    eg'.clean = true → TidyP eg → TidyP eg' := by
  intro p
  induction p with
  | done => intro eg eg' _ _ h hc ht; cases h; exact ht
  | panic => intro eg eg' _ _ h; cases h
  | read k ih => intro eg eg' hg hs h hc ht; exact ih eg eg eg' hg hs h hc ht
  | add n k ih =>
    intro eg eg' hg hs h hc ht
    unfold Prog.run at h
    rw [bind_eq_ok] at h
    obtain ⟨⟨eg1, i⟩, h1, h2⟩ := h
    by_cases hn : ∀ c ∈ n.children, Valid eg c
    · have hp := (Good.add_post hH hg hn).elim h1
      obtain ⟨j, nj, q1, q2, q3, _⟩ := hp.2.2
      have hrl : i < eg1.nodes.length := by
        simp only at q2; rw [q2]; exact hp.1.inv.core.rtLt _ (getElem?_lt q1)
      have hsafe := hs.2 eg1 i h1 (hg.later hp.1 hp.2.1) ⟨hp.1.valid_iff.2 hrl, by
        intro ts hts
        refine hp.1.inv.rep_congr hrl ?_ (hp.1.rep_node q1 q3 hts)
        have q2' : i = eg1.rt j := q2
        show eg1.rt j = eg1.rt i
        rw [q2']; exact (hp.1.inv.core.rtIdem j).symm⟩
      refine ih i eg1 eg' hp.1 hsafe h2 hc ?_
      have hc1 := Prog.run_clean hN _ _ _ h2 hc
      unfold add at h1
      rw [bind_eq_ok] at h1
      obtain ⟨⟨eg2, j⟩, h3, h4⟩ := h1
      rw [bind_eq_ok] at h4
      obtain ⟨_, _, h4⟩ := h4
      cases h4
      exact addUncanonical_tidy hg h3 hc1 ht
    · rw [add_error hg hn] at h1; cases h1
  | union a b caller k ih =>
    intro eg eg' _ _ h hc
    unfold Prog.run at h
    rw [bind_eq_ok] at h
    obtain ⟨⟨eg1, r⟩, h1, h2⟩ := h
    have := Prog.run_clean hN _ _ _ h2 hc
    rw [(union_clean hN).1 h1] at this
    cases this
  | setData i d k ih =>
    intro eg eg' hg hs h hc ht
    unfold Prog.run at h
    rw [bind_eq_ok] at h
    obtain ⟨eg1, h1, h2⟩ := h
    by_cases hv : Valid eg i
    · have hp := (Good.setData_post hH hg hv hs.2.1).elim h1
      refine ih eg1 eg' hp.1 (hs.2.2 eg1 h1 (hg.later hp.1 hp.2)) h2 hc ?_
      exact setData_tidy hT hg hs.2.1 h1 (Prog.run_clean hN _ _ _ h2 hc) ht
    · rw [setData_error hg hv] at h1; cases h1

theorem cleanTidy_at {A : UserAnalysis Op D} (hA : A.OK C (fun _ => True)) : ∀ depth, CleanTidy C (A.at depth) := by
  intro depth
  induction depth with
  | zero => intro eg i eg' _ _ h; cases h
  | succ depth ih =>
    intro eg i eg' hg hi h hc ht
    exact Prog.run_tidy (hA.hookOK trivial depth) (cleanMono_at A depth) ih _ eg eg' hg
      (hA.modify depth eg i hg.sensible (hg.valid_iff.2 hi)) h hc ht

/-- In every state of every history in which the flag is set the state is tidy. -/
theorem Hist.clean {A : UserAnalysis Op D} (hA : A.OK C (fun _ => True)) {depth : Nat}
    {allow : Caller Op D} (hallow : ∀ eg i d, Good C eg → allow eg i d → SetOK C eg i d)
    {U : List (UnionRec Op)} (hs : Hist (A.at depth) allow U eg)
    (hU : ∀ u ∈ U, C.R u.s u.t ∧ C.J u.reason u.a u.b)
    (ho : allow.optimized → C.optimized := by exact fun _ => trivial) : eg.clean = true → TidyP eg := by
  have hN := hA.hookOK trivial depth
  unfold Hist at hs
  generalize hq : (EGraph.new : EGraph Op D) = g0 at hs
  induction hs with
  | refl => subst hq; intro hc; simp [EGraph.new] at hc
  | @tail g1 g2 U V h1 h2 ih =>
    subst hq
    have hg := (Hist.good hN hallow (show Hist (A.at depth) allow U g1 from h1) (fun u hu => hU u (by simp [hu])) ho).1
    have ih := ih (fun u hu => hU u (by simp [hu]))
    intro hc
    cases h2 with
    | explain he =>
      unfold withExplanationsEnabled at he
      split at he
      · cases he; exact ih hc
      · split at he
        · cases he
        · cases he
          exact (ih hc).frame hg.inv rfl rfl (fun _ _ => rfl) (fun _ => rfl)
    | restore => cases hc
    | disable _ => exact (ih hc).frame hg.inv rfl rfl (fun _ _ => rfl) (fun _ => rfl)
    | noOptimize he =>
      unfold withoutExplanationLengthOptimization at he
      split at he
      · cases he
        exact (ih hc).frame hg.inv rfl rfl (fun _ _ => rfl) (fun _ => rfl)
      · cases he
    | optimize he =>
      unfold withExplanationLengthOptimization at he
      split at he
      · cases he
        exact (ih hc).frame hg.inv rfl rfl (fun _ _ => rfl) (fun _ => rfl)
      · cases he
    | query _ he =>
      obtain ⟨_, _, _, x, x', _, rfl, _⟩ := explainId_ok hg he
      exact (ih hc).frame hg.inv rfl rfl (fun _ _ => rfl) (fun _ => rfl)
    | add he => exact addUncanonical_tidy hg he hc (ih (addUncanonical_clean he hc))
    | union _ _ he => rw [(union_clean (cleanMono_at A depth)).1 he] at hc; cases hc
    | unionTrusted _ _ he => rw [(union_clean (cleanMono_at A depth)).2 he] at hc; cases hc
    | setData ha he =>
      exact setData_tidy (cleanTidy_at hA depth) hg (hallow _ _ _ hg ha) he hc
        (ih (setData_clean (cleanMono_at A depth) he hc))
    | rebuild he => exact ((rebuild_post trivial hN _ hg).elim he).2.2.1.tidyP

end EGraph
end Egg
