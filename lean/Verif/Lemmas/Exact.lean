import Verif.Props.Rebuild
/-
Rebuilding a rebuilt e-graph gives back the same e-graph, in every field.
-/
namespace Egg

section
variable {K V : Type} [DecidableEq K]

/-- The map with an empty entry for `d`, if there was none. -/
def AMap.withKey (m : AMap K (List V)) (d : K) : AMap K (List V) :=
  match m with
  | [] => [(d, [])]
  | (k, v) :: m => if k = d then (k, v) :: m else (k, v) :: AMap.withKey m d

theorem AMap.insert_withKey (m : AMap K (List V)) (d : K) (v : List V) : AMap.insert (AMap.withKey m d) d v = m.insert d v := by
  induction m with
  | nil => simp [AMap.withKey, AMap.insert]
  | cons kv m ih =>
    obtain ⟨k, w⟩ := kv
    unfold AMap.withKey AMap.insert
    by_cases h : k = d
    · simp [h, AMap.insert]
    · simp [h, AMap.insert, ih]

theorem AMap.getD_withKey (m : AMap K (List V)) (d : K) : ((AMap.withKey m d).get? d).getD [] = (m.get? d).getD [] := by
  induction m with
  | nil => simp [AMap.withKey, AMap.get?]
  | cons kv m ih =>
    obtain ⟨k, w⟩ := kv
    unfold AMap.withKey
    by_cases h : k = d
    · simp [h]
    · simp [h, AMap.get?, ih]

theorem AMap.get?_withKey_of_some {m : AMap K (List V)} {d e : K} (h : (m.get? d).isSome) : (AMap.withKey m e).get? d = m.get? d := by
  induction m with
  | nil => simp [AMap.get?] at h
  | cons kv m ih =>
    obtain ⟨k, w⟩ := kv
    unfold AMap.withKey
    by_cases h1 : k = e
    · simp [h1]
    · by_cases h2 : k = d
      · rw [if_neg h1]
        simp [h2, AMap.get?]
      · rw [if_neg h1]
        simp only [AMap.get?, if_neg h2] at h ⊢
        exact ih h

theorem AMap.get?_withKey_self (m : AMap K (List V)) (d : K) : ((AMap.withKey m d).get? d).isSome := by
  induction m with
  | nil => simp [AMap.withKey, AMap.get?]
  | cons kv m ih =>
    obtain ⟨k, w⟩ := kv
    unfold AMap.withKey
    by_cases h : k = d
    · simp [h, AMap.get?]
    · simp [h, AMap.get?, ih]

/-- Replacing the value of a key that is present commutes with adding keys. -/
theorem AMap.withKey_insert {m : AMap K (List V)} {d e : K} (v : List V) (h : (m.get? d).isSome) :
    AMap.withKey (m.insert d v) e = AMap.insert (AMap.withKey m e) d v := by
  induction m with
  | nil => simp [AMap.get?] at h
  | cons kv m ih =>
    obtain ⟨k, w⟩ := kv
    by_cases h2 : k = d
    · subst h2
      by_cases h1 : k = e
      · simp [AMap.withKey, AMap.insert, h1]
      · simp [AMap.withKey, AMap.insert, h1]
    · simp only [AMap.get?, if_neg h2] at h
      by_cases h1 : k = e
      · simp [AMap.withKey, AMap.insert, h1, h2, show ¬ e = d from fun x => h2 (h1.trans x)]
      · simp [AMap.withKey, AMap.insert, h1, h2, ih h]

theorem AMap.clear_insert (m : AMap K (List V)) (d : K) (v : List V) :
    (m.insert d v).map (fun kv => (kv.1, ([] : List V))) = AMap.withKey (m.map fun kv => (kv.1, [])) d := by
  induction m with
  | nil => simp [AMap.withKey, AMap.insert]
  | cons kv m ih =>
    obtain ⟨k, w⟩ := kv
    unfold AMap.insert
    by_cases h : k = d
    · simp [h, AMap.withKey]
    · simp [h, AMap.withKey, ih]

end

namespace EGraph
variable {Op D : Type} [DecidableEq Op] [Lang Op] {W : Id → Id → Prop} {C : Cfg Op D} {eg : EGraph Op D}

theorem addIx_withKey (p : Id × Lang.Disc Op) (m : AMap (Lang.Disc Op) (List Id)) : addIx (AMap.withKey m p.2) p = addIx m p := by
  unfold addIx
  rw [AMap.getD_withKey, AMap.insert_withKey]

theorem foldl_withKey_addIx (p : Id × Lang.Disc Op) : ∀ (l : List (Id × Lang.Disc Op)) (m : AMap (Lang.Disc Op) (List Id)), (m.get? p.2).isSome →
    l.foldl (fun m q => AMap.withKey m q.2) (addIx m p) = addIx (l.foldl (fun m q => AMap.withKey m q.2) m) p := by
  intro l
  induction l with
  | nil => intro m _; rfl
  | cons q l ih =>
    intro m h
    simp only [List.foldl_cons]
    rw [← ih _ (by rw [AMap.get?_withKey_of_some h]; exact h)]
    congr 1
    unfold addIx
    rw [AMap.withKey_insert _ h, AMap.get?_withKey_of_some h]

theorem foldl_addIx_withKeys : ∀ (l : List (Id × Lang.Disc Op)) (m : AMap (Lang.Disc Op) (List Id)),
    l.foldl addIx (l.foldl (fun m q => AMap.withKey m q.2) m) = l.foldl addIx m := by
  intro l
  induction l with
  | nil => intro m; rfl
  | cons p l ih =>
    intro m
    simp only [List.foldl_cons]
    rw [← foldl_withKey_addIx p l _ (AMap.get?_withKey_self m p.2), ih, addIx_withKey]

theorem clear_foldl_addIx : ∀ (l : List (Id × Lang.Disc Op)) (m : AMap (Lang.Disc Op) (List Id)),
    (l.foldl addIx m).map (fun kv => (kv.1, ([] : List Id))) = l.foldl (fun m q => AMap.withKey m q.2) (m.map fun kv => (kv.1, [])) := by
  intro l
  induction l with
  | nil => intro m; rfl
  | cons p l ih =>
    intro m
    simp only [List.foldl_cons]
    rw [ih]
    congr 1
    exact AMap.clear_insert _ _ _

/-- Clearing the index and entering the same classes again gives the same index, in the same order. -/
theorem reindex (l : List (Id × Lang.Disc Op)) (m : AMap (Lang.Disc Op) (List Id)) :
    l.foldl addIx ((l.foldl addIx (m.map fun kv => (kv.1, []))).map fun kv => (kv.1, ([] : List Id))) =
      l.foldl addIx (m.map fun kv => (kv.1, [])) := by
  rw [clear_foldl_addIx, foldl_addIx_withKeys]
  congr 1
  simp [List.map_map, Function.comp_def]

end EGraph

theorem UF.findMut_root {ps : UF} {i : Id} (h : ps[i]? = some i) : UF.findMut ps i = .ok (ps, i) := by
  unfold UF.findMut UF.findMutLoop
  simp [h]

theorem UF.findMutList_roots {ps : UF} {is : List Id} (h : ∀ i ∈ is, ps[i]? = some i) : UF.findMutList ps is = .ok (ps, is) := by
  induction is with
  | nil => rfl
  | cons i is ih =>
    unfold UF.findMutList
    rw [UF.findMut_root (h i (by simp)), ok_bind]
    dsimp only
    rw [ih (fun j hj => h j (by simp [hj])), ok_bind]
    rfl

namespace EGraph
variable {Op D : Type} [DecidableEq Op] [Lang Op] {W : Id → Id → Prop} {C : Cfg Op D} {eg : EGraph Op D}

theorem canonNodes_roots {uf : UF} : ∀ {ns : List (ENode Op)}, (∀ n ∈ ns, ∀ c ∈ n.children, uf[c]? = some c) → canonNodes uf ns = .ok (uf, ns) := by
  intro ns
  induction ns with
  | nil => intro _; rfl
  | cons n ns ih =>
    intro h
    unfold canonNodes
    rw [UF.findMutList_roots (h n (by simp)), ok_bind]
    dsimp only
    rw [ih (fun m hm => h m (by simp [hm])), ok_bind]
    rfl

theorem rebuildClassesGo_uf {uf : UF} : ∀ {cl : AMap Id (EClass Op D)} {b b' : AMap (Lang.Disc Op) (List Id)} {t t' : Nat} {uf' : UF}
    {cl' : AMap Id (EClass Op D)}, (∀ kc ∈ cl, ∀ n ∈ kc.2.nodes, ∀ c ∈ n.children, uf[c]? = some c) →
    rebuildClassesGo uf b cl t = .ok (uf', b', cl', t') → uf' = uf := by
  intro cl
  induction cl with
  | nil => intro b b' t t' uf' cl' _ h; cases h; rfl
  | cons kc cl ih =>
    obtain ⟨key, c⟩ := kc
    intro b b' t t' uf' cl' hc h
    unfold rebuildClassesGo at h
    rw [canonNodes_roots (hc (key, c) (by simp)), ok_bind] at h
    dsimp only at h
    obtain ⟨⟨uf2, b2, rest, t2⟩, h3, h4⟩ := bind_eq_ok.1 h
    cases h4
    exact ih (fun kc hkc => hc kc (by simp [hkc])) h3

theorem rebuildClasses_exact {eg1 : EGraph Op D} {t : Nat} (hr : rebuildClasses eg1 = .ok (eg, t)) (h : InvW W C eg) (ht : Tidy eg) :
    ∃ t', rebuildClasses eg = .ok (eg, t') := by
  obtain ⟨uf, b, t', g1, g2, g3, g4⟩ := rebuildClasses_ok h
  have hcl : eg.classes.map (fun kc => (kc.1, tidyCls eg.rt kc.2)) = eg.classes := by
    conv_rhs => rw [← List.map_id eg.classes]
    apply List.map_congr_left
    rintro ⟨c, k⟩ hck
    have hk := AMap.get?_of_mem h.clsNodup hck
    simp only [tidyCls, tidy_of_tidy (ht.canon c k hk) (ht.sorted c k hk), id]
  have key : ∀ {g g' : EGraph Op D} {t : Nat}, rebuildClasses g = .ok (g', t) →
      g'.byOp = (allAdds g'.classes).foldl addIx (g.byOp.map (fun kv => (kv.1, ([] : List Id)))) := by
    intro g g' t hg
    unfold rebuildClasses at hg
    rw [bind_eq_ok] at hg
    obtain ⟨⟨uf1, b1, cl1, t1⟩, k1, k2⟩ := hg
    cases k2
    exact rebuildClassesGo_ix _ _ _ _ k1
  have hb1 := key hr
  have hb2 := key g1
  rw [hcl] at g1 hb2
  have hb2 : b = (allAdds eg.classes).foldl addIx (eg.byOp.map (fun kv => (kv.1, ([] : List Id)))) := hb2
  have hb : b = eg.byOp := by
    rw [hb2, hb1]
    exact reindex _ _
  have huf : uf = eg.uf := by
    have g := g1
    unfold rebuildClasses at g
    obtain ⟨⟨uf1, b1, cl1, t1⟩, k1, k2⟩ := bind_eq_ok.1 g
    simp only [pure_eq_ok, Except.ok.injEq, Prod.mk.injEq] at k2
    have e1 : uf1 = uf := congrArg EGraph.uf k2.1
    rw [← e1]
    refine rebuildClassesGo_uf ?_ k1
    rintro ⟨c, k⟩ hck n hn ch hch
    have hk := AMap.get?_of_mem h.clsNodup hck
    have hcan := ht.canon c k hk n hn
    have hlt := h.core.clsNodeLt (sk_eq hk) hn ch hch
    refine (UF.root_eq_self_iff h.wf (by rw [← h.len]; exact hlt)).1 ?_
    have : n.children.map eg.rt = n.children := congrArg ENode.children hcan
    exact List.map_inj_left.1 (this.trans (List.map_id _).symm) ch hch
  subst hb huf
  exact ⟨t', g1⟩

end EGraph

variable {Op D : Type} [DecidableEq Op] [Lang Op]

/-- Rebuilding a rebuilt e-graph gives back the same e-graph. -/
theorem rebuild_exact {A : UserAnalysis Op D} {depth : Nat} {allow : Caller Op D}
    {U : List (UnionRec Op)} {eg0 eg : EGraph Op D} {fuel k : Nat}
    (h0 : Hist (A.at depth) allow U eg0) (hr : EGraph.rebuild (A.at depth) fuel eg0 = .ok (eg, k)) (fuel' : Nat) :
    EGraph.rebuild (A.at depth) (fuel' + 1) eg = .ok (eg, 0) := by
  obtain ⟨hg, ht⟩ := rebuilt_tidy h0 hr
  have hh := hr
  unfold EGraph.rebuild at hh
  rw [bind_eq_ok] at hh
  obtain ⟨⟨eg1, k1⟩, h1, h2⟩ := hh
  rw [bind_eq_ok] at h2
  obtain ⟨⟨eg2, t⟩, h3, h4⟩ := h2
  cases h4
  have hpost := (EGraph.processUnions_post trivial ((soundFor_true A).hookOK trivial depth) fuel eg0 0 (hist_good h0)).elim h1
  obtain ⟨eg3, t3, g1, g2, _, g4, _⟩ := EGraph.rebuildClasses_good hpost.1 hpost.2.2.1 hpost.2.2.2
  rw [h3] at g1; cases g1
  obtain ⟨t', q1⟩ := EGraph.rebuildClasses_exact h3 g2.inv g4
  have hrb : EGraph.rebuildClasses { eg2 with clean := true } = .ok ({ eg2 with clean := true }, t') := by
    unfold EGraph.rebuildClasses at q1 ⊢
    rw [bind_eq_ok] at q1
    obtain ⟨⟨u1, b1, c1, t1⟩, z1, z2⟩ := q1
    simp only [z1, ok_bind]
    simp only [pure_eq_ok, Except.ok.injEq, Prod.mk.injEq] at z2 ⊢
    obtain ⟨z3, rfl⟩ := z2
    have e1 : u1 = eg2.uf := congrArg EGraph.uf z3
    have e2 : b1 = eg2.byOp := congrArg EGraph.byOp z3
    have e3 : c1 = eg2.classes := congrArg EGraph.classes z3
    subst e1 e2 e3
    exact ⟨rfl, rfl⟩
  unfold EGraph.rebuild EGraph.processUnions
  have hp : eg2.pending = [] := ht.pending
  have ha : eg2.apending.queue = [] := ht.apending
  have hc : (({ eg2 with clean := true } : EGraph Op D).pending.isEmpty &&
      ({ eg2 with clean := true } : EGraph Op D).apending.isEmpty) = true := by
    simp [hp, UniqueQueue.isEmpty, ha]
  rw [if_pos hc, ok_bind]
  dsimp only
  rw [hrb]
  rfl

end Egg
