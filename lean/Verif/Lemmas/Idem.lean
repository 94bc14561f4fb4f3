import Verif.Lemmas.Struct
/-
A rebuilt e-graph is a fixed point of `rebuild`.
-/
namespace Egg
namespace EGraph
variable {Op D : Type} [DecidableEq Op] [Lang Op]
variable {W : Id → Id → Prop} {C : Cfg Op D} {eg : EGraph Op D}

/-! ### sorting a sorted list -/

theorem insertSorted_of_le {α : Type} {le : α → α → Bool} {a : α} {l : List α}
    (h : ∀ x ∈ l, le a x = true) : insertSorted le a l = a :: l := by
  cases l with
  | nil => rfl
  | cons b l => simp [insertSorted, h b (by simp)]

theorem sortBy_of_sorted {α : Type} {le : α → α → Bool} {l : List α}
    (h : l.Pairwise (fun x y => le x y = true ∧ x ≠ y)) : sortBy le l = l := by
  induction l with
  | nil => rfl
  | cons a l ih =>
    rw [List.pairwise_cons] at h
    simp only [sortBy, ih h.2]
    exact insertSorted_of_le (fun x hx => (h.1 x hx).1)

theorem dedupAdj_of_sorted {α : Type} [DecidableEq α] {le : α → α → Bool} : ∀ {l : List α},
    l.Pairwise (fun x y => le x y = true ∧ x ≠ y) → dedupAdj l = l
  | [], _ => rfl
  | [a], _ => rfl
  | a :: b :: l, h => by
    rw [List.pairwise_cons] at h
    unfold dedupAdj
    rw [if_neg (h.1 b (by simp)).2, dedupAdj_of_sorted h.2]

theorem tidy_of_tidy {rt : Id → Id} {ns : List (ENode Op)} (hc : ∀ n ∈ ns, n.mapChildren rt = n)
    (hs : ns.Pairwise (fun x y => Lang.le x y = true ∧ x ≠ y)) : tidy rt ns = ns := by
  unfold tidy
  have : ns.map (fun n => n.mapChildren rt) = ns := by
    conv_rhs => rw [← List.map_id ns]
    exact List.map_congr_left hc
  rw [this, sortBy_of_sorted hs, dedupAdj_of_sorted hs]

/-! ### the operator index as a function of the class list -/

/-- The e-nodes of a class that `rebuild_classes` enters into the index. -/
def restAdds : ENode Op → List (ENode Op) → List (ENode Op)
  | _, [] => []
  | prev, n :: ns => if prev.matches n then restAdds prev ns else n :: restAdds n ns

def classAdds : List (ENode Op) → List (ENode Op)
  | [] => []
  | n :: ns => n :: restAdds n ns

def allAdds (cl : AMap Id (EClass Op D)) : List (Id × Lang.Disc Op) :=
  cl.flatMap (fun kc => (classAdds kc.2.nodes).map (fun n => (kc.2.id, Lang.disc n.op)))

def addIx (b : AMap (Lang.Disc Op) (List Id)) (p : Id × Lang.Disc Op) : AMap (Lang.Disc Op) (List Id) :=
  b.insert p.2 (setInsert ((b.get? p.2).getD []) p.1)

theorem indexRest_eq (id : Id) : ∀ (ns : List (ENode Op)) (b : AMap (Lang.Disc Op) (List Id)) (prev : ENode Op),
    indexRest id b prev ns = ((restAdds prev ns).map (fun n => (id, Lang.disc n.op))).foldl addIx b := by
  intro ns
  induction ns with
  | nil => intro b prev; rfl
  | cons n ns ih =>
    intro b prev
    unfold indexRest restAdds
    split
    · exact ih b prev
    · rw [ih]; rfl

theorem indexClass_eq (id : Id) (b : AMap (Lang.Disc Op) (List Id)) (ns : List (ENode Op)) :
    indexClass id b ns = ((classAdds ns).map (fun n => (id, Lang.disc n.op))).foldl addIx b := by
  cases ns with
  | nil => rfl
  | cons n ns => simp only [indexClass, classAdds, indexRest_eq]; rfl

theorem rebuildClassesGo_ix : ∀ (cl : AMap Id (EClass Op D)) (uf : UF) (b : AMap (Lang.Disc Op) (List Id))
    (t : Nat) {uf' : UF} {b' : AMap (Lang.Disc Op) (List Id)} {cl' : AMap Id (EClass Op D)} {t' : Nat},
    rebuildClassesGo uf b cl t = .ok (uf', b', cl', t') → b' = (allAdds cl').foldl addIx b := by
  intro cl
  induction cl with
  | nil => intro uf b t uf' b' cl' t' h; cases h; rfl
  | cons kc cl ih =>
    obtain ⟨key, c⟩ := kc
    intro uf b t uf' b' cl' t' h
    simp only [rebuildClassesGo] at h
    rw [bind_eq_ok] at h
    obtain ⟨⟨uf1, ns⟩, h1, h2⟩ := h
    rw [bind_eq_ok] at h2
    obtain ⟨⟨uf2, b2, rest, t2⟩, h3, h4⟩ := h2
    cases h4
    rw [ih _ _ _ h3, indexClass_eq]
    simp [allAdds, List.foldl_append]

def addVal (o : Option (List Id)) (x : Id) : Option (List Id) := some (setInsert (o.getD []) x)

theorem get?_foldl_addIx (d : Lang.Disc Op) : ∀ (l : List (Id × Lang.Disc Op)) (b : AMap (Lang.Disc Op) (List Id)),
    (l.foldl addIx b).get? d = ((l.filter (fun p => decide (p.2 = d))).map Prod.fst).foldl addVal (b.get? d) := by
  intro l
  induction l with
  | nil => intro b; rfl
  | cons p l ih =>
    intro b
    simp only [List.foldl_cons, ih]
    by_cases e : p.2 = d
    · simp only [List.filter_cons, e, decide_true, if_true, List.map_cons, List.foldl_cons]
      congr 1
      simp [addIx, addVal, AMap.get?_insert, e]
    · simp only [List.filter_cons, e, decide_false, Bool.false_eq_true, if_false]
      congr 1
      simp [addIx, AMap.get?_insert, e]

/-- Clearing the index and entering the same classes again changes nothing. -/
theorem addVal_idem (l : List Id) {o : Option (List Id)} (ho : o = none ∨ o = some []) :
    l.foldl addVal ((l.foldl addVal o).map (fun _ => [])) = l.foldl addVal o := by
  cases l with
  | nil => rcases ho with rfl | rfl <;> rfl
  | cons x l =>
    have : ∀ (l : List Id) (o : Option (List Id)), o.isSome → (l.foldl addVal o).isSome := by
      intro l
      induction l with
      | nil => intro o h; exact h
      | cons y l ih => intro o _; exact ih _ rfl
    have h1 : ((x :: l).foldl addVal o).map (fun _ => ([] : List Id)) = some [] := by
      have := this l (addVal o x) rfl
      simp only [List.foldl_cons]
      obtain ⟨v, hv⟩ := Option.isSome_iff_exists.1 this
      rw [hv]; rfl
    rw [h1]
    rcases ho with rfl | rfl <;> rfl

/-! ### the fixed point -/

theorem rebuildClasses_fixed {eg1 : EGraph Op D} {t : Nat} (h1 : InvW W C eg1)
    (hr : rebuildClasses eg1 = .ok (eg, t)) (h : InvW W C eg) (ht : Tidy eg) :
    ∃ uf b t', rebuildClasses eg = .ok ({ eg with uf := uf, byOp := b }, t') ∧ UF.Same eg.uf uf ∧
      ∀ d, b.get? d = eg.byOp.get? d := by
  obtain ⟨uf, b, t', g1, g2, g3, g4⟩ := rebuildClasses_ok h
  have hcl : eg.classes.map (fun kc => (kc.1, tidyCls eg.rt kc.2)) = eg.classes := by
    conv_rhs => rw [← List.map_id eg.classes]
    apply List.map_congr_left
    rintro ⟨c, k⟩ hck
    have hk := AMap.get?_of_mem h.clsNodup hck
    simp only [tidyCls, tidy_of_tidy (ht.canon c k hk) (ht.sorted c k hk), id]
  have key : ∀ {g g' : EGraph Op D} {t : Nat}, rebuildClasses g = .ok (g', t) →
      g'.byOp = (allAdds g'.classes).foldl addIx (g.byOp.map (fun kv => (kv.1, ([] : List Id)))) := by
    intro g g' t hg
    unfold rebuildClasses at hg
    rw [bind_eq_ok] at hg
    obtain ⟨⟨uf1, b1, cl1, t1⟩, k1, k2⟩ := hg
    cases k2
    exact rebuildClassesGo_ix _ _ _ _ k1
  have hb1 := key hr
  have hb2 := key g1
  rw [hcl] at g1 hb2
  refine ⟨uf, b, t', g1, g2, ?_⟩
  intro d
  have hb2 : b = (allAdds eg.classes).foldl addIx (eg.byOp.map (fun kv => (kv.1, ([] : List Id)))) := hb2
  rw [hb2, get?_foldl_addIx, AMap.get?_mapVal (f := fun _ => [])]
  rw [hb1, get?_foldl_addIx, AMap.get?_mapVal (f := fun _ => [])]
  apply addVal_idem
  cases AMap.get? eg1.byOp d <;> simp

end EGraph
end Egg
