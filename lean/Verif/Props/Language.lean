import Verif.Model.Language
import Verif.Spec.Match
import Verif.Props.ExprText
import Mathlib.Order.Fin.Basic
/-
C60: the languages made by `define_language!`, and `SymbolLang`, are languages in the sense of the
other theorems, and their texts are read back unless an earlier variant takes them.
-/
namespace Egg

theorem lexIds_total : ∀ a b, lexIds a b = true ∨ lexIds b a = true
  | [], _ => by simp [lexIds]
  | _ :: _, [] => by simp [lexIds]
  | x :: xs, y :: ys => by
    have := lexIds_total xs ys
    simp only [lexIds]
    rcases Nat.lt_trichotomy x y with h | h | h
    · simp [h, Nat.ne_of_lt h, Nat.ne_of_gt h]
    · subst h; simpa using this
    · right
      simp [h, Nat.ne_of_lt h]

theorem lexIds_refl : ∀ a, lexIds a a = true
  | [] => rfl
  | x :: xs => by simp [lexIds, lexIds_refl xs]

theorem lexIds_trans : ∀ a b c, lexIds a b = true → lexIds b c = true → lexIds a c = true
  | [], _, _ => by simp [lexIds]
  | _ :: _, [], _ => by simp [lexIds]
  | _ :: _, _ :: _, [] => by simp [lexIds]
  | x :: xs, y :: ys, z :: zs => by
    have := lexIds_trans xs ys zs
    simp only [lexIds]
    split_ifs <;> simp_all <;> omega

theorem lexIds_antisymm : ∀ a b, lexIds a b = true → lexIds b a = true → a = b
  | [], [] => by simp
  | [], _ :: _ => by simp [lexIds]
  | _ :: _, [] => by simp [lexIds]
  | x :: xs, y :: ys => by
    have := lexIds_antisymm xs ys
    simp only [lexIds]
    split_ifs <;> simp_all <;> omega

namespace Variant

theorem leData_total : ∀ (v : Variant) (a b : v.Data), v.leData a b = true ∨ v.leData b a = true
  | word _, _, _ => .inl rfl
  | wordArgs _ _, _, _ => .inl rfl
  | data t, a, b => t.le_total a b
  | dataArgs t _, a, b => t.le_total a b

theorem leData_trans : ∀ (v : Variant) (a b c : v.Data), v.leData a b = true → v.leData b c = true → v.leData a c = true
  | word _, _, _, _ => fun _ _ => rfl
  | wordArgs _ _, _, _, _ => fun _ _ => rfl
  | data t, a, b, c => t.le_trans a b c
  | dataArgs t _, a, b, c => t.le_trans a b c

theorem leData_antisymm : ∀ (v : Variant) (a b : v.Data), v.leData a b = true → v.leData b a = true → a = b
  | word _, _, _ => fun _ _ => rfl
  | wordArgs _ _, _, _ => fun _ _ => rfl
  | data t, a, b => t.le_antisymm a b
  | dataArgs t _, a, b => t.le_antisymm a b

theorem children_inj : ∀ (v : Variant) (a b : v.Ids), v.children a = v.children b → a = b
  | word _, _, _ => fun _ => rfl
  | wordArgs _ (.array _), _, _ => fun h => Subtype.ext h
  | wordArgs _ .one, _, _ => fun h => (List.cons.inj h).1
  | wordArgs _ .slice, _, _ => fun h => h
  | data _, _, _ => fun _ => rfl
  | dataArgs _ (.array _), _, _ => fun h => Subtype.ext h
  | dataArgs _ .one, _, _ => fun h => (List.cons.inj h).1
  | dataArgs _ .slice, _, _ => fun h => h

theorem len_eq : ∀ (c : ChildTy) (v : c.Val), c.len v = (c.asSlice v).length
  | .array _, v => v.2.symm
  | .one, _ => rfl
  | .slice, _ => rfl

theorem mapIds_children (f : Id → Id) : ∀ (v : Variant) (a : v.Ids), v.children (v.mapIds f a) = (v.children a).map f
  | word _, _ => rfl
  | wordArgs _ (.array _), _ => rfl
  | wordArgs _ .one, _ => rfl
  | wordArgs _ .slice, _ => rfl
  | data _, _ => rfl
  | dataArgs _ (.array _), _ => rfl
  | dataArgs _ .one, _ => rfl
  | dataArgs _ .slice, _ => rfl

theorem matches_eq : ∀ (v : Variant) (a b : v.Data × v.Ids),
    v.matches a b = (@decide (a.1 = b.1) (v.decData _ _) && (v.children a.2).length == (v.children b.2).length)
  | word _, _, _ => rfl
  | wordArgs _ c, a, b => by
    have h1 := len_eq c a.2
    have h2 := len_eq c b.2
    have : a.1 = b.1 := rfl
    simp only [«matches», children, this, decide_true, Bool.true_and]
    erw [h1, h2]
  | data t, a, b => by
    simp only [«matches», children, List.length_nil, beq_self_eq_true, Bool.and_true]
    rfl
  | dataArgs t c, a, b => by
    have h1 := len_eq c a.2
    have h2 := len_eq c b.2
    simp only [«matches», children]
    erw [h1, h2]
    rfl

end Variant

namespace Decl
variable {V : Decl}

theorem leNode_same (i : Fin V.length) (d e : (V.get i).Data) (cs ds : List Id) :
    leNode (V := V) ⟨⟨i, d⟩, cs⟩ ⟨⟨i, e⟩, ds⟩ =
      (if @decide (d = e) ((V.get i).decData d e) then lexIds cs ds else (V.get i).leData d e) := by
  unfold leNode
  rw [dif_pos rfl]

theorem leNode_ne {i j : Fin V.length} (h : i ≠ j) (d : (V.get i).Data) (e : (V.get j).Data) (cs ds : List Id) :
    leNode (V := V) ⟨⟨i, d⟩, cs⟩ ⟨⟨j, e⟩, ds⟩ = decide (i < j) := by
  unfold leNode
  rw [dif_neg h]

theorem leNode_fst {a b : ENode (Op V)} (h : leNode a b = true) : a.op.1 ≤ b.op.1 := by
  obtain ⟨⟨i, d⟩, cs⟩ := a
  obtain ⟨⟨j, e⟩, ds⟩ := b
  by_cases hij : i = j
  · exact le_of_eq hij
  · rw [leNode_ne hij] at h
    exact le_of_lt (of_decide_eq_true h)

theorem leNode_total (a b : ENode (Op V)) : leNode a b = true ∨ leNode b a = true := by
  obtain ⟨⟨i, d⟩, cs⟩ := a
  obtain ⟨⟨j, e⟩, ds⟩ := b
  by_cases hij : i = j
  · subst hij
    rw [leNode_same, leNode_same]
    by_cases hde : d = e
    · subst hde
      simpa using lexIds_total cs ds
    · have hed : ¬ e = d := fun h => hde h.symm
      simpa [hde, hed] using (V.get i).leData_total d e
  · rw [leNode_ne hij, leNode_ne (Ne.symm hij)]
    simpa using lt_or_gt_of_ne hij

theorem leNode_antisymm (a b : ENode (Op V)) (h1 : leNode a b = true) (h2 : leNode b a = true) : a = b := by
  have hij := le_antisymm (leNode_fst h1) (leNode_fst h2)
  obtain ⟨⟨i, d⟩, cs⟩ := a
  obtain ⟨⟨j, e⟩, ds⟩ := b
  simp only at hij
  subst hij
  rw [leNode_same] at h1 h2
  by_cases hde : d = e
  · subst hde
    simp only [decide_true, if_true] at h1 h2
    rw [lexIds_antisymm _ _ h1 h2]
  · have hed : ¬ e = d := fun h => hde h.symm
    simp only [hde, hed, decide_false] at h1 h2
    exact absurd ((V.get i).leData_antisymm d e (by simpa using h1) (by simpa using h2)) hde

theorem leNode_trans (a b c : ENode (Op V)) (h1 : leNode a b = true) (h2 : leNode b c = true) : leNode a c = true := by
  have hij := leNode_fst h1
  have hjk := leNode_fst h2
  obtain ⟨⟨i, d⟩, cs⟩ := a
  obtain ⟨⟨j, e⟩, ds⟩ := b
  obtain ⟨⟨k, f⟩, fs⟩ := c
  simp only at hij hjk
  by_cases hik : i = k
  · subst hik
    have := le_antisymm hij hjk
    subst this
    rw [leNode_same] at h1 h2 ⊢
    by_cases hde : d = e
    · subst hde
      by_cases hdf : d = f
      · subst hdf
        simp only [decide_true, if_true] at h1 h2 ⊢
        exact lexIds_trans _ _ _ h1 h2
      · simpa [hdf] using h2
    · by_cases hef : e = f
      · subst hef
        simpa [hde] using h1
      · simp only [hde, hef, decide_false] at h1 h2
        have h3 := (V.get i).leData_trans d e f (by simpa using h1) (by simpa using h2)
        by_cases hdf : d = f
        · subst hdf
          exact absurd ((V.get i).leData_antisymm d e (by simpa using h1) (by simpa using h2)) hde
        · simpa [hdf] using h3
  · rw [leNode_ne hik]
    exact decide_eq_true (lt_of_le_of_ne (le_trans hij hjk) hik)

/-- The language of the model that a declaration defines. -/
instance (V : Decl) : Lang (Op V) where
  Disc := Fin V.length
  decDisc := inferInstance
  disc := Sigma.fst
  le := leNode
  le_total := leNode_total
  le_trans := leNode_trans
  le_antisymm := leNode_antisymm

namespace Value

/-- **C60 (values are e-nodes).** Through `toENode` the values of the generated `enum` are e-nodes of
the model's language: distinct values are distinct e-nodes, and the generated `children`, `matches`,
`discriminant`, derived order, `Display` and `map_children` are those of the model. -/
theorem c60_values (a b : Value V) (f : Id → Id) :
    (a.toENode = b.toENode → a = b) ∧ a.toENode.children = a.children ∧
      a.matches b = a.toENode.matches b.toENode ∧ Lang.disc a.toENode.op = a.discriminant ∧
      a.le b = Lang.le a.toENode b.toENode ∧ (Decl.text V).show_ a.toENode.op = a.show ∧
      (a.mapChildren f).toENode = a.toENode.mapChildren f := by
  refine ⟨?_, rfl, ?_, rfl, rfl, rfl, ?_⟩
  · obtain ⟨i, d, x⟩ := a
    obtain ⟨j, e, y⟩ := b
    intro h
    unfold toENode at h
    injection h with h1 h2
    injection h1 with h3 h4
    subst h3
    cases h4
    rw [Variant.children_inj _ x y h2]
  · obtain ⟨i, d, x⟩ := a
    obtain ⟨j, e, y⟩ := b
    unfold Value.matches ENode.matches toENode
    by_cases hij : i = j
    · subst hij
      simp only [dite_true]
      rw [Variant.matches_eq]
      congr 1
      simp
    · simp only [hij, dite_false]
      have : ¬ ((⟨i, d⟩ : Op V) = ⟨j, e⟩) := by
        intro h
        injection h with h1 _
        exact hij h1
      simp [this]
  · unfold Value.mapChildren toENode ENode.mapChildren children
    rw [Variant.mapIds_children]

end Value

/-- **C60 (order).** The derived order keeps values of the same variant together, as the search of large
classes by bisection requires.  (That it is a linear order is part of the instance of `Lang`.) -/
theorem c60_contiguous (V : Decl) : DiscContiguous (Op V) := by
  intro a b c h1 h2 h
  have h3 := leNode_fst h1
  have h4 := leNode_fst h2
  have h5 : a.op.1 = c.op.1 := h
  show b.op.1 = a.op.1
  exact le_antisymm (h5 ▸ h4) h3

end Decl

/-! ### Texts -/

/-- `op` is a text of the variant with data `d`. -/
def Variant.TextOf : (v : Variant) → List Char → v.Data → Prop
  | word s, op, _ => op = s
  | wordArgs s _, op, _ => op = s
  | data t, op, d => t.parse op = some d
  | dataArgs t _, op, d => t.parse op = some d

/-- The data type of the variant (if it has one) reads back what it prints for `d`. -/
def Variant.ReadsBack : (v : Variant) → v.Data → Prop
  | word _, _ => True
  | wordArgs _ _, _ => True
  | data t, d => t.parse (t.show_ d) = some d
  | dataArgs t _, d => t.parse (t.show_ d) = some d

theorem Variant.textOf_show : ∀ (v : Variant) (d : v.Data), v.ReadsBack d → v.TextOf (v.show d) d
  | word _, _, _ => rfl
  | wordArgs _ _, _, _ => rfl
  | data _, _, h => h
  | dataArgs _ _, _, h => h

theorem ChildTy.fromVec_iff : ∀ (c : ChildTy) (cs : List Id), c.canBeLength cs.length = true ↔ ∃ ids, c.asSlice ids = cs
  | array n, cs => by
    simp only [canBeLength, beq_iff_eq]
    exact ⟨fun h => ⟨⟨cs, h⟩, rfl⟩, fun ⟨ids, h⟩ => h ▸ ids.2⟩
  | one, cs => by
    simp only [canBeLength, beq_iff_eq]
    constructor
    · intro h
      obtain ⟨x, rfl⟩ := List.length_eq_one_iff.1 h
      exact ⟨x, rfl⟩
    · rintro ⟨ids, rfl⟩
      rfl
  | slice, cs => ⟨fun _ => ⟨cs, rfl⟩, fun _ => rfl⟩

theorem ChildTy.fromVec_ok : ∀ (c : ChildTy) (ids : c.Val), c.fromVec (c.asSlice ids) = .ok ids
  | array n, ids => by
    have h : (asSlice (array n) ids).length = n := ids.2
    show (if h : (asSlice (array n) ids).length = n then (.ok ⟨asSlice (array n) ids, h⟩ : Res { l : List Id // l.length = n })
      else .error .panic) = .ok ids
    rw [dif_pos h]
    rfl
  | one, ids => rfl
  | slice, ids => rfl

theorem Variant.fromOp_iff : ∀ (v : Variant) (op : List Char) (cs : List Id) (r : Res (v.Data × v.Ids)),
    v.fromOp op cs = some r ↔ ∃ d ids, r = .ok (d, ids) ∧ v.children ids = cs ∧ v.TextOf op d
  | word s, op, cs, r => by
    simp only [fromOp, Bool.and_eq_true, decide_eq_true_eq, List.isEmpty_iff]
    constructor
    · intro h
      split at h
      · rename_i hc
        exact ⟨(), (), (Option.some.inj h).symm, hc.2.symm, hc.1⟩
      · cases h
    · rintro ⟨d, ids, rfl, h1, h2⟩
      rw [if_pos ⟨h2, h1.symm⟩]
      rfl
  | wordArgs s c, op, cs, r => by
    simp only [fromOp, Bool.and_eq_true, decide_eq_true_eq]
    constructor
    · intro h
      split at h
      · rename_i hc
        obtain ⟨ids, rfl⟩ := (c.fromVec_iff cs).1 hc.2
        rw [c.fromVec_ok] at h
        exact ⟨(), ids, (Option.some.inj h).symm, rfl, hc.1⟩
      · cases h
    · rintro ⟨d, ids, rfl, rfl, h2⟩
      rw [if_pos ⟨h2, (c.fromVec_iff _).2 ⟨ids, rfl⟩⟩]
      have h3 := c.fromVec_ok ids
      simp only [children]
      erw [h3]
      rfl
  | data t, op, cs, r => by
    simp only [fromOp, Bool.and_eq_true, List.isEmpty_iff]
    constructor
    · intro h
      split at h
      · rename_i hc
        obtain ⟨d, hd⟩ := Option.isSome_iff_exists.1 hc.1
        rw [hd] at h
        exact ⟨d, (), (Option.some.inj h).symm, hc.2.symm, hd⟩
      · cases h
    · rintro ⟨d, ids, rfl, h1, h2⟩
      have h2 : t.parse op = some d := h2
      rw [if_pos ⟨by rw [h2]; rfl, h1.symm⟩, h2]
      rfl
  | dataArgs t c, op, cs, r => by
    simp only [fromOp, Bool.and_eq_true]
    constructor
    · intro h
      split at h
      · rename_i hc
        obtain ⟨d, hd⟩ := Option.isSome_iff_exists.1 hc.1
        obtain ⟨ids, rfl⟩ := (c.fromVec_iff cs).1 hc.2
        rw [hd, c.fromVec_ok] at h
        exact ⟨d, ids, (Option.some.inj h).symm, rfl, hd⟩
      · cases h
    · rintro ⟨d, ids, rfl, rfl, h2⟩
      have h2 : t.parse op = some d := h2
      rw [if_pos ⟨by rw [h2]; rfl, (c.fromVec_iff _).2 ⟨ids, rfl⟩⟩, h2]
      have h3 := c.fromVec_ok ids
      simp only [children]
      erw [h3]
      rfl

theorem Variant.TextOf.unique : ∀ {v : Variant} {op : List Char} {d e : v.Data}, v.TextOf op d → v.TextOf op e → d = e
  | word _, _, _, _ => fun _ _ => rfl
  | wordArgs _ _, _, _, _ => fun _ _ => rfl
  | data _, _, _, _ => fun h1 h2 => Option.some.inj (h1.symm.trans h2)
  | dataArgs _ _, _, _, _ => fun h1 h2 => Option.some.inj (h1.symm.trans h2)

namespace Decl
variable {V : Decl}

/-- The value has the children `cs`, and `op` is a text of its variant and data. -/
def Value.Reads (a : Value V) (op : List Char) (cs : List Id) : Prop :=
  a.children = cs ∧ (V.get a.idx).TextOf op a.data

/-- The results of the arms of `from_op`. -/
def Value.arm (V : Decl) (op : List Char) (cs : List Id) (i : Fin V.length) : Option (Res (Value V)) :=
  ((V.get i).fromOp op cs).map (fun r => do let p ← r; return ⟨i, p.1, p.2⟩)

theorem Value.arm_iff (op : List Char) (cs : List Id) (i : Fin V.length) (r : Res (Value V)) :
    Value.arm V op cs i = some r ↔ ∃ a : Value V, r = .ok a ∧ a.idx = i ∧ a.Reads op cs := by
  unfold Value.arm
  constructor
  · intro h
    obtain ⟨r0, h0, rfl⟩ := Option.map_eq_some_iff.1 h
    obtain ⟨d, ids, rfl, h1, h2⟩ := (Variant.fromOp_iff _ _ _ _).1 h0
    exact ⟨⟨i, d, ids⟩, rfl, rfl, h1, h2⟩
  · rintro ⟨⟨j, d, ids⟩, rfl, rfl, h1, h2⟩
    exact Option.map_eq_some_iff.2 ⟨.ok (d, ids), (Variant.fromOp_iff _ _ _ _).2 ⟨d, ids, rfl, h1, h2⟩, rfl⟩

theorem Value.Reads.unique {a b : Value V} {op : List Char} {cs : List Id} (ha : a.Reads op cs) (hb : b.Reads op cs)
    (h : a.idx = b.idx) : a = b := by
  obtain ⟨i, d, x⟩ := a
  obtain ⟨j, e, y⟩ := b
  simp only at h
  subst h
  obtain ⟨h1, h2⟩ := ha
  obtain ⟨h3, h4⟩ := hb
  have := Variant.TextOf.unique h2 h4
  simp only at this
  subst this
  rw [Variant.children_inj _ x y (h1.trans h3.symm)]

/-- The first index at which a function on `Fin n` is defined. -/
theorem findSome_finRange {n : Nat} {β : Type} (f : Fin n → Option β) (b : β) :
    (List.finRange n).findSome? f = some b ↔ ∃ i, f i = some b ∧ ∀ j < i, f j = none := by
  have key : ∀ (l : List (Fin n)), l.Pairwise (· < ·) →
      (l.findSome? f = some b ↔ ∃ i ∈ l, f i = some b ∧ ∀ j ∈ l, j < i → f j = none) := by
    intro l hl
    induction l with
    | nil => simp
    | cons x xs ih =>
      rw [List.findSome?_cons]
      have hx := List.pairwise_cons.1 hl
      cases hfx : f x with
      | none =>
        simp only []
        rw [ih hx.2]
        constructor
        · rintro ⟨i, hi, h1, h2⟩
          refine ⟨i, List.mem_cons_of_mem _ hi, h1, ?_⟩
          intro j hj hji
          rcases List.mem_cons.1 hj with rfl | hj
          · exact hfx
          · exact h2 j hj hji
        · rintro ⟨i, hi, h1, h2⟩
          rcases List.mem_cons.1 hi with rfl | hi
          · rw [hfx] at h1; cases h1
          · exact ⟨i, hi, h1, fun j hj => h2 j (List.mem_cons_of_mem _ hj)⟩
      | some c =>
        simp only []
        constructor
        · intro h
          refine ⟨x, List.mem_cons_self .., h ▸ hfx, ?_⟩
          intro j hj hjx
          rcases List.mem_cons.1 hj with rfl | hj
          · exact absurd hjx (lt_irrefl _)
          · exact absurd (lt_trans hjx (hx.1 j hj)) (lt_irrefl _)
        · rintro ⟨i, hi, h1, h2⟩
          rcases List.mem_cons.1 hi with rfl | hi
          · exact hfx.symm.trans h1
          · have := h2 x (List.mem_cons_self ..) (hx.1 i hi)
            rw [hfx] at this
            cases this
  have := key _ (List.pairwise_lt_finRange n)
  simpa using this

/-- **C60 (parsing an operator).** `from_op` returns the value of the first variant, in the order of
the declaration, that reads the operator and has these children. -/
theorem c60_from_op (V : Decl) (op : List Char) (cs : List Id) (a : Value V) :
    Value.fromOp V op cs = some (.ok a) ↔ a.Reads op cs ∧ ∀ b : Value V, b.Reads op cs → a.idx ≤ b.idx := by
  have := findSome_finRange (Value.arm V op cs) (.ok a)
  refine Iff.trans (this) ?_
  constructor
  · rintro ⟨i, h1, h2⟩
    obtain ⟨a', h3, rfl, h4⟩ := (Value.arm_iff _ _ _ _).1 h1
    injection h3 with h3
    subst h3
    refine ⟨h4, ?_⟩
    intro b hb
    by_contra hlt
    have h5 := h2 b.idx (not_le.1 hlt)
    rw [(Value.arm_iff op cs b.idx _).2 ⟨b, rfl, rfl, hb⟩] at h5
    cases h5
  · rintro ⟨h1, h2⟩
    refine ⟨a.idx, (Value.arm_iff _ _ _ _).2 ⟨a, rfl, rfl, h1⟩, ?_⟩
    intro j hj
    rw [Option.eq_none_iff_forall_ne_some]
    intro r hr
    obtain ⟨b, _, rfl, hb⟩ := (Value.arm_iff _ _ _ _).1 hr
    exact absurd hj (not_lt.2 (h2 b hb))

/-- **C60 (parse errors).** `from_op` returns an error exactly if no value reads the operator with
these children; it never panics. -/
theorem c60_from_op_error (V : Decl) (op : List Char) (cs : List Id) :
    (Value.fromOp V op cs = none ↔ ∀ a : Value V, ¬ a.Reads op cs) ∧
      ∀ e, Value.fromOp V op cs ≠ some (.error e) := by
  constructor
  · show (List.finRange V.length).findSome? (Value.arm V op cs) = none ↔ _
    rw [List.findSome?_eq_none_iff]
    constructor
    · intro h a ha
      have := h a.idx (List.mem_finRange _)
      rw [(Value.arm_iff op cs a.idx _).2 ⟨a, rfl, rfl, ha⟩] at this
      cases this
    · intro h i _
      rw [Option.eq_none_iff_forall_ne_some]
      intro r hr
      obtain ⟨b, _, _, hb⟩ := (Value.arm_iff _ _ _ _).1 hr
      exact h b hb
  · intro e h
    obtain ⟨i, h1, _⟩ := (findSome_finRange (Value.arm V op cs) (.error e)).1 h
    obtain ⟨a, h2, _⟩ := (Value.arm_iff _ _ _ _).1 h1
    cases h2

/-- **C60 (round trip of a node).** If the data type of the node reads back what it prints, then the
generated `Display` and `FromOp` agree on the node exactly if no earlier variant reads its text with
the same children. -/
theorem c60_roundtrip (a : Value V) (h : (V.get a.idx).ReadsBack a.data) :
    Value.fromOp V a.show a.children = some (.ok a) ↔
      ∀ b : Value V, b.idx < a.idx → b.children = a.children → ¬ (V.get b.idx).TextOf a.show b.data := by
  have h : (V.get a.idx).TextOf a.show a.data := Variant.textOf_show _ _ h
  rw [c60_from_op]
  constructor
  · rintro ⟨_, h2⟩ b hb hc ht
    exact absurd hb (not_lt.2 (h2 b ⟨hc, ht⟩))
  · intro h2
    refine ⟨⟨rfl, h⟩, ?_⟩
    intro b hb
    by_contra hlt
    exact h2 b (not_le.1 hlt) hb.1 hb.2

/-- **C60 (any children).** What `from_op` does depends on the number of children only, and the node it
returns has exactly the given children. -/
theorem c60_uniform (V : Decl) : (text V).Uniform := by
  intro s ids n h ids' hl
  unfold text at h ⊢
  simp only at h ⊢
  split at h
  case h_2 => cases h
  rename_i a ha
  have hn : n = a.toENode := (Option.some.inj h).symm
  subst hn
  obtain ⟨⟨hc, ht⟩, hmin⟩ := (c60_from_op V s ids a).1 ha
  -- replace the children
  have swap : ∀ (v : Variant) (x : v.Ids) (l : List Id), l.length = (v.children x).length → ∃ y : v.Ids, v.children y = l := by
    intro v x l hl
    have hc : ∀ (c : ChildTy) (x : c.Val), l.length = (c.asSlice x).length → ∃ y, c.asSlice y = l := by
      intro c x hx
      refine (c.fromVec_iff l).1 ?_
      rw [hx]
      exact (c.fromVec_iff _).2 ⟨x, rfl⟩
    cases v with
    | word s => exact ⟨(), (List.length_eq_zero_iff.1 hl).symm⟩
    | wordArgs s c => exact hc c x hl
    | data t => exact ⟨(), (List.length_eq_zero_iff.1 hl).symm⟩
    | dataArgs t c => exact hc c x hl
  have swapV : ∀ (b : Value V) (l : List Id), l.length = b.children.length → ∃ y : (V.get b.idx).Ids,
      (⟨b.idx, b.data, y⟩ : Value V).children = l := fun b l hl => swap _ b.ids l hl
  obtain ⟨y, hy⟩ := swapV a ids' (by rw [hc]; exact hl)
  have : Value.fromOp V s ids' = some (.ok ⟨a.idx, a.data, y⟩) := by
    rw [c60_from_op]
    refine ⟨⟨hy, ht⟩, ?_⟩
    intro b hb
    obtain ⟨z, hz⟩ := swapV b ids (by rw [hb.1]; exact hl.symm)
    exact hmin ⟨b.idx, b.data, z⟩ ⟨hz, hb.2⟩
  rw [this]
  simp only [Value.toENode, hy]

/-- **C60 (round trip of expressions).** A well-formed expression whose nodes are read back (see
`c60_roundtrip`) is printed as a text that parses to an expression of the same term, if the texts of its
operators are atoms of s-expressions. -/
theorem c60_expr_roundtrip (e : List (Value V)) (t : Term (Op V)) (hd : Dag (e.map Value.toENode))
    (ht : ExprTerm (e.map Value.toENode) t)
    (hr : ∀ a ∈ e, Value.fromOp V a.show a.children = some (.ok a)) (ha : ∀ a ∈ e, AtomOK a.show) :
    ∃ text' e', showExpr (text V) showSexp (e.map Value.toENode) = .ok text' ∧
      parseExpr (text V) parseSexp? text' = .ok e' ∧ Dag e' ∧ ExprTerm e' t := by
  have key : ∀ (t : Term (Op V)) (i : Nat), TermOf (e.map Value.toENode) i t → Readable (text V) t ∧ OpTexts (text V) AtomOK t := by
    intro t
    induction t using Term.ind with
    | h op ts ih =>
      intro i h
      rw [termOf_iff] at h
      obtain ⟨n, hn, rfl, hcs⟩ := h
      rw [List.getElem?_map, Option.map_eq_some_iff] at hn
      obtain ⟨a, hae, rfl⟩ := hn
      have hmem := List.mem_of_getElem? hae
      have hsub : ∀ u ∈ ts, Readable (text V) u ∧ OpTexts (text V) AtomOK u := by
        intro u hu
        obtain ⟨c, _, hc⟩ := forall₂_mem_left hcs.flip hu
        exact ih u hu c hc
      refine ⟨.node ?_ (fun u hu => (hsub u hu).1), .node (ha a hmem) (fun u hu => (hsub u hu).2)⟩
      intro ids hl
      have h1 := hr a hmem
      have h2 : (text V).fromOp ((text V).show_ a.toENode.op) a.children = some a.toENode := by
        show (match Value.fromOp V a.show a.children with
          | some (.ok a) => some a.toENode
          | _ => none) = _
        rw [h1]
      refine c60_uniform V _ _ _ h2 ids ?_
      rw [hl, ← hcs.length_eq]
      rfl
  obtain ⟨h1, h2⟩ := key t _ ht.2
  exact c40_roundtrip_text (text V) _ t hd ht h1 h2

end Decl

/-! ### `SymbolLang` -/

theorem symbolLe_trans (T : DataTy) (a b c : ENode T.T) (h1 : symbolLe T a b = true) (h2 : symbolLe T b c = true) :
    symbolLe T a c = true := by
  obtain ⟨x, cs⟩ := a
  obtain ⟨y, ds⟩ := b
  obtain ⟨z, es⟩ := c
  unfold symbolLe at h1 h2 ⊢
  simp only at h1 h2 ⊢
  by_cases hxy : x = y
  · subst hxy
    by_cases hxz : x = z
    · subst hxz
      simp only [decide_true, if_true] at h1 h2 ⊢
      exact lexIds_trans _ _ _ h1 h2
    · simpa [hxz] using h2
  · by_cases hyz : y = z
    · subst hyz
      simpa [hxy] using h1
    · have h1 : T.le x y = true := by simpa [hxy] using h1
      have h2 : T.le y z = true := by simpa [hyz] using h2
      by_cases hxz : x = z
      · subst hxz
        exact absurd (T.le_antisymm _ _ h1 h2) hxy
      · simpa [hxz] using T.le_trans _ _ _ h1 h2

/-- `SymbolLang` as a language of the model: the discriminant is the operator, `src/language.rs:965-970`. -/
@[reducible] def symbolLang (T : DataTy) : @Lang T.T T.dec :=
  letI := T.dec
  { Disc := T.T
    decDisc := T.dec
    disc := fun x => x
    le := symbolLe T
    le_total := by
      rintro ⟨x, cs⟩ ⟨y, ds⟩
      unfold symbolLe
      by_cases hxy : x = y
      · subst hxy
        simpa using lexIds_total cs ds
      · have hyx : ¬ y = x := fun h => hxy h.symm
        simpa [hxy, hyx] using T.le_total x y
    le_trans := symbolLe_trans T
    le_antisymm := by
      rintro ⟨x, cs⟩ ⟨y, ds⟩ h1 h2
      unfold symbolLe at h1 h2
      simp only at h1 h2
      by_cases hxy : x = y
      · subst hxy
        simp only [decide_true, if_true] at h1 h2
        rw [lexIds_antisymm _ _ h1 h2]
      · have hyx : ¬ y = x := fun h => hxy h.symm
        exact absurd (T.le_antisymm x y (by simpa [hxy] using h1) (by simpa [hyx] using h2)) hxy }

/-- **C60 (`SymbolLang`).** The same for `SymbolLang`: e-nodes with the same operator are adjacent. -/
theorem c60_symbol_contiguous (T : DataTy) : @DiscContiguous T.T T.dec (symbolLang T) := by
  letI := T.dec
  letI := symbolLang T
  rintro ⟨x, cs⟩ ⟨y, ds⟩ ⟨z, es⟩ h1 h2 h
  have h : x = z := h
  subst h
  show y = x
  by_contra hyx
  have hxy : ¬ x = y := fun h => hyx h.symm
  have h1 : symbolLe T ⟨x, cs⟩ ⟨y, ds⟩ = true := h1
  have h2 : symbolLe T ⟨y, ds⟩ ⟨x, es⟩ = true := h2
  unfold symbolLe at h1 h2
  exact hyx (T.le_antisymm y x (by simpa [hyx] using h2) (by simpa [hxy] using h1))

/-! ### Examples -/

namespace LangEx

/-- Symbols: any text, ordered by text. -/
def sym : DataTy where
  T := List Char
  dec := inferInstance
  le := fun a b => lexIds (a.map Char.toNat) (b.map Char.toNat)
  le_total := fun a b => lexIds_total _ _
  le_trans := fun a b c => lexIds_trans _ _ _
  le_antisymm := fun a b h1 h2 => by
    have := lexIds_antisymm _ _ h1 h2
    exact (List.map_injective_iff.2 (fun x y h => Char.ext (UInt32.toNat.inj h))) this
  show_ := fun s => s
  parse := some

/-- The language `enum { "+" = Add([Id; 2]), "neg" = Neg(Id), "pi" = Pi, Sym(Symbol) }`. -/
def calcLang : Decl := [.wordArgs ['+'] (.array 2), .wordArgs ['n', 'e', 'g'] .one, .word ['p', 'i'], .data sym]

def add (a b : Nat) : Decl.Value calcLang := ⟨⟨0, by decide⟩, (), ⟨[a, b], rfl⟩⟩
def neg (a : Nat) : Decl.Value calcLang := ⟨⟨1, by decide⟩, (), (a : Nat)⟩
def pi : Decl.Value calcLang := ⟨⟨2, by decide⟩, (), ()⟩
def symbol (s : List Char) : Decl.Value calcLang := ⟨⟨3, by decide⟩, s, ()⟩

/-- `(+ pi (neg x))` is read back. -/
example : ∃ text' e', showExpr (Decl.text calcLang) showSexp ([pi, symbol ['x'], neg 1, add 0 2].map Decl.Value.toENode) = .ok text' ∧
    parseExpr (Decl.text calcLang) parseSexp? text' = .ok e' ∧ Dag e' ∧
      ∃ t, ExprTerm ([pi, symbol ['x'], neg 1, add 0 2].map Decl.Value.toENode) t ∧ ExprTerm e' t := by
  have hd : Dag ([pi, symbol ['x'], neg 1, add 0 2].map Decl.Value.toENode) := by
    intro i n h
    match i with
    | 0 | 1 | 2 | 3 =>
      simp only [List.map, List.getElem?_cons_zero, List.getElem?_cons_succ, Option.some.injEq] at h
      subst h
      intro c hc
      revert c
      decide
    | i + 4 => simp at h
  obtain ⟨t, ht⟩ := hd.exists_term 3 (by decide)
  obtain ⟨text', e', h1, h2, h3, h4⟩ := Decl.c60_expr_roundtrip [pi, symbol ['x'], neg 1, add 0 2] t hd
    ⟨by simp, ht⟩
    (by
      intro a ha
      simp only [List.mem_cons, List.not_mem_nil, or_false] at ha
      rcases ha with rfl | rfl | rfl | rfl <;> rfl)
    (by
      intro a ha
      simp only [List.mem_cons, List.not_mem_nil, or_false] at ha
      rcases ha with rfl | rfl | rfl | rfl <;>
        simp [AtomOK, NeedsQuotes, isWs, Decl.Value.show, Variant.show, pi, symbol, neg, add, calcLang, sym])
  exact ⟨text', e', h1, h2, h3, t, ⟨by simp, ht⟩, h4⟩

/-- The language `enum { "pi" = Pi, Call(Symbol, Vec<Id>) }`: calls are read back, unless they are called `pi` and have no arguments. -/
example (s : List Char) (cs : List Id) (h : s ≠ ['p', 'i'] ∨ cs ≠ []) :
    let call : Decl.Value [.word ['p', 'i'], .dataArgs sym .slice] := ⟨⟨1, by decide⟩, s, cs⟩
    Decl.Value.fromOp _ call.show call.children = some (.ok call) := by
  refine (Decl.c60_roundtrip (V := [.word ['p', 'i'], .dataArgs sym .slice]) ⟨⟨1, by decide⟩, s, cs⟩ rfl).2 ?_
  rintro ⟨⟨i, hi⟩, d, ids⟩ hlt hc ht
  have hlt : i < 1 := hlt
  obtain rfl : i = 0 := by omega
  have hc : ([] : List Id) = cs := hc
  have ht : s = ['p', 'i'] := ht
  rcases h with h | h
  · exact h ht
  · exact h hc.symm

/-- **C60 (finding).** Not every node of a generated language is read back: the symbol `pi` prints as the
text that the earlier variant reads. -/
theorem c60_shadowed : Decl.Value.fromOp calcLang (symbol ['p', 'i']).show (symbol ['p', 'i']).children = some (.ok pi) ∧
    symbol ['p', 'i'] ≠ pi := by
  refine ⟨rfl, ?_⟩
  intro h
  have := congrArg Decl.Value.idx h
  cases this

end LangEx
end Egg
