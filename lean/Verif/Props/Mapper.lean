import Verif.Lemmas.Mapper
import Verif.Props.Rebuild
/-
C46: translating an e-graph to another language.
-/
namespace Egg
variable {Op Op2 D D2 : Type} [DecidableEq Op] [Lang Op] [DecidableEq Op2] [Lang Op2]
variable (m : LanguageMapper Op Op2 D D2)

/-- **C46**, ids and equality: `find` answers as before (so the same ids are valid and the same
ids are equal), the `clean` flag is kept and explanations are off. -/
theorem c46_ids (eg : EGraph Op D) :
    (∀ i, (m.mapEGraph eg).find i = eg.find i) ∧ (∀ a b, SameClass (m.mapEGraph eg) a b ↔ SameClass eg a b) ∧
    (∀ i, Valid (m.mapEGraph eg) i ↔ Valid eg i) ∧ (m.mapEGraph eg).clean = eg.clean ∧
    (m.mapEGraph eg).explain = none :=
  ⟨fun _ => rfl, fun _ _ => Iff.rfl, fun _ => Iff.rfl, rfl, rfl⟩

/-- **C46**, represented terms: a class of the result represents exactly the translations,
operator by operator, of the terms the class with this id represented.  (For every translation.) -/
theorem c46_terms (eg : EGraph Op D) (c : Id) (t2 : Term Op2) :
    Rep (m.mapEGraph eg) c t2 ↔ ∃ t, Rep eg c t ∧ t2 = t.map m.mapOp :=
  m.rep_map

/-- **C46**, analysis data and e-nodes of a class. -/
theorem c46_class (eg : EGraph Op D) (c : Id) :
    (m.mapEGraph eg).index c = (eg.index c).map m.mapEClass := by
  unfold EGraph.index
  rw [LanguageMapper.find_map]
  cases eg.find c with
  | error e => rfl
  | ok r =>
    simp only [ok_bind, LanguageMapper.get_classes]
    cases eg.classes.get? r <;> rfl

/-- **C46**, lookups: an injective translation of operators keeps the answers of `lookup`. -/
theorem c46_lookup (hm : Function.Injective m.mapOp) (eg : EGraph Op D) (n : ENode Op) :
    (m.mapEGraph eg).lookup (m.mapNode n) = eg.lookup n := by
  have hc : (m.mapEGraph eg).canon (m.mapNode n) = (eg.canon n).map m.mapNode := by
    show (do let cs ← n.children.mapM eg.find; .ok (⟨m.mapOp n.op, cs⟩ : ENode Op2) : Res (ENode Op2)) =
      Except.map m.mapNode (do let cs ← n.children.mapM eg.find; .ok (⟨n.op, cs⟩ : ENode Op))
    cases n.children.mapM eg.find <;> rfl
  unfold EGraph.lookup EGraph.lookupInternal
  rw [hc]
  cases eg.canon n with
  | error e => rfl
  | ok k =>
    show (do let o ← (.ok ((m.mapEGraph eg).memo.get? (m.mapNode k)) : Res (Option Id))
             match o with
              | none => .ok none
              | some i => do let r ← eg.find i; .ok (some r) : Res (Option Id)) = _
    rw [LanguageMapper.get_memo hm]
    rfl

/-- **C46**, cleanness: a rebuilt e-graph is translated to a rebuilt e-graph, provided that the
translation of operators and of discriminants is injective, the two fit together, and the order
of e-nodes is kept. -/
theorem c46_rebuilt (hm : Function.Injective m.mapOp)
    (hle : ∀ a b : ENode Op, Lang.le (m.mapNode a) (m.mapNode b) = Lang.le a b)
    (hdi : Function.Injective m.mapDisc) (hd : ∀ o, Lang.disc (m.mapOp o) = m.mapDisc (Lang.disc o))
    {eg : EGraph Op D} (h : Rebuilt eg) : Rebuilt (m.mapEGraph eg) :=
  LanguageMapper.rebuilt_map hm hle hdi hd h

/-- The translation of a recorded union. -/
def UnionRec.map (f : Op → Op2) (u : UnionRec Op) : UnionRec Op2 := ⟨u.reason, u.a, u.b, u.s.map f, u.t.map f⟩

/-- **C46**, going on with the result: after any history in the first language, an injective
translation, any further operations in the second language and `rebuild`, two ids are in the
same class iff their terms are equal by the translated unions of the first part and the unions
of the second part. -/
theorem c46_continue (hm : Function.Injective m.mapOp) {A : UserAnalysis Op D} {A2 : UserAnalysis Op2 D2}
    {depth depth2 : Nat} {allow : Caller Op D} {allow2 : Caller Op2 D2}
    (hA : ∀ i, A.modify i = .done) (hA2 : ∀ i, A2.modify i = .done)
    {U : List (UnionRec Op)} {V : List (UnionRec Op2)} {eg : EGraph Op D} {eg1 eg2 : EGraph Op2 D2} {fuel k : Nat}
    (h : Hist (A.at depth) allow U eg) (h1 : Steps (A2.at depth2) allow2 (m.mapEGraph eg) V eg1)
    (hr : EGraph.rebuild (A2.at depth2) fuel eg1 = .ok (eg2, k))
    {a b : Id} {s t : Term Op2} (ha : Rep eg2 a s) (hb : Rep eg2 b t) :
    SameClass eg2 a b ↔ GEq (eqsOf (V ++ U.map (UnionRec.map m.mapOp))) s t := by
  have hS := soundFor_of_quiet hA (GEq (eqsOf U)) .geq
  obtain ⟨hg, hU⟩ := hist_good_of_sound hS h (fun _ _ => .ax)
  have hS2 := soundFor_of_quiet hA2 (GEq (eqsOf (V ++ U.map (UnionRec.map m.mapOp)))) .geq
  have hg0 := LanguageMapper.good_map (m := m) hm hg (R := GEq (eqsOf (V ++ U.map (UnionRec.map m.mapOp)))) .geq (by
    intro s t hst
    refine GEq.map ?_ hst
    rintro s t ⟨u, hu, rfl, rfl⟩
    exact ⟨u.map m.mapOp, List.mem_append_right _ (List.mem_map.2 ⟨u, hu, rfl⟩), rfl, rfl⟩) anyReason
  have hN := hS2.hookOK trivial depth2
  obtain ⟨hg1, hgr1, hV⟩ := EGraph.Steps.good hN
    (fun _ _ _ _ _ => ⟨fun _ _ => ⟨trivial, trivial⟩, fun _ _ => trivial⟩) h1
    (fun u hu => ⟨.ax ⟨u, List.mem_append_left _ hu, rfl, rfl⟩, trivial⟩) hg0
  obtain ⟨hg2, hext, htidy, _⟩ := (EGraph.rebuild_post trivial hN fuel hg1).elim hr
  have hgr2 := hext.grow hg1 hg2
  have hall : ∀ u ∈ V ++ U.map (UnionRec.map m.mapOp),
      Rep eg2 u.a u.s ∧ Rep eg2 u.b u.t ∧ eg2.rt u.a = eg2.rt u.b := by
    have hlift : ∀ {u : UnionRec Op2}, Rep eg1 u.a u.s → Rep eg1 u.b u.t → eg1.rt u.a = eg1.rt u.b →
        Rep eg2 u.a u.s ∧ Rep eg2 u.b u.t ∧ eg2.rt u.a = eg2.rt u.b := fun k1 k2 k3 =>
      ⟨hgr2.rep _ _ k1, hgr2.rep _ _ k2, hgr2.rt _ _ (hg1.inv.rep_lt k1) (hg1.inv.rep_lt k2) k3⟩
    intro u hu
    rcases List.mem_append.1 hu with hu | hu
    · obtain ⟨k1, k2, k3⟩ := hV u hu
      exact hlift k1 k2 k3
    · obtain ⟨v, hv, rfl⟩ := List.mem_map.1 hu
      obtain ⟨k1, k2, k3⟩ := hU v hv
      have k1' : Rep (m.mapEGraph eg) v.a (v.s.map m.mapOp) := (c46_terms m eg _ _).2 ⟨_, k1, rfl⟩
      have k2' : Rep (m.mapEGraph eg) v.b (v.t.map m.mapOp) := (c46_terms m eg _ _).2 ⟨_, k2, rfl⟩
      exact hlift (u := v.map m.mapOp) (hgr1.rep _ _ k1') (hgr1.rep _ _ k2')
        (hgr1.rt _ _ (hg0.inv.rep_lt k1') (hg0.inv.rep_lt k2') k3)
  constructor
  · intro hab
    exact hg2.sensible.sound a b s t hab ha hb
  · intro hst
    have := (rebuilt_closed hg2 htidy.pending hall hst a).1 ha
    rw [hg2.inv.sameClass_iff]
    exact ⟨hg2.inv.rep_lt ha, hg2.inv.rep_lt hb, EGraph.InvW.rep_unique hg2.inv htidy.pending t this hb⟩

/-! ### Examples -/

/-- A translation that exchanges `f` and `g` and keeps the rest. -/
def Ex.swapFG : Ex.S → Ex.S
  | .f => .g | .g => .f | s => s

theorem Ex.swapFG_inj : Function.Injective Ex.swapFG := by
  intro x y; cases x <;> cases y <;> simp [Ex.swapFG]

def Ex.mapper : LanguageMapper Ex.S Ex.S Unit Unit := ⟨Ex.swapFG, Ex.swapFG, id⟩

def Ex.mg0 : Ex.G := Ex.mapper.mapEGraph Ex.e6
def Ex.mg1 : Ex.G := Ex.st (EGraph.addUncanonical Ex.N0 Ex.mg0 (Ex.leaf .c))
def Ex.mg2 : Ex.G := Ex.st (EGraph.addUncanonical Ex.N0 Ex.mg1 (Ex.app .g [4]))
def Ex.mg3 : Ex.G := Ex.st (EGraph.union Ex.N0 Ex.mg2 2 5 9)
def Ex.mg4 : Ex.G := Ex.st (EGraph.rebuild Ex.N0 20 Ex.mg3)
def Ex.mun : UnionRec Ex.S := ⟨9, 2, 5, Ex.T .g [Ex.ta], Ex.T .g [Ex.T .c []]⟩

theorem Ex.rep_mg2_ga : Rep Ex.mg2 2 (Ex.T .g [Ex.ta]) :=
  Rep.mk (n := Ex.app .g [0]) rfl rfl (by decide) rfl (by
    intro k d t hd ht
    match k with
    | 0 => cases hd; cases ht; exact Ex.rep_leaf rfl rfl (by decide)
    | k + 1 => cases hd)

theorem Ex.rep_mg2_gc : Rep Ex.mg2 5 (Ex.T .g [Ex.T .c []]) :=
  Rep.mk (n := Ex.app .g [4]) rfl rfl (by decide) rfl (by
    intro k d t hd ht
    match k with
    | 0 => cases hd; cases ht; exact Ex.rep_leaf rfl rfl (by decide)
    | k + 1 => cases hd)

theorem Ex.steps_mg3 : Steps (Ex.U0.at 1) .noSet Ex.mg0 [Ex.mun] Ex.mg3 :=
  Steps.tail (V := [Ex.mun]) (U := []) (Steps.tail (V := []) (eg' := Ex.mg1)
    (Steps.tail (V := []) .refl (.add (n := Ex.leaf .c) (i := 4) rfl))
    (.add (n := Ex.app .g [4]) (i := 5) rfl)) (.union (r := true) Ex.rep_mg2_ga Ex.rep_mg2_gc rfl)

/-- Hypotheses of C46 are met: the e-graph with `a = b`, `f a = f b` is translated; then `g c` is
added to the result and united with `g a`. -/
example : Function.Injective Ex.mapper.mapOp ∧ Function.Injective Ex.mapper.mapDisc ∧
    (∀ o, Lang.disc (Ex.mapper.mapOp o) = Ex.mapper.mapDisc (Lang.disc o)) ∧
    Hist (Ex.U0.at 1) .noSet [Ex.un] Ex.e6 ∧ Rebuilt Ex.e6 ∧
    Steps (Ex.U0.at 1) .noSet (Ex.mapper.mapEGraph Ex.e6) [Ex.mun] Ex.mg3 ∧
    EGraph.rebuild (Ex.U0.at 1) 20 Ex.mg3 = .ok (Ex.mg4, 0) ∧ SameClass Ex.mg4 3 5 ∧ ¬ SameClass Ex.mg4 0 4 :=
  ⟨Ex.swapFG_inj, Ex.swapFG_inj, fun _ => rfl, Ex.hist6 _,
    c47_clean_means_rebuilt (A := Ex.U0) (depth := 1) (Ex.hist6 .noSet) rfl, Ex.steps_mg3, rfl,
    ⟨_, rfl, rfl⟩, by rintro ⟨r, h1, h2⟩; cases h1; cases h2⟩

/-- A translation that maps `a` and `b` to `a`. -/
def Ex.collapse : LanguageMapper Ex.S Ex.S Unit Unit :=
  ⟨fun s => if s = .b then .a else s, fun s => if s = .b then .a else s, id⟩

/-- Without injectivity the result may be marked clean although congruent e-nodes are in different
classes: `a` and `b` become the same constant `a`, in two classes, and `rebuild` does not unite
them. -/
theorem c46_collapse_counterexample :
    Rebuilt (Ex.st (EGraph.rebuild Ex.N0 20 Ex.e4)) ∧
    (Ex.collapse.mapEGraph (Ex.st (EGraph.rebuild Ex.N0 20 Ex.e4))).clean = true ∧
    ∃ eg k, EGraph.rebuild Ex.N0 20 (Ex.collapse.mapEGraph (Ex.st (EGraph.rebuild Ex.N0 20 Ex.e4))) = .ok (eg, k) ∧
      Rep eg 0 Ex.ta ∧ Rep eg 1 Ex.ta ∧ ¬ SameClass eg 0 1 := by
  have hh : Hist (Ex.U0.at 1) .noSet [] (Ex.st (EGraph.rebuild Ex.N0 20 Ex.e4)) :=
    Steps.tail (V := []) (Ex.hist4 _) (.rebuild (fuel := 20) (n := 0) rfl)
  refine ⟨c47_clean_means_rebuilt hh rfl, rfl, _, _, rfl, Ex.rep_leaf rfl rfl (by decide), Ex.rep_leaf rfl rfl (by decide), ?_⟩
  rintro ⟨r, h1, h2⟩
  cases h1; cases h2

/-- The operators of `Ex.S` as numbers, in a language whose discriminant is coarser: all
operators share it (as the variants of an enum with a payload do). -/
structure Ex.NL where
  code : Nat
deriving DecidableEq

instance : Lang Ex.NL where
  Disc := Unit
  decDisc := inferInstance
  disc := fun _ => ()
  le := fun n m => Ex.lexLe (n.op.code :: n.children) (m.op.code :: m.children)
  le_total := fun _ _ => Ex.lexLe_total _ _
  le_trans := fun _ _ _ => Ex.lexLe_trans _ _ _
  le_antisymm := fun a b h1 h2 => by
    have := Ex.lexLe_antisymm _ _ h1 h2
    obtain ⟨⟨x⟩, cs⟩ := a
    obtain ⟨⟨y⟩, ds⟩ := b
    simp only [List.cons.injEq] at this
    rw [this.1, this.2]

def Ex.toNL : LanguageMapper Ex.S Ex.NL Unit Unit := ⟨fun s => ⟨s.code⟩, fun _ => (), id⟩

/-- An injective, order-preserving translation that merges discriminants loses entries of the
operator index: the result is marked clean, the class of `f a` is there, but it is missing from
the index entry that a search for `f` consults. -/
theorem c46_index_counterexample :
    Function.Injective Ex.toNL.mapOp ∧ (∀ a b, Lang.le (Ex.toNL.mapNode a) (Ex.toNL.mapNode b) = Lang.le a b) ∧
    (∀ o, Lang.disc (Ex.toNL.mapOp o) = Ex.toNL.mapDisc (Lang.disc o)) ∧ Rebuilt Ex.e6 ∧
    (Ex.toNL.mapEGraph Ex.e6).clean = true ∧ Rep (Ex.toNL.mapEGraph Ex.e6) 2 (Ex.tfa.map Ex.toNL.mapOp) ∧
    (Ex.toNL.mapEGraph Ex.e6).find 2 = .ok 2 ∧
    (Ex.toNL.mapEGraph Ex.e6).classesForOp (Lang.disc (Ex.toNL.mapOp .f)) = some [0] := by
  refine ⟨?_, fun _ _ => rfl, fun _ => rfl, c47_clean_means_rebuilt (A := Ex.U0) (depth := 1) (Ex.hist6 .noSet) rfl, rfl,
    (c46_terms _ _ _ _).2 ⟨_, Ex.rep_e6_fa, rfl⟩, rfl, rfl⟩
  intro x y h
  cases x <;> cases y <;> simp [Ex.toNL, Ex.S.code] at h ⊢

/-- The same target language with a discriminant for each operator. -/
structure Ex.NM where
  code : Nat
deriving DecidableEq

instance : Lang Ex.NM where
  Disc := Nat
  decDisc := inferInstance
  disc := fun o => o.code
  le := fun n m => Ex.lexLe (n.op.code :: n.children) (m.op.code :: m.children)
  le_total := fun _ _ => Ex.lexLe_total _ _
  le_trans := fun _ _ _ => Ex.lexLe_trans _ _ _
  le_antisymm := fun a b h1 h2 => by
    have := Ex.lexLe_antisymm _ _ h1 h2
    obtain ⟨⟨x⟩, cs⟩ := a
    obtain ⟨⟨y⟩, ds⟩ := b
    simp only [List.cons.injEq] at this
    rw [this.1, this.2]

def Ex.toNM : LanguageMapper Ex.S Ex.NM Unit Unit := ⟨fun s => ⟨s.code⟩, fun s => Ex.S.code s, id⟩

/-- Hypotheses of `c46_rebuilt` are met. -/
example : Function.Injective Ex.toNM.mapOp ∧ (∀ a b, Lang.le (Ex.toNM.mapNode a) (Ex.toNM.mapNode b) = Lang.le a b) ∧
    Function.Injective Ex.toNM.mapDisc ∧ (∀ o, Lang.disc (Ex.toNM.mapOp o) = Ex.toNM.mapDisc (Lang.disc o)) ∧ Rebuilt Ex.e6 := by
  refine ⟨?_, fun _ _ => rfl, fun _ _ h => Ex.S.code_inj h, fun _ => rfl,
    c47_clean_means_rebuilt (A := Ex.U0) (depth := 1) (Ex.hist6 .noSet) rfl⟩
  intro x y h
  cases x <;> cases y <;> simp [Ex.toNM, Ex.S.code] at h ⊢

end Egg
