import Verif.Lemmas.Search
/-
Patterns as searchers.
-/
namespace Egg
variable {Op D : Type} [DecidableEq Op] [Lang Op]

section
variable {C : Cfg Op D} {eg : EGraph Op D}

theorem order_ok (h : EGraph.Inv C eg) {ord : IterOrd} (ho : ord.OK eg) :
    (∀ x, x ∈ ord.classes ↔ x < eg.nodes.length ∧ eg.rt x = x) ∧ ord.classes.Nodup := by
  have hid : ∀ kc ∈ eg.classes, kc.2.id = kc.1 := by
    rintro ⟨k, c⟩ hm
    have hg := (AMap.mem_iff_get? h.clsNodup).1 hm
    exact h.core.clsId k _ (EGraph.sk_eq hg)
  have hmap : eg.classes.map (fun kc => kc.2.id) = AMap.keys eg.classes := by
    unfold AMap.keys
    exact List.map_congr_left hid
  have hp := ho.classes
  rw [hmap] at hp
  refine ⟨fun x => ?_, hp.nodup_iff.2 h.clsNodup⟩
  rw [hp.mem_iff, ← AMap.get?_isSome_iff, ← h.core.clsKey]
  unfold EGraph.sk
  simp

/-- One class at a time, until the limit is used up. -/
theorem searchEclasses_spec {search : Id → Nat → Res (Option (SearchMatches Op))} {L : Id → List Subst}
    {a : Option (PatternAst Op)} : ∀ (cs : List Id) (_ : ∀ c ∈ cs, ∀ limit,
      search c limit = .ok (if ((L c).take limit).isEmpty then none else some ⟨c, (L c).take limit, a⟩)) (limit : Nat),
    ∃ ms, searchEclassesWithLimit search cs limit = .ok ms ∧
      flat ms = (cs.flatMap (fun c => (L c).map (fun s => (c, s)))).take limit ∧
      (ms.map (fun m => m.eclass)).Sublist cs ∧ ∀ m ∈ ms, m.substs ≠ [] ∧ m.ast = a
  | [], _, limit => ⟨[], rfl, by simp [flat], by simp, by simp⟩
  | c :: cs, hs, limit => by
    unfold searchEclassesWithLimit
    by_cases h0 : limit = 0
    · subst h0
      exact ⟨[], by simp, by simp [flat], by simp, by simp⟩
    rw [if_neg h0, hs c (by simp) limit, ok_bind]
    by_cases he : ((L c).take limit).isEmpty = true
    · rw [if_pos he]
      have hL : L c = [] := by
        rw [List.isEmpty_iff, List.take_eq_nil_iff] at he
        rcases he with he | he
        · exact absurd he h0
        · exact he
      obtain ⟨ms, h1, h2, h3, h4⟩ := searchEclasses_spec cs (fun c' hc' => hs c' (by simp [hc'])) limit
      exact ⟨ms, h1, by rw [h2]; simp [hL], h3.cons _, h4⟩
    · rw [if_neg he]
      dsimp only
      have hle : ((L c).take limit).length ≤ limit := by simp
      rw [if_pos hle]
      obtain ⟨ms, h1, h2, h3, h4⟩ := searchEclasses_spec cs (fun c' hc' => hs c' (by simp [hc']))
        (limit - ((L c).take limit).length)
      rw [h1, ok_bind]
      refine ⟨_, rfl, ?_, ?_, ?_⟩
      · show ((L c).take limit).map (fun s => (c, s)) ++ flat ms = _
        rw [h2, List.flatMap_cons, List.take_append, List.length_map, List.map_take]
        congr 2
        simp
        omega
      · simpa using h3
      · intro m hm
        rcases List.mem_cons.1 hm with rfl | hm
        · refine ⟨fun hn => he ?_, rfl⟩
          show ((L c).take limit).isEmpty = true
          rw [show (L c).take limit = [] from hn]; rfl
        · exact h4 m hm

end

/-! ### Compaction of a pattern -/

namespace RecExpr
omit [Lang Op]

theorem compact_pat {ast e : PatternAst Op} (hw : PatWF ast) (he : compact ast = .ok e) : PatWF e := by
  have hd : Dag ast := hw.1.2
  obtain ⟨e', ids, h1, h2⟩ := compact_spec hd
  rw [he] at h1
  cases h1
  have hlen : 0 < ids.length := by rw [h2.len]; exact List.length_pos_iff.2 hw.1.1
  refine ⟨⟨?_, h2.dag⟩, ?_⟩
  · rintro rfl
    have := (h2.term 0 _ (List.getElem?_eq_getElem hlen)).1
    simp at this
  · intro n hn v hv
    obtain ⟨i, hi, hin⟩ := List.mem_iff_getElem.1 hn
    have hin : e[i]? = some n := by rw [List.getElem?_eq_getElem hi, hin]
    obtain ⟨j, hj⟩ := h2.onto i hi
    have hjl : j < ast.length := by rw [← h2.len]; exact getElem?_lt hj
    obtain ⟨t, ht⟩ := hd.exists_term j hjl
    have htw := VarLeaf.twf (p := ast) hw.2 t ht
    have hte := (h2.term j i hj).2 t ht
    cases t with
    | node op ts =>
      rw [termOf_iff] at hte
      obtain ⟨m, g1, g2, g3⟩ := hte
      rw [hin] at g1; cases g1
      rw [hv] at g2; subst g2
      have := htw v ts .refl
      subst this
      exact List.forall₂_nil_right_iff.1 g3

end RecExpr

omit [Lang Op] in
theorem patWF_term {e : PatternAst Op} (hw : PatWF e) : ∃ t, ExprTerm e t := by
  obtain ⟨t, ht⟩ := Dag.exists_term (show Dag e from hw.1.2) (e.length - 1)
    (by have := List.length_pos_iff.2 hw.1.1; omega)
  exact ⟨t, hw.1.1, ht⟩

section
variable {C : Cfg Op D} {eg : EGraph Op D}

/-- The compiled program of a pattern. -/
theorem pattern_fin (h : EGraph.Inv C eg) (hr : Rebuilt eg) (hdc : DiscContiguous Op)
    {ordc : Compiler Op → List (Id × Nat)} (hoc : OrdOK ordc) (order : List Id) {fuel : Nat} {ast : PatternAst Op}
    {p : Pattern Op} (hw : PatWF ast) (hp : Pattern.new ordc fuel ast = .ok p) {t : Term (PatOp Op)} (ht : ExprTerm p.ast t) :
    ∃ c : Compiler Op, p.program = c.extract ∧ PatWF p.ast ∧
      Compiler.Fin eg order c (fun σ c0 => PMatch eg σ c0 t) (fun v => Occurs v t) := by
  unfold Pattern.new at hp
  rw [bind_eq_ok] at hp
  obtain ⟨e, h1, hp⟩ := hp
  rw [bind_eq_ok] at hp
  obtain ⟨pr, h2, hp⟩ := hp
  cases hp
  have hwe := RecExpr.compact_pat hw h1
  unfold Program.compileFromPat at h2
  rw [bind_eq_ok] at h2
  obtain ⟨c, h3, h2⟩ := h2
  cases h2
  refine ⟨c, rfl, hwe, ?_⟩
  have := (Compiler.compile_first (order := order) hoc h hr hdc hwe.1.2 hwe.2 ht h3).1
  refine ⟨this.laid, this.vlt, this.vkeys, this.todo, ?_, this.uniq, ?_⟩
  · intro σ c0; rw [this.sols]; simp
  · intro v; rw [this.vs]; simp

/-- `Pattern::new` succeeds on well-formed patterns. -/
theorem pattern_new_total {ordc : Compiler Op → List (Id × Nat)} (hoc : OrdOK ordc) {ast : PatternAst Op}
    (hw : PatWF ast) : ∃ f0 p, ∀ fuel, f0 ≤ fuel → Pattern.new ordc fuel ast = .ok p := by
  obtain ⟨e, ids, h1, -⟩ := RecExpr.compact_spec (show Dag ast from hw.1.2)
  have hwe := RecExpr.compact_pat hw h1
  obtain ⟨f0, c, hc, -⟩ := Compiler.compile_total hoc (show Dag e from hwe.1.2) hwe.2 hwe.1.1 (c := Compiler.new) (.inl rfl) none
  refine ⟨f0, ⟨e, c.extract⟩, fun fuel hf => ?_⟩
  unfold Pattern.new Program.compileFromPat
  rw [h1, ok_bind, hc fuel hf]
  rfl

theorem valid_iff (h : EGraph.Inv C eg) {c : Id} : Valid eg c ↔ c < eg.nodes.length := by
  constructor
  · rintro ⟨r, hr⟩; exact (h.find_iff.1 hr).1
  · intro hc; exact ⟨_, h.find hc⟩

/-- The search of one class by a compiled program. -/
theorem searchEclass_eq (h : EGraph.Inv C eg) (hr : Rebuilt eg) (hdc : DiscContiguous Op) (hcl : eg.clean = true)
    (N : Analysis Op D) {ord : IterOrd} (ho : ord.OK eg) {p : Pattern Op} {c : Compiler Op} (hpc : p.program = c.extract)
    {Q : (Var → Option Id) → Id → Prop} {V : Var → Prop}
    (hf : Compiler.Fin eg ord.classes c Q V) {c0 : Id} (hc0 : c0 < eg.nodes.length) (limit : Nat) :
    p.searchEclassWithLimit N eg ord c0 limit =
      .ok (if ((matchesOf N.allowCycles eg ord.classes p.program c0).take limit).isEmpty then none
        else some ⟨c0, (matchesOf N.allowCycles eg ord.classes p.program c0).take limit, some p.ast⟩) := by
  unfold Pattern.searchEclassWithLimit
  rw [hpc, hf.run h hr hdc (fun c hc => ((order_ok h ho).1 c |>.1 hc).1) N hcl hc0, ok_bind]
  split <;> rfl

/-- The classes visited by the search of a pattern. -/
def visited (eg : EGraph Op D) (ord : IterOrd) (t : Term (PatOp Op)) : List Id :=
  match t with
  | .node (.op o) _ => match eg.classesForOp (Lang.disc o) with
    | none => []
    | some ids => ord.byOp ids
  | .node (.var _) _ => ord.classes

omit [DecidableEq Op] [Lang Op] in
theorem exprTerm_last {e : PatternAst Op} {o : PatOp Op} {ts : List (Term (PatOp Op))} (ht : ExprTerm e (.node o ts)) :
    ∃ n : ENode (PatOp Op), e.getLast? = some n ∧ n.op = o := by
  have h2 := ht.2
  rw [termOf_iff] at h2
  obtain ⟨n, h3, h4, _⟩ := h2
  exact ⟨n, by rw [List.getLast?_eq_getElem?]; exact h3, h4⟩

theorem search_eq (N : Analysis Op D) {ord : IterOrd} {p : Pattern Op} {t : Term (PatOp Op)} (ht : ExprTerm p.ast t)
    (limit : Nat) : p.searchWithLimit N eg ord limit =
      searchEclassesWithLimit (p.searchEclassWithLimit N eg ord) (visited eg ord t) limit := by
  cases t with
  | node o ts =>
    obtain ⟨n, h1, h2⟩ := exprTerm_last ht
    unfold Pattern.searchWithLimit
    rw [h1]
    simp only [unwrap_some, ok_bind, h2]
    cases o with
    | var v => rfl
    | op o =>
      simp only [visited]
      cases eg.classesForOp (Lang.disc o) with
      | none => unfold searchEclassesWithLimit; rfl
      | some ids => rfl

/-- The visited classes: canonical, each once, and every class with a match. -/
theorem visited_spec (h : EGraph.Inv C eg) (hr : Rebuilt eg) {ord : IterOrd} (ho : ord.OK eg) (t : Term (PatOp Op)) :
    (visited eg ord t).Nodup ∧ (∀ x ∈ visited eg ord t, eg.find x = .ok x) ∧
    ∀ σ c, PMatch eg σ c t → eg.find c = .ok c → c ∈ visited eg ord t := by
  obtain ⟨o1, o2⟩ := order_ok h ho
  cases t with
  | node o ts =>
    cases o with
    | var v =>
      refine ⟨o2, fun x hx => ?_, fun σ c hc hcc => ?_⟩
      · rw [h.find_iff]; exact (o1 x).1 hx
      · rw [h.find_iff] at hcc; exact (o1 c).2 hcc
    | op o =>
      simp only [visited]
      cases hco : eg.classesForOp (Lang.disc o) with
      | none =>
        refine ⟨by simp, by simp, fun σ c hc hcc => ?_⟩
        rw [pmatch_node_iff] at hc
        obtain ⟨k, n, h1, h2, h3, _⟩ := hc
        rw [h.index_iff, (h.find_iff.1 hcc).2] at h1
        obtain ⟨l, hl, _⟩ := (hr.index (Lang.disc o) c).2 ⟨k, h1.2, n, h2, by rw [h3]⟩
        rw [hco] at hl; cases hl
      | some l =>
        have hperm := ho.byOp l
        refine ⟨hperm.nodup_iff.2 (hr.indexNodup _ l hco), fun x hx => ?_, fun σ c hc hcc => ?_⟩
        · obtain ⟨cl, h1, _⟩ := (hr.index (Lang.disc o) x).1 ⟨l, hco, hperm.mem_iff.1 hx⟩
          exact hr.keys x cl h1
        · rw [pmatch_node_iff] at hc
          obtain ⟨k, n, h1, h2, h3, _⟩ := hc
          rw [h.index_iff, (h.find_iff.1 hcc).2] at h1
          obtain ⟨l', hl, hm⟩ := (hr.index (Lang.disc o) c).2 ⟨k, h1.2, n, h2, by rw [h3]⟩
          rw [hco] at hl; cases hl
          exact hperm.mem_iff.2 hm

end
end Egg
