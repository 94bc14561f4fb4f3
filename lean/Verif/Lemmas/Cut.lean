import Verif.Lemmas.IdToPattern
import Verif.Lemmas.Search
import Verif.Props.Convert
import Verif.Spec.Cut
/-
`id_to_pattern` with substitutions is `id_to_expr` on a table of nodes in which the
substituted ids are variables.
-/
namespace Egg
variable {Op D : Type}

/-- The node of the id `i` of the pattern. -/
def cutNode (varOf : Id → Var) (subs : AMap Id Id) (i : Id) (n : ENode Op) : ENode (PatOp Op) :=
  if subs.get? i = none then opNode n else ⟨.var (varOf i), []⟩

/-- The node table with variables. -/
def cutNodes (varOf : Id → Var) (subs : AMap Id Id) (nodes : List (ENode Op)) : List (ENode (PatOp Op)) :=
  nodes.mapIdx (cutNode varOf subs)

theorem cutNodes_get {varOf : Id → Var} {subs : AMap Id Id} {nodes : List (ENode Op)} {i : Id} :
    (cutNodes varOf subs nodes)[i]? = nodes[i]?.map (cutNode varOf subs i) := by
  unfold cutNodes; rw [List.getElem?_mapIdx]

theorem cutNodes_length {varOf : Id → Var} {subs : AMap Id Id} {nodes : List (ENode Op)} :
    (cutNodes varOf subs nodes).length = nodes.length := by simp [cutNodes]

theorem cutNodes_dag {varOf : Id → Var} {subs : AMap Id Id} {nodes : List (ENode Op)} (hd : Dag nodes) :
    Dag (cutNodes varOf subs nodes) := by
  intro i n hn c hc
  rw [cutNodes_get, Option.map_eq_some_iff] at hn
  obtain ⟨m, hm, rfl⟩ := hn
  unfold cutNode at hc
  split at hc
  · exact hd i m hm c hc
  · cases hc

/-- What of the state of `id_to_pattern` is in that of `id_to_expr`. -/
def PatCopy.pair (r : PatCopy Op × Id) : (PatternAst Op × AMap Id Id) × Id := ((r.1.res, r.1.cache), r.2)

theorem idToPatternGo_cut {varOf : Id → Var} {subs : AMap Id Id} {nodes : List (ENode Op)} (hd : Dag nodes) :
    ∀ (k : Nat) (st : PatCopy Op) (i : Id), i < nodes.length →
    (idToPatternGo varOf nodes subs k st i).map PatCopy.pair = idToExprGo (cutNodes varOf subs nodes) k (st.res, st.cache) i := by
  intro k
  induction k with
  | zero => intro st i _; rfl
  | succ k ih =>
    intro st i hi
    unfold idToPatternGo idToExprGo
    dsimp only
    cases st.cache.get? i with
    | some e => rfl
    | none =>
      have hn : nodes[i]? = some nodes[i] := List.getElem?_eq_getElem hi
      have hc : getIdx (cutNodes varOf subs nodes) i = .ok (cutNode varOf subs i nodes[i]) := by
        unfold getIdx; rw [cutNodes_get, hn]; rfl
      rw [hc, ok_bind]
      cases hs : subs.get? i with
      | some e =>
        have : cutNode varOf subs i nodes[i] = ⟨.var (varOf i), []⟩ := by unfold cutNode; rw [hs]; rfl
        rw [this]
        rfl
      | none =>
        have : cutNode varOf subs i nodes[i] = opNode nodes[i] := by unfold cutNode; rw [hs]; rfl
        rw [this]
        have hg : getIdx nodes i = .ok nodes[i] := by unfold getIdx; rw [hn]
        rw [hg]
        have key : ∀ (cs : List Id) (st : PatCopy Op), (∀ c ∈ cs, c < nodes.length) →
            (mapAccumM (idToPatternGo varOf nodes subs k) st cs).map (fun r => ((r.1.res, r.1.cache), r.2)) =
              mapAccumM (idToExprGo (cutNodes varOf subs nodes) k) (st.res, st.cache) cs := by
          intro cs
          induction cs with
          | nil => intro st _; rfl
          | cons c cs ihc =>
            intro st hcs
            unfold mapAccumM
            rw [← ih st c (hcs c (by simp))]
            cases idToPatternGo varOf nodes subs k st c with
            | error e => rfl
            | ok r =>
              simp only [Except.map, ok_bind, PatCopy.pair]
              rw [← ihc _ (fun c hc => hcs c (by simp [hc]))]
              cases mapAccumM (idToPatternGo varOf nodes subs k) r.1 cs <;> rfl
        simp only [ok_bind]
        have hch : (opNode nodes[i]).children = nodes[i].children := rfl
        rw [hch, ← key _ _ (fun c hc => (hd i _ hn c hc).trans hi)]
        cases mapAccumM (idToPatternGo varOf nodes subs k) st nodes[i].children with
        | error e => rfl
        | ok r => rfl

/-- The substitution built so far. -/
def SbOK (varOf : Id → Var) (subs : AMap Id Id) (st : PatCopy Op) : Prop :=
  ∀ v e, st.subst.get v = some e ↔ ∃ j, v = varOf j ∧ st.cache.get? j ≠ none ∧ subs.get? j = some e

theorem idToPatternGo_subst {varOf : Id → Var} (hv : Function.Injective varOf) {subs : AMap Id Id} {nodes : List (ENode Op)} :
    ∀ (k : Nat) (st : PatCopy Op) (i : Id) {st' j}, SbOK varOf subs st →
    idToPatternGo varOf nodes subs k st i = .ok (st', j) → SbOK varOf subs st' := by
  intro k
  induction k with
  | zero => intro st i st' j _ h; cases h
  | succ k ih =>
    intro st i st' j hst h
    unfold idToPatternGo at h
    cases hc : st.cache.get? i with
    | some e => rw [hc] at h; cases h; exact hst
    | none =>
      rw [hc] at h
      dsimp only at h
      cases hs : subs.get? i with
      | some e =>
        rw [hs] at h
        cases h
        intro v x
        dsimp only
        rw [Subst.get_insert]
        by_cases hvi : varOf i = v
        · subst hvi
          rw [if_pos rfl]
          constructor
          · intro h
            exact ⟨i, rfl, by rw [AMap.get?_insert, if_pos rfl]; simp, by rw [hs]; exact h⟩
          · rintro ⟨j, h1, _, h2⟩
            rw [← hv h1, hs] at h2; exact h2
        · rw [if_neg hvi, hst]
          constructor
          · rintro ⟨j, h1, h2, h3⟩
            refine ⟨j, h1, ?_, h3⟩
            rw [AMap.get?_insert, if_neg (by rintro rfl; exact hvi h1.symm)]; exact h2
          · rintro ⟨j, h1, h2, h3⟩
            refine ⟨j, h1, ?_, h3⟩
            rw [AMap.get?_insert, if_neg (by rintro rfl; exact hvi h1.symm)] at h2; exact h2
      | none =>
        rw [hs] at h
        dsimp only at h
        rw [bind_eq_ok] at h
        obtain ⟨n, hn, h⟩ := h
        rw [bind_eq_ok] at h
        obtain ⟨⟨st1, cs'⟩, h1, h⟩ := h
        cases h
        have key : ∀ (cs : List Id) (st : PatCopy Op) {st' js}, SbOK varOf subs st →
            mapAccumM (idToPatternGo varOf nodes subs k) st cs = .ok (st', js) → SbOK varOf subs st' := by
          intro cs
          induction cs with
          | nil => intro st st' js hst h; cases h; exact hst
          | cons c cs ihc =>
            intro st st' js hst h
            unfold mapAccumM at h
            rw [bind_eq_ok] at h
            obtain ⟨⟨s1, j1⟩, g1, h⟩ := h
            rw [bind_eq_ok] at h
            obtain ⟨⟨s2, js2⟩, g2, h⟩ := h
            cases h
            exact ihc s1 (ih st c hst g1) g2
        have h2 := key _ _ hst h1
        intro v x
        dsimp only
        rw [h2 v x]
        constructor
        · rintro ⟨j, h1, h2, h3⟩
          refine ⟨j, h1, ?_, h3⟩
          rw [AMap.get?_insert]
          split
          · simp
          · exact h2
        · rintro ⟨j, h1, h2, h3⟩
          refine ⟨j, h1, ?_, h3⟩
          rw [AMap.get?_insert, if_neg (by rintro rfl; rw [hs] at h3; cases h3)] at h2; exact h2

/-- The term of the table with variables. -/
theorem cut_of_termOf {varOf : Id → Var} {subs : AMap Id Id} {nodes : List (ENode Op)} {i : Id} {t : Term (PatOp Op)}
    (h : TermOf (cutNodes varOf subs nodes) i t) : Cut varOf subs nodes i t := by
  induction t using Term.ind generalizing i with
  | h op ts ih =>
    rw [termOf_iff] at h
    obtain ⟨m, h1, h2, h3⟩ := h
    rw [cutNodes_get, Option.map_eq_some_iff] at h1
    obtain ⟨n, hn, rfl⟩ := h1
    unfold cutNode at h2 h3
    split at h2
    · next hs =>
      rw [if_pos hs] at h3
      subst h2
      refine .node hs hn ?_
      exact forall₂_mono_mem h3 (fun c _ t ht hc => ih t ht hc)
    · next hs =>
      rw [if_neg hs] at h3
      subst h2
      cases h3
      obtain ⟨e, he⟩ := Option.ne_none_iff_exists'.1 hs
      exact .var he

theorem occurs_of_below {nodes : List (ENode (PatOp Op))} {i x : Id} (h : Below nodes i x) {t : Term (PatOp Op)}
    (ht : TermOf nodes i t) : ∃ s, TermOf nodes x s ∧ Subterm s t := by
  induction h with
  | refl => exact ⟨t, ht, .refl⟩
  | @step x c n _ h1 h2 ih =>
    obtain ⟨s, hs, hst⟩ := ih
    cases s with
    | node op ts =>
      obtain ⟨m, g1, g2, g3⟩ := termOf_iff.1 hs
      rw [h1] at g1; cases g1
      obtain ⟨u, hu, hcu⟩ := forall₂_mem_left g3 h2
      refine ⟨u, hcu, ?_⟩
      clear hs ht
      induction hst with
      | refl => exact .arg hu .refl
      | arg h1 _ ih => exact .arg h1 ih

theorem exists_termOf_subterm {nodes : List (ENode Op)} {i : Id} {s t : Term Op} (h : Subterm s t) (ht : TermOf nodes i t) :
    ∃ j, TermOf nodes j s := by
  induction h generalizing i with
  | refl => exact ⟨i, ht⟩
  | arg hm _ ih =>
    obtain ⟨m, g1, g2, g3⟩ := termOf_iff.1 ht
    obtain ⟨c, _, hc⟩ := forall₂_mem_left (forall₂_flip g3) hm
    exact ih hc

variable [DecidableEq Op] [Lang Op]

theorem idToPattern_cut {eg : EGraph Op D} (hd : Dag eg.nodes) {varOf : Id → Var} (hv : Function.Injective varOf)
    (subs : AMap Id Id) {ord : Compiler Op → List (Id × Nat)} (hoc : OrdOK ord) {i : Id} (hi : i < eg.nodes.length) :
    ∃ t p sb f0, Cut varOf subs eg.nodes i t ∧ (∀ f, f0 ≤ f → eg.idToPattern varOf ord f i subs = .ok (p, sb)) ∧
      IsPattern p t ∧ (∀ v e, sb.get v = some e ↔ ∃ j, v = varOf j ∧ Occurs v t ∧ subs.get? j = some e) := by
  have hdc := cutNodes_dag (varOf := varOf) (subs := subs) hd
  have hil : i < (cutNodes varOf subs eg.nodes).length := by rw [cutNodes_length]; exact hi
  obtain ⟨t, ht⟩ := hdc.exists_term i hil
  obtain ⟨⟨res, cache⟩, j, h1, h2, _, h4, h5, _⟩ := idToExprGo_ok hdc (eg.nodes.length + 1) ([], []) i (by omega) hil
    ⟨by intro i n h; simp at h, by intro i j h; simp [AMap.get?] at h, by intro j h; simp at h,
      by intro i j h; simp [AMap.get?] at h⟩
  have h5 := h5 (by simp [AMap.get?])
  have hlive := idToExprGo_below _ _ _ h1
  dsimp only at h4 h5 hlive
  have hne : res ≠ [] := by intro e; rw [e] at h5; simp at h5
  have hroot : ExprTerm res t := by
    refine ⟨hne, ?_⟩
    have := h2.ok _ _ h4 t ht
    rwa [show j = res.length - 1 by omega] at this
  have hdr : Dag res := h2.dag
  -- the ids of the copy
  have hsrc : ∀ q u, TermOf res q u → ∃ x, cache.get? x = some q ∧ Below (cutNodes varOf subs eg.nodes) i x ∧
      TermOf (cutNodes varOf subs eg.nodes) x u := by
    intro q u hu
    obtain ⟨x, hxl, hx⟩ := h2.src q hu.lt
    dsimp only at hx
    obtain ⟨s, hs⟩ := hdc.exists_term x hxl
    have := (h2.ok _ _ hx s hs).unique hu
    subst this
    rcases hlive x (by rw [hx]; simp) with h | h
    · simp [AMap.get?] at h
    · exact ⟨x, hx, h, hs⟩
  have hleaf : ∀ x v us, TermOf (cutNodes varOf subs eg.nodes) x (.node (.var v) us) → us = [] ∧ v = varOf x ∧ subs.get? x ≠ none := by
    intro x v us h
    obtain ⟨m, g1, g2, g3⟩ := termOf_iff.1 h
    rw [cutNodes_get, Option.map_eq_some_iff] at g1
    obtain ⟨n, hn, rfl⟩ := g1
    unfold cutNode at g2 g3
    split at g2
    · cases g2
    · next hs =>
      rw [if_neg hs] at g3
      cases g2; cases g3
      exact ⟨rfl, rfl, hs⟩
  have hw : PatWF res := by
    refine ⟨⟨hne, hdr⟩, ?_⟩
    intro n hn v hvn
    obtain ⟨q, hq⟩ := List.getElem?_of_mem hn
    obtain ⟨u, hu⟩ := hdr.exists_term q (getElem?_lt hq)
    obtain ⟨x, _, _, hx⟩ := hsrc q u hu
    cases u with
    | node o us =>
      obtain ⟨m, g1, g2, g3⟩ := termOf_iff.1 hu
      rw [hq] at g1; cases g1
      rw [← g2, hvn] at hx
      obtain ⟨rfl, _⟩ := hleaf _ _ _ hx
      cases hcs : n.children with
      | nil => rfl
      | cons a as => rw [hcs] at g3; cases g3
  have huniq : RootOnce res t := by
    intro q hq
    obtain ⟨x, hx, hb, hxt⟩ := hsrc q t hq
    obtain ⟨s, hs, hlt⟩ := hb.size ht
    rcases hlt with rfl | hlt
    · rw [h4] at hx; cases hx; omega
    · have := hs.unique hxt
      subst this; omega
  obtain ⟨p, f0, hp, hpt⟩ := c52_new hoc hw hroot huniq
  have hgo := idToPatternGo_cut (varOf := varOf) (subs := subs) hd (eg.nodes.length + 1) ⟨[], [], []⟩ i hi
  dsimp only at hgo
  rw [h1] at hgo
  cases hr : idToPatternGo varOf eg.nodes subs (eg.nodes.length + 1) ⟨[], [], []⟩ i with
  | error e => rw [hr] at hgo; cases hgo
  | ok r =>
    obtain ⟨⟨res', cache', sb⟩, j'⟩ := r
    rw [hr] at hgo
    injection hgo with hgo
    simp only [PatCopy.pair, Prod.mk.injEq] at hgo
    obtain ⟨⟨rfl, rfl⟩, rfl⟩ := hgo
    have hsb := idToPatternGo_subst hv _ _ _ (by intro v e; simp [Subst.get, AMap.get?]) hr
    refine ⟨t, p, sb, f0, cut_of_termOf ht, ?_, hpt, ?_⟩
    · intro f hf
      unfold EGraph.idToPattern
      rw [hr, ok_bind]
      dsimp only
      rw [hp f hf]
      rfl
    · intro v e
      rw [hsb v e]
      dsimp only
      refine exists_congr fun x => ?_
      constructor
      · rintro ⟨rfl, hc, hs⟩
        refine ⟨rfl, ?_, hs⟩
        rcases hlive x hc with h | h
        · simp [AMap.get?] at h
        · obtain ⟨s, hs', hsub⟩ := occurs_of_below h ht
          have hsub' : Subterm s t := hsub
          cases s with
          | node o us =>
            obtain ⟨m, g1, g2, g3⟩ := termOf_iff.1 hs'
            rw [cutNodes_get, Option.map_eq_some_iff] at g1
            obtain ⟨n, hn, rfl⟩ := g1
            unfold cutNode at g2 g3
            rw [if_neg (by rw [hs]; simp)] at g2 g3
            cases g2; cases g3
            exact hsub
      · rintro ⟨rfl, ho, hs⟩
        refine ⟨rfl, ?_, hs⟩
        obtain ⟨q, hq⟩ := exists_termOf_subterm ho hroot.2
        obtain ⟨y, hy, _, hyt⟩ := hsrc q _ hq
        obtain ⟨_, e', _⟩ := hleaf _ _ _ hyt
        rw [hv e', hy]; simp

end Egg
