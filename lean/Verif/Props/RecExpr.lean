import Verif.Lemmas.RecExpr
import Verif.Model.Join
/-
C39: operations on expressions.
-/
namespace Egg
variable {Op : Type}

/-! ### Specification -/

/-- No two nodes of the expression denote the same term: every subterm is stored once. -/
def MaxShared (e : List (ENode Op)) : Prop :=
  ∀ (i j : Id) (t : Term Op), TermOf e i t → TermOf e j t → i = j

/-! ### Lemmas -/

theorem Dag.maxShared {e : List (ENode Op)} (hn : e.Nodup) : MaxShared e := by
  intro i j t
  induction t using Term.ind generalizing i j with
  | h op ts ih =>
    intro hi hj
    obtain ⟨n, a1, a2, a3⟩ := termOf_iff.1 hi
    obtain ⟨m, b1, b2, b3⟩ := termOf_iff.1 hj
    have hc : n.children = m.children := by
      have := forall₂_comp a3 (forall₂_flip b3) (T := fun c d => c = d) (fun c t d _ ht _ h1 h2 => ih t ht c d h1 h2)
      exact List.forall₂_eq_eq_eq ▸ this
    have : n = m := by
      cases n; cases m; simp only at a2 b2 hc; rw [a2, b2, hc]
    subst this
    have h1 := getElem?_lt a1
    have h2 := getElem?_lt b1
    rw [List.getElem?_eq_getElem h1] at a1
    rw [List.getElem?_eq_getElem h2] at b1
    injection a1 with a1
    injection b1 with b1
    exact (List.Nodup.getElem_inj_iff hn).1 (a1.trans b1.symm)

theorem isDagFrom_iff (e : List (ENode Op)) : ∀ i, RecExpr.isDagFrom i e = true ↔
    ∀ (k : Nat) (n : ENode Op), e[k]? = some n → ∀ c ∈ n.children, c < i + k := by
  induction e with
  | nil => intro i; simp [RecExpr.isDagFrom]
  | cons n e ih =>
    intro i
    rw [RecExpr.isDagFrom, Bool.and_eq_true, ih, List.all_eq_true]
    constructor
    · rintro ⟨h1, h2⟩ k m hm c hc
      cases k with
      | zero => cases hm; simpa using h1 c hc
      | succ k =>
        have := h2 k m (by simpa using hm) c hc
        omega
    · intro h
      refine ⟨fun c hc => by simpa using h 0 n rfl c hc, fun k m hm c hc => ?_⟩
      have := h (k + 1) m (by simpa using hm) c hc
      omega

/-- Nodes reachable from a node have smaller indices. -/
theorem live_path {e : List (ENode Op)} (hd : Dag e) {j : Nat} (h : Live e j) : j = e.length - 1 ∨
    ∃ n c, e[e.length - 1]? = some n ∧ c ∈ n.children ∧ j ≤ c := by
  induction h with
  | root => exact Or.inl rfl
  | @child i n c _ hn hc ih =>
    right
    rcases ih with rfl | ⟨m, d, hm, hdm, hle⟩
    · exact ⟨n, c, hn, hc, Nat.le_refl _⟩
    · have := hd i n hn c hc
      exact ⟨m, d, hm, hdm, by omega⟩

/-- If all nodes are reachable, the last one differs from the others. -/
theorem live_nodup {e : List (ENode Op)} (hd : Dag e) (hl : ∀ j, j < e.length → Live e j) (hn : e.dropLast.Nodup) : e.Nodup := by
  by_cases hne : e = []
  · rw [hne]; exact List.nodup_nil
  obtain ⟨xs, x, rfl⟩ : ∃ xs x, e = xs ++ [x] := ⟨e.dropLast, e.getLast hne, (List.dropLast_append_getLast hne).symm⟩
  rw [List.dropLast_concat] at hn
  refine List.nodup_append.2 ⟨hn, by simp, ?_⟩
  intro a ha b hb
  rw [List.mem_singleton] at hb
  subst hb
  rintro rfl
  obtain ⟨j, hj, e⟩ := List.getElem_of_mem ha
  have hja : (xs ++ [a])[j]? = some a := by
    rw [List.getElem?_append_left hj, List.getElem?_eq_getElem hj, e]
  rcases live_path hd (hl j (by simp; omega)) with h | ⟨n, c, h1, h2, h3⟩
  · simp at h; omega
  · simp at h1
    subst h1
    have := hd j _ hja c h2
    omega

/-! ### is_dag -/

/-- **C39.** `is_dag` tells whether every child precedes its parent. -/
theorem c39_is_dag (e : List (ENode Op)) : RecExpr.isDag e = true ↔
    ∀ (i : Nat) (n : ENode Op), e[i]? = some n → ∀ c ∈ n.children, c < i := by
  unfold RecExpr.isDag
  rw [isDagFrom_iff]
  simp only [Nat.zero_add]

/-! ### compact -/

variable [DecidableEq Op]

/-- **C39.** `compact` of a well-formed expression returns a well-formed expression that denotes the
same terms, each exactly once. -/
theorem c39_compact (e : List (ENode Op)) (hd : Dag e) : ∃ e', RecExpr.compact e = .ok e' ∧ Dag e' ∧ MaxShared e' ∧
    ∀ t, (∃ i, TermOf e i t) ↔ (∃ i, TermOf e' i t) := by
  obtain ⟨e', ids, h, hc⟩ := RecExpr.compact_spec hd
  refine ⟨e', h, hc.dag, Dag.maxShared hc.nodup, fun t => ⟨?_, ?_⟩⟩
  · rintro ⟨i, ht⟩
    have hi : i < ids.length := by rw [hc.len]; exact ht.lt
    obtain ⟨_, h2⟩ := hc.term i ids[i] (List.getElem?_eq_getElem hi)
    exact ⟨_, h2 t ht⟩
  · rintro ⟨i, ht⟩
    obtain ⟨j, hj⟩ := hc.onto i ht.lt
    have hje : j < e.length := by rw [← hc.len]; exact getElem?_lt hj
    obtain ⟨s, hs⟩ := hd.exists_term j hje
    have := (hc.term j i hj).2 s hs
    rw [ht.unique this]
    exact ⟨j, hs⟩

/-- **C39.** `compact` keeps the denoted term if no earlier node denotes it — in particular when every
node is used. -/
theorem c39_compact_root (e : List (ENode Op)) (t : Term Op) (hd : Dag e) (ht : ExprTerm e t)
    (hu : ∀ i, TermOf e i t → i = e.length - 1) : ∃ e', RecExpr.compact e = .ok e' ∧ ExprTerm e' t := by
  obtain ⟨e', ids, h, hc⟩ := RecExpr.compact_spec hd
  obtain ⟨hne, ht⟩ := ht
  have hpos := List.length_pos_iff.2 hne
  have hl : e.length - 1 < ids.length := by rw [hc.len]; omega
  obtain ⟨h1, h2⟩ := hc.term (e.length - 1) ids[e.length - 1] (List.getElem?_eq_getElem hl)
  have hne' : e' ≠ [] := by intro e; rw [e] at h1; cases h1
  refine ⟨e', h, hne', ?_⟩
  obtain ⟨j, hj, hlast⟩ := hc.first (e'.length - 1) (by have := List.length_pos_iff.2 hne'; omega)
  by_cases hjl : j = e.length - 1
  · subst hjl
    rw [List.getElem?_eq_getElem hl] at hj
    injection hj with hj
    rw [← hj]
    exact h2 t ht
  · -- the last new id was given earlier, so the root got an id of an earlier node
    obtain ⟨j2, hj2, hfirst2⟩ := hc.first ids[e.length - 1] h1
    have hje : j < e.length := by rw [← hc.len]; exact getElem?_lt hj
    have hj2e : j2 < e.length := by rw [← hc.len]; exact getElem?_lt hj2
    have hj2l : j2 = e.length - 1 := by
      obtain ⟨s, hs⟩ := hd.exists_term j2 hj2e
      have h3 := (hc.term j2 _ hj2).2 s hs
      have : s = t := h3.unique (h2 t ht)
      subst this
      exact hu j2 hs
    have := hfirst2 j (e'.length - 1) (by omega) hj
    have h1' : ids[e.length - 1] < e'.length := h1
    omega

/-- **C39.** If every node of a well-formed expression is used, `compact` keeps the denoted
term. -/
theorem c39_compact_live (e : List (ENode Op)) (t : Term Op) (hd : Dag e) (ht : ExprTerm e t)
    (hl : ∀ j, j < e.length → Live e j) : ∃ e', RecExpr.compact e = .ok e' ∧ ExprTerm e' t := by
  refine c39_compact_root e t hd ht ?_
  intro i hi
  by_contra hne
  -- a node reachable from a child of the root denotes a smaller term
  rcases live_path hd (hl i hi.lt) with h | _
  · exact hne h
  · have size : ∃ sz : Term Op → Nat, ∀ op (ts : List (Term Op)) s, s ∈ ts → sz s < sz (.node op ts) := by
      refine ⟨fun t => sizeOf t, ?_⟩
      intro op ts s hs
      have := List.sizeOf_lt_of_mem hs
      simp only [Term.node.sizeOf_spec]
      omega
    obtain ⟨sz, hsz⟩ := size
    have key : ∀ j, Live e j → j ≠ e.length - 1 → ∀ s, TermOf e j s → sz s < sz t := by
      intro j hj
      induction hj with
      | root => intro h; exact absurd rfl h
      | @child k n c hk hn hc ih =>
        intro _ s hs
        obtain ⟨u, hu⟩ := hd.exists_term k (getElem?_lt hn)
        obtain ⟨op, us⟩ := u
        obtain ⟨n', h1, _, h3⟩ := termOf_iff.1 hu
        rw [hn] at h1; cases h1
        obtain ⟨s', hs', hcs⟩ := forall₂_mem_left h3 hc
        rw [hs.unique hcs]
        by_cases hkl : k = e.length - 1
        · subst hkl
          rw [ht.2.unique hu]
          exact hsz op us s' hs'
        · have := ih hkl _ hu
          have := hsz op us s' hs'
          omega
    exact absurd (key i (hl i hi.lt) hne t hi) (Nat.lt_irrefl _)

/-- **C39, negative part.** With an unused node the denoted term can change: in `[a, b, a]` the last
node `a` is merged with the first and `b` becomes the last. -/
theorem c39_compact_counterexample :
    RecExpr.compact ([⟨0, []⟩, ⟨1, []⟩, ⟨0, []⟩] : List (ENode Nat)) = .ok [⟨0, []⟩, ⟨1, []⟩] ∧
    ExprTerm ([⟨0, []⟩, ⟨1, []⟩, ⟨0, []⟩] : List (ENode Nat)) (.node 0 []) ∧
    ExprTerm ([⟨0, []⟩, ⟨1, []⟩] : List (ENode Nat)) (.node 1 []) := by
  refine ⟨rfl, ⟨by simp, termOf_iff.2 ⟨_, rfl, rfl, .nil⟩⟩, ⟨by simp, termOf_iff.2 ⟨_, rfl, rfl, .nil⟩⟩⟩

/-! ### build_recexpr and extract -/

namespace RecExpr

/-- Ids that got a node unfold to a finite term. -/
def Fin (gn : Id → Res (ENode Op)) (b : Build Op) : Prop :=
  ∀ i k, b.ids.get? i = some k → ∃ t, Unfolds (fun i => (gn i).toOption) i t

theorem fin_step {gn : Id → Res (ENode Op)} {b b' : Build Op} {i : Id} {rest : List Id} (hb : Fin gn b)
    (h : buildStep gn b i rest = .ok b') : Fin gn b' := by
  unfold buildStep at h
  split at h
  · cases h; exact hb
  · rw [bind_eq_ok] at h
    obtain ⟨n, hn, h⟩ := h
    simp only [] at h
    split at h
    · rename_i hm
      rw [bind_eq_ok] at h
      obtain ⟨m, _, h⟩ := h
      cases h
      intro j k hk
      simp only [] at hk
      rw [AMap.get?_insert] at hk
      split at hk
      · rename_i e
        subst e
        have hall : ∀ c ∈ n.children, ∃ t, Unfolds (fun i => (gn i).toOption) c t := by
          intro c hc
          have : ¬ (b.ids.get? c).isNone = true := by
            intro hx
            have := (List.mem_filter (p := fun c => (b.ids.get? c).isNone)).2 ⟨hc, hx⟩
            rw [List.isEmpty_iff] at hm
            rw [hm] at this
            cases this
          match hg : b.ids.get? c with
          | none => rw [hg] at this; exact absurd rfl this
          | some k => exact hb c k hg
        obtain ⟨ts, hts⟩ := forall₂_exists hall
        exact ⟨.node n.op ts, unfolds_iff.2 ⟨n, by simp only [hn, Except.toOption], rfl, hts⟩⟩
      · exact hb j k hk
    · cases h; exact hb

theorem fin_loop {gn : Id → Res (ENode Op)} : ∀ (f : Nat) (b b' : Build Op), Fin gn b → buildLoop gn f b = .ok b' → Fin gn b' := by
  intro f
  induction f with
  | zero => intro b b' _ h; cases h
  | succ f ih =>
    intro b b' hb h
    rw [buildLoop] at h
    split at h
    · cases h; exact hb
    · rw [bind_eq_ok] at h
      obtain ⟨b1, h1, h2⟩ := h
      exact ih b1 b' (fin_step hb h1) h2

end RecExpr

/-- **C39.** `build_recexpr` with a node function `gn` returns (given enough steps) exactly when the
chosen nodes below `n` unfold to finite terms, and then it returns a well-formed expression
of the unfolded term which stores each of its subterms once and nothing else. -/
theorem c39_build (gn : Id → Res (ENode Op)) (n : ENode Op) :
    ((∃ f e, RecExpr.build gn f n = .ok e) ↔ ∀ c ∈ n.children, ∃ t, Unfolds (fun i => (gn i).toOption) c t) ∧
    ∀ f e, RecExpr.build gn f n = .ok e → ∃ ts, List.Forall₂ (Unfolds (fun i => (gn i).toOption)) n.children ts ∧
      Dag e ∧ ExprTerm e (.node n.op ts) ∧ MaxShared e ∧ ∀ j, j < e.length → Live e j := by
  have hg : ∀ i m, (fun i => (gn i).toOption) i = some m → gn i = .ok m := by
    intro i m h
    simp only [] at h
    match hx : gn i with
    | .ok a => rw [hx] at h; cases h; rfl
    | .error e => rw [hx] at h; cases h
  have hfin : ∀ f e, RecExpr.build gn f n = .ok e → ∀ c ∈ n.children, ∃ t, Unfolds (fun i => (gn i).toOption) c t := by
    intro f e h c hc
    unfold RecExpr.build at h
    rw [bind_eq_ok] at h
    obtain ⟨b, h1, h2⟩ := h
    rw [bind_eq_ok] at h2
    obtain ⟨m, h3, _⟩ := h2
    unfold ENode.mapChildrenM at h3
    rw [bind_eq_ok] at h3
    obtain ⟨cs, h4, _⟩ := h3
    rw [mapM_eq_ok] at h4
    obtain ⟨d, _, hd⟩ := forall₂_mem_left h4 hc
    refine RecExpr.fin_loop f _ b ?_ h1 c d (unwrap_eq_ok.1 hd)
    intro i k hk
    cases hk
  have hspec : ∀ ts, List.Forall₂ (Unfolds (fun i => (gn i).toOption)) n.children ts → ∃ f0 e,
      (∀ f, f0 ≤ f → RecExpr.build gn f n = .ok e) ∧ Dag e ∧ ExprTerm e (.node n.op ts) ∧ MaxShared e ∧ ∀ j, j < e.length → Live e j := by
    intro ts hts
    obtain ⟨f0, e, h1, h2, h3, h4, h5, _⟩ := RecExpr.build_spec hg hts
    exact ⟨f0, e, h1, h2, h3, Dag.maxShared (live_nodup h2 h4 h5), h4⟩
  refine ⟨⟨fun ⟨f, e, h⟩ => hfin f e h, fun h => ?_⟩, ?_⟩
  · obtain ⟨ts, hts⟩ := forall₂_exists h
    obtain ⟨f0, e, h1, _⟩ := hspec ts hts
    exact ⟨f0, e, h1 f0 (Nat.le_refl _)⟩
  · intro f e h
    obtain ⟨ts, hts⟩ := forall₂_exists (hfin f e h)
    obtain ⟨f0, e', h1, h2⟩ := hspec ts hts
    have a := RecExpr.build_mono h (Nat.le_max_left f f0)
    rw [h1 _ (Nat.le_max_right f f0)] at a
    cases a
    exact ⟨ts, hts, h2⟩

/-- **C39.** `extract` returns the sub-expression at the given node: a well-formed expression of its
term which stores each subterm once and nothing else. -/
theorem c39_extract (e : List (ENode Op)) (i : Id) (t : Term Op) (ht : TermOf e i t) :
    ∃ f0 e', (∀ f, f0 ≤ f → RecExpr.extract f e i = .ok e') ∧ Dag e' ∧ ExprTerm e' t ∧ MaxShared e' ∧
      ∀ j, j < e'.length → Live e' j := by
  obtain ⟨op, ts⟩ := t
  obtain ⟨n, h1, rfl, h3⟩ := termOf_iff.1 ht
  obtain ⟨f0, e', q1, q2, q3, q4, q5, _⟩ := RecExpr.build_spec (gn := getIdx e) (g := fun i => e[i]?) (n := n)
    (fun i m h => getIdx_eq_ok.2 h) (ts := ts) (forall₂_mono_mem h3 (fun c _ t _ h => (unfolds_table t).2 h))
  refine ⟨f0, e', fun f hf => ?_, q2, q3, Dag.maxShared (live_nodup q2 q4 q5), q4⟩
  unfold RecExpr.extract
  rw [getIdx_eq_ok.2 h1, ok_bind]
  exact q1 f hf

/-! ### join_recexprs -/

omit [DecidableEq Op] in
theorem mapAccum_join {α : Type} {f : List (ENode Op) → α → Res (List (ENode Op) × Id)} {R : α → Term Op → Prop}
    (hf : ∀ a t to_, R a t → Dag to_ → ∃ ext i, f to_ a = .ok (to_ ++ ext, i) ∧ Dag (to_ ++ ext) ∧ TermOf (to_ ++ ext) i t) :
    ∀ (as : List α) (ts : List (Term Op)), List.Forall₂ R as ts → ∀ to_, Dag to_ →
      ∃ ext is, mapAccumM f to_ as = .ok (to_ ++ ext, is) ∧ Dag (to_ ++ ext) ∧ List.Forall₂ (TermOf (to_ ++ ext)) is ts := by
  intro as ts h
  induction h with
  | nil => intro to_ hd; exact ⟨[], [], by simp [mapAccumM], by simpa using hd, .nil⟩
  | @cons a t as ts h _ ih =>
    intro to_ hd
    obtain ⟨ext, i, h1, h2, h3⟩ := hf a t to_ h hd
    obtain ⟨ext', is, g1, g2, g3⟩ := ih _ h2
    refine ⟨ext ++ ext', i :: is, ?_, by rw [← List.append_assoc]; exact g2, ?_⟩
    · simp [mapAccumM, h1, g1]
    · rw [← List.append_assoc]
      exact .cons h3.append g3

omit [DecidableEq Op] in
theorem joinBuild_ok : ∀ (k : Nat) (from_ : List (ENode Op)) (t : Term Op) (to_ : List (ENode Op)), from_.length ≤ k →
    Dag from_ → ExprTerm from_ t → Dag to_ →
    ∃ ext i, joinBuild k to_ from_ = .ok (to_ ++ ext, i) ∧ Dag (to_ ++ ext) ∧ TermOf (to_ ++ ext) i t := by
  intro k
  induction k with
  | zero =>
    intro from_ t to_ hk _ ht
    exact absurd (List.length_eq_zero_iff.1 (Nat.le_zero.1 hk)) ht.1
  | succ k ih =>
    intro from_ t to_ hk hd ht hdt
    obtain ⟨hne, ht⟩ := ht
    have hpos := List.length_pos_iff.2 hne
    obtain ⟨op, ts⟩ := t
    obtain ⟨n, hn, rfl, hc⟩ := termOf_iff.1 ht
    have hlast : from_.getLast? = some n := by rw [List.getLast?_eq_getElem?]; exact hn
    have hR : List.Forall₂ (fun c t => c < from_.length - 1 ∧ TermOf from_ c t) n.children ts :=
      forall₂_mono_mem hc (fun c hcm t _ h => ⟨hd _ n hn c hcm, h⟩)
    obtain ⟨ext, is, h1, h2, h3⟩ := mapAccum_join (f := fun to_ i =>
        if i + 1 ≤ from_.length then joinBuild k to_ (from_.take (i + 1)) else .error .panic)
      (R := fun c t => c < from_.length - 1 ∧ TermOf from_ c t) (by
        rintro c t to_ ⟨hlt, hct⟩ hdt
        rw [if_pos (by omega)]
        have hsplit : from_ = from_.take (c + 1) ++ from_.drop (c + 1) := (List.take_append_drop _ _).symm
        have hlen : (from_.take (c + 1)).length = c + 1 := by rw [List.length_take]; omega
        have hdtake : Dag (from_.take (c + 1)) := by
          intro i m hm d hdm
          refine hd i m ?_ d hdm
          rw [hsplit]
          exact getElem?_prefix hm
        refine ih (from_.take (c + 1)) t to_ (by omega) hdtake ⟨?_, ?_⟩ hdt
        · intro e; rw [e] at hlen; cases hlen
        · rw [hlen]
          have : TermOf (from_.take (c + 1) ++ from_.drop (c + 1)) c t := by rw [← hsplit]; exact hct
          exact TermOf.of_append hdtake this (by omega)) n.children ts hR to_ hdt
    refine ⟨ext ++ [{ n with children := is }], (to_ ++ ext).length, ?_, ?_, ?_⟩
    · rw [joinBuild, hlast]
      simp only [unwrap, ok_bind, h1]
      rw [List.append_assoc]
      rfl
    · rw [← List.append_assoc]
      refine h2.append_node ?_
      intro c hcm
      obtain ⟨t, _, ht⟩ := forall₂_mem_left h3 hcm
      exact ht.lt
    · rw [← List.append_assoc]
      refine termOf_iff.2 ⟨{ n with children := is }, by simp, rfl, ?_⟩
      exact h3.imp (fun _ _ h => h.append)

omit [DecidableEq Op] in
/-- **C39.** `join_recexprs` returns a well-formed expression whose term is the operator of the node
applied to the terms of the given expressions.  (It copies shared sub-expressions.) -/
theorem c39_join (childExpr : Id → List (ENode Op)) (node : ENode Op) (ts : List (Term Op))
    (h : List.Forall₂ (fun c t => Dag (childExpr c) ∧ ExprTerm (childExpr c) t) node.children ts) (fuel : Nat)
    (hf : ∀ c ∈ node.children, (childExpr c).length ≤ fuel) :
    ∃ e, joinRecexprs fuel childExpr node = .ok e ∧ Dag e ∧ ExprTerm e (.node node.op ts) := by
  have hR : List.Forall₂ (fun c t => c ∈ node.children ∧ Dag (childExpr c) ∧ ExprTerm (childExpr c) t) node.children ts :=
    forall₂_mono_mem h (fun c hc t _ h => ⟨hc, h⟩)
  obtain ⟨ext, is, h1, h2, h3⟩ := mapAccum_join (f := fun expr i => joinBuild fuel expr (childExpr i))
    (R := fun c t => c ∈ node.children ∧ Dag (childExpr c) ∧ ExprTerm (childExpr c) t) (by
      rintro c t to_ ⟨hc, h1, h2⟩ hdt
      exact joinBuild_ok fuel (childExpr c) t to_ (hf c hc) h1 h2 hdt) node.children ts hR [] (by intro i n h; cases h)
  rw [List.nil_append] at h1 h2 h3
  refine ⟨ext ++ [{ node with children := is }], ?_, ?_, by simp, ?_⟩
  · unfold joinRecexprs
    rw [h1]
    rfl
  · refine h2.append_node ?_
    intro c hcm
    obtain ⟨t, _, ht⟩ := forall₂_mem_left h3 hcm
    exact ht.lt
  · refine termOf_iff.2 ⟨{ node with children := is }, by simp, rfl, ?_⟩
    exact h3.imp (fun _ _ h => h.append)

/-! ### Non-vacuity -/

/-- `+ (a * a) (a * a)` with the product stored twice and an unused node. -/
def exDup : List (ENode Nat) := [⟨0, []⟩, ⟨7, []⟩, ⟨1, [0, 0]⟩, ⟨1, [0, 0]⟩, ⟨2, [2, 3]⟩]

def exDupTerm : Term Nat :=
  .node 2 [.node 1 [.node 0 [], .node 0 []], .node 1 [.node 0 [], .node 0 []]]

theorem exDup_dag : Dag exDup := (c39_is_dag exDup).1 rfl

theorem exDup_term : TermOf exDup 4 exDupTerm := by
  have h0 : TermOf exDup 0 (.node 0 []) := termOf_iff.2 ⟨_, rfl, rfl, .nil⟩
  have h2 : TermOf exDup 2 (.node 1 [.node 0 [], .node 0 []]) := termOf_iff.2 ⟨_, rfl, rfl, .cons h0 (.cons h0 .nil)⟩
  have h3 : TermOf exDup 3 (.node 1 [.node 0 [], .node 0 []]) := termOf_iff.2 ⟨_, rfl, rfl, .cons h0 (.cons h0 .nil)⟩
  exact termOf_iff.2 ⟨_, rfl, rfl, .cons h2 (.cons h3 .nil)⟩

/-- `compact` shares the product and keeps the unused node, `extract` drops it. -/
example : RecExpr.compact exDup = .ok [⟨0, []⟩, ⟨7, []⟩, ⟨1, [0, 0]⟩, ⟨2, [2, 2]⟩] ∧
    RecExpr.extract 20 exDup 4 = .ok [⟨0, []⟩, ⟨1, [0, 0]⟩, ⟨2, [1, 1]⟩] := ⟨rfl, rfl⟩

/-- A cyclic choice of nodes does not unfold, so `build_recexpr` does not return on it. -/
example : ¬ ∃ f e, RecExpr.build (fun _ => .ok ⟨1, [0]⟩) f (⟨1, [0]⟩ : ENode Nat) = .ok e := by
  rw [(c39_build _ _).1]
  intro h
  obtain ⟨t, ht⟩ := h 0 (by simp)
  have : ∀ t : Term Nat, ¬ Unfolds (fun _ : Id => ((.ok ⟨1, [0]⟩ : Res (ENode Nat))).toOption) 0 t := by
    intro t
    induction t using Term.ind with
    | h op ts ih =>
      intro hu
      obtain ⟨m, h1, _, h3⟩ := unfolds_iff.1 hu
      cases h1
      obtain ⟨s, hs, hcs⟩ := forall₂_mem_left h3 (List.mem_cons_self ..)
      exact ih s hs hcs
  exact this t ht

/-- Joining: the node `2` applied twice to `exDup`. -/
example : ∃ e, joinRecexprs 5 (fun _ => exDup) (⟨3, [0, 1]⟩ : ENode Nat) = .ok e ∧ Dag e ∧
    ExprTerm e (.node 3 [exDupTerm, exDupTerm]) :=
  c39_join (fun _ => exDup) ⟨3, [0, 1]⟩ _ (.cons ⟨exDup_dag, by simp [exDup], exDup_term⟩
    (.cons ⟨exDup_dag, by simp [exDup], exDup_term⟩ .nil)) 5 (by simp [exDup])

end Egg
