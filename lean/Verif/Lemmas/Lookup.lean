import Verif.Lemmas.Machine
/-
`Lookup` instructions of the e-matching machine decide whether a class matches a
pattern all of whose variables are bound.
-/
namespace Egg
variable {Op D : Type} [DecidableEq Op] [Lang Op]

theorem SameClass.symm {eg : EGraph Op D} {a b : Id} (h : SameClass eg a b) : SameClass eg b a := by
  obtain ⟨r, h1, h2⟩ := h
  exact ⟨r, h2, h1⟩

theorem SameClass.trans {eg : EGraph Op D} {a b c : Id} (h : SameClass eg a b) (h' : SameClass eg b c) :
    SameClass eg a c := by
  obtain ⟨r, h1, h2⟩ := h
  obtain ⟨r', h3, h4⟩ := h'
  rw [h2] at h3
  cases h3
  exact ⟨r, h1, h4⟩

section
variable {O : Type}

theorem Subterm.trans {a b c : Term O} (h : Subterm a b) (h' : Subterm b c) : Subterm a c := by
  induction h' with
  | refl => exact h
  | arg hm _ ih => exact .arg hm ih

/-- Nodes that are part of an expression denote subterms. -/
theorem live_subterm {e : List (ENode O)} (hd : Dag e) {t : Term O} (he : ExprTerm e t) {j : Nat} (hl : Live e j) :
    ∀ u, TermOf e j u → Subterm u t := by
  induction hl with
  | root =>
    intro u hu
    rw [hu.unique he.2]
    exact .refl
  | @child i n c _ hn hc ih =>
    intro u hu
    obtain ⟨s, hs⟩ := hd.exists_term _ (getElem?_lt hn)
    have := ih s hs
    cases s with
    | node op ts =>
      rw [termOf_iff] at hs
      obtain ⟨n', h1, rfl, h3⟩ := hs
      rw [hn] at h1; cases h1
      obtain ⟨u', hu', hc'⟩ := forall₂_mem_left h3 hc
      rw [hu.unique hc']
      exact Subterm.trans (.arg hu' .refl) this

/-- Variables of a pattern term are leaves. -/
def TWF (t : Term (PatOp O)) : Prop := ∀ v ts, Subterm (.node (.var v) ts) t → ts = []

theorem TWF.sub {s t : Term (PatOp O)} (h : TWF t) (hs : Subterm s t) : TWF s :=
  fun v ts hv => h v ts (hv.trans hs)

/-- The condition on variable nodes in `PatWF`. -/
def VarLeaf (p : List (ENode (PatOp O))) : Prop := ∀ n ∈ p, ∀ v, n.op = .var v → n.children = []

theorem VarLeaf.twf {p : List (ENode (PatOp O))} (hp : VarLeaf p) : ∀ (t : Term (PatOp O)) {i : Id}, TermOf p i t → TWF t := by
  intro t
  induction t using Term.ind with
  | h op ts ih =>
    intro i hi v us hs
    rw [termOf_iff] at hi
    obtain ⟨n, h1, rfl, h3⟩ := hi
    generalize hs' : (Term.node n.op ts : Term (PatOp O)) = t' at hs
    cases hs with
    | refl =>
      injection hs' with e1 e2
      subst e2
      have : n.children = [] := hp n (List.mem_of_getElem? h1) v e1
      rw [this] at h3
      cases h3; rfl
    | arg hm hs =>
      cases hs'
      obtain ⟨c, _, hc⟩ := forall₂_mem_left (forall₂_flip h3) hm
      exact ih _ hm hc v us hs

end

section
variable {C : Cfg Op D} {eg : EGraph Op D} {σ : Var → Option Id}

/-- A subterm of a matched pattern is matched by some class. -/
theorem PMatch.sub {s t : Term (PatOp Op)} (hs : Subterm s t) : ∀ {c : Id}, PMatch eg σ c t → ∃ d, PMatch eg σ d s := by
  induction hs with
  | refl => intro c hc; exact ⟨c, hc⟩
  | @arg op ts t hm _ ih =>
    intro c hc
    cases op with
    | var v => rw [pmatch_var_iff] at hc; rw [hc.1] at hm; simp at hm
    | op o =>
      rw [pmatch_node_iff] at hc
      obtain ⟨k, n, _, _, _, h4⟩ := hc
      obtain ⟨d, _, hd⟩ := forall₂_mem_left (forall₂_flip h4) hm
      exact ih hd

/-- The ids in the buffer are canonical and match the corresponding sub-patterns. -/
def BufOK (eg : EGraph Op D) (σ : Var → Option Id) (e : PatternAst Op) (buf : List Id) : Prop :=
  ∀ (j : Nat) (x : Id), buf[j]? = some x → x < eg.nodes.length ∧ eg.rt x = x ∧ ∀ u, TermOf e j u → PMatch eg σ x u

theorem BufOK.push {e : PatternAst Op} {buf : List Id} (hb : BufOK eg σ e buf) {x : Id} (h1 : x < eg.nodes.length)
    (h2 : eg.rt x = x) (h3 : ∀ u, TermOf e buf.length u → PMatch eg σ x u) : BufOK eg σ e (buf ++ [x]) := by
  intro j y hy
  rcases Nat.lt_trichotomy j buf.length with h | h | h
  · rw [List.getElem?_append_left h] at hy; exact hb j y hy
  · subst h; simp at hy; subst hy; exact ⟨h1, h2, h3⟩
  · have := getElem?_lt hy; simp at this; omega

theorem lookupTerm_spec (h : EGraph.Inv C eg) (hp : eg.pending = []) {e : PatternAst Op} (hd : Dag e) (hv : VarLeaf e)
    {v2r : AMap Var Nat} {R : List Id} (hR : ∀ x ∈ R, x < eg.nodes.length)
    (hσ : ∀ v r, v2r.get? v = some r → ∃ x y, σ v = some x ∧ R[r]? = some y ∧ SameClass eg x y) :
    ∀ (rest : PatternAst Op) (term : List (ENodeOrReg Op)) (done : PatternAst Op) (buf : List Id),
      List.Forall₂ (fun n m => Compiler.toReg v2r n = .ok m) rest term → e = done ++ rest → buf.length = done.length →
      BufOK eg σ e buf →
      (∃ buf', lookupTerm eg R term buf = .ok (some buf') ∧ buf'.length = e.length ∧ BufOK eg σ e buf') ∨
      (lookupTerm eg R term buf = .ok none ∧ ∃ j u, j < e.length ∧ TermOf e j u ∧ ∀ c, ¬ PMatch eg σ c u) := by
  intro rest
  induction rest with
  | nil =>
    intro term done buf hf he hl hb
    cases hf
    left
    exact ⟨buf, rfl, by rw [he, hl]; simp, hb⟩
  | cons n rest ih =>
    intro term done buf hf he hl hb
    cases hf with
    | @cons _ m _ ms h1 h2 =>
    have hn : e[buf.length]? = some n := by rw [he, hl]; simp
    have he' : e = (done ++ [n]) ++ rest := by rw [he]; simp
    have hstep : ∀ x, x < eg.nodes.length → eg.rt x = x → (∀ u, TermOf e buf.length u → PMatch eg σ x u) →
        (∃ buf', lookupTerm eg R ms (buf ++ [x]) = .ok (some buf') ∧ buf'.length = e.length ∧ BufOK eg σ e buf') ∨
        (lookupTerm eg R ms (buf ++ [x]) = .ok none ∧ ∃ j u, j < e.length ∧ TermOf e j u ∧ ∀ c, ¬ PMatch eg σ c u) :=
      fun x a1 a2 a3 => ih ms (done ++ [n]) (buf ++ [x]) h2 he' (by simp [hl]) (hb.push a1 a2 a3)
    unfold Compiler.toReg at h1
    cases hop : n.op with
    | op o =>
      rw [hop] at h1
      cases h1
      have hlt : ∀ c ∈ n.children, c < buf.length := hd _ _ hn
      obtain ⟨m, hm⟩ := mapChildrenM_getIdx_total (n := (⟨o, n.children⟩ : ENode Op)) hlt
      have hm' := mapChildrenM_getIdx.1 hm
      have hval : ∀ c ∈ m.children, c < eg.nodes.length := by
        intro c hc
        obtain ⟨d, _, hd⟩ := forall₂_mem_left (forall₂_flip hm'.2) hc
        exact (hb _ _ hd).1
      obtain ⟨r, hr, hr1, hr2⟩ := EGraph.lookup_ok h hval
      unfold lookupTerm
      rw [hm]
      simp only [ok_bind, hr]
      -- the children match the sub-patterns
      have hch : ∀ us, List.Forall₂ (TermOf e) n.children us → List.Forall₂ (PMatch eg σ) m.children us :=
        fun us hus => forall₂_comp (forall₂_flip hm'.2) hus (fun a c u _ _ _ ha hu => (hb _ _ ha).2.2 u hu)
      cases r with
      | none =>
        right
        refine ⟨rfl, buf.length, ?_⟩
        obtain ⟨u, hu⟩ := hd.exists_term _ (getElem?_lt hn)
        refine ⟨u, getElem?_lt hn, hu, ?_⟩
        intro c hc
        cases u with
        | node op us =>
          rw [termOf_iff] at hu
          obtain ⟨n', g1, rfl, g3⟩ := hu
          rw [hn] at g1; cases g1
          rw [hop, pmatch_node_iff] at hc
          obtain ⟨k, q, e1, e2, e3, e4⟩ := hc
          have hcong : SameNode eg q m := by
            refine ⟨e3.trans hm'.1.symm, ?_⟩
            exact forall₂_comp e4 (forall₂_flip (hch us g3)) (fun a u b _ _ _ ha hb => EGraph.InvW.pmatch_det h hp u ha hb)
          have := hr2 hp _ _ _ (h.index_iff.1 e1).2 e2 (h.sameNode_iff.1 hcong).1
          cases this
      | some i =>
        obtain ⟨q1, q2, k, q, q3, q4, q5⟩ := hr1 i rfl
        apply hstep i q1 q2
        intro u hu
        cases u with
        | node op us =>
          rw [termOf_iff] at hu
          obtain ⟨n', g1, rfl, g3⟩ := hu
          rw [hn] at g1; cases g1
          rw [hop, pmatch_node_iff]
          refine ⟨k, q, h.index_iff.2 ⟨q1, by rw [q2]; exact q3⟩, q4, ?_, ?_⟩
          · have := q5.1; rw [this]; exact hm'.1
          · have hlt' := h.core.clsNodeLt (EGraph.sk_eq q3) q4
            have hsn : SameNode eg q m := h.sameNode_iff.2 ⟨q5, hlt', hval⟩
            exact forall₂_comp hsn.2 (hch us g3) (fun a b u _ _ _ hab hb => h.pmatch_congr hab.symm hb)
    | var v =>
      rw [hop] at h1
      simp only at h1
      rw [bind_eq_ok] at h1
      obtain ⟨r, hr, h1⟩ := h1
      cases h1
      rw [unwrap_eq_ok] at hr
      obtain ⟨x, y, hx, hy, hxy⟩ := hσ v r hr
      have hyl := hR y (List.mem_of_getElem? hy)
      unfold lookupTerm
      rw [getIdx_eq_ok.2 hy]
      simp only [ok_bind, h.find hyl]
      apply hstep _ (h.core.rtLt _ hyl) (h.core.rtIdem _)
      intro u hu
      cases u with
      | node op us =>
        rw [termOf_iff] at hu
        obtain ⟨n', g1, rfl, g3⟩ := hu
        rw [hn] at g1; cases g1
        rw [hv n (List.mem_of_getElem? hn) v hop] at g3
        cases g3
        rw [hop]
        refine .var hx (hxy.trans ?_)
        exact h.sameClass_iff.2 ⟨hyl, h.core.rtLt _ hyl, (h.core.rtIdem _).symm⟩

/-- A `Lookup` instruction decides a match. -/
theorem lookupOk_iff (h : EGraph.Inv C eg) (hp : eg.pending = []) {e : PatternAst Op} (hd : Dag e) (hv : VarLeaf e)
    {t : Term (PatOp Op)} (ht : ExprTerm e t) (hlive : ∀ j, j < e.length → Live e j)
    {v2r : AMap Var Nat} {R : List Id} (hR : ∀ x ∈ R, x < eg.nodes.length)
    (hσ : ∀ v r, v2r.get? v = some r → ∃ x y, σ v = some x ∧ R[r]? = some y ∧ SameClass eg x y)
    {term : List (ENodeOrReg Op)} (hterm : e.mapM (Compiler.toReg v2r) = .ok term) {i : Nat} {y : Id} (hy : R[i]? = some y) :
    lookupOk eg R term i = .ok true ↔ PMatch eg σ y t := by
  have hyl := hR y (List.mem_of_getElem? hy)
  have hne : e ≠ [] := ht.1
  have hpos : 0 < e.length := List.length_pos_iff.2 hne
  rcases lookupTerm_spec h hp hd hv hR hσ e term [] [] (mapM_eq_ok.1 hterm) (by simp) rfl
    (by intro j x hx; simp at hx) with ⟨buf, h1, h2, h3⟩ | ⟨h1, j, u, hj, hu, hno⟩
  · have hlast : buf[buf.length - 1]? = some (buf[buf.length - 1]'(by omega)) := List.getElem?_eq_getElem (by omega)
    obtain ⟨l1, l2, l3⟩ := h3 _ _ hlast
    have hm := l3 t (by rw [h2]; exact ht.2)
    have hgl : buf.getLast? = some (buf[buf.length - 1]'(by omega)) := by rw [List.getLast?_eq_getElem?]; exact hlast
    unfold lookupOk
    rw [h1]
    simp only [ok_bind, getIdx_eq_ok.2 hy, h.find hyl, hgl]
    constructor
    · intro hh
      have hh : decide (some (buf[buf.length - 1]'(by omega)) = some (eg.rt y)) = true := Except.ok.inj hh
      simp only [decide_eq_true_eq, Option.some.injEq] at hh
      refine h.pmatch_congr (h.sameClass_iff.2 ⟨l1, hyl, ?_⟩) hm
      rw [l2, hh]
    · intro hh
      have := h.sameClass_iff.1 (EGraph.InvW.pmatch_det h hp t hm hh)
      have h3 := this.2.2
      rw [l2] at h3
      rw [h3]
      simp
  · unfold lookupOk
    rw [h1]
    simp only [ok_bind]
    constructor
    · intro hh; cases hh
    · intro hh
      obtain ⟨c, hc⟩ := PMatch.sub (live_subterm hd ht (hlive j hj) u hu) hh
      exact absurd hc (hno c)

end
end Egg
