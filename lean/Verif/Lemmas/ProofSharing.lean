import Verif.Spec.ProofSharing
import Verif.Lemmas.ProofText
/-
Lemmas on explanations with sharing: printing with let bindings.
-/
namespace Egg
variable {Op : Type} {T : OpText Op} {name : Symbol → List Char}

namespace RcTree

theorem treeAll_eq (ts : List (RcTree Op)) : treeAll ts = ts.map tree := by
  induction ts with
  | nil => rw [treeAll]; rfl
  | cons t ts ih => rw [treeAll, ih]; rfl

theorem treeProofs_eq (ps : List (List (RcTree Op))) : treeProofs ps = ps.map (List.map tree) := by
  induction ps with
  | nil => rw [treeProofs]; rfl
  | cons p ps ih => rw [treeProofs, ih, treeAll_eq]; rfl

theorem tree_mk (p : Nat) (c l : Id) (o : Op) (b f : Option Symbol) (cps : List (List (RcTree Op))) :
    (RcTree.mk p c l o b f cps).tree = .mk o b f (cps.map (List.map tree)) := by
  rw [tree, treeProofs_eq]

/-! ### Without bindings, the text is that of the tree -/

theorem get?_nil' {α β : Type} [DecidableEq α] (a : α) : AMap.get? ([] : AMap α β) a = none := rfl

mutual
theorem sexpWith_nil : ∀ t : RcTree Op, sexpWith T name [] t = t.tree.getSexp T name
  | .mk p c l o b f cps => by
    rw [sexpWith, tree_mk, TreeTerm.getSexp, proofsWith_nil cps]
    cases cps <;> rfl
theorem proofsWith_nil : ∀ ps : List (List (RcTree Op)), proofsWith T name [] ps = TreeTerm.sexpProofs T name (ps.map (List.map tree))
  | [] => by rw [proofsWith, List.map_nil, TreeTerm.sexpProofs]
  | p :: ps => by rw [proofsWith, proofWith_nil p, proofsWith_nil ps, List.map_cons, TreeTerm.sexpProofs]
theorem proofWith_nil : ∀ p : List (RcTree Op), proofWith T name [] p = TreeTerm.sexpProof T name (p.map tree)
  | [] => by rw [proofWith, List.map_nil, TreeTerm.sexpProof]
  | [t] => by rw [proofWith]; simp only [get?_nil']; rw [sexpWith_nil t, List.map_cons, List.map_nil, TreeTerm.sexpProof]
  | t :: t' :: ts => by rw [proofWith, allWith_nil (t :: t' :: ts), List.map_cons, List.map_cons, TreeTerm.sexpProof]
theorem allWith_nil : ∀ ts : List (RcTree Op), allWith T name [] ts = TreeTerm.sexpAll T name (ts.map tree)
  | [] => by rw [allWith, List.map_nil, TreeTerm.sexpAll]
  | t :: ts => by rw [allWith, allWith_nil ts]; simp only [get?_nil']; rw [sexpWith_nil t, List.map_cons, TreeTerm.sexpAll]
end

/-! ### Substitution -/

theorem subst_annotate (E : List (List Char × Sexp)) {b f : Option Symbol} {e : Sexp}
    (hr : ∀ r, b = some r ∨ f = some r → E.lookup (name r) = none) (h1 : E.lookup "Rewrite=>".toList = none)
    (h2 : E.lookup "Rewrite<=".toList = none) : (annotate name b f e).subst E = annotate name b f (e.subst E) := by
  have wrap : ∀ (k : List Char) (r : Symbol) (e : Sexp), E.lookup k = none → E.lookup (name r) = none →
      (Sexp.list [.str k, .str (name r), e]).subst E = .list [.str k, .str (name r), e.subst E] := by
    intro k r e hk hn
    simp only [Sexp.subst, substItems, hk, hn, Option.getD_none]
  cases b <;> cases f <;> unfold annotate <;> simp only
  · exact wrap _ _ _ h1 (hr _ (.inr rfl))
  · exact wrap _ _ _ h2 (hr _ (.inl rfl))
  · rw [wrap _ _ _ h1 (hr _ (.inr rfl)), wrap _ _ _ h2 (hr _ (.inl rfl))]

/-- The bindings `b`, with names that stand for what `E` says, are right for the tree `u`. -/
def BindOK (T : OpText Op) (name : Symbol → List Char) (E : List (List Char × Sexp)) (b : AMap Nat Sexp) (u : RcTree Op) : Prop :=
  ∀ s', b.get? u.ptr = some s' → u.tree.getSexp T name = .ok (s'.subst E)

/-- Names that the environment leaves alone. -/
abbrev Fixed (E : List (List Char × Sexp)) (a : List Char) : Prop := E.lookup a = none

structure KeysFixed (E : List (List Char × Sexp)) : Prop where
  fwd : Fixed E "Rewrite=>".toList
  bwd : Fixed E "Rewrite<=".toList
  expl : Fixed E "Explanation".toList

mutual
theorem sexpWith_subst {E : List (List Char × Sexp)} {b : AMap Nat Sexp} (hk : KeysFixed E) : ∀ (t : RcTree Op) {s : Sexp},
    (∀ u, Occurs u t → BindOK T name E b u) → t.tree.Texts T name (Fixed E) → t.tree.getSexp T name = .ok s →
    ∃ s', sexpWith T name b t = .ok s' ∧ s'.subst E = s
  | .mk p c l o bw fw cps, s, hb, ht, h => by
    rw [tree_mk] at ht h
    rw [TreeTerm.getSexp] at h
    obtain ⟨e, he, h⟩ := bind_eq_ok.1 h
    cases h
    cases ht with
    | mk ho hr hc =>
      have key : ∃ e', (if cps.isEmpty then .ok (.str (T.show_ o)) else do
          let ss ← proofsWith T name b cps
          return .list (.str (T.show_ o) :: ss) : Res Sexp) = .ok e' ∧ e'.subst E = e := by
        cases cps with
        | nil =>
          cases he
          exact ⟨_, rfl, by rw [Sexp.subst, ho]; rfl⟩
        | cons q qs =>
          simp only [List.map_cons, List.isEmpty_cons, Bool.false_eq_true, if_false] at he ⊢
          obtain ⟨ss, hss, he⟩ := bind_eq_ok.1 he
          cases he
          obtain ⟨ss', hss', e⟩ := proofsWith_subst hk (q :: qs) (fun r hr t ht u hu => hb u (.child hr ht hu))
            (fun r hr t ht => hc (r.map tree) (List.mem_map_of_mem hr) _ (List.mem_map_of_mem ht)) hss
          rw [hss']
          refine ⟨_, rfl, ?_⟩
          rw [Sexp.subst, substItems, Sexp.subst, ho, e]
          rfl
      obtain ⟨e', he', e⟩ := key
      rw [sexpWith, he']
      refine ⟨_, rfl, ?_⟩
      rw [subst_annotate E hr hk.fwd hk.bwd, e]
theorem proofsWith_subst {E : List (List Char × Sexp)} {b : AMap Nat Sexp} (hk : KeysFixed E) : ∀ (ps : List (List (RcTree Op))) {ss : List Sexp},
    (∀ p ∈ ps, ∀ t ∈ p, ∀ u, Occurs u t → BindOK T name E b u) → (∀ p ∈ ps, ∀ t ∈ p, t.tree.Texts T name (Fixed E)) →
    TreeTerm.sexpProofs T name (ps.map (List.map tree)) = .ok ss →
    ∃ ss', proofsWith T name b ps = .ok ss' ∧ substItems E ss' = ss
  | [], ss, _, _, h => by
    rw [List.map_nil, TreeTerm.sexpProofs] at h
    cases h
    exact ⟨[], by rw [proofsWith], by rw [substItems]⟩
  | p :: ps, ss, hb, ht, h => by
    rw [List.map_cons, TreeTerm.sexpProofs] at h
    obtain ⟨s, hs, h⟩ := bind_eq_ok.1 h
    obtain ⟨ss, hss, h⟩ := bind_eq_ok.1 h
    cases h
    obtain ⟨s', h1, e1⟩ := proofWith_subst hk p (hb p (List.mem_cons_self ..)) (ht p (List.mem_cons_self ..)) hs
    obtain ⟨ss', h2, e2⟩ := proofsWith_subst hk ps (fun q hq => hb q (List.mem_cons_of_mem _ hq)) (fun q hq => ht q (List.mem_cons_of_mem _ hq)) hss
    exact ⟨s' :: ss', by rw [proofsWith, h1, h2]; rfl, by rw [substItems, e1, e2]⟩
theorem proofWith_subst {E : List (List Char × Sexp)} {b : AMap Nat Sexp} (hk : KeysFixed E) : ∀ (p : List (RcTree Op)) {s : Sexp},
    (∀ t ∈ p, ∀ u, Occurs u t → BindOK T name E b u) → (∀ t ∈ p, t.tree.Texts T name (Fixed E)) →
    TreeTerm.sexpProof T name (p.map tree) = .ok s →
    ∃ s', proofWith T name b p = .ok s' ∧ s'.subst E = s
  | [], s, _, _, h => by rw [List.map_nil, TreeTerm.sexpProof] at h; cases h
  | [t], s, hb, ht, h => by
    rw [List.map_cons, List.map_nil, TreeTerm.sexpProof] at h
    rw [proofWith]
    cases hg : b.get? t.ptr with
    | some s' =>
      have := hb t (List.mem_cons_self ..) t .refl s' hg
      rw [h] at this
      injection this with this
      exact ⟨s', rfl, this.symm⟩
    | none => exact sexpWith_subst hk t (hb t (List.mem_cons_self ..)) (ht t (List.mem_cons_self ..)) h
  | t :: t' :: ts, s, hb, ht, h => by
    rw [List.map_cons, List.map_cons, TreeTerm.sexpProof] at h
    obtain ⟨ss, hss, h⟩ := bind_eq_ok.1 h
    cases h
    obtain ⟨ss', h1, e1⟩ := allWith_subst hk (t :: t' :: ts) hb ht hss
    rw [proofWith, h1]
    refine ⟨_, rfl, ?_⟩
    rw [Sexp.subst, substItems, Sexp.subst, hk.expl, e1]
    rfl
theorem allWith_subst {E : List (List Char × Sexp)} {b : AMap Nat Sexp} (hk : KeysFixed E) : ∀ (ts : List (RcTree Op)) {ss : List Sexp},
    (∀ t ∈ ts, ∀ u, Occurs u t → BindOK T name E b u) → (∀ t ∈ ts, t.tree.Texts T name (Fixed E)) →
    TreeTerm.sexpAll T name (ts.map tree) = .ok ss →
    ∃ ss', allWith T name b ts = .ok ss' ∧ substItems E ss' = ss
  | [], ss, _, _, h => by
    rw [List.map_nil, TreeTerm.sexpAll] at h
    cases h
    exact ⟨[], by rw [allWith], by rw [substItems]⟩
  | t :: ts, ss, hb, ht, h => by
    rw [List.map_cons, TreeTerm.sexpAll] at h
    obtain ⟨s, hs, h⟩ := bind_eq_ok.1 h
    obtain ⟨ss, hss, h⟩ := bind_eq_ok.1 h
    cases h
    obtain ⟨ss', h2, e2⟩ := allWith_subst hk ts (fun q hq => hb q (List.mem_cons_of_mem _ hq)) (fun q hq => ht q (List.mem_cons_of_mem _ hq)) hss
    rw [allWith]
    cases hg : b.get? t.ptr with
    | some s' =>
      have := hb t (List.mem_cons_self ..) t .refl s' hg
      rw [hs] at this
      injection this with this
      exact ⟨s' :: ss', by simp only [h2]; rfl, by rw [substItems, this, e2]⟩
    | none =>
      obtain ⟨s', h1, e1⟩ := sexpWith_subst hk t (hb t (List.mem_cons_self ..)) (ht t (List.mem_cons_self ..)) hs
      exact ⟨s' :: ss', by simp only [h1, h2]; rfl, by rw [substItems, e1, e2]⟩
end

/-! ### What is bound occurs -/

mutual
theorem findToLetBind_occurs : ∀ (t : RcTree Op) (st : List Nat × List (RcTree Op)) (u : RcTree Op), u ∈ (findToLetBind t st).2 →
    u ∈ st.2 ∨ Occurs u t
  | .mk p c l o b f cps, (shared, bind), u, h => by
    rw [findToLetBind] at h
    split at h
    · exact .inl h
    · split at h
      · rcases List.mem_append.1 h with h | h
        · exact .inl h
        · rw [List.mem_singleton.1 h]; exact .inr .refl
      · rcases findInProofs_occurs cps _ u h with h | ⟨q, hq, t, ht, hu⟩
        · exact .inl h
        · exact .inr (.child hq ht hu)
theorem findInProofs_occurs : ∀ (ps : List (List (RcTree Op))) (st : List Nat × List (RcTree Op)) (u : RcTree Op), u ∈ (findInProofs ps st).2 →
    u ∈ st.2 ∨ ∃ p ∈ ps, ∃ t ∈ p, Occurs u t
  | [], st, u, h => by rw [findInProofs] at h; exact .inl h
  | p :: ps, st, u, h => by
    rw [findInProofs] at h
    rcases findInProofs_occurs ps _ u h with h | ⟨q, hq, h⟩
    · rcases findInAll_occurs p _ u h with h | h
      · exact .inl h
      · exact .inr ⟨p, List.mem_cons_self .., h⟩
    · exact .inr ⟨q, List.mem_cons_of_mem _ hq, h⟩
theorem findInAll_occurs : ∀ (ts : List (RcTree Op)) (st : List Nat × List (RcTree Op)) (u : RcTree Op), u ∈ (findInAll ts st).2 →
    u ∈ st.2 ∨ ∃ t ∈ ts, Occurs u t
  | [], st, u, h => by rw [findInAll] at h; exact .inl h
  | t :: ts, st, u, h => by
    rw [findInAll] at h
    rcases findInAll_occurs ts _ u h with h | ⟨q, hq, h⟩
    · rcases findToLetBind_occurs t _ u h with h | h
      · exact .inl h
      · exact .inr ⟨t, List.mem_cons_self .., h⟩
    · exact .inr ⟨q, List.mem_cons_of_mem _ hq, h⟩
end

/-! ### The bindings -/

/-- The environment that the bindings make, starting from `E`. -/
def envFrom : List (List Char × Sexp) → List (List Char × Sexp) → List (List Char × Sexp)
  | E, [] => E
  | E, (x, e) :: gen => envFrom ((x, e.subst E) :: E) gen

theorem envFrom_snoc (x : List Char) (e : Sexp) : ∀ (gen E : List (List Char × Sexp)),
    envFrom E (gen ++ [(x, e)]) = (x, e.subst (envFrom E gen)) :: envFrom E gen
  | [], E => rfl
  | (y, f) :: gen, E => by rw [List.cons_append, envFrom, envFrom_snoc x e gen, envFrom]

theorem unlet_wrapLets (items : List Sexp) : ∀ (gen E : List (List Char × Sexp)),
    Unlet E (wrapLets gen (.list (.str "Explanation".toList :: items))) (Sexp.subst (envFrom E gen) (.list (.str "Explanation".toList :: items)))
  | [], E => by rw [wrapLets, envFrom]; exact .body
  | (x, e) :: gen, E => by rw [wrapLets, envFrom]; exact .bind (unlet_wrapLets items gen _)

theorem bindName_inj {m n : Nat} (h : bindName m = bindName n) : m = n := by
  unfold bindName at h
  simp at h
  exact showNat_injective h

/-- All names of the environment are generated ones, with numbers below `n`. -/
def Names (E : List (List Char × Sexp)) (n : Nat) : Prop := ∀ a, E.lookup a ≠ none → ∃ i < n, a = bindName i

theorem Names.fixed {E : List (List Char × Sexp)} {n : Nat} (h : Names E n) {a : List Char} (ha : ¬ LetName a) : Fixed E a := by
  by_contra hc
  obtain ⟨i, _, e⟩ := h a hc
  exact ha ⟨i, e⟩

theorem Names.fresh {E : List (List Char × Sexp)} {n : Nat} (h : Names E n) : Fixed E (bindName n) := by
  by_contra hc
  obtain ⟨i, hi, e⟩ := h _ hc
  have := bindName_inj e
  omega

theorem Names.keys {E : List (List Char × Sexp)} {n : Nat} (h : Names E n) : KeysFixed E := by
  have key : ∀ a : List Char, a.head? ≠ some 'v' → ¬ LetName a := by
    rintro a ha ⟨n, rfl⟩
    exact ha rfl
  exact ⟨h.fixed (key _ (by decide)), h.fixed (key _ (by decide)), h.fixed (key _ (by decide))⟩

theorem Texts.fixed {E : List (List Char × Sexp)} {n : Nat} (hn : Names E n) {P : List Char → Prop} (hP : ∀ a, P a → ¬ LetName a)
    {t : TreeTerm Op} (h : t.Texts T name P) : t.Texts T name (Fixed E) := by
  induction h with
  | mk a b _ ih => exact .mk (hn.fixed (hP _ a)) (fun r hr => hn.fixed (hP _ (b r hr))) ih

theorem Texts.of_occurs {P : List Char → Prop} {u t : RcTree Op} (h : Occurs u t) (ht : t.tree.Texts T name P) : u.tree.Texts T name P := by
  induction h with
  | refl => exact ht
  | child h1 h2 _ ih =>
    rw [tree_mk] at ht
    cases ht with
    | mk _ _ hc => exact ih (hc _ (List.mem_map_of_mem h1) _ (List.mem_map_of_mem h2))

theorem Full.of_occurs {u t : RcTree Op} (h : Occurs u t) (ht : t.tree.Full) : u.tree.Full := by
  induction h with
  | refl => exact ht
  | child h1 h2 _ ih =>
    rw [tree_mk] at ht
    cases ht with
    | mk _ hc => exact ih (hc _ (List.mem_map_of_mem h1) _ (List.mem_map_of_mem h2))

theorem Occurs.trans {u v w : RcTree Op} (h : Occurs u v) (h' : Occurs v w) : Occurs u w := by
  induction h' with
  | refl => exact h
  | child h1 h2 _ ih => exact .child h1 h2 ih

/-- Invariant of the loop that generates the bindings. -/
structure GenOK (T : OpText Op) (name : Symbol → List Char) (S : RcTree Op → Prop) (b : AMap Nat Sexp) (gen : List (List Char × Sexp)) : Prop where
  names : Names (envFrom [] gen) gen.length
  bound : ∀ p s, b.get? p = some s → ∃ i < gen.length, s = .str (bindName i)
  ok : ∀ u, S u → BindOK T name (envFrom [] gen) b u

theorem genBindings_ok {S : RcTree Op → Prop} {P : List Char → Prop} (hP : ∀ a, P a → ¬ LetName a)
    (hinj : ∀ u v, S u → S v → u.ptr = v.ptr → u = v) (hsub : ∀ u v, S v → Occurs u v → S u)
    (htext : ∀ u, S u → u.tree.Texts T name P) (hfull : ∀ u, S u → u.tree.Full) :
    ∀ (ts : List (RcTree Op)), (∀ t ∈ ts, S t) → ∀ (b : AMap Nat Sexp) (gen : List (List Char × Sexp)), GenOK T name S b gen →
    ∃ b' gen', genBindings T name ts (b, gen) = .ok (b', gen') ∧ GenOK T name S b' gen'
  | [], _, b, gen, h => ⟨b, gen, by rw [genBindings], h⟩
  | t :: ts, hts, b, gen, h => by
    have ht := hts t (List.mem_cons_self ..)
    have hts' := fun u hu => hts u (List.mem_cons_of_mem _ hu)
    rw [genBindings]
    cases hg : b.get? t.ptr with
    | some s =>
      simp only [Option.isNone_some, Bool.false_eq_true, if_false]
      exact genBindings_ok hP hinj hsub htext hfull ts hts' b gen h
    | none =>
      simp only [Option.isNone_none, if_true]
      obtain ⟨st, hst⟩ := TreeTerm.getSexp_returns (T := T) (name := name) (hfull t ht)
      obtain ⟨ast, ha, e⟩ := sexpWith_subst (b := b) h.names.keys t (fun u hu => h.ok u (hsub u t ht hu))
        (Texts.fixed h.names hP (htext t ht)) hst
      rw [ha, ok_bind]
      refine genBindings_ok hP hinj hsub htext hfull ts hts' _ _ ⟨?_, ?_, ?_⟩
      · intro a hne
        rw [envFrom_snoc, List.lookup_cons] at hne
        rw [List.length_append]
        by_cases hab : a = bindName gen.length
        · exact ⟨gen.length, by simp, hab⟩
        · rw [show (a == bindName gen.length) = false by simpa using hab] at hne
          obtain ⟨i, hi, e⟩ := h.names a hne
          exact ⟨i, by simp; omega, e⟩
      · intro p s hps
        rw [AMap.get?_insert] at hps
        rw [List.length_append]
        split at hps
        · cases hps
          exact ⟨gen.length, by simp, rfl⟩
        · obtain ⟨i, hi, e⟩ := h.bound p s hps
          exact ⟨i, by simp; omega, e⟩
      · intro u hu s' hs'
        rw [AMap.get?_insert] at hs'
        rw [envFrom_snoc, e]
        split at hs'
        · rename_i hp
          have hut : u = t := hinj u t hu ht (by first | exact hp | exact hp.symm)
          cases hs'
          rw [hut, hst, Sexp.subst, List.lookup_cons]
          simp
        · obtain ⟨i, hi, rfl⟩ := h.bound _ _ hs'
          have hk := h.ok u hu _ hs'
          rw [hk, Sexp.subst, Sexp.subst, List.lookup_cons]
          have hne : (bindName i == bindName gen.length) = false := by
            rw [beq_eq_false_iff_ne]
            intro e
            have := bindName_inj e
            omega
          rw [hne]

/-- Reading the let-bound form of an explanation gives the plain form. -/
theorem sexpWithLet_ok {P : List Char → Prop} (hP : ∀ a, P a → ¬ LetName a) {ts : List (RcTree Op)} (hs : Shared ts)
    (htext : ∀ t ∈ ts, t.tree.Texts T name P) (hfull : ∀ t ∈ ts, t.tree.Full) :
    ∃ s s', sexpWithLet T name ts = .ok s ∧ explanationSexp T name (ts.map tree) = .ok s' ∧ Unlet [] s s' := by
  have hsub : ∀ u v : RcTree Op, v.OccursIn ts → Occurs u v → u.OccursIn ts := by
    rintro u v ⟨t, ht, h⟩ h'
    exact ⟨t, ht, h'.trans h⟩
  obtain ⟨b, gen, hg, ok⟩ := genBindings_ok (T := T) (name := name) (S := fun u => u.OccursIn ts) hP hs hsub
    (by rintro u ⟨t, ht, h⟩; exact Texts.of_occurs h (htext t ht)) (by rintro u ⟨t, ht, h⟩; exact Full.of_occurs h (hfull t ht))
    (findInAll ts ([], [])).2 (by
      intro u hu
      rcases findInAll_occurs ts _ u hu with h | h
      · cases h
      · exact h) [] [] ⟨by intro a h; simp [envFrom] at h, (fun p s h => by cases h), (fun u _ s h => by cases h)⟩
  obtain ⟨ss, hss⟩ := TreeTerm.sexpAll_returns (T := T) (name := name) (ts := ts.map tree) (by
    intro t ht
    obtain ⟨u, hu, rfl⟩ := List.mem_map.1 ht
    exact hfull u hu)
  obtain ⟨items, hi, e⟩ := allWith_subst (b := b) ok.names.keys ts (fun t ht u hu => ok.ok u ⟨t, ht, hu⟩)
    (fun t ht => Texts.fixed ok.names hP (htext t ht)) hss
  refine ⟨wrapLets gen (.list (.str "Explanation".toList :: items)), .list (.str "Explanation".toList :: ss), ?_, ?_, ?_⟩
  · unfold sexpWithLet
    simp only [hg, ok_bind, hi]
    rfl
  · unfold explanationSexp
    rw [hss, ok_bind]
    rfl
  · have := unlet_wrapLets items gen []
    rw [Sexp.subst, substItems, Sexp.subst, ok.names.keys.expl, e] at this
    exact this

end RcTree
end Egg
