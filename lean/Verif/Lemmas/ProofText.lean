import Verif.Spec.ProofText
import Verif.Props.ExprText
/-
Lemmas on the text of explanations.
-/
namespace Egg
variable {Op : Type} {T : OpText Op} {name : Symbol → List Char} {P : List Char → Prop}

/-! ### Flat terms -/

namespace FlatTerm

theorem Shown.annotate {o : Op} {cs : List (FlatTerm Op)} {e : Sexp} (h : Shown T name (.mk o none none cs) e)
    (b f : Option Symbol) : Shown T name (.mk o b f cs) (Egg.annotate name b f e) := by
  cases b <;> cases f
  · exact h
  · exact .fwd h
  · exact .bwd h
  · exact .fwd (.bwd h)

mutual
theorem getSexp_shown (T : OpText Op) (name : Symbol → List Char) : ∀ t : FlatTerm Op, Shown T name t (t.getSexp T name)
  | .mk o b f [] => by rw [getSexp]; exact Shown.annotate .const b f
  | .mk o b f (c :: cs) => by
    rw [getSexp]
    exact Shown.annotate (.app (getSexps_shown T name (c :: cs))) b f
theorem getSexps_shown (T : OpText Op) (name : Symbol → List Char) : ∀ ts : List (FlatTerm Op), AllShown T name ts (getSexps T name ts)
  | [] => by rw [getSexps]; exact .nil
  | c :: cs => by rw [getSexps]; exact .cons (getSexp_shown T name c) (getSexps_shown T name cs)
end

theorem Shown.inv {t : FlatTerm Op} {s : Sexp} (h : Shown T name t s) :
    (∃ o, t = .mk o none none [] ∧ s = .str (T.show_ o)) ∨
    (∃ o c cs ss, t = .mk o none none (c :: cs) ∧ s = .list (.str (T.show_ o) :: ss) ∧ AllShown T name (c :: cs) ss) ∨
    (∃ o r cs s', t = .mk o (some r) none cs ∧ s = .list [.str "Rewrite<=".toList, .str (name r), s'] ∧ Shown T name (.mk o none none cs) s') ∨
    (∃ o b r cs s', t = .mk o b (some r) cs ∧ s = .list [.str "Rewrite=>".toList, .str (name r), s'] ∧ Shown T name (.mk o b none cs) s') := by
  cases h with
  | const => exact .inl ⟨_, rfl, rfl⟩
  | app h => exact .inr (.inl ⟨_, _, _, _, rfl, rfl, h⟩)
  | bwd h => exact .inr (.inr (.inl ⟨_, _, _, _, rfl, rfl, h⟩))
  | fwd h => exact .inr (.inr (.inr ⟨_, _, _, _, _, rfl, rfl, h⟩))

theorem AllShown.length {ts : List (FlatTerm Op)} {ss : List Sexp} (h : AllShown T name ts ss) : ts.length = ss.length := by
  induction ts generalizing ss with
  | nil => cases h; rfl
  | cons t ts ih => cases h with | cons _ h => simp [ih h]

theorem Legible.noBwd {o : Op} {b : Option Symbol} {cs : List (FlatTerm Op)} (h : Legible T name P (.mk o b none cs)) :
    Legible T name P (.mk o none none cs) := by
  cases h with
  | mk a b c d e => exact .mk a b c (by simp) e

theorem Legible.noFwd {o : Op} {b f : Option Symbol} {cs : List (FlatTerm Op)} (h : Legible T name P (.mk o b f cs)) :
    Legible T name P (.mk o b none cs) := by
  cases h with
  | mk a b c d e => exact .mk a b c (fun r hr => d r (by rcases hr with hr | hr <;> simp_all)) e

theorem Legible.notKey {o : Op} {b f : Option Symbol} {cs : List (FlatTerm Op)} (h : Legible T name P (.mk o b f cs)) :
    ¬ Keyword (T.show_ o) := by cases h; assumption

theorem Legible.op_eq {o o' : Op} {b f b' f' : Option Symbol} {cs cs' : List (FlatTerm Op)} (h : Legible T name P (.mk o b f cs))
    (h' : Legible T name P (.mk o' b' f' cs')) (hl : cs.length = cs'.length) (hs : T.show_ o = T.show_ o') : o = o' := by
  cases h with
  | mk _ _ c _ _ =>
    cases h' with
    | mk _ _ c' _ _ =>
      have e := c (List.replicate cs.length 0) (by simp)
      have e' := c' (List.replicate cs.length 0) (by simp [hl])
      rw [hs, e'] at e
      simpa using e.symm

mutual
theorem Shown.unique (hname : ∀ r r', name r = name r' → r = r') : ∀ {t : FlatTerm Op} {s : Sexp}, Shown T name t s →
    ∀ {t' : FlatTerm Op}, Shown T name t' s → Legible T name P t → Legible T name P t' → t = t'
  | _, _, .const, t', h', l, l' => by
    rcases h'.inv with ⟨o', rfl, e⟩ | ⟨o', c, cs, ss, rfl, e, _⟩ | ⟨o', r, cs, s', rfl, e, _⟩ | ⟨o', b, r, cs, s', rfl, e, _⟩
    · injection e with e
      rw [l.op_eq l' rfl e]
    all_goals cases e
  | _, _, .app h, t', h', l, l' => by
    rcases h'.inv with ⟨o', rfl, e⟩ | ⟨o', c, cs, ss, rfl, e, h''⟩ | ⟨o', r, cs, s', rfl, e, _⟩ | ⟨o', b, r, cs, s', rfl, e, _⟩
    · cases e
    · injection e with e
      injection e with e1 e2
      injection e1 with e1
      subst e2
      have hl : _ = _ := h.length.trans h''.length.symm
      have := AllShown.unique hname h h'' (by cases l; assumption) (by cases l'; assumption)
      rw [l.op_eq l' hl e1, this]
    · injection e with e
      injection e with e1 e2
      injection e1 with e1
      exact absurd (.inr (.inl e1)) l.notKey
    · injection e with e
      injection e with e1 e2
      injection e1 with e1
      exact absurd (.inl e1) l.notKey
  | _, _, .bwd h, t', h', l, l' => by
    rcases h'.inv with ⟨o', rfl, e⟩ | ⟨o', c, cs, ss, rfl, e, h''⟩ | ⟨o', r, cs, s', rfl, e, h''⟩ | ⟨o', b, r, cs, s', rfl, e, _⟩
    · cases e
    · injection e with e
      injection e with e1 e2
      injection e1 with e1
      exact absurd (.inr (.inl e1.symm)) l'.notKey
    · injection e with e
      injection e with _ e
      injection e with e1 e
      injection e with e2 _
      injection e1 with e1
      subst e2
      have := Shown.unique hname h h'' l.noBwd l'.noBwd
      injection this with a _ _ b
      rw [a, b, hname _ _ e1]
    · injection e with e
      injection e with e1 e2
      injection e1 with e1
      exact absurd e1 (by decide)
  | _, _, .fwd h, t', h', l, l' => by
    rcases h'.inv with ⟨o', rfl, e⟩ | ⟨o', c, cs, ss, rfl, e, h''⟩ | ⟨o', r, cs, s', rfl, e, _⟩ | ⟨o', b, r, cs, s', rfl, e, h''⟩
    · cases e
    · injection e with e
      injection e with e1 e2
      injection e1 with e1
      exact absurd (.inl e1.symm) l'.notKey
    · injection e with e
      injection e with e1 e2
      injection e1 with e1
      exact absurd e1 (by decide)
    · injection e with e
      injection e with _ e
      injection e with e1 e
      injection e with e2 _
      injection e1 with e1
      subst e2
      have := Shown.unique hname h h'' l.noFwd l'.noFwd
      injection this with a b _ c
      rw [a, b, c, hname _ _ e1]
theorem AllShown.unique (hname : ∀ r r', name r = name r' → r = r') : ∀ {ts : List (FlatTerm Op)} {ss : List Sexp}, AllShown T name ts ss →
    ∀ {ts' : List (FlatTerm Op)}, AllShown T name ts' ss → (∀ t ∈ ts, Legible T name P t) → (∀ t ∈ ts', Legible T name P t) → ts = ts'
  | _, _, .nil, ts', h', _, _ => by cases h'; rfl
  | _, _, .cons h hs, ts', h', l, l' => by
    cases h' with
    | cons h' hs' =>
      rw [Shown.unique hname h h' (l _ (List.mem_cons_self ..)) (l' _ (List.mem_cons_self ..)),
        AllShown.unique hname hs hs' (fun t ht => l t (List.mem_cons_of_mem _ ht)) (fun t ht => l' t (List.mem_cons_of_mem _ ht))]
end

theorem annotate_atoms {b f : Option Symbol} {e : Sexp} (he : e.AllAtoms P) (hr : ∀ r, b = some r ∨ f = some r → P (name r))
    (h1 : P "Rewrite=>".toList) (h2 : P "Rewrite<=".toList) : (Egg.annotate name b f e).AllAtoms P := by
  have wrap : ∀ (k : List Char) (r : Symbol) (e : Sexp), P k → P (name r) → e.AllAtoms P → (Sexp.list [.str k, .str (name r), e]).AllAtoms P := by
    intro k r e hk hn he
    simp only [Sexp.AllAtoms, AllItems]
    exact ⟨by simp, hk, hn, he, trivial⟩
  cases b <;> cases f <;> unfold Egg.annotate <;> simp only
  · exact he
  · exact wrap _ _ _ h1 (hr _ (.inr rfl)) he
  · exact wrap _ _ _ h2 (hr _ (.inl rfl)) he
  · exact wrap _ _ _ h1 (hr _ (.inr rfl)) (wrap _ _ _ h2 (hr _ (.inl rfl)) he)

mutual
theorem Legible.atoms (h1 : P "Rewrite=>".toList) (h2 : P "Rewrite<=".toList) : ∀ {t : FlatTerm Op}, Legible T name P t → (t.getSexp T name).AllAtoms P
  | .mk o b f cs, h => by
    rw [getSexp]
    cases h with
    | mk ho _ _ hr hc =>
      refine annotate_atoms ?_ hr h1 h2
      split
      · rw [Sexp.AllAtoms]; exact ho
      · rw [Sexp.AllAtoms]
        refine ⟨by simp, ?_⟩
        rw [AllItems, Sexp.AllAtoms]
        exact ⟨ho, legible_atoms h1 h2 hc⟩
theorem legible_atoms (h1 : P "Rewrite=>".toList) (h2 : P "Rewrite<=".toList) : ∀ {ts : List (FlatTerm Op)}, (∀ t ∈ ts, Legible T name P t) → AllItems P (getSexps T name ts)
  | [], _ => by rw [getSexps, AllItems]; trivial
  | t :: ts, h => by
    rw [getSexps, AllItems]
    exact ⟨Legible.atoms h1 h2 (h t (List.mem_cons_self ..)), legible_atoms h1 h2 (fun u hu => h u (List.mem_cons_of_mem _ hu))⟩
end

theorem term_eq (o : Op) (b f : Option Symbol) (cs : List (FlatTerm Op)) : (FlatTerm.mk o b f cs).term = .node o (cs.map term) := by
  rw [term]
  simp

mutual
theorem removeRewrites_sexp : ∀ t : FlatTerm Op, t.removeRewrites.getSexp T name = termSexp T t.term
  | .mk o b f cs => by
    rw [removeRewrites, FlatTerm.new, getSexp, term_eq, termSexp_node, removeAll_sexp cs]
    cases cs with
    | nil => rfl
    | cons c cs => rw [removeAll]; rfl
theorem removeAll_sexp : ∀ ts : List (FlatTerm Op), getSexps T name (removeAll ts) = (ts.map term).map (termSexp T)
  | [] => rfl
  | t :: ts => by rw [removeAll, getSexps, removeRewrites_sexp t, removeAll_sexp ts]; rfl
end

theorem Legible.readable {t : FlatTerm Op} (h : Legible T name P t) : Readable T t.term := by
  induction h with
  | mk _ _ h3 _ _ ih =>
    rw [term_eq]
    refine .node (by simpa using h3) ?_
    intro t ht
    obtain ⟨c, hc, rfl⟩ := List.mem_map.1 ht
    exact ih c hc

theorem Legible.opTexts {t : FlatTerm Op} (h : Legible T name P t) : OpTexts T P t.term := by
  induction h with
  | mk h1 _ _ _ _ ih =>
    rw [term_eq]
    refine .node h1 ?_
    intro t ht
    obtain ⟨c, hc, rfl⟩ := List.mem_map.1 ht
    exact ih c hc

end FlatTerm

/-! ### Lines -/

theorem joinLines_inj : ∀ {ls ls' : List (List Char)}, (∀ l ∈ ls, '\n' ∉ l) → (∀ l ∈ ls', '\n' ∉ l) → ls ≠ [] → ls' ≠ [] →
    joinLines ls = joinLines ls' → ls = ls' := by
  have split : ∀ {a b x y : List Char}, '\n' ∉ a → '\n' ∉ b → a ++ '\n' :: x = b ++ '\n' :: y → a = b ∧ x = y := by
    intro a
    induction a with
    | nil =>
      intro b x y _ hb e
      cases b with
      | nil => simpa using e
      | cons c b => simp at e; rw [← e.1] at hb; simp at hb
    | cons d a ih =>
      intro b x y ha hb e
      cases b with
      | nil => simp at e; rw [e.1] at ha; simp at ha
      | cons c b =>
        simp at e ha hb
        obtain ⟨h1, h2⟩ := ih ha.2 hb.2 e.2
        exact ⟨by rw [e.1, h1], h2⟩
  intro ls
  induction ls with
  | nil => intro ls' _ _ h; exact absurd rfl h
  | cons l ls ih =>
    intro ls' h h' _ hne e
    cases ls' with
    | nil => exact absurd rfl hne
    | cons l' ls' =>
      have hl := h l (List.mem_cons_self ..)
      have hl' := h' l' (List.mem_cons_self ..)
      cases ls with
      | nil =>
        cases ls' with
        | nil => rw [joinLines, joinLines] at e; rw [e]
        | cons m ms =>
          rw [joinLines, joinLines] at e
          rw [e] at hl; simp at hl
      | cons m ms =>
        cases ls' with
        | nil =>
          rw [joinLines, joinLines] at e
          rw [← e] at hl'; simp at hl'
        | cons m' ms' =>
          rw [joinLines, joinLines] at e
          obtain ⟨h1, h2⟩ := split hl hl' e
          rw [h1, ih (fun x hx => h x (List.mem_cons_of_mem _ hx)) (fun x hx => h' x (List.mem_cons_of_mem _ hx)) (by simp) (by simp) h2]

mutual
theorem showSexp_noNewline : ∀ {s : Sexp}, s.AllAtoms (fun a => '\n' ∉ a) → '\n' ∉ showSexp s
  | .str a, h => by
    rw [Sexp.AllAtoms] at h
    rw [showSexp, showAtom]
    split
    · simp [h]
    · exact h
  | .list items, h => by
    rw [Sexp.AllAtoms] at h
    rw [showSexp]
    simp [showItems_noNewline h.2]
  | .empty, _ => by rw [showSexp]; decide
theorem showItems_noNewline : ∀ {ss : List Sexp}, AllItems (fun a => '\n' ∉ a) ss → '\n' ∉ showItems ss
  | [], _ => by rw [showItems]; simp
  | [s], h => by
    rw [AllItems] at h
    rw [showItems]
    exact showSexp_noNewline h.1
  | s :: s' :: ss, h => by
    rw [AllItems] at h
    rw [showItems]
    · simp [showSexp_noNewline h.1, showItems_noNewline h.2]
    · simp
end

mutual
theorem Sexp.AllAtoms.imp {Q : List Char → Prop} (hi : ∀ a, P a → Q a) : ∀ {s : Sexp}, s.AllAtoms P → s.AllAtoms Q
  | .str a, h => by rw [Sexp.AllAtoms] at h ⊢; exact hi _ h
  | .list items, h => by rw [Sexp.AllAtoms] at h ⊢; exact ⟨h.1, AllItems.imp hi h.2⟩
  | .empty, _ => by rw [Sexp.AllAtoms]; trivial
theorem AllItems.imp {Q : List Char → Prop} (hi : ∀ a, P a → Q a) : ∀ {ss : List Sexp}, AllItems P ss → AllItems Q ss
  | [], _ => by rw [AllItems]; trivial
  | s :: ss, h => by rw [AllItems] at h ⊢; exact ⟨Sexp.AllAtoms.imp hi h.1, AllItems.imp hi h.2⟩
end

/-! ### Tree terms -/

namespace TreeTerm

theorem Shown.annotate {o : Op} {cps : List (List (TreeTerm Op))} {e : Sexp} (h : Shown T name (.mk o none none cps) e)
    (b f : Option Symbol) : Shown T name (.mk o b f cps) (Egg.annotate name b f e) := by
  cases b <;> cases f
  · exact h
  · exact .fwd h
  · exact .bwd h
  · exact .fwd (.bwd h)

mutual
theorem getSexp_shown : ∀ {t : TreeTerm Op} {s : Sexp}, t.getSexp T name = .ok s → Shown T name t s
  | .mk o b f cps, s, h => by
    rw [getSexp] at h
    obtain ⟨e, he, h⟩ := bind_eq_ok.1 h
    cases h
    refine Shown.annotate ?_ b f
    cases cps with
    | nil => cases he; exact .const
    | cons p ps =>
      simp only [List.isEmpty_cons, Bool.false_eq_true, if_false] at he
      obtain ⟨ss, hss, he⟩ := bind_eq_ok.1 he
      cases he
      exact .app (sexpProofs_shown hss)
theorem sexpProofs_shown : ∀ {ps : List (List (TreeTerm Op))} {ss : List Sexp}, sexpProofs T name ps = .ok ss → ProofsShown T name ps ss
  | [], ss, h => by rw [sexpProofs] at h; cases h; exact .nil
  | p :: ps, ss, h => by
    rw [sexpProofs] at h
    obtain ⟨s, hs, h⟩ := bind_eq_ok.1 h
    obtain ⟨ss, hss, h⟩ := bind_eq_ok.1 h
    cases h
    exact .cons (sexpProof_shown hs) (sexpProofs_shown hss)
theorem sexpProof_shown : ∀ {p : List (TreeTerm Op)} {s : Sexp}, sexpProof T name p = .ok s → ProofShown T name p s
  | [], s, h => by rw [sexpProof] at h; cases h
  | [t], s, h => by rw [sexpProof] at h; exact .single (getSexp_shown h)
  | t :: t' :: ts, s, h => by
    rw [sexpProof] at h
    obtain ⟨ss, hss, h⟩ := bind_eq_ok.1 h
    cases h
    exact .several (sexpAll_shown hss)
theorem sexpAll_shown : ∀ {ts : List (TreeTerm Op)} {ss : List Sexp}, sexpAll T name ts = .ok ss → AllShown T name ts ss
  | [], ss, h => by rw [sexpAll] at h; cases h; exact .nil
  | t :: ts, ss, h => by
    rw [sexpAll] at h
    obtain ⟨s, hs, h⟩ := bind_eq_ok.1 h
    obtain ⟨ss, hss, h⟩ := bind_eq_ok.1 h
    cases h
    exact .cons (getSexp_shown hs) (sexpAll_shown hss)
end

theorem Shown.inv {t : TreeTerm Op} {s : Sexp} (h : Shown T name t s) :
    (∃ o, t = .mk o none none [] ∧ s = .str (T.show_ o)) ∨
    (∃ o c cs ss, t = .mk o none none (c :: cs) ∧ s = .list (.str (T.show_ o) :: ss) ∧ ProofsShown T name (c :: cs) ss) ∨
    (∃ o r cs s', t = .mk o (some r) none cs ∧ s = .list [.str "Rewrite<=".toList, .str (name r), s'] ∧ Shown T name (.mk o none none cs) s') ∨
    (∃ o b r cs s', t = .mk o b (some r) cs ∧ s = .list [.str "Rewrite=>".toList, .str (name r), s'] ∧ Shown T name (.mk o b none cs) s') := by
  cases h with
  | const => exact .inl ⟨_, rfl, rfl⟩
  | app h => exact .inr (.inl ⟨_, _, _, _, rfl, rfl, h⟩)
  | bwd h => exact .inr (.inr (.inl ⟨_, _, _, _, rfl, rfl, h⟩))
  | fwd h => exact .inr (.inr (.inr ⟨_, _, _, _, _, rfl, rfl, h⟩))

theorem ProofShown.inv {p : List (TreeTerm Op)} {s : Sexp} (h : ProofShown T name p s) :
    (∃ t, p = [t] ∧ Shown T name t s) ∨
    (∃ t t' ts ss, p = t :: t' :: ts ∧ s = .list (.str "Explanation".toList :: ss) ∧ AllShown T name (t :: t' :: ts) ss) := by
  cases h with
  | single h => exact .inl ⟨_, rfl, h⟩
  | several h => exact .inr ⟨_, _, _, _, rfl, rfl, h⟩

theorem ProofsShown.length {ps : List (List (TreeTerm Op))} {ss : List Sexp} (h : ProofsShown T name ps ss) : ps.length = ss.length := by
  induction ps generalizing ss with
  | nil => cases h; rfl
  | cons t ts ih => cases h with | cons _ h => simp [ih h]

theorem Legible.noBwd {o : Op} {b : Option Symbol} {cs : List (List (TreeTerm Op))} (h : Legible T name P (.mk o b none cs)) :
    Legible T name P (.mk o none none cs) := by
  cases h with
  | mk a b c d e => exact .mk a b c (by simp) e

theorem Legible.noFwd {o : Op} {b f : Option Symbol} {cs : List (List (TreeTerm Op))} (h : Legible T name P (.mk o b f cs)) :
    Legible T name P (.mk o b none cs) := by
  cases h with
  | mk a b c d e => exact .mk a b c (fun r hr => d r (by rcases hr with hr | hr <;> simp_all)) e

theorem Legible.notKey {o : Op} {b f : Option Symbol} {cs : List (List (TreeTerm Op))} (h : Legible T name P (.mk o b f cs)) :
    ¬ Keyword (T.show_ o) := by cases h; assumption

theorem Legible.op_eq {o o' : Op} {b f b' f' : Option Symbol} {cs cs' : List (List (TreeTerm Op))} (h : Legible T name P (.mk o b f cs))
    (h' : Legible T name P (.mk o' b' f' cs')) (hl : cs.length = cs'.length) (hs : T.show_ o = T.show_ o') : o = o' := by
  cases h with
  | mk _ _ c _ _ =>
    cases h' with
    | mk _ _ c' _ _ =>
      have e := c (List.replicate cs.length 0) (by simp)
      have e' := c' (List.replicate cs.length 0) (by simp [hl])
      rw [hs, e'] at e
      simpa using e.symm

theorem Shown.notExplanation {t : TreeTerm Op} {ss : List Sexp} (h : Shown T name t (.list (.str "Explanation".toList :: ss)))
    (l : Legible T name P t) : False := by
  rcases h.inv with ⟨o', rfl, e⟩ | ⟨o', c, cs, ss, rfl, e, h''⟩ | ⟨o', r, cs, s', rfl, e, _⟩ | ⟨o', b, r, cs, s', rfl, e, _⟩
  · cases e
  · injection e with e
    injection e with e1 e2
    injection e1 with e1
    exact l.notKey (.inr (.inr e1.symm))
  · injection e with e
    injection e with e1 e2
    injection e1 with e1
    exact absurd e1 (by decide)
  · injection e with e
    injection e with e1 e2
    injection e1 with e1
    exact absurd e1 (by decide)

mutual
theorem Shown.unique (hname : ∀ r r', name r = name r' → r = r') : ∀ {t : TreeTerm Op} {s : Sexp}, Shown T name t s →
    ∀ {t' : TreeTerm Op}, Shown T name t' s → Legible T name P t → Legible T name P t' → t = t'
  | _, _, .const, t', h', l, l' => by
    rcases h'.inv with ⟨o', rfl, e⟩ | ⟨o', c, cs, ss, rfl, e, _⟩ | ⟨o', r, cs, s', rfl, e, _⟩ | ⟨o', b, r, cs, s', rfl, e, _⟩
    · injection e with e
      rw [l.op_eq l' rfl e]
    all_goals cases e
  | _, _, .app h, t', h', l, l' => by
    rcases h'.inv with ⟨o', rfl, e⟩ | ⟨o', c, cs, ss, rfl, e, h''⟩ | ⟨o', r, cs, s', rfl, e, _⟩ | ⟨o', b, r, cs, s', rfl, e, _⟩
    · cases e
    · injection e with e
      injection e with e1 e2
      injection e1 with e1
      subst e2
      have hl : _ = _ := h.length.trans h''.length.symm
      have := ProofsShown.unique hname h h'' (by cases l; assumption) (by cases l'; assumption)
      rw [l.op_eq l' hl e1, this]
    · injection e with e
      injection e with e1 e2
      injection e1 with e1
      exact absurd (.inr (.inl e1)) l.notKey
    · injection e with e
      injection e with e1 e2
      injection e1 with e1
      exact absurd (.inl e1) l.notKey
  | _, _, .bwd h, t', h', l, l' => by
    rcases h'.inv with ⟨o', rfl, e⟩ | ⟨o', c, cs, ss, rfl, e, h''⟩ | ⟨o', r, cs, s', rfl, e, h''⟩ | ⟨o', b, r, cs, s', rfl, e, _⟩
    · cases e
    · injection e with e
      injection e with e1 e2
      injection e1 with e1
      exact absurd (.inr (.inl e1.symm)) l'.notKey
    · injection e with e
      injection e with _ e
      injection e with e1 e
      injection e with e2 _
      injection e1 with e1
      subst e2
      have := Shown.unique hname h h'' l.noBwd l'.noBwd
      injection this with a _ _ b
      rw [a, b, hname _ _ e1]
    · injection e with e
      injection e with e1 e2
      injection e1 with e1
      exact absurd e1 (by decide)
  | _, _, .fwd h, t', h', l, l' => by
    rcases h'.inv with ⟨o', rfl, e⟩ | ⟨o', c, cs, ss, rfl, e, h''⟩ | ⟨o', r, cs, s', rfl, e, _⟩ | ⟨o', b, r, cs, s', rfl, e, h''⟩
    · cases e
    · injection e with e
      injection e with e1 e2
      injection e1 with e1
      exact absurd (.inl e1.symm) l'.notKey
    · injection e with e
      injection e with e1 e2
      injection e1 with e1
      exact absurd e1 (by decide)
    · injection e with e
      injection e with _ e
      injection e with e1 e
      injection e with e2 _
      injection e1 with e1
      subst e2
      have := Shown.unique hname h h'' l.noFwd l'.noFwd
      injection this with a b _ c
      rw [a, b, c, hname _ _ e1]
termination_by structural _ _ h => h
theorem ProofsShown.unique (hname : ∀ r r', name r = name r' → r = r') : ∀ {ps : List (List (TreeTerm Op))} {ss : List Sexp}, ProofsShown T name ps ss →
    ∀ {ps' : List (List (TreeTerm Op))}, ProofsShown T name ps' ss → (∀ p ∈ ps, ∀ t ∈ p, Legible T name P t) → (∀ p ∈ ps', ∀ t ∈ p, Legible T name P t) → ps = ps'
  | _, _, .nil, ts', h', _, _ => by cases h'; rfl
  | _, _, .cons h hs, ts', h', l, l' => by
    cases h' with
    | cons h' hs' =>
      rw [ProofShown.unique hname h h' (l _ (List.mem_cons_self ..)) (l' _ (List.mem_cons_self ..)),
        ProofsShown.unique hname hs hs' (fun t ht => l t (List.mem_cons_of_mem _ ht)) (fun t ht => l' t (List.mem_cons_of_mem _ ht))]
termination_by structural _ _ h => h
theorem ProofShown.unique (hname : ∀ r r', name r = name r' → r = r') : ∀ {p : List (TreeTerm Op)} {s : Sexp}, ProofShown T name p s →
    ∀ {p' : List (TreeTerm Op)}, ProofShown T name p' s → (∀ t ∈ p, Legible T name P t) → (∀ t ∈ p', Legible T name P t) → p = p'
  | _, _, .single (t := t0) h, p', h', l, l' => by
    have ih := fun (t' : TreeTerm Op) h2 => Shown.unique hname h (t' := t') h2
    rcases h'.inv with ⟨t', rfl, h2⟩ | ⟨t, t', ts, ss, rfl, e, h2⟩
    · rw [ih t' h2 (l _ (List.mem_cons_self ..)) (l' _ (List.mem_cons_self ..))]
    · subst e
      exact (h.notExplanation (l _ (List.mem_cons_self ..))).elim
  | _, _, .several h, p', h', l, l' => by
    rcases h'.inv with ⟨t', rfl, h2⟩ | ⟨t, t', ts, ss, rfl, e, h2⟩
    · exact (h2.notExplanation (l' _ (List.mem_cons_self ..))).elim
    · injection e with e
      injection e with _ e
      subst e
      exact AllShown.unique hname h h2 l l'
termination_by structural _ _ h => h
theorem AllShown.unique (hname : ∀ r r', name r = name r' → r = r') : ∀ {ts : List (TreeTerm Op)} {ss : List Sexp}, AllShown T name ts ss →
    ∀ {ts' : List (TreeTerm Op)}, AllShown T name ts' ss → (∀ t ∈ ts, Legible T name P t) → (∀ t ∈ ts', Legible T name P t) → ts = ts'
  | _, _, .nil, ts', h', _, _ => by cases h'; rfl
  | _, _, .cons h hs, ts', h', l, l' => by
    cases h' with
    | cons h' hs' =>
      rw [Shown.unique hname h h' (l _ (List.mem_cons_self ..)) (l' _ (List.mem_cons_self ..)),
        AllShown.unique hname hs hs' (fun t ht => l t (List.mem_cons_of_mem _ ht)) (fun t ht => l' t (List.mem_cons_of_mem _ ht))]
termination_by structural _ _ h => h
end

mutual
theorem Shown.atoms (h1 : P "Rewrite=>".toList) (h2 : P "Rewrite<=".toList) (h3 : P "Explanation".toList) : ∀ {t : TreeTerm Op} {s : Sexp},
    Shown T name t s → Legible T name P t → s.AllAtoms P
  | _, _, .const, l => by rw [Sexp.AllAtoms]; cases l; assumption
  | _, _, .app h, l => by
    rw [Sexp.AllAtoms, AllItems, Sexp.AllAtoms]
    cases l with
    | mk a _ _ _ b => exact ⟨by simp, a, ProofsShown.atoms h1 h2 h3 h b⟩
  | _, _, .bwd (r := r) h, l => by
    have hr : P (name r) := by cases l with | mk _ _ _ d _ => exact d _ (.inl rfl)
    have := Shown.atoms h1 h2 h3 h l.noBwd
    simp only [Sexp.AllAtoms, AllItems]
    exact ⟨by simp, h2, hr, this, trivial⟩
  | _, _, .fwd (r := r) h, l => by
    have hr : P (name r) := by cases l with | mk _ _ _ d _ => exact d _ (.inr rfl)
    have := Shown.atoms h1 h2 h3 h l.noFwd
    simp only [Sexp.AllAtoms, AllItems]
    exact ⟨by simp, h1, hr, this, trivial⟩
theorem ProofsShown.atoms (h1 : P "Rewrite=>".toList) (h2 : P "Rewrite<=".toList) (h3 : P "Explanation".toList) : ∀ {ps : List (List (TreeTerm Op))} {ss : List Sexp},
    ProofsShown T name ps ss → (∀ p ∈ ps, ∀ t ∈ p, Legible T name P t) → AllItems P ss
  | _, _, .nil, _ => by rw [AllItems]; trivial
  | _, _, .cons h hs, l => by
    rw [AllItems]
    exact ⟨ProofShown.atoms h1 h2 h3 h (l _ (List.mem_cons_self ..)), ProofsShown.atoms h1 h2 h3 hs (fun t ht => l t (List.mem_cons_of_mem _ ht))⟩
theorem ProofShown.atoms (h1 : P "Rewrite=>".toList) (h2 : P "Rewrite<=".toList) (h3 : P "Explanation".toList) : ∀ {p : List (TreeTerm Op)} {s : Sexp},
    ProofShown T name p s → (∀ t ∈ p, Legible T name P t) → s.AllAtoms P
  | _, _, .single h, l => Shown.atoms h1 h2 h3 h (l _ (List.mem_cons_self ..))
  | _, _, .several h, l => by
    rw [Sexp.AllAtoms, AllItems, Sexp.AllAtoms]
    exact ⟨by simp, h3, AllShown.atoms h1 h2 h3 h l⟩
theorem AllShown.atoms (h1 : P "Rewrite=>".toList) (h2 : P "Rewrite<=".toList) (h3 : P "Explanation".toList) : ∀ {ts : List (TreeTerm Op)} {ss : List Sexp},
    AllShown T name ts ss → (∀ t ∈ ts, Legible T name P t) → AllItems P ss
  | _, _, .nil, _ => by rw [AllItems]; trivial
  | _, _, .cons h hs, l => by
    rw [AllItems]
    exact ⟨Shown.atoms h1 h2 h3 h (l _ (List.mem_cons_self ..)), AllShown.atoms h1 h2 h3 hs (fun t ht => l t (List.mem_cons_of_mem _ ht))⟩
end

/-! Printing succeeds when no child proof is empty. -/

/-- No child proof is empty. -/
inductive Full : TreeTerm Op → Prop where
  | mk {o b f cps} : (∀ p ∈ cps, p ≠ []) → (∀ p ∈ cps, ∀ t ∈ p, Full t) → Full (.mk o b f cps)

mutual
theorem getSexp_returns : ∀ {t : TreeTerm Op}, Full t → ∃ s, t.getSexp T name = .ok s
  | .mk o b f cps, h => by
    cases h with
    | mk h1 h2 =>
      obtain ⟨ss, hss⟩ := sexpProofs_returns h1 h2
      rw [getSexp]
      cases cps with
      | nil => exact ⟨_, rfl⟩
      | cons p ps =>
        simp only [List.isEmpty_cons, Bool.false_eq_true, if_false, hss]
        exact ⟨_, rfl⟩
theorem sexpProofs_returns : ∀ {ps : List (List (TreeTerm Op))}, (∀ p ∈ ps, p ≠ []) → (∀ p ∈ ps, ∀ t ∈ p, Full t) → ∃ ss, sexpProofs T name ps = .ok ss
  | [], _, _ => ⟨[], by rw [sexpProofs]⟩
  | p :: ps, h1, h2 => by
    obtain ⟨s, hs⟩ := sexpProof_returns (h1 p (List.mem_cons_self ..)) (h2 p (List.mem_cons_self ..))
    obtain ⟨ss, hss⟩ := sexpProofs_returns (fun q hq => h1 q (List.mem_cons_of_mem _ hq)) (fun q hq => h2 q (List.mem_cons_of_mem _ hq))
    rw [sexpProofs, hs, hss]
    exact ⟨_, rfl⟩
theorem sexpProof_returns : ∀ {p : List (TreeTerm Op)}, p ≠ [] → (∀ t ∈ p, Full t) → ∃ s, sexpProof T name p = .ok s
  | [], h, _ => absurd rfl h
  | [t], _, h => by rw [sexpProof]; exact getSexp_returns (h t (List.mem_cons_self ..))
  | t :: t' :: ts, _, h => by
    obtain ⟨ss, hss⟩ := sexpAll_returns h
    rw [sexpProof, hss]
    exact ⟨_, rfl⟩
theorem sexpAll_returns : ∀ {ts : List (TreeTerm Op)}, (∀ t ∈ ts, Full t) → ∃ ss, sexpAll T name ts = .ok ss
  | [], _ => ⟨[], by rw [sexpAll]⟩
  | t :: ts, h => by
    obtain ⟨s, hs⟩ := getSexp_returns (h t (List.mem_cons_self ..))
    obtain ⟨ss, hss⟩ := sexpAll_returns (fun q hq => h q (List.mem_cons_of_mem _ hq))
    rw [sexpAll, hs, hss]
    exact ⟨_, rfl⟩
end

end TreeTerm

end Egg
