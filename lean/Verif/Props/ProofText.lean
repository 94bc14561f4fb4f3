import Verif.Lemmas.ProofLegible
import Verif.Lemmas.ProofAtoms
import Verif.Props.ExprText
import Verif.Props.Explanations
/-
C67, C68: the text of explanations.
-/
namespace Egg
variable {Op : Type} {T : OpText Op} {name : Symbol → List Char}

theorem RawAtom.atomOK {a : List Char} (h : RawAtom a) : AtomOK a := by
  have hq : ¬ NeedsQuotes a := by
    rintro (hq | hq | hq | hq)
    · have := (h.2.1 _ hq).1; revert this; decide
    · exact (h.2.1 _ hq).2.1 rfl
    · exact (h.2.1 _ hq).2.2 rfl
    · exact h.1 hq
  exact ⟨fun h' => absurd h' hq, fun _ => ⟨fun c hc => (h.2.1 c hc).1, h.2.2⟩⟩

/-- An atom that prints readably, on one line. -/
def OneLine (a : List Char) : Prop := AtomOK a ∧ '\n' ∉ a

theorem words_plain : WordsOK PlainAtom :=
  ⟨by unfold PlainAtom RawAtom; decide, by unfold PlainAtom RawAtom; decide, by unfold PlainAtom RawAtom; decide⟩

theorem words_oneLine : WordsOK OneLine :=
  ⟨⟨words_plain.fwd.1.atomOK, by decide⟩, ⟨words_plain.bwd.1.atomOK, by decide⟩, ⟨words_plain.expl.1.atomOK, by decide⟩⟩

theorem words_atomOK : WordsOK AtomOK := ⟨words_plain.fwd.1.atomOK, words_plain.bwd.1.atomOK, words_plain.expl.1.atomOK⟩

theorem FlatTerm.Legible.imp {P Q : List Char → Prop} (hi : ∀ a, P a → Q a) {t : FlatTerm Op} (h : t.Legible T name P) : t.Legible T name Q := by
  induction h with
  | mk h1 h2 h3 h4 _ ih => exact .mk (hi _ h1) h2 h3 (fun r hr => hi _ (h4 r hr)) ih

theorem TreeTerm.Texts.imp {P Q : List Char → Prop} (hi : ∀ a, P a → Q a) {t : TreeTerm Op} (h : t.Texts T name P) : t.Texts T name Q := by
  induction h with
  | mk h1 h2 _ ih => exact .mk (hi _ h1) (fun r hr => hi _ (h2 r hr)) ih

theorem TreeTerm.Legible.imp {P Q : List Char → Prop} (hi : ∀ a, P a → Q a) {t : TreeTerm Op} (h : t.Legible T name P) : t.Legible T name Q := by
  induction h with
  | mk h1 h2 h3 h4 _ ih => exact .mk (hi _ h1) h2 h3 (fun r hr => hi _ (h4 r hr)) ih

/-! ### C67: flat explanations -/

/-- **C67**, one term: the text of a flat term is read as an s-expression that shows this flat term, with
its rule annotations, and no other. -/
theorem c67_line (hname : ∀ r r', name r = name r' → r = r') {t : FlatTerm Op} (ht : t.Legible T name AtomOK) :
    ∃ s, parseSexp (t.getString T name showSexp) = .ok s ∧ t.Shown T name s ∧
      ∀ t' : FlatTerm Op, t'.Legible T name AtomOK → t'.Shown T name s → t' = t :=
  ⟨_, c41_roundtrip _ (ht.atoms words_atomOK.fwd words_atomOK.bwd), FlatTerm.getSexp_shown T name t,
    fun _ ht' hs => hs.unique hname (FlatTerm.getSexp_shown T name t) ht' ht⟩

/-- **C67**, `get_recexpr`: it does not panic, and returns an expression of the term without the
annotations. -/
theorem c67_recexpr {t : FlatTerm Op} (ht : t.Legible T name AtomOK) :
    ∃ e, t.getRecExpr T name showSexp parseSexp? = .ok e ∧ Dag e ∧ ExprTerm e t.term := by
  obtain ⟨ext, hp, hd', hne, ht'⟩ := parseInto_ok T t.term ht.readable [] (by intro i n h; cases h)
  rw [List.nil_append] at hp hd' ht'
  refine ⟨ext, ?_, hd', hne, ht'⟩
  have hat := ht.opTexts.allAtoms
  have : parseExpr T parseSexp? (showSexp (termSexp T t.term)) = .ok ext := by
    unfold parseExpr
    rw [(tok_show _ hat).trim_eq]
    unfold parseSexp?
    rw [c41_roundtrip _ hat]
    simp [hp, Except.toOption]
  unfold FlatTerm.getRecExpr FlatTerm.getString
  rw [FlatTerm.removeRewrites_sexp, this]

/-- **C67**, all terms: explanations whose flat strings are equal are equal when flattened. -/
theorem c67_injective (hname : ∀ r r', name r = name r' → r = r') {fl fl' : List (FlatTerm Op)} (hne : fl ≠ []) (hne' : fl' ≠ [])
    (h : ∀ t ∈ fl, t.Legible T name OneLine) (h' : ∀ t ∈ fl', t.Legible T name OneLine)
    (he : joinLines (fl.map (FlatTerm.getString T name showSexp)) = joinLines (fl'.map (FlatTerm.getString T name showSexp))) : fl = fl' := by
  have noNl : ∀ {t : FlatTerm Op}, t.Legible T name OneLine → '\n' ∉ t.getString T name showSexp := fun ht =>
    showSexp_noNewline ((ht.atoms words_oneLine.fwd words_oneLine.bwd).imp (fun _ h => h.2))
  have hl := joinLines_inj (by
      intro l hl
      obtain ⟨t, ht, rfl⟩ := List.mem_map.1 hl
      exact noNl (h t ht)) (by
      intro l hl
      obtain ⟨t, ht, rfl⟩ := List.mem_map.1 hl
      exact noNl (h' t ht)) (by simpa using hne) (by simpa using hne') he
  clear he hne hne'
  induction fl generalizing fl' with
  | nil =>
    cases fl' with
    | nil => rfl
    | cons => simp at hl
  | cons t fl ih =>
    cases fl' with
    | nil => simp at hl
    | cons t' fl' =>
      simp only [List.map_cons, List.cons.injEq] at hl
      have e1 : t = t' := by
        obtain ⟨s, h1, h2, h3⟩ := c67_line hname ((h t (.head _)).imp (fun _ h => h.1))
        obtain ⟨s', h1', h2', h3'⟩ := c67_line hname ((h' t' (.head _)).imp (fun _ h => h.1))
        rw [hl.1, h1'] at h1
        cases h1
        exact h3' t ((h t (.head _)).imp (fun _ h => h.1)) h2
      rw [e1, ih (fun t ht => h t (.tail _ ht)) (fun t ht => h' t (.tail _ ht)) hl.2]

variable {D : Type} [DecidableEq Op] [Lang Op]

/-- What legibility of the operators of the e-graph and of the reasons of its unions says about an
explanation: its flattened and its tree form are legible. -/
theorem explained_legible {C : Cfg Op D} {eg eg' : EGraph Op D} (hg : EGraph.Good C eg) {ch : Explain.Choices} {fuel : Nat} {a b : Id}
    {p : List (TreeTerm Op)} (he : eg.explainIdEquivalence ch fuel a b = .ok (p, eg')) {P : List Char → Prop}
    (hops : ∀ n ∈ eg.nodes, OpLegible T P n.op n.children.length) (hnames : ∀ r a b, C.J r a b → P (name r)) :
    (∀ t ∈ p, t.Legible T name P ∧ t.Full) ∧ ∀ fl, TreeTerm.flattenProof p [] = .ok fl → ∀ f ∈ fl, f.Legible T name P := by
  constructor
  · obtain ⟨ts, _, rfl, _, hm⟩ := EGraph.explainId_shared hg he
    intro t ht
    obtain ⟨u, hu, rfl⟩ := List.mem_map.1 ht
    have hmu := fun v (hv : RcTree.Occurs v u) => hm v ⟨u, hu, hv⟩
    exact ⟨RcTree.legible_of_made hmu hops hnames, RcTree.full_of_made (fun v hv => (hmu v hv).well)⟩
  · intro fl hfl
    obtain ⟨s, t, hs, ht, hv⟩ := EGraph.explainId_valid hg he
      (Q := fun r s t => s.LegibleT T P ∧ t.LegibleT T P ∧ P (name r)) (by
        intro r a b s t hJ hs ht
        exact ⟨termOf_legible hops hs, termOf_legible hops ht, hnames r a b hJ⟩)
    obtain ⟨fl', h1, h2⟩ := TreeTerm.flatten_valid p hv
    rw [hfl] at h1
    cases h1
    exact validFlat_legible (fun _ _ _ h => h) h2 (termOf_legible hops hs)

/-- **C67**, explanations: if the operators of the e-graph and the reasons of the unions print readably
on one line each, then the flat string of an explanation consists of lines that are read back as the terms of the flattened
explanation.  The first line is the text of the expression of the first id, and from the last `get_recexpr`
gets an expression with the term of the second. -/
theorem c67_explained {A : UserAnalysis Op D} {J : Symbol → Id → Id → Prop}
    (hA : A.OK (Cfg.ofR (fun _ _ => True) isCongruence_true J) anyErr) {depth : Nat}
    {allow : Caller Op D} {U : List (UnionRec Op)} {eg : EGraph Op D}
    (h : Hist (A.at depth) allow U eg) (hU : ∀ u ∈ U, J u.reason u.a u.b)
    (hname : ∀ r r', name r = name r' → r = r')
    (hops : ∀ n ∈ eg.nodes, OpLegible T OneLine n.op n.children.length) (hnames : ∀ r a b, J r a b → OneLine (name r))
    {ch : Explain.Choices} {fuel : Nat} {a b : Id} {p : List (TreeTerm Op)} {eg' : EGraph Op D}
    (he : eg.explainIdEquivalence ch fuel a b = .ok (p, eg')) :
    ∃ fl lines e1 e2 t, TreeTerm.flattenProof p [] = .ok fl ∧ flatString T name showSexp p = .ok (joinLines lines) ∧
      (∀ l ∈ lines, '\n' ∉ l) ∧
      List.Forall₂ (fun (f : FlatTerm Op) line => ∃ s, parseSexp line = .ok s ∧ f.Shown T name s ∧
        ∀ f' : FlatTerm Op, f'.Legible T name AtomOK → f'.Shown T name s → f' = f) fl lines ∧
      eg.idToExpr a = .ok e1 ∧ (∃ line, lines.head? = some line ∧ showExpr T showSexp e1 = .ok line) ∧
      eg.idToExpr b = .ok e2 ∧ ExprTerm e2 t ∧
      ∃ f e, fl.getLast? = some f ∧ f.getRecExpr T name showSexp parseSexp? = .ok e ∧ ExprTerm e t := by
  have hg := good_of_J hA h hU
  have hd := hg.inv.core.dag
  obtain ⟨s, t, hs, ht, hv⟩ := EGraph.explainId_valid hg he (stepsBy_of (J := J) hd)
  obtain ⟨e1, h1, h2⟩ := idToExpr_of_termOf hd hs
  obtain ⟨e2, h3, h4⟩ := idToExpr_of_termOf hd ht
  obtain ⟨fl, hfl, hvf⟩ := TreeTerm.flatten_valid p hv
  have hleg := (explained_legible (name := name) hg he hops hnames).2 fl hfl
  have hleg' : ∀ f ∈ fl, f.Legible T name AtomOK := fun f hf => (hleg f hf).imp (fun _ h => h.1)
  refine ⟨fl, fl.map (FlatTerm.getString T name showSexp), e1, e2, t, hfl, ?_, ?_, ?_, h1, ?_, h3, h4, ?_⟩
  · unfold flatString flatStrings
    rw [hfl]
    rfl
  · intro l hl
    obtain ⟨f, hf, rfl⟩ := List.mem_map.1 hl
    exact showSexp_noNewline (((hleg f hf).atoms words_oneLine.fwd words_oneLine.bwd).imp (fun _ h => h.2))
  · rw [List.forall₂_map_right_iff, List.forall₂_same]
    intro f hf
    exact c67_line hname (hleg' f hf)
  · obtain ⟨f, fs, rfl, k1, k2, _⟩ := hvf
    refine ⟨_, rfl, ?_⟩
    have hde : Dag e1 := by
      obtain ⟨st, h1', h2', _⟩ := idToExprTop_ok hd hs.lt
      simp only [EGraph.idToExpr, h1', ok_bind] at h1
      cases h1
      exact h2'
    rw [c40_print T showSexp e1 s hde h2, FlatTerm.getString, ← k2, ← FlatTerm.removeRewrites_sexp (name := name) f,
      FlatTerm.Plain.ext (FlatTerm.removeRewrites_plain f) k1 (FlatTerm.removeRewrites_term f)]
  · obtain ⟨l, hl, hlt⟩ := hvf.last
    obtain ⟨e, k1, _, k2⟩ := c67_recexpr (hleg' l (List.mem_of_getLast? hl))
    exact ⟨l, e, hl, k1, by rw [← hlt]; exact k2⟩

/-! ### C68: tree-shaped explanations -/

omit [DecidableEq Op] [Lang Op] in
/-- **C68**, plain form: the text of an explanation is read as an s-expression that shows this explanation, and
no other. -/
theorem c68_tree (hname : ∀ r r', name r = name r' → r = r') {ts : List (TreeTerm Op)} (hleg : ∀ t ∈ ts, t.Legible T name AtomOK)
    (hfull : ∀ t ∈ ts, t.Full) :
    ∃ text ss, explanationString T name showSexp ts = .ok text ∧ parseSexp text = .ok (.list (.str "Explanation".toList :: ss)) ∧
      TreeTerm.AllShown T name ts ss ∧
      ∀ ts' : List (TreeTerm Op), (∀ t ∈ ts', t.Legible T name AtomOK) → TreeTerm.AllShown T name ts' ss → ts' = ts := by
  obtain ⟨ss, hss⟩ := TreeTerm.sexpAll_returns (T := T) (name := name) hfull
  have hsh := TreeTerm.sexpAll_shown hss
  refine ⟨showSexp (.list (.str "Explanation".toList :: ss)), ss, ?_, ?_, hsh, ?_⟩
  · unfold explanationString explanationSexp
    rw [hss]
    rfl
  · refine c41_roundtrip _ ?_
    rw [Sexp.AllAtoms, AllItems, Sexp.AllAtoms]
    exact ⟨by simp, words_atomOK.expl, hsh.atoms words_atomOK.fwd words_atomOK.bwd words_atomOK.expl hleg⟩
  · intro ts' hleg' hsh'
    exact hsh'.unique hname hsh hleg' hleg

omit [DecidableEq Op] [Lang Op] in
/-- **C68**, let-bound form: the text of the form with `let`s, read and with its bindings expanded, is what
the plain text of the same explanation is read as. -/
theorem c68_let {ts : List (RcTree Op)} (hs : RcTree.Shared ts)
    (htext : ∀ t ∈ ts, t.tree.Texts T name (fun a => PlainAtom a ∧ ¬ LetName a)) (hfull : ∀ t ∈ ts, t.tree.Full) :
    ∃ text text' s s', RcTree.stringWithLet T name showSexp ts = .ok text ∧ explanationString T name showSexp (ts.map RcTree.tree) = .ok text' ∧
      parseSexp text = .ok s ∧ parseSexp text' = .ok s' ∧ Unlet [] s s' := by
  obtain ⟨s, s', h1, h2, h3⟩ := RcTree.sexpWithLet_ok (T := T) (name := name) (fun a h => h.2) hs htext hfull
  have ht' : ∀ t ∈ ts, t.tree.Texts T name PlainAtom := fun t ht => (htext t ht).imp (fun _ h => h.1)
  have hat := RcTree.sexpWithLet_atoms words_plain (by unfold PlainAtom RawAtom; decide) bindName_plain ht' h1
  refine ⟨_, _, s, s', ?_, ?_, c41_pretty 100 0 s hat, c41_roundtrip s' ?_, h3⟩
  · unfold RcTree.stringWithLet
    rw [h1]
    rfl
  · unfold explanationString
    rw [h2]
    rfl
  · unfold explanationSexp at h2
    obtain ⟨ss, hss, h2⟩ := bind_eq_ok.1 h2
    cases h2
    rw [Sexp.AllAtoms, AllItems, Sexp.AllAtoms]
    refine ⟨by simp, words_atomOK.expl, ?_⟩
    rw [← RcTree.allWith_nil] at hss
    exact RcTree.allWith_atoms words_atomOK (fun p s h => by cases h) ts (fun t ht => (ht' t ht).imp (fun _ h => h.1.atomOK)) hss

/-- **C68**, explanations: let the operators of the e-graph and the reasons of the unions print without
quotes, and not as `v_0`, `v_1`, ….  Then the text of an explanation shows it and no other, and the text with `let`s, with its
bindings expanded, says the same. -/
theorem c68_explained {A : UserAnalysis Op D} {J : Symbol → Id → Id → Prop}
    (hA : A.OK (Cfg.ofR (fun _ _ => True) isCongruence_true J) anyErr) {depth : Nat}
    {allow : Caller Op D} {U : List (UnionRec Op)} {eg : EGraph Op D}
    (h : Hist (A.at depth) allow U eg) (hU : ∀ u ∈ U, J u.reason u.a u.b)
    (hname : ∀ r r', name r = name r' → r = r')
    (hops : ∀ n ∈ eg.nodes, OpLegible T (fun a => PlainAtom a ∧ ¬ LetName a) n.op n.children.length)
    (hnames : ∀ r a b, J r a b → PlainAtom (name r) ∧ ¬ LetName (name r))
    {ch : Explain.Choices} {fuel : Nat} {a b : Id} {p : List (TreeTerm Op)} {eg' : EGraph Op D}
    (he : eg.explainIdEquivalence ch fuel a b = .ok (p, eg')) :
    ∃ ts text text' s ss, eg.explainIdShared ch fuel a b = .ok ts ∧ ts.map RcTree.tree = p ∧
      RcTree.stringWithLet T name showSexp ts = .ok text ∧ parseSexp text = .ok s ∧
      explanationString T name showSexp p = .ok text' ∧ parseSexp text' = .ok (.list (.str "Explanation".toList :: ss)) ∧
      Unlet [] s (.list (.str "Explanation".toList :: ss)) ∧
      TreeTerm.AllShown T name p ss ∧
      ∀ p' : List (TreeTerm Op), (∀ t ∈ p', t.Legible T name AtomOK) → TreeTerm.AllShown T name p' ss → p' = p := by
  have hg := good_of_J hA h hU
  obtain ⟨hleg, _⟩ := explained_legible (name := name) hg he hops hnames
  obtain ⟨ts, h1, h2, h3, h4⟩ := EGraph.explainId_shared hg he
  obtain ⟨text', ss, k1, k2, k3, k4⟩ := c68_tree hname (fun t ht => (hleg t ht).1.imp (fun _ h => h.1.1.atomOK)) (fun t ht => (hleg t ht).2)
  have hmem : ∀ t ∈ ts, t.tree ∈ p := fun t ht => by rw [← h2]; exact List.mem_map_of_mem ht
  obtain ⟨text, text'', s, s', l1, l2, l3, l4, l5⟩ := c68_let (T := T) (name := name) h3 (fun t ht => (hleg _ (hmem t ht)).1.texts)
    (fun t ht => (hleg _ (hmem t ht)).2)
  rw [h2, k1] at l2
  cases l2
  rw [k2] at l4
  cases l4
  exact ⟨ts, text, text', s, ss, h1, h2, l1, l3, k1, k2, l5, k3, k4⟩

/-! ### Counterexamples -/

/-- The rule names `r0`, `r1`, …. -/
def Ex.ruleName (n : Nat) : List Char := 'r' :: showNat n

/-- **C67**, negative part: if an operator is called `Rewrite=>`, a flat term with an application of a rule and
one without have the same text. -/
theorem c67_keyword : ∃ t t' : FlatTerm (List Char), t ≠ t' ∧ t'.Plain ∧
    t.getString symbolText Ex.ruleName showSexp = "(Rewrite=> r7 a)".toList ∧
    t'.getString symbolText Ex.ruleName showSexp = "(Rewrite=> r7 a)".toList := by
  refine ⟨.mk ['a'] none (some 7) [], .mk "Rewrite=>".toList none none [.mk "r7".toList none none [], .mk ['a'] none none []], ?_, ?_, ?_, ?_⟩
  · intro h; cases h
  · exact .mk (by intro c hc; simp at hc; rcases hc with rfl | rfl <;> exact .mk (by simp))
  · decide +kernel
  · decide +kernel

/-- A term `g x` at the address 1. -/
def Ex.gx : RcTree (List Char) := .mk 1 0 0 ['g'] none none [[.mk 0 0 0 ['x'] none none []]]

/-- The term `f (g x) (g x) v_0`, where `g x` is shared. -/
def Ex.fggv : RcTree (List Char) := .mk 3 0 0 ['f'] none none [[Ex.gx], [Ex.gx], [.mk 2 0 0 "v_0".toList none none []]]

theorem Ex.let_fggv : RcTree.sexpWithLet symbolText Ex.ruleName [Ex.fggv] =
    .ok (.list [.str "let".toList, .list [.str "v_0".toList, .list [.str ['g'], .str ['x']]],
      .list [.str "Explanation".toList, .list [.str ['f'], .str "v_0".toList, .str "v_0".toList, .str "v_0".toList]]]) := by
  simp [RcTree.sexpWithLet, RcTree.findInAll, RcTree.findToLetBind, RcTree.findInProofs, RcTree.genBindings, RcTree.sexpWith, RcTree.proofsWith,
    RcTree.proofWith, RcTree.allWith, AMap.get?, AMap.insert, RcTree.wrapLets, annotate, symbolText, RcTree.ptr, RcTree.bindName, Ex.fggv, Ex.gx]
  decide +kernel

theorem Ex.plain_fggv : explanationSexp symbolText Ex.ruleName [Ex.fggv.tree] =
    .ok (.list [.str "Explanation".toList, .list [.str ['f'], .list [.str ['g'], .str ['x']], .list [.str ['g'], .str ['x']], .str "v_0".toList]]) := by
  simp [explanationSexp, TreeTerm.sexpAll, TreeTerm.getSexp, TreeTerm.sexpProofs, TreeTerm.sexpProof, RcTree.tree, RcTree.treeProofs, RcTree.treeAll, annotate,
    symbolText, Ex.fggv, Ex.gx]

/-- **C68**, negative part: if an operator is called `v_0`, it is captured: the text with `let`s says `f (g x) (g x) (g x)` where the
explanation is `f (g x) (g x) v_0`. -/
theorem c68_capture : RcTree.stringWithLet symbolText Ex.ruleName showSexp [Ex.fggv] =
      .ok "(let (v_0 (g x)) (Explanation (f v_0 v_0 v_0)))".toList ∧
    explanationString symbolText Ex.ruleName showSexp [Ex.fggv.tree] = .ok "(Explanation (f (g x) (g x) v_0))".toList := by
  constructor
  · rw [RcTree.stringWithLet, Ex.let_fggv]
    decide +kernel
  · rw [explanationString, Ex.plain_fggv]
    decide +kernel

/-- The term `f (g x)` at the address 2. -/
def Ex.fgx : RcTree (List Char) := .mk 2 0 0 ['f'] none none [[Ex.gx]]

/-- The term `h (f (g x)) (f (g x)) (g x)`. -/
def Ex.hfg : RcTree (List Char) := .mk 3 0 0 ['h'] none none [[Ex.fgx], [Ex.fgx], [Ex.gx]]

theorem Ex.let_hfg : RcTree.sexpWithLet symbolText Ex.ruleName [Ex.hfg] =
    .ok (.list [.str "let".toList, .list [.str "v_0".toList, .list [.str ['f'], .list [.str ['g'], .str ['x']]]],
      .list [.str "let".toList, .list [.str "v_1".toList, .list [.str ['g'], .str ['x']]],
        .list [.str "Explanation".toList, .list [.str ['h'], .str "v_0".toList, .str "v_0".toList, .str "v_1".toList]]]]) := by
  simp [RcTree.sexpWithLet, RcTree.findInAll, RcTree.findToLetBind, RcTree.findInProofs, RcTree.genBindings, RcTree.sexpWith, RcTree.proofsWith,
    RcTree.proofWith, RcTree.allWith, AMap.get?, AMap.insert, RcTree.wrapLets, annotate, symbolText, RcTree.ptr, RcTree.bindName, Ex.hfg, Ex.fgx, Ex.gx]
  decide +kernel

/-- **C68**, finding: the `let`s do not share all that is shared.  In the term `h (f (g x)) (f (g x)) (g x)`, `f (g x)` and `g x` are shared, and `g x` is
printed twice, because the outer term is bound first. -/
theorem c68_not_maximal : RcTree.stringWithLet symbolText Ex.ruleName showSexp [Ex.hfg] =
    .ok "(let (v_0 (f (g x))) (let (v_1 (g x)) (Explanation (h v_0 v_0 v_1))))".toList := by
  rw [RcTree.stringWithLet, Ex.let_hfg]
  decide +kernel

/-! ### Examples -/

/-- The text of the operators of the example language. -/
def Ex.text : OpText Ex.S where
  show_ := fun o => match o with | .a => ['a'] | .b => ['b'] | .c => ['c'] | .f => ['f'] | .g => ['g']
  fromOp := fun s ids => match s with
    | ['a'] => some ⟨.a, ids⟩
    | ['b'] => some ⟨.b, ids⟩
    | ['c'] => some ⟨.c, ids⟩
    | ['f'] => some ⟨.f, ids⟩
    | ['g'] => some ⟨.g, ids⟩
    | _ => none

theorem Ex.legible (o : Ex.S) (k : Nat) : OpLegible Ex.text (fun a => (PlainAtom a ∧ ¬ LetName a) ∧ '\n' ∉ a) o k := by
  have key : ∀ c : Char, PlainAtom [c] → '\n' ∉ [c] → (fun a => (PlainAtom a ∧ ¬ LetName a) ∧ '\n' ∉ a) [c] := by
    rintro c hc hn
    refine ⟨⟨hc, ?_⟩, hn⟩
    rintro ⟨n, hn⟩
    have := congrArg List.length hn
    simp at this
  cases o
  all_goals
    refine ⟨key _ ?_ ?_, ?_, fun ids _ => rfl⟩
    · unfold PlainAtom RawAtom; decide
    · decide
    · unfold Keyword; decide

theorem Ex.ruleName_plain (n : Nat) : (PlainAtom (Ex.ruleName n) ∧ ¬ LetName (Ex.ruleName n)) ∧ '\n' ∉ Ex.ruleName n := by
  have h := bindName_plain n
  have hd : ∀ c ∈ showNat n, isWs c = false ∧ c ≠ '(' ∧ c ≠ ')' := fun c hc => h.1.2.1 c (by simp [RcTree.bindName, hc])
  refine ⟨⟨⟨⟨by simp [Ex.ruleName], ?_, by simp [Ex.ruleName]⟩, ?_⟩, ?_⟩, ?_⟩
  · intro c hc
    rcases List.mem_cons.1 hc with rfl | hc
    · decide
    · exact hd c hc
  · have hl := h.2
    obtain ⟨hne, _⟩ := showNat_spec n
    unfold Ex.ruleName
    unfold RcTree.bindName at hl
    cases hs : showNat n with
    | nil => exact absurd hs hne
    | cons d ds =>
      rw [hs] at hl
      simpa [List.getLast?_cons_cons] using hl
  · rintro ⟨m, hm⟩
    simp [Ex.ruleName] at hm
  · intro hc
    rcases List.mem_cons.1 hc with hc | hc
    · revert hc; decide
    · have := (hd _ hc).1; revert this; decide

theorem Ex.ruleName_inj (r r' : Nat) (h : Ex.ruleName r = Ex.ruleName r') : r = r' := by
  unfold Ex.ruleName at h
  exact showNat_injective (List.cons.inj h).2

theorem OpLegible.imp {P Q : List Char → Prop} (hi : ∀ a, P a → Q a) {o : Op} {k : Nat} (h : OpLegible T P o k) : OpLegible T Q o k :=
  ⟨hi _ h.text, h.notKey, h.reads⟩

/-- The hypotheses of C67 are met by the explanation of `f a = f b` after `union a b`. -/
example : ∃ p eg', Ex.x6.explainIdEquivalence Ex.ch0 20 2 3 = .ok (p, eg') ∧
    flatString Ex.text Ex.ruleName showSexp p = .ok "(f a)\n(f (Rewrite=> r7 b))".toList ∧
    ∃ fl lines e1 e2 t, TreeTerm.flattenProof p [] = .ok fl ∧ flatString Ex.text Ex.ruleName showSexp p = .ok (joinLines lines) ∧
      (∀ l ∈ lines, '\n' ∉ l) ∧
      List.Forall₂ (fun (f : FlatTerm Ex.S) line => ∃ s, parseSexp line = .ok s ∧ f.Shown Ex.text Ex.ruleName s ∧
        ∀ f' : FlatTerm Ex.S, f'.Legible Ex.text Ex.ruleName AtomOK → f'.Shown Ex.text Ex.ruleName s → f' = f) fl lines ∧
      Ex.x6.idToExpr 2 = .ok e1 ∧ (∃ line, lines.head? = some line ∧ showExpr Ex.text showSexp e1 = .ok line) ∧
      Ex.x6.idToExpr 3 = .ok e2 ∧ ExprTerm e2 t ∧
      ∃ f e, fl.getLast? = some f ∧ f.getRecExpr Ex.text Ex.ruleName showSexp parseSexp? = .ok e ∧ ExprTerm e t := by
  have hok : ∃ p eg', Ex.x6.explainIdEquivalence Ex.ch0 20 2 3 = .ok (p, eg') := exists_of_isOk (by decide +kernel)
  obtain ⟨p, eg', hp⟩ := hok
  refine ⟨p, eg', hp, ?_, c67_explained (ok_of_quiet (fun _ => rfl) _ _ _) (Ex.histx6 .noSet) (J := Asserted [Ex.un])
    (fun u hu => ⟨u, hu, rfl, rfl, rfl⟩) Ex.ruleName_inj (fun n _ => (Ex.legible n.op _).imp (fun _ h => ⟨h.1.1.1.atomOK, h.2⟩))
    (fun r _ _ _ => ⟨(Ex.ruleName_plain r).1.1.1.atomOK, (Ex.ruleName_plain r).2⟩) hp⟩
  have : (do let (p, _) ← Ex.x6.explainIdEquivalence Ex.ch0 20 2 3; flatString Ex.text Ex.ruleName showSexp p) =
      .ok "(f a)\n(f (Rewrite=> r7 b))".toList := by decide +kernel
  rw [hp] at this
  exact this

/-- The hypotheses of C68 are met by the same explanation. -/
example : ∃ p eg', Ex.x6.explainIdEquivalence Ex.ch0 20 2 3 = .ok (p, eg') ∧
    ∃ ts text text' s ss, Ex.x6.explainIdShared Ex.ch0 20 2 3 = .ok ts ∧ ts.map RcTree.tree = p ∧
      RcTree.stringWithLet Ex.text Ex.ruleName showSexp ts = .ok text ∧ parseSexp text = .ok s ∧
      explanationString Ex.text Ex.ruleName showSexp p = .ok text' ∧ parseSexp text' = .ok (.list (.str "Explanation".toList :: ss)) ∧
      Unlet [] s (.list (.str "Explanation".toList :: ss)) ∧
      TreeTerm.AllShown Ex.text Ex.ruleName p ss ∧
      ∀ p' : List (TreeTerm Ex.S), (∀ t ∈ p', t.Legible Ex.text Ex.ruleName AtomOK) → TreeTerm.AllShown Ex.text Ex.ruleName p' ss → p' = p := by
  have hok : ∃ p eg', Ex.x6.explainIdEquivalence Ex.ch0 20 2 3 = .ok (p, eg') := exists_of_isOk (by decide +kernel)
  obtain ⟨p, eg', hp⟩ := hok
  exact ⟨p, eg', hp, c68_explained (ok_of_quiet (fun _ => rfl) _ _ _) (Ex.histx6 .noSet) (J := Asserted [Ex.un])
    (fun u hu => ⟨u, hu, rfl, rfl, rfl⟩) Ex.ruleName_inj (fun n _ => (Ex.legible n.op _).imp (fun _ h => h.1))
    (fun r _ _ _ => (Ex.ruleName_plain r).1) hp⟩

end Egg
