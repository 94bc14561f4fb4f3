import Verif.Props.SexpText
import Verif.Props.VarText
import Verif.Lemmas.RecExpr
/-
C40: printing and parsing expressions and patterns.
-/
namespace Egg
variable {Op : Type}

/-! ### Specification -/

/-- The s-expression of a term: the operator alone for a constant, otherwise the list of the operator
and the arguments. -/
def termSexp (T : OpText Op) : Term Op → Sexp
  | .node op args => if args.isEmpty then .str (T.show_ op) else .list (.str (T.show_ op) :: args.map (termSexp T))

/-- Every operator of the term is read back from its text, with any children. -/
inductive Readable (T : OpText Op) : Term Op → Prop where
  | node {op : Op} {args : List (Term Op)} :
      (∀ ids : List Id, ids.length = args.length → T.fromOp (T.show_ op) ids = some ⟨op, ids⟩) →
      (∀ t ∈ args, Readable T t) → Readable T (.node op args)

/-- The texts of all operators of the term satisfy `P`. -/
inductive OpTexts (T : OpText Op) (P : List Char → Prop) : Term Op → Prop where
  | node {op : Op} {args : List (Term Op)} :
      P (T.show_ op) → (∀ t ∈ args, OpTexts T P t) → OpTexts T P (.node op args)

/-! ### Printing -/

theorem termSexp_node (T : OpText Op) (op : Op) (args : List (Term Op)) : termSexp T (.node op args) =
    if args.isEmpty then .str (T.show_ op) else .list (.str (T.show_ op) :: args.map (termSexp T)) := by
  rw [termSexp]

theorem sexpChildren_ok {rec_ : Id → Res Sexp} {i : Id} : ∀ {cs : List Id} {ss : List Sexp},
    List.Forall₂ (fun c s => c < i ∧ rec_ c = .ok s) cs ss → sexpChildren rec_ i cs = .ok ss
  | _, _, .nil => rfl
  | _, _, .cons h hs => by
    rw [sexpChildren, if_pos h.1, h.2, ok_bind, sexpChildren_ok hs]
    rfl

theorem toSexpRec_ok (T : OpText Op) {e : List (ENode Op)} (hd : Dag e) : ∀ (k : Nat) (i : Id) (t : Term Op),
    i < k → TermOf e i t → toSexpRec T e k i = .ok (termSexp T t) := by
  intro k
  induction k with
  | zero => intro i t h; omega
  | succ k ih =>
    intro i t hk ht
    obtain ⟨op, ts⟩ := t
    obtain ⟨n, hn, rfl, hc⟩ := termOf_iff.1 ht
    rw [toSexpRec, show getIdx e i = .ok n from getIdx_eq_ok.2 hn, ok_bind, termSexp_node]
    have hl := hc.length_eq
    unfold ENode.isLeaf
    by_cases hz : n.children = []
    · rw [hz] at hl ⊢
      have : ts = [] := List.length_eq_zero_iff.1 hl.symm
      subst this
      rfl
    · have hz' : ts ≠ [] := by
        intro e; rw [e] at hl; exact hz (List.length_eq_zero_iff.1 hl)
      rw [if_neg (by simpa using hz), if_neg (by simpa using hz')]
      have := sexpChildren_ok (rec_ := toSexpRec T e k) (i := i) (cs := n.children) (ss := ts.map (termSexp T)) ?_
      · simp only [this, ok_bind]
        rfl
      · rw [List.forall₂_map_right_iff]
        refine forall₂_mono_mem hc ?_
        intro c hcm t _ hct
        have hci : c < i := hd i n hn c hcm
        exact ⟨hci, ih c t (by omega) hct⟩

/-! ### Parsing -/

mutual
theorem parseInto_ok (T : OpText Op) : ∀ (t : Term Op), Readable T t → ∀ (e : List (ENode Op)), Dag e →
    ∃ ext, parseInto T (termSexp T t) e = .ok (e ++ ext, (e ++ ext).length - 1) ∧ Dag (e ++ ext) ∧
      ext ≠ [] ∧ TermOf (e ++ ext) ((e ++ ext).length - 1) t
  | .node op args, h, e, hd => by
    cases h with
    | node hop hargs =>
      obtain ⟨ext, ids, hp, hd', hids⟩ := parseArgs_ok T args hargs e hd
      have key : ∀ n : ENode Op, n = ⟨op, ids⟩ → Dag (e ++ ext ++ [n]) ∧ TermOf (e ++ ext ++ [n]) (e ++ ext).length (.node op args) := by
        rintro n rfl
        refine ⟨hd'.append_node ?_, ?_⟩
        · intro c hc
          obtain ⟨t, _, ht⟩ := forall₂_mem_left hids hc
          exact ht.lt
        · refine termOf_iff.2 ⟨⟨op, ids⟩, by simp, rfl, ?_⟩
          exact hids.imp (fun _ _ h => h.append)
      refine ⟨ext ++ [⟨op, ids⟩], ?_, ?_, by simp, ?_⟩
      · rw [termSexp_node]
        by_cases hz : args = []
        · subst hz
          rw [List.map_nil, parseArgs] at hp
          injection hp with hp
          injection hp with he hi
          have hext : ext = [] := by simpa using he.symm
          subst hext
          subst hi
          simp [parseInto, hop [] rfl]
        · rw [if_neg (by simpa using hz)]
          have := hop ids hids.length_eq
          simp [parseInto, hp, this]
      · rw [← List.append_assoc]; exact (key _ rfl).1
      · rw [← List.append_assoc]
        have := (key _ rfl).2
        simpa using this
theorem parseArgs_ok (T : OpText Op) : ∀ (args : List (Term Op)), (∀ t ∈ args, Readable T t) → ∀ (e : List (ENode Op)), Dag e →
    ∃ ext ids, parseArgs T (args.map (termSexp T)) e = .ok (e ++ ext, ids) ∧ Dag (e ++ ext) ∧
      List.Forall₂ (TermOf (e ++ ext)) ids args
  | [], _, e, hd => ⟨[], [], by simp [parseArgs], by simpa using hd, .nil⟩
  | t :: ts, h, e, hd => by
    obtain ⟨ext, hp, hd', _, ht⟩ := parseInto_ok T t (h t (List.mem_cons_self ..)) e hd
    obtain ⟨ext', ids, hp', hd'', hts⟩ := parseArgs_ok T ts (fun x hx => h x (List.mem_cons_of_mem _ hx)) (e ++ ext) hd'
    refine ⟨ext ++ ext', ((e ++ ext).length - 1) :: ids, ?_, ?_, ?_⟩
    · rw [List.map_cons, parseArgs, hp]
      simp only []
      rw [hp']
      simp
    · rw [← List.append_assoc]; exact hd''
    · rw [← List.append_assoc]
      exact .cons ht.append hts
end

/-- **C40.** A well-formed expression prints as the s-expression of its term. -/
theorem c40_print (T : OpText Op) (print : Sexp → List Char) (e : List (ENode Op)) (t : Term Op)
    (hd : Dag e) (ht : ExprTerm e t) : showExpr T print e = .ok (print (termSexp T t)) := by
  obtain ⟨hne, ht⟩ := ht
  have hz : ¬ e.isEmpty = true := by simpa using hne
  have hlen := List.length_pos_iff.2 hne
  unfold showExpr toSexp
  rw [if_neg hz, if_neg hz, toSexpRec_ok T hd _ _ t (by omega) ht, ok_bind]
  rfl

/-- **C40.** Printing a well-formed expression and parsing the text gives a well-formed expression
of the same term.  `print` and `parse` are any printer and parser of s-expressions that
agree on the s-expression of the term; `Readable` says that the language reads back its own
operators. -/
theorem c40_roundtrip (T : OpText Op) (print : Sexp → List Char) (parse : List Char → Option Sexp)
    (e : List (ENode Op)) (t : Term Op) (hd : Dag e) (ht : ExprTerm e t) (hr : Readable T t)
    (hs : parse (trim (print (termSexp T t))) = some (termSexp T t)) :
    ∃ text e', showExpr T print e = .ok text ∧ parseExpr T parse text = .ok e' ∧ Dag e' ∧ ExprTerm e' t := by
  obtain ⟨ext, hp, hd', hne, ht'⟩ := parseInto_ok T t hr [] (by intro i n h; cases h)
  rw [List.nil_append] at hp hd' ht'
  refine ⟨_, ext, c40_print T print e t hd ht, ?_, hd', hne, ht'⟩
  unfold parseExpr
  rw [hs]
  simp only []
  rw [hp]

theorem allItems_iff {P : List Char → Prop} : ∀ {ss : List Sexp}, AllItems P ss ↔ ∀ s ∈ ss, s.AllAtoms P
  | [] => by simp [AllItems]
  | s :: ss => by rw [AllItems, allItems_iff (ss := ss)]; simp

theorem OpTexts.allAtoms {T : OpText Op} {P : List Char → Prop} {t : Term Op} (h : OpTexts T P t) : (termSexp T t).AllAtoms P := by
  induction h with
  | @node op args h1 h2 ih =>
    rw [termSexp_node]
    split
    · rw [Sexp.AllAtoms]; exact h1
    · rw [Sexp.AllAtoms]
      refine ⟨by simp, ?_⟩
      rw [allItems_iff]
      intro s hs
      rcases List.mem_cons.1 hs with rfl | hs
      · rw [Sexp.AllAtoms]; exact h1
      · obtain ⟨t, ht, rfl⟩ := List.mem_map.1 hs
        exact ih t ht

theorem Tok.trim_eq {t : List Char} {s : Sexp} (h : Tok t s) : trim t = t := by
  obtain ⟨c, cs, e, hc, _⟩ := h.head
  have := Egg.trim_eq (w := []) (w' := []) ws_nil ws_nil (t := t) (by rw [e]; intro d hd; cases hd; exact hc) h.last
  rwa [List.append_nil, List.nil_append] at this

/-- **C40 (text, `no_std` build).** Printing a well-formed expression and parsing the text gives a
well-formed expression of the same term, for every language that reads back its own
operators and whose operators print as atoms allowed by `AtomOK`. -/
theorem c40_roundtrip_text (T : OpText Op) (e : List (ENode Op)) (t : Term Op) (hd : Dag e) (ht : ExprTerm e t)
    (hr : Readable T t) (ha : OpTexts T AtomOK t) :
    ∃ text e', showExpr T showSexp e = .ok text ∧ parseExpr T parseSexp? text = .ok e' ∧ Dag e' ∧ ExprTerm e' t := by
  refine c40_roundtrip T showSexp parseSexp? e t hd ht hr ?_
  rw [(tok_show _ ha.allAtoms).trim_eq]
  unfold parseSexp?
  rw [c41_roundtrip _ ha.allAtoms]
  rfl

/-- **C40 (pretty printing, `no_std` build).** The same for the pretty-printed text, whatever the
width, if no operator needs quotes. -/
theorem c40_pretty (T : OpText Op) (width : Nat) (e : List (ENode Op)) (t : Term Op) (hd : Dag e) (ht : ExprTerm e t)
    (hr : Readable T t) (ha : OpTexts T PlainAtom t) :
    ∃ text e', prettyExpr T showSexp width e = .ok text ∧ parseExpr T parseSexp? text = .ok e' ∧ Dag e' ∧ ExprTerm e' t := by
  obtain ⟨ext, hp, hd', hne, ht'⟩ := parseInto_ok T t hr [] (by intro i n h; cases h)
  rw [List.nil_append] at hp hd' ht'
  have hpr := c40_print T (prettyPrint showSexp width 1) e t hd ht
  refine ⟨prettyPrint showSexp width 1 (termSexp T t), ext, ?_, ?_, hd', hne, ht'⟩
  · unfold showExpr at hpr
    rw [if_neg (by simpa using ht.1)] at hpr
    exact hpr
  · unfold parseExpr
    rw [(tok_pretty width _ 1 ha.allAtoms).trim_eq]
    unfold parseSexp?
    rw [c41_pretty width 1 _ ha.allAtoms]
    simp only [Except.toOption]
    rw [hp]

mutual
theorem parseInto_dag (T : OpText Op) (hT : ∀ s ids n, T.fromOp s ids = some n → n.children = ids) :
    ∀ (s : Sexp) (e : List (ENode Op)) (e' : List (ENode Op)) (i : Id), parseInto T s e = .ok (e', i) → Dag e →
      Dag e' ∧ i < e'.length ∧ e.length ≤ e'.length
  | .empty, e, e', i, h, hd => by rw [parseInto] at h; cases h
  | .str s, e, e', i, h, hd => by
    rw [parseInto] at h
    split at h
    · cases h
    · rename_i n hn
      injection h with h
      injection h with h1 h2
      subst h1
      subst h2
      refine ⟨hd.append_node ?_, by simp, by simp⟩
      rw [hT _ _ _ hn]
      simp
  | .list [], e, e', i, h, hd => by rw [parseInto] at h; cases h
  | .list (.empty :: _), e, e', i, h, hd => by rw [parseInto] at h; cases h
  | .list (.list _ :: _), e, e', i, h, hd => by rw [parseInto] at h; cases h
  | .list (.str op :: args), e, e', i, h, hd => by
    rw [parseInto] at h
    split at h
    · cases h
    · rename_i e1 ids h1
      obtain ⟨hd1, hids, hl⟩ := parseArgs_dag T hT args e e1 ids h1 hd
      split at h
      · cases h
      · rename_i n hn
        injection h with h
        injection h with h1 h2
        subst h1
        subst h2
        refine ⟨hd1.append_node ?_, by simp, by simp; omega⟩
        rw [hT _ _ _ hn]
        exact hids
theorem parseArgs_dag (T : OpText Op) (hT : ∀ s ids n, T.fromOp s ids = some n → n.children = ids) :
    ∀ (ss : List Sexp) (e : List (ENode Op)) (e' : List (ENode Op)) (ids : List Id), parseArgs T ss e = .ok (e', ids) → Dag e →
      Dag e' ∧ (∀ c ∈ ids, c < e'.length) ∧ e.length ≤ e'.length
  | [], e, e', ids, h, hd => by
    rw [parseArgs] at h
    injection h with h
    injection h with h1 h2
    subst h1
    subst h2
    exact ⟨hd, by simp, Nat.le_refl _⟩
  | s :: ss, e, e', ids, h, hd => by
    rw [parseArgs] at h
    split at h
    · cases h
    · rename_i e1 i h1
      obtain ⟨hd1, hi, hl⟩ := parseInto_dag T hT s e e1 i h1 hd
      split at h
      · cases h
      · rename_i e2 is h2
        obtain ⟨hd2, his, hl2⟩ := parseArgs_dag T hT ss e1 e2 is h2 hd1
        injection h with h
        injection h with h1 h2
        subst h1
        subst h2
        refine ⟨hd2, ?_, by omega⟩
        intro c hc
        rcases List.mem_cons.1 hc with rfl | hc
        · omega
        · exact his c hc
end

/-- **C40.** Whatever the text, an expression returned by the parser is not empty and its children
precede their parents, so it denotes a term. -/
theorem c40_parse_wellformed (T : OpText Op) (hT : ∀ s ids n, T.fromOp s ids = some n → n.children = ids)
    (parse : List Char → Option Sexp) (text : List Char) (e : List (ENode Op)) (h : parseExpr T parse text = .ok e) :
    Dag e ∧ ∃ t, ExprTerm e t := by
  unfold parseExpr at h
  split at h
  · cases h
  · rename_i s _
    split at h
    · cases h
    · rename_i e1 i h1
      injection h with h
      subst h
      obtain ⟨hd, hi, _⟩ := parseInto_dag T hT s [] e1 i h1 (by intro i n h; cases h)
      refine ⟨hd, ?_⟩
      obtain ⟨t, ht⟩ := hd.exists_term (e1.length - 1) (by omega)
      exact ⟨t, (fun e => by rw [e] at hi; cases hi), ht⟩

/-! ### Panics -/

mutual
/-- No list starts with `()`. -/
def Sexp.NoEmptyHead : Sexp → Prop
  | .str _ => True
  | .empty => True
  | .list items => items.head? ≠ some .empty ∧ NoEmptyHeads items
def NoEmptyHeads : List Sexp → Prop
  | [] => True
  | s :: ss => s.NoEmptyHead ∧ NoEmptyHeads ss
end

mutual
theorem parseInto_panic (T : OpText Op) : ∀ (s : Sexp) (e : List (ENode Op)), s.NoEmptyHead → parseInto T s e ≠ .error .panic
  | .empty, e, _ => by rw [parseInto]; intro h; cases h
  | .str s, e, _ => by rw [parseInto]; split <;> intro h <;> cases h
  | .list [], e, _ => by rw [parseInto]; intro h; cases h
  | .list (.empty :: ss), e, h => by rw [Sexp.NoEmptyHead] at h; exact absurd rfl h.1
  | .list (.list _ :: _), e, _ => by rw [parseInto]; intro h; cases h
  | .list (.str op :: args), e, h => by
    rw [Sexp.NoEmptyHead, NoEmptyHeads] at h
    have := parseArgs_panic T args e h.2.2
    rw [parseInto]
    split
    · rename_i er he
      intro hh
      injection hh with hh
      rw [he, hh] at this
      exact this rfl
    · split <;> intro h <;> cases h
theorem parseArgs_panic (T : OpText Op) : ∀ (ss : List Sexp) (e : List (ENode Op)), NoEmptyHeads ss → parseArgs T ss e ≠ .error .panic
  | [], e, _ => by rw [parseArgs]; intro h; cases h
  | s :: ss, e, h => by
    rw [NoEmptyHeads] at h
    have h1 := parseInto_panic T s e h.1
    rw [parseArgs]
    split
    · rename_i er he
      intro hh
      injection hh with hh
      rw [he, hh] at h1
      exact h1 rfl
    · rename_i e1 i _
      have h2 := parseArgs_panic T ss e1 h.2
      split
      · rename_i er he
        intro hh
        injection hh with hh
        rw [he, hh] at h2
        exact h2 rfl
      · intro h; cases h
end

/-- **C40.** Parsing an expression does not panic if the text denotes an s-expression without a list
that starts with `()`. -/
theorem c40_parse_no_panic (T : OpText Op) (parse : List Char → Option Sexp) (text : List Char)
    (h : ∀ s, parse (trim text) = some s → s.NoEmptyHead) : parseExpr T parse text ≠ .error .panic := by
  unfold parseExpr
  split
  · intro h; cases h
  · rename_i s hs
    have := parseInto_panic T s [] (h s hs)
    split
    · rename_i er he
      intro hh
      injection hh with hh
      rw [he, hh] at this
      exact this rfl
    · intro h; cases h

/-- **C40, negative part.** The text `(() a)` makes the parser of expressions panic (`unreachable!`)
in the `no_std` build, for every language. -/
theorem c40_panic_counterexample (T : OpText Op) : parseExpr T parseSexp? "(() a)".toList = .error .panic := by
  have h : parseSexp (trim "(() a)".toList) = .ok (.list [.empty, .str ['a']]) := by rfl
  unfold parseExpr parseSexp?
  rw [h]
  simp only [Except.toOption, parseInto]

/-- **C40, negative part.** The empty expression prints as `()`, which is not accepted. -/
theorem c40_empty_counterexample (T : OpText Op) :
    showExpr T showSexp ([] : List (ENode Op)) = .ok "()".toList ∧
    parseExpr T parseSexp? "()".toList = .error .emptySexp := by
  refine ⟨rfl, ?_⟩
  have h : parseSexp (trim "()".toList) = .ok .empty := by rfl
  unfold parseExpr parseSexp?
  rw [h]
  simp only [Except.toOption, parseInto]

/-! ### `SymbolLang` and patterns -/

/-- `SymbolLang`, `src/language.rs:945-1000`: operators are arbitrary strings with any number of
children. -/
def symbolText : OpText (List Char) := ⟨fun s => s, fun s ids => some ⟨s, ids⟩⟩

/-- Every term of `SymbolLang` is read back. -/
theorem symbol_readable (t : Term (List Char)) : Readable symbolText t := by
  induction t using Term.ind with
  | h op args ih => exact .node (fun ids _ => rfl) ih

/-- The operators and variables of a pattern: variables are leaves obtained by parsing, and no
operator reads like a variable. -/
inductive PatternText (T : OpText Op) : Term (PatOp Op) → Prop where
  | var {v : Var} {s : List Char} : parseVar s = .ok v → PatternText T (.node (.var v) [])
  | op {o : Op} {args : List (Term (PatOp Op))} :
      (∀ ids : List Id, ids.length = args.length → T.fromOp (T.show_ o) ids = some ⟨o, ids⟩) →
      (∀ c cs, T.show_ o ≠ '?' :: c :: cs) →
      (∀ t ∈ args, PatternText T t) → PatternText T (.node (.op o) args)

/-- **C40 (patterns).** Patterns are read back as well: together with `c40_roundtrip` this gives the
round trip for patterns. -/
theorem c40_pattern_readable (T : OpText Op) (t : Term (PatOp Op)) (h : PatternText T t) : Readable T.pat t := by
  induction h with
  | @var v s hv =>
    refine .node ?_ (by simp)
    intro ids hl
    have : ids = [] := List.length_eq_zero_iff.1 hl
    subst this
    have hr := c43_roundtrip s v hv
    have ht := (c43_parse _ _).1 hr
    show OpText.fromOp T.pat (showVar v) [] = _
    generalize hx : showVar v = x at hr ht
    unfold OpText.pat
    cases ht with
    | num _ => simp only [List.isEmpty_nil, if_true]; rw [hr]
    | sym _ => simp only [List.isEmpty_nil, if_true]; rw [hr]
  | @op o args h1 h2 h3 ih =>
    refine .node ?_ ih
    intro ids hl
    show OpText.fromOp T.pat (T.show_ o) ids = _
    unfold OpText.pat
    simp only []
    rw [h1 ids hl]
    rfl

/-! ### What the parser accepts -/

/-- Whether a language accepts an operator depends on its text and the number of its children, and
the children it gets are the ones it was given. -/
def OpText.Uniform (T : OpText Op) : Prop :=
  ∀ s ids n, T.fromOp s ids = some n → ∀ ids' : List Id, ids'.length = ids.length → T.fromOp s ids' = some ⟨n.op, ids'⟩

/-- How an s-expression reads as a term: an atom is a constant, a list is its head applied to the
terms its other items read as, in order. -/
inductive ReadsAs (T : OpText Op) : Sexp → Term Op → Prop where
  | atom {s : List Char} {op : Op} : T.fromOp s [] = some ⟨op, []⟩ → ReadsAs T (.str s) (.node op [])
  | list {s : List Char} {op : Op} {items : List Sexp} {args : List (Term Op)} :
      (∀ ids : List Id, ids.length = args.length → T.fromOp s ids = some ⟨op, ids⟩) →
      items.length = args.length →
      (∀ (i : Nat) s t, items[i]? = some s → args[i]? = some t → ReadsAs T s t) →
      ReadsAs T (.list (.str s :: items)) (.node op args)

theorem OpText.Uniform.children {T : OpText Op} (hT : T.Uniform) {s ids n} (h : T.fromOp s ids = some n) : n = ⟨n.op, ids⟩ := by
  have := hT s ids n h ids rfl
  rw [h] at this
  exact Option.some.inj this

mutual
theorem parseInto_reads (T : OpText Op) (hT : T.Uniform) :
    ∀ (s : Sexp) (e : List (ENode Op)) (e' : List (ENode Op)) (i : Id), parseInto T s e = .ok (e', i) →
      ∃ ext t, e' = e ++ ext ∧ i + 1 = e'.length ∧ ReadsAs T s t ∧ TermOf e' i t
  | .empty, e, e', i, h => by rw [parseInto] at h; cases h
  | .str s, e, e', i, h => by
    rw [parseInto] at h
    split at h
    · cases h
    · rename_i n hn
      injection h with h
      injection h with h1 h2
      subst h1
      subst h2
      have hc := hT.children hn
      refine ⟨[n], .node n.op [], rfl, by simp, .atom (hn.trans (by rw [← hc])), termOf_iff.2 ⟨n, by simp, rfl, ?_⟩⟩
      rw [hc]
      exact .nil
  | .list [], e, e', i, h => by rw [parseInto] at h; cases h
  | .list (.empty :: _), e, e', i, h => by rw [parseInto] at h; cases h
  | .list (.list _ :: _), e, e', i, h => by rw [parseInto] at h; cases h
  | .list (.str op :: args), e, e', i, h => by
    rw [parseInto] at h
    split at h
    · cases h
    · rename_i e1 ids h1
      obtain ⟨ext, ts, rfl, hl, hr, ht⟩ := parseArgs_reads T hT args e e1 ids h1
      split at h
      · cases h
      · rename_i n hn
        injection h with h
        injection h with h1 h2
        subst h1
        subst h2
        have hc := hT.children hn
        refine ⟨ext ++ [n], .node n.op ts, by simp, by simp; omega, .list (fun ids' hids => hT _ _ _ hn ids' (hids.trans ht.length_eq.symm)) hl hr, termOf_iff.2 ⟨n, by simp, rfl, ?_⟩⟩
        rw [hc]
        exact ht.imp (fun _ _ h => h.append)
theorem parseArgs_reads (T : OpText Op) (hT : T.Uniform) :
    ∀ (ss : List Sexp) (e : List (ENode Op)) (e' : List (ENode Op)) (ids : List Id), parseArgs T ss e = .ok (e', ids) →
      ∃ ext ts, e' = e ++ ext ∧ ss.length = ts.length ∧ (∀ (i : Nat) s t, ss[i]? = some s → ts[i]? = some t → ReadsAs T s t) ∧
        List.Forall₂ (TermOf e') ids ts
  | [], e, e', ids, h => by
    rw [parseArgs] at h
    injection h with h
    injection h with h1 h2
    subst h1
    subst h2
    exact ⟨[], [], by simp, rfl, by simp, .nil⟩
  | s :: ss, e, e', ids, h => by
    rw [parseArgs] at h
    split at h
    · cases h
    · rename_i e1 i h1
      obtain ⟨ext, t, rfl, _, hr, ht⟩ := parseInto_reads T hT s e e1 i h1
      split at h
      · cases h
      · rename_i e2 is h2
        obtain ⟨ext', ts, rfl, hl, hrs, hts⟩ := parseArgs_reads T hT ss _ e2 is h2
        injection h with h
        injection h with h1 h2
        subst h1
        subst h2
        refine ⟨ext ++ ext', t :: ts, by simp, by simp [hl], ?_, .cons ht.append hts⟩
        rintro (_ | j) s' t' h1 h2
        · simp only [List.getElem?_cons_zero, Option.some.injEq] at h1 h2
          subst h1
          subst h2
          exact hr
        · simp only [List.getElem?_cons_succ] at h1 h2
          exact hrs j s' t' h1 h2
end

mutual
theorem reads_parseInto (T : OpText Op) : ∀ (s : Sexp) (t : Term Op), ReadsAs T s t → ∀ (e : List (ENode Op)),
    ∃ ext i, parseInto T s e = .ok (e ++ ext, i)
  | .empty, t, h, e => by cases h
  | .str s, t, h, e => by
    cases h with
    | atom h => exact ⟨_, _, by rw [parseInto, h]⟩
  | .list [], t, h, e => by cases h
  | .list (.empty :: _), t, h, e => by cases h
  | .list (.list _ :: _), t, h, e => by cases h
  | .list (.str op :: items), t, h, e => by
    cases h with
    | @list _ o _ _ hop hl hr =>
      obtain ⟨ext, ids, hids, h1⟩ := reads_parseArgs T items _ hl hr e
      refine ⟨ext ++ [⟨o, ids⟩], (e ++ ext).length, ?_⟩
      rw [parseInto, h1]
      simp only []
      rw [hop ids hids]
      simp
theorem reads_parseArgs (T : OpText Op) : ∀ (ss : List Sexp) (ts : List (Term Op)), ss.length = ts.length →
    (∀ (i : Nat) s t, ss[i]? = some s → ts[i]? = some t → ReadsAs T s t) → ∀ (e : List (ENode Op)),
    ∃ ext ids, ids.length = ts.length ∧ parseArgs T ss e = .ok (e ++ ext, ids)
  | [], [], _, _, e => ⟨[], [], rfl, by simp [parseArgs]⟩
  | [], _ :: _, h, _, e => by cases h
  | _ :: _, [], h, _, e => by cases h
  | s :: ss, t :: ts, hl, h, e => by
    obtain ⟨ext, i, h1⟩ := reads_parseInto T s t (h 0 s t rfl rfl) e
    obtain ⟨ext', ids, hids, h2⟩ := reads_parseArgs T ss ts (by simpa using hl) (fun i s t h1 h2 => h (i + 1) s t (by simpa using h1) (by simpa using h2)) (e ++ ext)
    refine ⟨ext ++ ext', i :: ids, by simp [hids], ?_⟩
    rw [parseArgs, h1]
    simp only []
    rw [h2]
    simp
end

/-- **C40.** The parser accepts exactly the texts whose s-expression reads as a term, and returns
an expression that denotes this term. -/
theorem c40_parse_iff (T : OpText Op) (hT : T.Uniform) (parse : List Char → Option Sexp) (text : List Char) (t : Term Op) :
    (∃ s, parse (trim text) = some s ∧ ReadsAs T s t) ↔ ∃ e, parseExpr T parse text = .ok e ∧ ExprTerm e t := by
  have hch : ∀ s ids n, T.fromOp s ids = some n → n.children = ids := fun s ids n h => by rw [hT.children h]
  have det : ∀ {e : List (ENode Op)}, parseExpr T parse text = .ok e →
      ∃ s t, parse (trim text) = some s ∧ ReadsAs T s t ∧ ExprTerm e t := by
    intro e h
    unfold parseExpr at h
    split at h
    · cases h
    · rename_i s hs
      split at h
      · cases h
      · rename_i e1 i h1
        injection h with h
        subst h
        obtain ⟨ext, t, rfl, hi, hr, ht⟩ := parseInto_reads T hT s [] e1 i h1
        refine ⟨s, t, hs, hr, ?_, ?_⟩
        · intro e
          rw [e] at hi
          cases hi
        · rw [← hi]
          exact ht
  have uniq : ∀ {s : Sexp} {t : Term Op}, ReadsAs T s t → ∀ {t'}, ReadsAs T s t' → t = t' := by
    intro s t h
    induction h with
    | atom h =>
      intro t' h'
      cases h' with
      | atom h' => rw [h] at h'; cases h'; rfl
    | @list s op items args h hl _ ih =>
      intro t' h'
      cases h' with
      | @list _ op' _ args' h' hl' hr' =>
        have e1 := h (List.replicate items.length 0) (by simpa using hl)
        rw [h' (List.replicate items.length 0) (by simpa using hl')] at e1
        cases e1
        have : args = args' := by
          apply List.ext_getElem?
          intro i
          by_cases hi : i < items.length
          · have g1 : i < args.length := hl ▸ hi
            have g2 : i < args'.length := hl' ▸ hi
            rw [List.getElem?_eq_getElem g1, List.getElem?_eq_getElem g2]
            rw [ih i items[i] args[i] (List.getElem?_eq_getElem hi) (List.getElem?_eq_getElem g1) (hr' i items[i] args'[i] (List.getElem?_eq_getElem hi) (List.getElem?_eq_getElem g2))]
          · rw [List.getElem?_eq_none (by omega), List.getElem?_eq_none (by omega)]
        rw [this]
  constructor
  · rintro ⟨s, hs, hr⟩
    obtain ⟨ext, i, h⟩ := reads_parseInto T s t hr []
    have hp : parseExpr T parse text = .ok ([] ++ ext) := by
      unfold parseExpr
      rw [hs]
      simp only []
      rw [h]
    obtain ⟨s', t', hs', hr', ht'⟩ := det hp
    rw [hs] at hs'
    cases hs'
    rw [uniq hr hr']
    exact ⟨_, hp, ht'⟩
  · rintro ⟨e, h, ht⟩
    obtain ⟨s, t', hs, hr, ht'⟩ := det h
    rw [ht.2.unique ht'.2]
    exact ⟨s, hs, hr⟩

/-- Patterns are read uniformly if the language is. -/
theorem OpText.Uniform.pat {T : OpText Op} (hT : T.Uniform) : T.pat.Uniform := by
  intro s ids n h ids' hl
  unfold OpText.pat at h ⊢
  simp only [] at h ⊢
  split at h
  · rename_i c cs
    split at h
    · rename_i he
      have : ids = [] := by simpa using he
      subst this
      have : ids' = [] := List.length_eq_zero_iff.1 hl
      subst this
      simp only [List.isEmpty_nil, if_true]
      split at h
      · rename_i v hv
        cases h
        rfl
      · cases h
    · cases h
  · rename_i x hx
    obtain ⟨m, hm, rfl⟩ := Option.map_eq_some_iff.1 h
    rw [hT _ _ _ hm ids' hl]
    rfl

/-- An s-expression occurs in another. -/
inductive Sexp.Occurs (a : Sexp) : Sexp → Prop where
  | here : Occurs a a
  | item {items : List Sexp} {s : Sexp} : s ∈ items → Occurs a s → Occurs a (.list items)

/-- **C40, C43 (patterns).** A pattern text in which a variable is applied to arguments is rejected,
wherever this occurs. -/
theorem c40_variable_with_arguments (T : OpText Op) (hT : T.Uniform) (parse : List Char → Option Sexp) (text : List Char)
    (s : Sexp) (hs : parse (trim text) = some s) (c : Char) (cs : List Char) (x : Sexp) (xs : List Sexp)
    (ho : Sexp.Occurs (.list (.str ('?' :: c :: cs) :: x :: xs)) s) : ∃ err, parseExpr T.pat parse text = .error err := by
  have key : ∀ {s : Sexp}, Sexp.Occurs (.list (.str ('?' :: c :: cs) :: x :: xs)) s → ∀ t, ¬ ReadsAs T.pat s t := by
    intro s ho
    induction ho with
    | here =>
      intro t ht
      cases ht with
      | @list _ op _ args h hl _ =>
        have := h (List.replicate args.length 0) (by simp)
        have h0 : args.length ≠ 0 := by rw [← hl]; simp
        unfold OpText.pat at this
        simp [h0] at this
    | @item items s hm hoc ih =>
      intro t ht
      cases ht with
      | @list s' op items args h hl hr =>
        rcases List.mem_cons.1 hm with rfl | hm
        · cases hoc
        · obtain ⟨i, hi, rfl⟩ := List.getElem_of_mem hm
          have g1 : i < args.length := hl ▸ hi
          exact ih args[i] (hr i _ _ (List.getElem?_eq_getElem hi) (List.getElem?_eq_getElem g1))
  cases hp : parseExpr T.pat parse text with
  | error e => exact ⟨e, rfl⟩
  | ok e =>
    have hw := c40_parse_wellformed T.pat (fun s ids n h => by rw [hT.pat.children h]) parse text e hp
    obtain ⟨_, t, ht⟩ := hw
    obtain ⟨s', hs', hr⟩ := (c40_parse_iff T.pat hT.pat parse text t).2 ⟨e, hp, ht⟩
    rw [hs] at hs'
    cases hs'
    exact absurd hr (key ho t)

theorem symbol_uniform : symbolText.Uniform := by
  intro s ids n h ids' _
  cases h
  rfl

/-- `(f (?x a))` is rejected as a pattern, `(f ?x)` is accepted, whichever parser of s-expressions
reads these texts. -/
example (parse : List Char → Option Sexp)
    (h1 : parse (trim "(f (?x a))".toList) = some (.list [.str ['f'], .list [.str ['?', 'x'], .str ['a']]]))
    (h2 : parse (trim "(f ?x)".toList) = some (.list [.str ['f'], .str ['?', 'x']])) :
    (∃ err, parseExpr symbolText.pat parse "(f (?x a))".toList = .error err) ∧
    ∃ e, parseExpr symbolText.pat parse "(f ?x)".toList = .ok e ∧
      ExprTerm e (.node (.op ['f']) [.node (.var (.sym ['?', 'x'])) []]) := by
  constructor
  · exact c40_variable_with_arguments symbolText symbol_uniform parse _ _ h1 'x' [] (.str ['a']) [] (.item (s := .list [.str ['?', 'x'], .str ['a']]) (by simp) .here)
  · refine (c40_parse_iff symbolText.pat symbol_uniform.pat parse _ _).1 ⟨_, h2, .list (fun _ _ => rfl) rfl ?_⟩
    rintro (_ | i) s t g1 g2
    · cases g1
      cases g2
      exact .atom rfl
    · simp at g1

/-- An expression with sharing, `(+ (* x x) (* x x))`, meets the hypotheses of `c40_roundtrip_text`. -/
def exShared : List (ENode (List Char)) := [⟨['x'], []⟩, ⟨['*'], [0, 0]⟩, ⟨['+'], [1, 1]⟩]

def exSharedTerm : Term (List Char) :=
  let x : Term (List Char) := .node ['x'] []
  let m : Term (List Char) := .node ['*'] [x, x]
  .node ['+'] [m, m]

theorem exShared_dag : Dag exShared := by
  intro i n hn c hc
  match i with
  | 0 => cases hn; cases hc
  | 1 => cases hn; simp at hc; omega
  | 2 => cases hn; simp at hc; omega
  | i + 3 => cases hn

theorem exShared_term : ExprTerm exShared exSharedTerm := by
  have hx : TermOf exShared 0 (.node ['x'] []) := termOf_iff.2 ⟨_, rfl, rfl, .nil⟩
  have hm : TermOf exShared 1 (.node ['*'] [.node ['x'] [], .node ['x'] []]) :=
    termOf_iff.2 ⟨_, rfl, rfl, .cons hx (.cons hx .nil)⟩
  exact ⟨by simp [exShared], termOf_iff.2 ⟨_, rfl, rfl, .cons hm (.cons hm .nil)⟩⟩

theorem exShared_texts : OpTexts symbolText PlainAtom exSharedTerm := by
  have p : ∀ c ∈ ['*', '+', 'x'], PlainAtom [c] := by
    simp only [PlainAtom, RawAtom]
    decide
  have hx : OpTexts symbolText PlainAtom (.node ['x'] []) := .node (p 'x' (by simp)) (by simp)
  have hm : OpTexts symbolText PlainAtom (.node ['*'] [.node ['x'] [], .node ['x'] []]) :=
    .node (p '*' (by simp)) (by simp [hx])
  exact .node (p '+' (by simp)) (by simp [hm])

example : ∃ text e', prettyExpr symbolText showSexp 10 exShared = .ok text ∧
    parseExpr symbolText parseSexp? text = .ok e' ∧ Dag e' ∧ ExprTerm e' exSharedTerm :=
  c40_pretty symbolText 10 exShared exSharedTerm exShared_dag exShared_term (symbol_readable _) exShared_texts

/-- The printed text of the example. -/
example : showExpr symbolText showSexp exShared = .ok "(+ (* x x) (* x x))".toList := by
  rw [c40_print symbolText showSexp exShared exSharedTerm exShared_dag exShared_term]
  simp only [exSharedTerm, termSexp, symbolText, List.map_cons, List.map_nil, List.isEmpty_cons, List.isEmpty_nil, if_true, showSexp, showItems, showAtom]
  decide

/-- The pattern `(f ?x ?#2)` meets the hypothesis of `c40_pattern_readable`. -/
example : PatternText symbolText
    (.node (.op ['f']) [.node (.var (.sym ['?', 'x'])) [], .node (.var (.num 2)) []]) := by
  refine .op (fun ids _ => rfl) (by intro c cs h; cases h) ?_
  intro t ht
  simp only [List.mem_cons, List.not_mem_nil, or_false] at ht
  rcases ht with rfl | rfl
  · exact .var (s := ['?', 'x']) rfl
  · exact .var (s := ['?', '#', '2']) rfl

end Egg
