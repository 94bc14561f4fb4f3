import Verif.Lemmas.SexpText
/-
C41: the text of s-expressions (`no_std` build), and pretty printing.
-/
namespace Egg

/-- **C41, white space** is what Unicode calls so. -/
theorem c41_white_space (c : Char) : isWs c = true ↔ c.toNat ∈ whiteSpace := by
  simp only [isWs, whiteSpace, Bool.or_eq_true, Bool.and_eq_true, decide_eq_true_eq, beq_iff_eq, List.mem_cons, List.not_mem_nil, or_false]
  omega

/-- **C41.** The parser accepts exactly the texts of the grammar, and returns what the grammar says
they denote. -/
theorem c41_grammar (text : List Char) (s : Sexp) : parseSexp text = .ok s ↔ Denotes text s := by
  constructor
  · intro h
    obtain ⟨w, w', hw, hw', e, _, _⟩ := trim_split text
    unfold parseSexp at h
    simp only [] at h
    split at h
    · cases h
    · split at h
      · cases h
      · rename_i sexp rest ho
        split at h
        · rename_i hr
          injection h with h
          subst h
          have hrest := (trim_isEmpty_iff rest).1 hr
          obtain ⟨w1, t, hw1, e1, hor⟩ := (parse_sound _).1 _ _ _ ho
          rcases hor with ⟨ht, _⟩ | ⟨_, hh⟩
          · exact ⟨w ++ w1, t, rest ++ w', hw.append hw1, ht, hrest.append hw', by rw [e, e1]; simp⟩
          · have := hrest _ (List.mem_of_head? hh)
            cases this
        · cases h
  · rintro ⟨w, t, w', hw, ht, hw', rfl⟩
    obtain ⟨c, cs, e, hc, _⟩ := ht.head
    have htrim : trim (w ++ (t ++ w')) = t := trim_eq hw hw' (by rw [e]; intro d hd; cases hd; exact hc) ht.last
    unfold parseSexp
    simp only [htrim]
    have hp := ht.parse (2 * t.length + 2) [] (fun _ d hd => by cases hd) (by omega)
    rw [List.append_nil] at hp
    rw [if_neg (by rw [e]; simp), hp]
    rfl

/-- **C41.** The grammar is unambiguous. -/
theorem c41_unambiguous (text : List Char) (s s' : Sexp) (h : Denotes text s) (h' : Denotes text s') : s = s' := by
  have a := (c41_grammar text s).2 h
  rw [(c41_grammar text s').2 h'] at a
  injection a with a
  exact a.symm

/-- **C41.** The parser terminates on every text: the recursion bound of the model is never
reached. -/
theorem c41_parse_terminates (text : List Char) : parseSexp text ≠ .error .fuel := by
  unfold parseSexp
  simp only []
  split
  · intro h; cases h
  · split
    · rename_i e he
      intro h
      injection h with h
      subst h
      exact (parse_fuel _).1 (trim text) (by omega) he
    · split <;> intro h <;> cases h

theorem needsQuotes_iff (a : List Char) :
    (a.contains ' ' || a.contains '(' || a.contains ')' || a.isEmpty) = true ↔ NeedsQuotes a := by
  unfold NeedsQuotes
  simp [or_assoc]

theorem AtomOK.tok {a : List Char} (h : AtomOK a) : Tok (showAtom a) (.str a) := by
  unfold showAtom
  split
  · rename_i hq
    exact .quoted (h.1 ((needsQuotes_iff a).1 hq))
  · rename_i hq
    rw [needsQuotes_iff] at hq
    obtain ⟨hw, hh⟩ := h.2 hq
    refine .raw ⟨fun e => hq (Or.inr (Or.inr (Or.inr e))), fun c hc => ⟨hw c hc, ?_, ?_⟩, hh⟩
    · rintro rfl; exact hq (Or.inr (Or.inl hc))
    · rintro rfl; exact hq (Or.inr (Or.inr (Or.inl hc)))

theorem Items.ws {w t : List Char} {ss : List Sexp} (hw : Ws w) (h : Items t ss) : Items (w ++ t) ss := by
  cases h with
  | nil h => exact .nil (hw.append h)
  | cons h1 h2 h3 h4 =>
    rw [← List.append_assoc]
    exact .cons (hw.append h1) h2 h3 h4

mutual
theorem tok_show : ∀ s : Sexp, s.AllAtoms AtomOK → Tok (showSexp s) s
  | .str a, h => by rw [showSexp]; rw [Sexp.AllAtoms] at h; exact h.tok
  | .list items, h => by
    rw [showSexp]
    rw [Sexp.AllAtoms] at h
    exact .list (items_show items h.2) h.1
  | .empty, _ => by rw [showSexp]; exact .empty ws_nil
theorem items_show : ∀ ss : List Sexp, AllItems AtomOK ss → Items (showItems ss) ss
  | [], _ => by rw [showItems]; exact .nil ws_nil
  | [s], h => by
    rw [AllItems] at h
    rw [showItems]
    have := Items.cons ws_nil (tok_show s h.1) (fun _ c hc => by cases hc) (Items.nil ws_nil)
    rwa [List.append_nil, List.nil_append] at this
  | s :: s' :: ss, h => by
    rw [AllItems] at h
    rw [showItems]
    · have := Items.cons ws_nil (tok_show s h.1) (rest := ' ' :: showItems (s' :: ss))
        (fun _ c hc => by cases hc; exact Or.inl (by decide)) (Items.ws (w := [' ']) (by intro c hc; rw [List.mem_singleton.1 hc]; decide) (items_show (s' :: ss) h.2))
      rwa [List.nil_append] at this
    · simp
end

/-- **C41.** Printing an s-expression whose atoms are printable and whose lists are not empty, and
parsing the text, gives the s-expression back. -/
theorem c41_roundtrip (s : Sexp) (h : s.AllAtoms AtomOK) : parseSexp (showSexp s) = .ok s :=
  (c41_grammar _ _).2 ⟨[], _, [], ws_nil, tok_show s h, ws_nil, by simp⟩

/-- **C41.** For a single atom the condition is exact. -/
theorem c41_atom_exact (a : List Char) : parseSexp (showSexp (.str a)) = .ok (.str a) ↔ AtomOK a := by
  constructor
  · intro h
    obtain ⟨w, t, w', _, ht, _, e⟩ := (c41_grammar _ _).1 h
    rw [showSexp] at e
    have noq : ∀ {x}, RawAtom x → ¬ NeedsQuotes x := by
      intro x hx hq
      rcases hq with hq | hq | hq | hq
      · have := (hx.2.1 _ hq).1; revert this; decide
      · exact (hx.2.1 _ hq).2.1 rfl
      · exact (hx.2.1 _ hq).2.2 rfl
      · exact hx.1 hq
    cases ht with
    | raw hr => exact ⟨fun hq => (noq hr hq).elim, fun _ => ⟨fun c hc => (hr.2.1 c hc).1, hr.2.2⟩⟩
    | quoted hn =>
      refine ⟨fun _ => hn, fun hq => ?_⟩
      unfold showAtom at e
      rw [if_neg (fun h => hq ((needsQuotes_iff a).1 h))] at e
      exact absurd (by rw [e]; simp) hn
  · intro h
    exact c41_roundtrip (.str a) (by rw [Sexp.AllAtoms]; exact h)

/-- The atoms `a b`, `(`, the empty atom, `x"y` and `+` survive printing. -/
example : AtomOK "a b".toList ∧ AtomOK "(".toList ∧ AtomOK [] ∧ AtomOK "x\"y".toList ∧ AtomOK "+".toList := by
  simp only [AtomOK, NeedsQuotes]
  refine ⟨?_, ?_, ?_, ?_, ?_⟩ <;> decide

/-- A nested expression that satisfies the hypothesis of `c41_roundtrip`. -/
def exSexp : Sexp := .list [.str "f g".toList, .list [.str "x".toList, .empty], .str []]

example : exSexp.AllAtoms AtomOK := by
  simp only [exSexp, Sexp.AllAtoms, AllItems, AtomOK, NeedsQuotes]
  refine ⟨by simp, ⟨?_, ?_⟩, ⟨by simp, ⟨?_, ?_⟩, trivial, trivial⟩, ⟨?_, ?_⟩, trivial⟩ <;> decide

/-- **C41, negative part.** The round trip fails for an atom with a tab, for an atom starting with a
quote, for an atom with both a space and a quote, and for the empty list. -/
theorem c41_counterexamples :
    parseSexp (showSexp (.str "a\tb".toList)) = .error .trailing ∧
    parseSexp (showSexp (.str "\"a".toList)) = .error .unclosedString ∧
    parseSexp (showSexp (.str "\" a".toList)) = .error .trailing ∧
    parseSexp (showSexp (.list [])) = .ok .empty := by
  refine ⟨?_, ?_, ?_, ?_⟩ <;> rfl

/-! ### Pretty printing -/

/-- Atoms that pretty printing, which removes quotes, does not change. -/
def PlainAtom (a : List Char) : Prop := RawAtom a ∧ a.getLast? ≠ some '"'

theorem showAtom_raw {a : List Char} (h : RawAtom a) : showAtom a = a := by
  unfold showAtom
  rw [if_neg]
  rw [needsQuotes_iff]
  rintro (hq | hq | hq | hq)
  · have := (h.2.1 _ hq).1; revert this; decide
  · exact (h.2.1 _ hq).2.1 rfl
  · exact (h.2.1 _ hq).2.2 rfl
  · exact h.1 hq

theorem trimQuotes_plain {a : List Char} (h1 : a.head? ≠ some '"') (h2 : a.getLast? ≠ some '"') : trimQuotes a = a := by
  have drop : ∀ x : List Char, x.head? ≠ some '"' → x.dropWhile (fun c => c == '"') = x := by
    intro x hx
    have := dropWhile_append_of (p := fun c => c == '"') (w := []) (x := x) (by simp) (by
      intro c hc
      rw [hc] at hx
      simpa using hx)
    rwa [List.nil_append] at this
  unfold trimQuotes
  rw [drop a h1, drop a.reverse (by rwa [List.head?_reverse]), List.reverse_reverse]

theorem PlainAtom.pretty {a : List Char} (h : PlainAtom a) : trimQuotes (showAtom a) = a := by
  rw [showAtom_raw h.1]
  exact trimQuotes_plain h.1.2.2 h.2

theorem ws_indent (level : Nat) : Ws ('\n' :: (List.replicate level [' ', ' ']).flatten) := by
  intro c hc
  rcases List.mem_cons.1 hc with rfl | hc
  · decide
  · obtain ⟨l, hl, hc⟩ := List.mem_flatten.1 hc
    rw [List.eq_of_mem_replicate hl] at hc
    simp only [List.mem_cons, List.not_mem_nil, or_false, or_self] at hc
    rw [hc]; decide

mutual
theorem tok_pretty (width : Nat) : ∀ (s : Sexp) (level : Nat), s.AllAtoms PlainAtom → Tok (prettyPrint showSexp width level s) s
  | .str a, level, h => by
    rw [Sexp.AllAtoms] at h
    rw [prettyPrint, showSexp, h.pretty]
    exact .raw h.1
  | .list items, level, h => by
    rw [Sexp.AllAtoms] at h
    rw [prettyPrint]
    exact .list (items_pretty width _ level true items h.2) h.1
  | .empty, level, _ => by
    rw [prettyPrint, showSexp]
    exact .empty (w := []) ws_nil
theorem items_pretty (width : Nat) (indent : Bool) (level : Nat) (first : Bool) :
    ∀ ss : List Sexp, AllItems PlainAtom ss → Items (prettyItems showSexp width indent level first ss) ss
  | [], _ => by rw [prettyItems]; exact .nil ws_nil
  | s :: ss, h => by
    rw [AllItems] at h
    rw [prettyItems]
    have hpre : Ws (if indent && !first then '\n' :: (List.replicate level [' ', ' ']).flatten else []) := by
      split
      · exact ws_indent level
      · exact ws_nil
    have hsep : Ws (if !indent && !ss.isEmpty then [' '] else []) := by
      split
      · intro c hc; rw [List.mem_singleton.1 hc]; decide
      · exact ws_nil
    rw [List.append_assoc, List.append_assoc]
    refine .cons hpre (tok_pretty width s _ h.1) ?_ (Items.ws hsep (items_pretty width indent level false ss h.2))
    intro _ c hc
    left
    cases ss with
    | nil => simp [prettyItems] at hc
    | cons s' ss =>
      cases indent with
      | true =>
        rw [prettyItems] at hc
        simp at hc
        rw [← hc]; decide
      | false =>
        simp at hc
        rw [← hc]; decide
end

/-- **C41 (pretty printing).** Pretty printing only changes the layout: for any width, parsing the
pretty-printed text of an s-expression whose atoms need no quotes gives the s-expression
back. -/
theorem c41_pretty (width level : Nat) (s : Sexp) (h : s.AllAtoms PlainAtom) :
    parseSexp (prettyPrint showSexp width level s) = .ok s :=
  (c41_grammar _ _).2 ⟨[], _, [], ws_nil, tok_pretty width s level h, ws_nil, by simp⟩

/-- The s-expression `(* (+ 2 2) (+ x y))`. -/
def exPretty : Sexp :=
  .list [.str ['*'], .list [.str ['+'], .str ['2'], .str ['2']], .list [.str ['+'], .str ['x'], .str ['y']]]

example : prettyPrint showSexp 10 1 exPretty = "(*\n  (+ 2 2)\n  (+ x y))".toList := by
  simp only [exPretty, prettyPrint, prettyItems, showSexp, showItems, showAtom]
  decide

example : exPretty.AllAtoms PlainAtom := by
  have p : ∀ c ∈ ['*', '+', '2', 'x', 'y'], PlainAtom [c] := by
    simp only [PlainAtom, RawAtom]
    decide
  simp [exPretty, Sexp.AllAtoms, AllItems, p]

/-- **C41 (pretty printing), negative part.** Pretty printing drops the quotes an atom with a space
needs, so such an expression is read back as a different one. -/
theorem c41_pretty_counterexample :
    parseSexp (prettyPrint showSexp 10 1 (.list [.str "f".toList, .str "a b".toList])) =
      .ok (.list [.str "f".toList, .str "a".toList, .str "b".toList]) := by
  have e : prettyPrint showSexp 10 1 (.list [.str "f".toList, .str "a b".toList]) = "(f a b)".toList := by
    simp only [prettyPrint, prettyItems, showSexp, showItems, showAtom]
    decide
  have e2 : "(f a b)".toList = showSexp (.list [.str "f".toList, .str "a".toList, .str "b".toList]) := by
    simp only [showSexp, showItems, showAtom]
    decide
  rw [e, e2]
  apply c41_roundtrip
  simp only [Sexp.AllAtoms, AllItems, AtomOK, NeedsQuotes]
  refine ⟨by simp, ⟨?_, ?_⟩, ⟨?_, ?_⟩, ⟨?_, ?_⟩, trivial⟩ <;> decide

end Egg
