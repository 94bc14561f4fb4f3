import Verif.Spec.SexpText
import Verif.Lemmas.Basic
/- Lemmas on the s-expression parser. -/
namespace Egg

theorem isDelim_iff (c : Char) : isDelim c = true ↔ isWs c = true ∨ c = '(' ∨ c = ')' := by
  unfold isDelim
  simp [or_assoc]

theorem isDelim_false (c : Char) : isDelim c = false ↔ isWs c = false ∧ c ≠ '(' ∧ c ≠ ')' := by
  unfold isDelim
  simp [and_assoc]

theorem ws_nil : Ws [] := fun _ h => (List.not_mem_nil h).elim

theorem Ws.append {a b : List Char} (ha : Ws a) (hb : Ws b) : Ws (a ++ b) := fun c hc => by
  rcases List.mem_append.1 hc with h | h
  · exact ha c h
  · exact hb c h

theorem dropWhile_split {p : Char → Bool} (s : List Char) :
    ∃ w, s = w ++ s.dropWhile p ∧ (∀ c ∈ w, p c = true) ∧ ∀ c, (s.dropWhile p).head? = some c → p c = false := by
  induction s with
  | nil => exact ⟨[], rfl, by simp, by simp⟩
  | cons a s ih =>
    rw [List.dropWhile_cons]
    by_cases h : p a
    · rw [if_pos h]
      obtain ⟨w, e, hw, hh⟩ := ih
      refine ⟨a :: w, by rw [List.cons_append, ← e], ?_, hh⟩
      intro c hc
      rcases List.mem_cons.1 hc with rfl | hc
      · exact h
      · exact hw c hc
    · rw [if_neg h]
      refine ⟨[], rfl, by simp, ?_⟩
      intro c hc
      rw [List.head?_cons] at hc
      cases hc
      simpa using h

theorem dropWhile_append_of {p : Char → Bool} {w x : List Char} (hw : ∀ c ∈ w, p c = true)
    (hx : ∀ c, x.head? = some c → p c = false) : (w ++ x).dropWhile p = x := by
  induction w with
  | nil =>
    rw [List.nil_append]
    cases x with
    | nil => rfl
    | cons a x =>
      rw [List.dropWhile_cons, if_neg (by rw [hx a rfl]; decide)]
  | cons a w ih =>
    rw [List.cons_append, List.dropWhile_cons, if_pos (hw a (List.mem_cons_self ..))]
    exact ih (fun c hc => hw c (List.mem_cons_of_mem _ hc))

theorem takeWhile_append_of {p : Char → Bool} {w x : List Char} (hw : ∀ c ∈ w, p c = true)
    (hx : ∀ c, x.head? = some c → p c = false) : (w ++ x).takeWhile p = w := by
  induction w with
  | nil =>
    rw [List.nil_append]
    cases x with
    | nil => rfl
    | cons a x =>
      rw [List.takeWhile_cons, if_neg (by rw [hx a rfl]; decide)]
  | cons a w ih =>
    rw [List.cons_append, List.takeWhile_cons, if_pos (hw a (List.mem_cons_self ..)), ih (fun c hc => hw c (List.mem_cons_of_mem _ hc))]

theorem trimStart_split (s : List Char) :
    ∃ w, Ws w ∧ s = w ++ trimStart s ∧ ∀ c, (trimStart s).head? = some c → isWs c = false := by
  obtain ⟨w, e, hw, hh⟩ := dropWhile_split (p := isWs) s
  exact ⟨w, hw, e, hh⟩

theorem trimStart_append {w x : List Char} (hw : Ws w) (hx : ∀ c, x.head? = some c → isWs c = false) :
    trimStart (w ++ x) = x := dropWhile_append_of hw hx

theorem trim_split (s : List Char) : ∃ w w', Ws w ∧ Ws w' ∧ s = w ++ (trim s ++ w') ∧
    (∀ c, (trim s).head? = some c → isWs c = false) ∧ (∀ c, (trim s).getLast? = some c → isWs c = false) := by
  obtain ⟨w, hw, e, hh⟩ := trimStart_split s
  obtain ⟨w', e', hw', hh'⟩ := dropWhile_split (p := isWs) (trimStart s).reverse
  have e2 : trimStart s = trim s ++ w'.reverse := by
    have := congrArg List.reverse e'
    rw [List.reverse_reverse, List.reverse_append] at this
    exact this
  refine ⟨w, w'.reverse, hw, fun c hc => hw' c (List.mem_reverse.1 hc), by rw [← e2]; exact e, ?_, ?_⟩
  · intro c hc
    apply hh
    rw [e2]
    cases ht : trim s with
    | nil => rw [ht] at hc; cases hc
    | cons a t => rw [ht] at hc; exact hc
  · intro c hc
    apply hh'
    unfold trim trimEnd at hc
    rw [List.getLast?_reverse] at hc
    exact hc

/-- Trimming a text that neither starts nor ends with white space, surrounded by it. -/
theorem trim_eq {w t w' : List Char} (hw : Ws w) (hw' : Ws w') (h1 : ∀ c, t.head? = some c → isWs c = false)
    (h2 : ∀ c, t.getLast? = some c → isWs c = false) : trim (w ++ (t ++ w')) = t := by
  by_cases ht : t = []
  · subst ht
    rw [List.nil_append]
    have : trimStart (w ++ w') = [] := by
      have := trimStart_append (x := []) (hw.append hw') (by simp)
      rwa [List.append_nil] at this
    unfold trim
    rw [this]; rfl
  · have e1 : trimStart (w ++ (t ++ w')) = t ++ w' := by
      apply trimStart_append hw
      intro c hc
      cases t with
      | nil => exact absurd rfl ht
      | cons a t => exact h1 c hc
    unfold trim trimEnd
    rw [e1, List.reverse_append, dropWhile_append_of (p := isWs) (fun c hc => hw' c (List.mem_reverse.1 hc)), List.reverse_reverse]
    intro c hc
    rw [List.head?_reverse] at hc
    exact h2 c hc

theorem trim_isEmpty_iff (s : List Char) : (trim s).isEmpty = true ↔ Ws s := by
  constructor
  · intro h
    obtain ⟨w, w', hw, hw', e, _, _⟩ := trim_split s
    rw [List.isEmpty_iff.1 h, List.nil_append] at e
    rw [e]; exact hw.append hw'
  · intro h
    have := trim_eq (t := []) h ws_nil (by simp) (by simp)
    rw [List.append_nil, List.append_nil] at this
    rw [this]; rfl

theorem RawAtom.delim {a : List Char} (h : RawAtom a) : ∀ c ∈ a, (!isDelim c) = true := by
  intro c hc
  rw [(isDelim_false c).2 (h.2.1 c hc)]; rfl

theorem RawAtom.cons {a : List Char} (h : RawAtom a) : ∃ c cs, a = c :: cs ∧ isWs c = false ∧ c ≠ '(' ∧ c ≠ ')' ∧ c ≠ '"' := by
  cases a with
  | nil => exact absurd rfl h.1
  | cons c cs =>
    obtain ⟨a1, a2, a3⟩ := h.2.1 c (List.mem_cons_self ..)
    exact ⟨c, cs, rfl, a1, a2, a3, fun e => h.2.2 (by rw [e]; rfl)⟩

theorem not_ws_paren : isWs '(' = false ∧ isWs ')' = false ∧ isWs '"' = false := by decide

theorem Tok.head {t : List Char} {s : Sexp} (h : Tok t s) : ∃ c cs, t = c :: cs ∧ isWs c = false ∧ c ≠ ')' := by
  cases h with
  | raw h => obtain ⟨c, cs, e, a, _, b, _⟩ := h.cons; exact ⟨c, cs, e, a, b⟩
  | quoted _ => exact ⟨_, _, rfl, by decide, by decide⟩
  | empty _ => exact ⟨_, _, rfl, by decide, by decide⟩
  | list _ _ => exact ⟨_, _, rfl, by decide, by decide⟩

theorem Tok.last {t : List Char} {s : Sexp} (h : Tok t s) : ∀ c, t.getLast? = some c → isWs c = false := by
  intro c hc
  cases h with
  | raw h => exact (h.2.1 c (List.mem_of_getLast? hc)).1
  | quoted _ => rw [← List.cons_append, List.getLast?_concat] at hc; cases hc; decide
  | empty _ => rw [← List.cons_append, List.getLast?_concat] at hc; cases hc; decide
  | list _ _ => rw [← List.cons_append, List.getLast?_concat] at hc; cases hc; decide

theorem EndsAtom.delim {rest : List Char} (h : EndsAtom rest) : ∀ c, rest.head? = some c → (!isDelim c) = false := by
  intro c hc
  rw [(isDelim_iff c).2 (h c hc)]; rfl

/-- What the loop over the items returns. -/
def mkList (items : List Sexp) : Sexp := if items.isEmpty then .empty else .list items

theorem parseItems_cons (k : Nat) (acc : List Sexp) {input : List Char} {c : Char} {rest : List Char}
    (h : trimStart input = c :: rest) : parseItems (k + 1) acc input =
      if c = ')' then .ok (mkList acc, rest)
      else
        match parseOne k (c :: rest) with
        | .error e => .error e
        | .ok (item, rest) => parseItems k (acc ++ [item]) rest := by
  rw [parseItems, h]
  rfl

theorem parseOne_cons (k : Nat) {input : List Char} {c : Char} {rest : List Char}
    (h : trimStart input = c :: rest) : parseOne (k + 1) input =
      if c = '(' then parseItems k [] rest
      else if c = '"' then
        match rest.dropWhile (· != '"') with
        | [] => .error .unclosedString
        | _ :: rest' => .ok (.str (rest.takeWhile (· != '"')), rest')
      else .ok (.str ((c :: rest).takeWhile (fun c => !isDelim c)), (c :: rest).dropWhile (fun c => !isDelim c)) := by
  rw [parseOne, h]
  rfl

mutual
/-- The parser accepts every text of the grammar. -/
theorem Tok.parse {t : List Char} {s : Sexp} : Tok t s → ∀ (k : Nat) (rest : List Char),
    (RawAtom t → EndsAtom rest) → t.length ≤ k → parseOne k (t ++ rest) = .ok (s, rest)
  | .raw (a := a) h, k, rest, hr, hk => by
    obtain ⟨c, cs, e, hc, h1, h2, h3⟩ := h.cons
    cases k with
    | zero => rw [e] at hk; simp at hk
    | succ k =>
      have ht : trimStart (a ++ rest) = c :: (cs ++ rest) := by
        have := trimStart_append (w := []) (x := a ++ rest) ws_nil (by rw [e]; intro d hd; cases hd; exact hc)
        rw [List.nil_append] at this
        rw [this, e]; rfl
      rw [parseOne_cons k ht, if_neg h1, if_neg h3]
      have e2 : c :: (cs ++ rest) = a ++ rest := by rw [e]; rfl
      rw [e2, takeWhile_append_of h.delim (hr h).delim, dropWhile_append_of h.delim (hr h).delim]
  | .quoted (a := a) h, k, rest, _, hk => by
    cases k with
    | zero => simp at hk
    | succ k =>
      have ht : trimStart ('"' :: (a ++ ['"']) ++ rest) = '"' :: (a ++ '"' :: rest) := by
        have := trimStart_append (w := []) (x := '"' :: (a ++ ['"']) ++ rest) ws_nil (by intro d hd; cases hd; decide)
        rw [List.nil_append] at this
        rw [this]; simp
      have ha : ∀ c ∈ a, (c != '"') = true := by
        intro c hc
        simp only [bne_iff_ne, ne_eq]
        rintro rfl
        exact h hc
      have hx : ∀ c, ('"' :: rest).head? = some c → (c != '"') = false := by
        intro c hc; cases hc; rfl
      rw [parseOne_cons k ht, if_neg (by decide), if_pos rfl, dropWhile_append_of ha hx, takeWhile_append_of ha hx]
  | .empty (w := w) h, k, rest, _, hk => by
    match k, hk with
    | 0, hk => simp at hk
    | 1, hk => simp at hk
    | k + 2, _ =>
      have ht : trimStart ('(' :: (w ++ [')']) ++ rest) = '(' :: (w ++ ')' :: rest) := by
        have := trimStart_append (w := []) (x := '(' :: (w ++ [')']) ++ rest) ws_nil (by intro d hd; cases hd; decide)
        rw [List.nil_append] at this
        rw [this]; simp
      have ht2 : trimStart (w ++ ')' :: rest) = ')' :: rest := trimStart_append h (by intro d hd; cases hd; decide)
      rw [parseOne_cons _ ht, if_pos rfl, parseItems_cons _ _ ht2, if_pos rfl]
      rfl
  | .list (t := t) (items := items) h hne, k, rest, _, hk => by
    cases k with
    | zero => simp at hk
    | succ k =>
      have ht : trimStart ('(' :: (t ++ [')']) ++ rest) = '(' :: (t ++ ')' :: rest) := by
        have := trimStart_append (w := []) (x := '(' :: (t ++ [')']) ++ rest) ws_nil (by intro d hd; cases hd; decide)
        rw [List.nil_append] at this
        rw [this]; simp
      rw [parseOne_cons _ ht, if_pos rfl]
      rw [Items.parse h k [] rest (by simp at hk; omega), List.nil_append]
      unfold mkList
      rw [if_neg (by simpa using hne)]

theorem Items.parse {t : List Char} {ss : List Sexp} : Items t ss → ∀ (k : Nat) (acc : List Sexp) (rest : List Char),
    t.length + 1 ≤ k → parseItems k acc (t ++ ')' :: rest) = .ok (mkList (acc ++ ss), rest)
  | .nil (w := w) h, k, acc, rest, hk => by
    cases k with
    | zero => omega
    | succ k =>
      have ht : trimStart (w ++ ')' :: rest) = ')' :: rest := trimStart_append h (by intro d hd; cases hd; decide)
      rw [parseItems_cons _ _ ht, if_pos rfl, List.append_nil]
  | .cons (w := w) (t := t) (rest := r) (s := s) (ss := ss) hw ht hr hi, k, acc, rest, hk => by
    cases k with
    | zero => omega
    | succ k =>
      obtain ⟨c, cs, e, hc, h2⟩ := ht.head
      have hlen : t.length = cs.length + 1 := by rw [e]; rfl
      simp only [List.length_append] at hk
      have htr : trimStart (w ++ (t ++ r) ++ ')' :: rest) = c :: (cs ++ (r ++ ')' :: rest)) := by
        rw [List.append_assoc, List.append_assoc]
        rw [trimStart_append hw (by rw [e]; intro d hd; cases hd; exact hc), e]
        rfl
      rw [parseItems_cons _ _ htr, if_neg h2]
      have e2 : c :: (cs ++ (r ++ ')' :: rest)) = t ++ (r ++ ')' :: rest) := by rw [e]; rfl
      rw [e2, Tok.parse ht k (r ++ ')' :: rest) ?_ (by omega)]
      · simp only []
        rw [Items.parse hi k (acc ++ [s]) rest (by omega), List.append_assoc]
        rfl
      · intro h c hc
        cases r with
        | nil => cases hc; exact Or.inr (Or.inr rfl)
        | cons a r => exact hr h c hc
end

theorem takeWhile_raw {c : Char} {rest : List Char} (hc : isWs c = false) (h1 : c ≠ '(') (h2 : c ≠ ')') (h3 : c ≠ '"') :
    RawAtom ((c :: rest).takeWhile (fun c => !isDelim c)) := by
  have hd : (!isDelim c) = true := by rw [(isDelim_false c).2 ⟨hc, h1, h2⟩]; rfl
  refine ⟨?_, ?_, ?_⟩
  · rw [List.takeWhile_cons, if_pos hd]; simp
  · intro d hm
    have : (!isDelim d) = true := List.all_eq_true.1 List.all_takeWhile d hm
    exact (isDelim_false d).1 (by simpa using this)
  · rw [List.takeWhile_cons, if_pos hd, List.head?_cons]
    intro e; cases e; exact h3 rfl

/-- Soundness of one step of the parser: what it returns is denoted by the text it consumed.
The exception is a text starting with a closing parenthesis. -/
theorem parse_sound (k : Nat) :
    (∀ input s rest, parseOne k input = .ok (s, rest) → ∃ w t, Ws w ∧ input = w ++ (t ++ rest) ∧
      ((Tok t s ∧ (RawAtom t → EndsAtom rest)) ∨ (t = [] ∧ rest.head? = some ')'))) ∧
    (∀ acc input s rest, parseItems k acc input = .ok (s, rest) → ∃ t ss, Items t ss ∧ input = t ++ ')' :: rest ∧
      s = mkList (acc ++ ss)) := by
  induction k with
  | zero =>
    refine ⟨?_, ?_⟩
    · intro input s rest h; rw [parseOne] at h; cases h
    · intro acc input s rest h; rw [parseItems] at h; cases h
  | succ k ih =>
    obtain ⟨ih1, ih2⟩ := ih
    refine ⟨?_, ?_⟩
    · intro input s rest h
      obtain ⟨w, hw, e, hh⟩ := trimStart_split input
      match ht : trimStart input with
      | [] => rw [parseOne, ht] at h; cases h
      | c :: cs =>
        rw [ht] at e hh
        have hc := hh c rfl
        rw [parseOne_cons k ht] at h
        split at h
        · rename_i hp
          subst hp
          obtain ⟨t, ss, hi, e2, hs⟩ := ih2 _ _ _ _ h
          rw [List.nil_append] at hs
          refine ⟨w, '(' :: (t ++ [')']), hw, ?_, Or.inl ⟨?_, ?_⟩⟩
          · rw [e, e2]; simp
          · rw [hs]
            unfold mkList
            cases ss with
            | nil =>
              cases hi with
              | nil hw2 => exact .empty hw2
            | cons x xs => exact .list hi (by simp)
          · intro hr
            exact absurd rfl (hr.2.1 '(' (List.mem_cons_self ..)).2.1
        · rename_i hp
          split at h
          · rename_i hq
            subst hq
            obtain ⟨a, e2, ha, hh2⟩ := dropWhile_split (p := fun x => x != '"') cs
            have htw : cs.takeWhile (fun x => x != '"') = a := by
              conv => lhs; rw [e2]
              exact takeWhile_append_of ha hh2
            match hd : cs.dropWhile (fun x => x != '"') with
            | [] => rw [hd] at h; cases h
            | q :: rest' =>
              rw [hd] at h e2 hh2
              rw [htw] at h
              injection h with h
              injection h with hs hr
              subst hs
              subst hr
              have hq : q = '"' := by simpa using hh2 q rfl
              subst hq
              refine ⟨w, '"' :: (a ++ ['"']), hw, by rw [e, e2]; simp, Or.inl ⟨.quoted ?_, ?_⟩⟩
              · intro hm
                have := ha _ hm
                simp at this
              · intro hr
                exact absurd rfl hr.2.2
          · rename_i hq
            injection h with h
            injection h with hs hr
            refine ⟨w, (c :: cs).takeWhile (fun c => !isDelim c), hw, ?_, ?_⟩
            · rw [← hr, List.takeWhile_append_dropWhile]; exact e
            · by_cases hp2 : c = ')'
              · refine Or.inr ⟨?_, ?_⟩
                · rw [hp2, List.takeWhile_cons, if_neg (by decide)]
                · rw [← hr, hp2, List.dropWhile_cons, if_neg (by decide)]; rfl
              · refine Or.inl ⟨?_, ?_⟩
                · rw [← hs]
                  exact .raw (takeWhile_raw hc hp hp2 hq)
                · intro _ d hd
                  rw [← hr] at hd
                  obtain ⟨_, _, _, hh3⟩ := dropWhile_split (p := fun c => !isDelim c) (c :: cs)
                  have := hh3 d hd
                  exact (isDelim_iff d).1 (by simpa using this)
    · intro acc input s rest h
      obtain ⟨w, hw, e, hh⟩ := trimStart_split input
      match ht : trimStart input with
      | [] => rw [parseItems, ht] at h; cases h
      | c :: cs =>
        rw [ht] at e hh
        have hc := hh c rfl
        rw [parseItems_cons k acc ht] at h
        split at h
        · rename_i hp
          subst hp
          injection h with h
          injection h with hs hr
          subst hr
          exact ⟨w, [], .nil hw, e, by rw [List.append_nil]; exact hs.symm⟩
        · rename_i hp
          match ho : parseOne k (c :: cs) with
          | .error er => rw [ho] at h; cases h
          | .ok (item, rest1) =>
            rw [ho] at h
            simp only [] at h
            obtain ⟨t2, ss, hi, e2, hs⟩ := ih2 _ _ _ _ h
            obtain ⟨w1, t, hw1, e1, hor⟩ := ih1 _ _ _ ho
            have hw1n : w1 = [] := by
              cases w1 with
              | nil => rfl
              | cons x xs =>
                injection e1 with ex _
                have := hw1 x (List.mem_cons_self ..)
                rw [← ex, hc] at this
                cases this
            subst hw1n
            rw [List.nil_append] at e1
            rcases hor with ⟨htok, hr⟩ | ⟨htn, hhd⟩
            · refine ⟨w ++ (t ++ t2), item :: ss, .cons hw htok ?_ hi, ?_, ?_⟩
              · intro hraw d hd
                apply hr hraw d
                rw [e2]
                cases t2 with
                | nil => cases hd
                | cons a b => exact hd
              · rw [e, e1, e2]; simp
              · rw [hs]; simp
            · subst htn
              rw [List.nil_append] at e1
              rw [← e1] at hhd
              cases hhd
              exact absurd rfl hp

/-- The recursion bound is large enough. -/
theorem parse_fuel (k : Nat) :
    (∀ input, 2 * input.length + 1 ≤ k → parseOne k input ≠ .error .fuel) ∧
    (∀ acc input, 2 * input.length + 2 ≤ k → parseItems k acc input ≠ .error .fuel) := by
  induction k with
  | zero => exact ⟨fun _ h => by omega, fun _ _ h => by omega⟩
  | succ k ih =>
    obtain ⟨ih1, ih2⟩ := ih
    have hlen : ∀ input : List Char, (trimStart input).length ≤ input.length := by
      intro input
      obtain ⟨w, _, e, _⟩ := trimStart_split input
      have := congrArg List.length e
      rw [List.length_append] at this
      omega
    refine ⟨?_, ?_⟩
    · intro input hk
      match ht : trimStart input with
      | [] => rw [parseOne, ht]; intro h; cases h
      | c :: cs =>
        have := hlen input
        rw [ht, List.length_cons] at this
        rw [parseOne_cons k ht]
        split
        · exact ih2 _ _ (by omega)
        · split
          · split <;> intro h <;> cases h
          · intro h; cases h
    · intro acc input hk
      match ht : trimStart input with
      | [] => rw [parseItems, ht]; intro h; cases h
      | c :: cs =>
        have hl := hlen input
        rw [ht, List.length_cons] at hl
        obtain ⟨w, _, _, hh⟩ := trimStart_split input
        rw [ht] at hh
        have hc := hh c rfl
        rw [parseItems_cons k acc ht]
        split
        · intro h; cases h
        · rename_i hp
          have h1 := ih1 (c :: cs) (by rw [List.length_cons]; omega)
          match ho : parseOne k (c :: cs) with
          | .error er =>
            simp only []
            intro h
            injection h with h
            rw [ho, h] at h1
            exact h1 rfl
          | .ok (item, rest) =>
            simp only []
            obtain ⟨w1, t, _, e1, hor⟩ := (parse_sound k).1 _ _ _ ho
            have hl1 := congrArg List.length e1
            rw [List.length_cons, List.length_append, List.length_append] at hl1
            have : w1 ++ t ≠ [] := by
              intro e
              obtain ⟨ew, et⟩ := List.append_eq_nil_iff.1 e
              subst ew
              subst et
              rcases hor with ⟨h, _⟩ | ⟨_, h⟩
              · obtain ⟨_, _, e, _⟩ := h.head; cases e
              · rw [List.nil_append, List.nil_append] at e1
                rw [← e1] at h
                cases h
                exact hp rfl
            have := List.length_pos_iff.2 this
            rw [List.length_append] at this
            exact ih2 _ _ (by omega)

end Egg
