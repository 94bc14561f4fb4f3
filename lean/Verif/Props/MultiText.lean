import Verif.Model.MultiText
import Verif.Spec.MultiText
import Verif.Props.Convert
import Verif.Props.MultiPattern
/-
C63: reading multi-patterns from text.
-/
namespace Egg

/-! ### Splitting and trimming -/

theorem trimmed_iff (text core : List Char) : Trimmed text core ↔ trim text = core := by
  constructor
  · rintro ⟨w, w', hw, hw', rfl, h1, h2⟩
    exact trim_eq hw hw' h1 h2
  · rintro rfl
    obtain ⟨w, w', a, b, c, d, e⟩ := trim_split text
    exact ⟨w, w', a, b, c, d, e⟩

theorem trim_trim (s : List Char) : trim (trim s) = trim s := by
  obtain ⟨w, w', a, b, c, d, e⟩ := trim_split s
  have := trim_eq (w := []) (w' := []) ws_nil ws_nil d e
  rwa [List.append_nil, List.nil_append] at this

theorem splitOn_ne (sep : Char) (s : List Char) : splitOn sep s ≠ [] := by
  cases s with
  | nil => simp [splitOn]
  | cons c s =>
    unfold splitOn
    split
    · simp
    · split <;> simp

theorem splitOn_cons (sep c : Char) (s p : List Char) (ps : List (List Char)) (hc : ¬ c = sep) (h : splitOn sep s = p :: ps) :
    splitOn sep (c :: s) = (c :: p) :: ps := by
  rw [splitOn, if_neg hc, h]

theorem splitOn_one (sep : Char) (p : List Char) (hp : sep ∉ p) : splitOn sep p = [p] := by
  induction p with
  | nil => rfl
  | cons c p ih =>
    exact splitOn_cons sep c p p [] (fun h => hp (h ▸ List.mem_cons_self ..)) (ih (fun h => hp (List.mem_cons_of_mem _ h)))

theorem splitOn_plain (sep : Char) (p rest : List Char) (hp : sep ∉ p) :
    splitOn sep (p ++ sep :: rest) = p :: splitOn sep rest := by
  induction p with
  | nil => rw [List.nil_append, splitOn, if_pos rfl]
  | cons c p ih =>
    exact splitOn_cons sep c _ p _ (fun h => hp (h ▸ List.mem_cons_self ..)) (ih (fun h => hp (List.mem_cons_of_mem _ h)))

theorem pieces_iff (sep : Char) : ∀ (pieces : List (List Char)) (s : List Char), Pieces sep s pieces ↔ splitOn sep s = pieces := by
  have fwd : ∀ (pieces : List (List Char)) (s : List Char), Pieces sep s pieces → splitOn sep s = pieces := by
    intro pieces
    induction pieces with
    | nil => intro s h; cases h
    | cons p ps ih =>
      rintro s ⟨h1, rfl⟩
      cases ps with
      | nil =>
        have := splitOn_one sep p (h1 p (List.mem_cons_self ..))
        simpa using this
      | cons q ps =>
        have h2 := ih (q ++ ps.flatMap (fun q => sep :: q)) ⟨fun x hx => h1 x (List.mem_cons_of_mem _ hx), rfl⟩
        rw [List.flatMap_cons, List.cons_append, splitOn_plain sep p _ (h1 p (List.mem_cons_self ..)), h2]
  intro pieces s
  refine ⟨fwd pieces s, ?_⟩
  rintro rfl
  induction s with
  | nil => exact ⟨by simp, rfl⟩
  | cons c s ih =>
    unfold splitOn
    split
    · rename_i hc
      subst hc
      cases hs : splitOn c s with
      | nil => exact absurd hs (splitOn_ne c s)
      | cons p ps =>
        rw [hs] at ih
        refine ⟨?_, ?_⟩
        · intro q hq
          rcases List.mem_cons.1 hq with rfl | hq
          · simp
          · exact ih.1 q hq
        · rw [ih.2]; rfl
    · rename_i hc
      cases hs : splitOn sep s with
      | nil => exact absurd hs (splitOn_ne sep s)
      | cons p ps =>
        rw [hs] at ih
        refine ⟨?_, ?_⟩
        · intro q hq
          rcases List.mem_cons.1 hq with rfl | hq
          · intro h
            rcases List.mem_cons.1 h with h | h
            · exact hc h.symm
            · exact ih.1 p (List.mem_cons_self ..) h
          · exact ih.1 q (List.mem_cons_of_mem _ hq)
        · rw [ih.2]; rfl

section
variable {Op : Type} [DecidableEq Op]

theorem parseExpr_trim (T : OpText Op) (parse : List Char → Option Sexp) (s : List Char) :
    parseExpr T parse (trim s) = parseExpr T parse s := by
  unfold parseExpr
  rw [trim_trim]

theorem parsePats_iff (T : OpText Op) (parse : List Char → Option Sexp) (pts : List (List Char)) :
    ∀ ps, parsePats T parse pts = .ok ps ↔ List.Forall₂ (fun pt p => parseExpr T.pat parse pt = .ok p) pts ps := by
  induction pts with
  | nil =>
    intro ps
    constructor
    · intro h; cases h; exact .nil
    · intro h; cases h; rfl
  | cons pt pts ih =>
    intro ps
    unfold parsePats
    rw [parseExpr_trim]
    constructor
    · intro h
      split at h
      · cases h
      · rename_i a ha
        split at h
        · cases h
        · rename_i as has
          cases h
          exact .cons ha ((ih as).1 has)
    · intro h
      cases h with
      | cons h1 h2 => rw [h1, (ih _).2 h2]

theorem parseClause_iff (T : OpText Op) (parse : List Char → Option Sexp) (clause : List Char) (out : List (Var × PatternAst Op)) :
    parseClause T parse clause = .ok out ↔ ClauseText (fun pt p => parseExpr T.pat parse pt = .ok p) clause out := by
  unfold parseClause ClauseText
  constructor
  · intro h
    split at h
    · cases h
    · rename_i vt pts hsp
      split at h
      · cases h
      · rename_i v hv
        split at h
        · cases h
        · rename_i ps hps
          split at h
          · cases h
          · rename_i hne
            cases h
            have hf := (parsePats_iff T parse pts ps).1 hps
            refine ⟨vt, trim vt, v, pts, ps, (pieces_iff ..).2 hsp, (trimmed_iff ..).2 rfl, (c43_parse _ _).1 hv, ?_, hf, rfl⟩
            rintro rfl
            cases hf
            exact hne rfl
  · rintro ⟨vt, vc, v, pts, ps, h1, h2, h3, h4, h5, rfl⟩
    rw [(pieces_iff ..).1 h1]
    simp only []
    rw [(trimmed_iff ..).1 h2, (c43_parse _ _).2 h3]
    simp only []
    rw [(parsePats_iff T parse pts ps).2 h5]
    simp only []
    rw [if_neg]
    cases h5 with
    | nil => exact absurd rfl h4
    | cons _ _ => simp

theorem parseClauses_iff (T : OpText Op) (parse : List Char → Option Sexp) (pieces : List (List Char)) :
    ∀ out, parseClauses T parse pieces = .ok out ↔
      ∃ outs, List.Forall₂ (PieceText (fun pt p => parseExpr T.pat parse pt = .ok p)) pieces outs ∧ out = outs.flatten := by
  induction pieces with
  | nil =>
    intro out
    constructor
    · intro h; cases h; exact ⟨[], .nil, rfl⟩
    · rintro ⟨outs, h, rfl⟩; cases h; rfl
  | cons s ss ih =>
    intro out
    unfold parseClauses
    constructor
    · intro h
      split at h
      · rename_i hw
        obtain ⟨outs, h1, h2⟩ := (ih out).1 h
        exact ⟨[] :: outs, .cons (Or.inl ⟨(trim_isEmpty_iff s).1 hw, rfl⟩) h1, by simpa using h2⟩
      · rename_i hw
        split at h
        · cases h
        · rename_i as has
          split at h
          · cases h
          · rename_i rest hrest
            cases h
            obtain ⟨outs, h1, rfl⟩ := (ih rest).1 hrest
            exact ⟨as :: outs, .cons (Or.inr ⟨fun h => hw ((trim_isEmpty_iff s).2 h), trim s, (trimmed_iff ..).2 rfl,
              (parseClause_iff T parse _ _).1 has⟩) h1, rfl⟩
    · rintro ⟨outs, h, rfl⟩
      cases h with
      | cons h1 h2 =>
        rename_i o outs
        rcases h1 with ⟨hw, rfl⟩ | ⟨hw, clause, hc, h1⟩
        · rw [if_pos ((trim_isEmpty_iff s).2 hw), (ih _).2 ⟨outs, h2, rfl⟩]
          rfl
        · rw [if_neg (fun h => hw ((trim_isEmpty_iff s).1 h)), (trimmed_iff ..).1 hc, (parseClause_iff T parse _ _).2 h1]
          simp only []
          rw [(ih _).2 ⟨outs, h2, rfl⟩]
          rfl

/-- **C63.**  The parser accepts exactly the texts of multi-patterns, and gives the clauses in the order of the text. -/
theorem c63_parse (T : OpText Op) (parse : List Char → Option Sexp) (text : List Char) (out : List (Var × PatternAst Op)) :
    parseMulti T parse text = .ok out ↔ MultiText (fun pt p => parseExpr T.pat parse pt = .ok p) text out := by
  unfold parseMulti MultiText
  rw [parseClauses_iff]
  constructor
  · rintro ⟨outs, h1, rfl⟩
    exact ⟨trim text, _, outs, (trimmed_iff ..).2 rfl, (pieces_iff ..).2 rfl, h1, rfl⟩
  · rintro ⟨core, pieces, outs, h1, h2, h3, rfl⟩
    rw [(trimmed_iff ..).1 h1, (pieces_iff ..).1 h2]
    exact ⟨outs, h3, rfl⟩

/-- What is wrong with a clause (of a piece that is not blank), and the error reported for it: the variable is
examined first, then the patterns in order, then whether there is any. -/
inductive BadClause (T : OpText Op) (parse : List Char → Option Sexp) (clause : List Char) : MultiErr → Prop where
  | var {vt vc pts e} : Pieces '=' clause (vt :: pts) → Trimmed vt vc → (¬ ∃ v, VarText vc v) →
      (e = .badNumber ↔ ∃ ds, vc = '?' :: '#' :: ds) → BadClause T parse clause (.var e)
  | pattern {vt vc v pre ps pt post e} : Pieces '=' clause (vt :: (pre ++ pt :: post)) → Trimmed vt vc → VarText vc v →
      List.Forall₂ (fun pt p => parseExpr T.pat parse pt = .ok p) pre ps →
      parseExpr T.pat parse pt = .error e → BadClause T parse clause (.pattern e)
  | assignment {vc v} : '=' ∉ clause → Trimmed clause vc → VarText vc v → BadClause T parse clause (.assignment clause)

theorem parsePats_error (T : OpText Op) (parse : List Char → Option Sexp) (pts : List (List Char)) (e : MultiErr)
    (h : parsePats T parse pts = .error e) :
    ∃ pre ps pt post e', pts = pre ++ pt :: post ∧ List.Forall₂ (fun pt p => parseExpr T.pat parse pt = .ok p) pre ps ∧
      parseExpr T.pat parse pt = .error e' ∧ e = .pattern e' := by
  induction pts with
  | nil => cases h
  | cons pt pts ih =>
    unfold parsePats at h
    rw [parseExpr_trim] at h
    split at h
    · rename_i e' he
      cases h
      exact ⟨[], [], pt, pts, e', rfl, .nil, he, rfl⟩
    · rename_i a ha
      split at h
      · rename_i e' he
        cases h
        obtain ⟨pre, ps, pt', post, e1, h1, h2, h3, h4⟩ := ih he
        exact ⟨pt :: pre, a :: ps, pt', post, e1, by rw [h1]; rfl, .cons ha h2, h3, h4⟩
      · cases h

theorem parseClause_error (T : OpText Op) (parse : List Char → Option Sexp) (clause : List Char) (e : MultiErr)
    (h : parseClause T parse clause = .error e) : BadClause T parse clause e := by
  unfold parseClause at h
  split at h
  · rename_i hsp; exact absurd hsp (splitOn_ne _ _)
  · rename_i vt pts hsp
    have hp := (pieces_iff ..).2 hsp
    split at h
    · rename_i e' he
      cases h
      have := c43_error _ _ he
      exact .var hp ((trimmed_iff ..).2 rfl) this.1 this.2
    · rename_i v hv
      have hv' := (c43_parse _ _).1 hv
      split at h
      · rename_i e' he
        cases h
        obtain ⟨pre, ps, pt, post, e1, rfl, h2, h3, rfl⟩ := parsePats_error T parse pts _ he
        exact .pattern hp ((trimmed_iff ..).2 rfl) hv' h2 h3
      · rename_i ps hps
        split at h
        · rename_i hne
          cases h
          have hf := (parsePats_iff T parse pts ps).1 hps
          rw [List.isEmpty_iff.1 hne] at hf
          cases hf
          have e1 : clause = vt := by simpa using hp.2
          subst e1
          exact .assignment (hp.1 _ (List.mem_cons_self ..)) ((trimmed_iff ..).2 rfl) hv'
        · cases h

/-- **C63.**  If the parser reports an error, the error describes the first clause that is not of the form
`?v = p = …`. -/
theorem c63_error (T : OpText Op) (parse : List Char → Option Sexp) (text : List Char) (e : MultiErr)
    (h : parseMulti T parse text = .error e) :
    ∃ core pre outs piece clause post, Trimmed text core ∧ Pieces ',' core (pre ++ piece :: post) ∧
      List.Forall₂ (PieceText (fun pt p => parseExpr T.pat parse pt = .ok p)) pre outs ∧
      ¬ Ws piece ∧ Trimmed piece clause ∧ BadClause T parse clause e := by
  unfold parseMulti at h
  have key : ∀ pieces, parseClauses T parse pieces = .error e → ∃ pre outs piece post, pieces = pre ++ piece :: post ∧
      List.Forall₂ (PieceText (fun pt p => parseExpr T.pat parse pt = .ok p)) pre outs ∧
      ¬ Ws piece ∧ BadClause T parse (trim piece) e := by
    intro pieces
    induction pieces with
    | nil => intro h; cases h
    | cons s ss ih =>
      intro h
      unfold parseClauses at h
      split at h
      · rename_i hw
        obtain ⟨pre, outs, piece, post, h1, h2, h3, h4⟩ := ih h
        exact ⟨s :: pre, [] :: outs, piece, post, by rw [h1]; rfl, .cons (Or.inl ⟨(trim_isEmpty_iff s).1 hw, rfl⟩) h2, h3, h4⟩
      · rename_i hw
        have hw' : ¬ Ws s := fun h => hw ((trim_isEmpty_iff s).2 h)
        split at h
        · rename_i e' he
          cases h
          exact ⟨[], [], s, ss, rfl, .nil, hw', parseClause_error T parse _ _ he⟩
        · rename_i as has
          split at h
          · rename_i e' he
            cases h
            obtain ⟨pre, outs, piece, post, h1, h2, h3, h4⟩ := ih he
            exact ⟨s :: pre, as :: outs, piece, post, by rw [h1]; rfl,
              .cons (Or.inr ⟨hw', trim s, (trimmed_iff ..).2 rfl, (parseClause_iff T parse _ _).1 has⟩) h2, h3, h4⟩
          · cases h
  obtain ⟨pre, outs, piece, post, h1, h2, h3, h4⟩ := key _ h
  exact ⟨trim text, pre, outs, piece, trim piece, post, (trimmed_iff ..).2 rfl, (pieces_iff ..).2 h1, h2, h3,
    (trimmed_iff ..).2 rfl, h4⟩

/-! ### The patterns that are read -/

theorem parse_patWF (T : OpText Op) (hT : T.Uniform) (parse : List Char → Option Sexp) (text : List Char) (ast : PatternAst Op)
    (h1 : parseExpr T.pat parse text = .ok ast) : PatWF ast ∧ ∃ t, ExprTerm ast t := by
  obtain ⟨hd, t, ht⟩ := c40_parse_wellformed T.pat (fun s ids n h => by rw [hT.pat.children h]) parse text ast h1
  refine ⟨⟨⟨ht.1, hd⟩, ?_⟩, t, ht⟩
  have hp : ∃ s i, parseInto T.pat s [] = .ok (ast, i) := by
    have h := h1
    unfold parseExpr at h
    split at h
    · cases h
    · rename_i s _
      split at h
      · cases h
      · rename_i e i hp
        cases h
        exact ⟨s, i, hp⟩
  obtain ⟨s, i, hp⟩ := hp
  intro n hn v hv
  rcases parseInto_nodes T.pat s [] ast _ hp n hn with h | ⟨x, ids, h⟩
  · cases h
  · unfold OpText.pat at h
    simp only [] at h
    split at h
    · split at h
      · split at h
        · cases h; rfl
        · cases h
      · cases h
    · obtain ⟨m, _, rfl⟩ := Option.map_eq_some_iff.1 h
      cases hv

theorem forall₂_image {α β γ : Type} {Q : α → β → Prop} {Q' : α → γ → Prop} {S : γ → β → Prop}
    (hq : ∀ a b, Q a b → ∃ c, Q' a c ∧ S c b) {as : List α} {bs : List β} (h : List.Forall₂ Q as bs) :
    ∃ cs, List.Forall₂ Q' as cs ∧ List.Forall₂ S cs bs := by
  induction h with
  | nil => exact ⟨[], .nil, .nil⟩
  | cons h1 _ ih =>
    obtain ⟨c, k1, k2⟩ := hq _ _ h1
    obtain ⟨cs, k3, k4⟩ := ih
    exact ⟨c :: cs, .cons k1 k3, .cons k2 k4⟩

theorem forall₂_flatten {α β : Type} {S : α → β → Prop} {as : List (List α)} {bs : List (List β)}
    (h : List.Forall₂ (List.Forall₂ S) as bs) : List.Forall₂ S as.flatten bs.flatten := by
  induction h with
  | nil => exact .nil
  | cons h1 _ ih => rw [List.flatten_cons, List.flatten_cons]; exact List.rel_append h1 ih

theorem forall₂_pair {α β : Type} {S : α → β → Prop} (v : Var) {as : List α} {bs : List β} (h : List.Forall₂ S as bs) :
    List.Forall₂ (fun a b => a.1 = b.1 ∧ S a.2 b.2) (as.map (fun p => (v, p))) (bs.map (fun p => (v, p))) := by
  induction h with
  | nil => exact .nil
  | cons h1 _ ih => exact .cons ⟨rfl, h1⟩ ih

/-- Replacing what a pattern text denotes. -/
theorem MultiText.image {α β : Type} {Q : List Char → α → Prop} {Q' : List Char → β → Prop} {S : β → α → Prop}
    (hq : ∀ a b, Q a b → ∃ c, Q' a c ∧ S c b) {text : List Char} {out : List (Var × α)} (h : MultiText Q text out) :
    ∃ out', MultiText Q' text out' ∧ List.Forall₂ (fun a b => a.1 = b.1 ∧ S a.2 b.2) out' out := by
  obtain ⟨core, pieces, outs, h1, h2, h3, rfl⟩ := h
  obtain ⟨outs', k1, k2⟩ := forall₂_image (Q' := PieceText Q') (S := List.Forall₂ (fun a b => a.1 = b.1 ∧ S a.2 b.2)) (by
    intro piece o ho
    rcases ho with ⟨hw, rfl⟩ | ⟨hw, clause, hc, vt, vc, v, pts, ps, a1, a2, a3, a4, a5, rfl⟩
    · exact ⟨[], Or.inl ⟨hw, rfl⟩, .nil⟩
    · obtain ⟨cs, b1, b2⟩ := forall₂_image hq a5
      exact ⟨_, Or.inr ⟨hw, clause, hc, vt, vc, v, pts, cs, a1, a2, a3, a4, b1, rfl⟩, forall₂_pair v b2⟩) h3
  exact ⟨_, ⟨core, pieces, outs', h1, h2, k1, rfl⟩, forall₂_flatten k2⟩

/-- The text of a single pattern denotes the term `t`: it is an s-expression that reads as `t` (see C40, C41). -/
def PatText (T : OpText Op) (parse : List Char → Option Sexp) (text : List Char) (t : Term (PatOp Op)) : Prop :=
  ∃ s, parse (trim text) = some s ∧ ReadsAs T.pat s t

/-- **C63.**  Which patterns a text denotes: the clauses that the parser hands to `MultiPattern::new` are well formed and
denote exactly the terms in the text. -/
theorem c63_denotes (T : OpText Op) (hT : T.Uniform) (parse : List Char → Option Sexp) (text : List Char)
    (ps : List (Var × Term (PatOp Op))) :
    MultiText (PatText T parse) text ps ↔
      ∃ asts, parseMulti T parse text = .ok asts ∧ List.Forall₂ (fun a b => a.1 = b.1 ∧ PatWF a.2 ∧ ExprTerm a.2 b.2) asts ps := by
  constructor
  · intro h
    obtain ⟨asts, h1, h2⟩ := h.image (Q' := fun pt p => parseExpr T.pat parse pt = .ok p)
      (S := fun a b => PatWF a ∧ ExprTerm a b) (by
        intro pt t ht
        obtain ⟨ast, k1, k2⟩ := (c40_parse_iff T.pat hT.pat parse pt t).1 ht
        exact ⟨ast, k1, (parse_patWF T hT parse pt ast k1).1, k2⟩)
    exact ⟨asts, (c63_parse ..).2 h1, h2⟩
  · rintro ⟨asts, h1, h2⟩
    obtain ⟨ps', k1, k2⟩ := ((c63_parse ..).1 h1).image (Q' := PatText T parse) (S := fun t a => ExprTerm a t) (by
        intro pt ast ha
        obtain ⟨_, t, ht⟩ := parse_patWF T hT parse pt ast ha
        exact ⟨t, (c40_parse_iff T.pat hT.pat parse pt t).2 ⟨ast, ha, ht⟩, ht⟩)
    have : ps' = ps := by
      clear h1 k1
      induction h2 generalizing ps' with
      | nil => cases k2; rfl
      | @cons a b as bs g1 _ ih =>
        cases k2 with
        | cons g2 g3 =>
          rename_i p ps'
          rw [ih _ g3]
          obtain ⟨p1, p2⟩ := p
          obtain ⟨b1, b2⟩ := b
          have e1 : p1 = b1 := g2.1.trans g1.1
          have e2 : p2 = b2 := TermOf.unique g2.2.2 g1.2.2.2
          rw [e1, e2]
    exact this ▸ k1

/-- **C63.**  A text that denotes a multi-pattern whose first pattern is not a variable is read as that
multi-pattern; searching it finds the matches of the patterns in the text (C22). -/
theorem c63_from_text [Lang Op] {ordc : Compiler Op → List (Id × Nat)} (hoc : OrdOK ordc) (T : OpText Op) (hT : T.Uniform)
    (parse : List Char → Option Sexp) (text : List Char) (ps : List (Var × Term (PatOp Op)))
    (h : MultiText (PatText T parse) text ps) (hf : FirstIsNode ps) :
    ∃ asts p f0, parseMulti T parse text = .ok asts ∧ (∀ fuel, f0 ≤ fuel → MultiPattern.new ordc fuel asts = .ok p) ∧
      IsMultiPattern p ps := by
  obtain ⟨asts, h1, h2⟩ := (c63_denotes T hT parse text ps).1 h
  obtain ⟨p, f0, k1, _, k2⟩ := c22_new_succeeds hoc h2 hf
  exact ⟨asts, p, f0, h1, k1, k2⟩

/-! ### Writing a multi-pattern -/

/-- A clause `?v = p` and the text of a list of clauses, as a user would write it. -/
def writeClause (T : OpText Op) (c : Var × Term (PatOp Op)) : List Char :=
  showVar c.1 ++ (" = ".toList ++ showSexp (termSexp T.pat c.2))

def writeMulti (T : OpText Op) : List (Var × Term (PatOp Op)) → List Char
  | [] => []
  | c :: cs => writeClause T c ++ cs.flatMap (fun d => ", ".toList ++ writeClause T d)

/-- What can be written: the variable can be read, its name has no white space, and neither `,` nor `=` occurs. -/
def Writable (T : OpText Op) (c : Var × Term (PatOp Op)) : Prop :=
  (∃ s, VarText s c.1) ∧ (∀ x ∈ showVar c.1, isWs x = false ∧ x ≠ ',' ∧ x ≠ '=') ∧
  PatternText T c.2 ∧ OpTexts T.pat AtomOK c.2 ∧
  (∀ x ∈ showSexp (termSexp T.pat c.2), x ≠ ',' ∧ x ≠ '=')

theorem Readable.reads {T : OpText Op} {t : Term Op} (h : Readable T t) : ReadsAs T (termSexp T t) t := by
  induction h with
  | @node op args h1 h2 ih =>
    rw [termSexp_node]
    split
    · rename_i he
      rw [List.isEmpty_iff.1 he] at h1 ⊢
      exact .atom (h1 [] rfl)
    · refine .list h1 (by simp) ?_
      intro i s t hs ht
      rw [List.getElem?_map, ht] at hs
      cases hs
      exact ih t (List.mem_of_getElem? ht)

theorem Writable.pat {T : OpText Op} {c : Var × Term (PatOp Op)} (h : Writable T c) :
    PatText T parseSexp? (' ' :: showSexp (termSexp T.pat c.2)) c.2 := by
  obtain ⟨_, _, h3, h4, _⟩ := h
  have htok := tok_show _ h4.allAtoms
  refine ⟨termSexp T.pat c.2, ?_, (c40_pattern_readable T _ h3).reads⟩
  obtain ⟨a, cs, e, ha, _⟩ := htok.head
  have : trim (' ' :: showSexp (termSexp T.pat c.2)) = showSexp (termSexp T.pat c.2) := by
    have := trim_eq (w := [' ']) (w' := []) (t := showSexp (termSexp T.pat c.2)) (by intro x hx; rw [List.mem_singleton.1 hx]; rfl) ws_nil
      (by rw [e]; intro d hd; cases hd; exact ha) htok.last
    rwa [List.append_nil] at this
  rw [this]
  unfold parseSexp?
  rw [c41_roundtrip _ h4.allAtoms]
  rfl

theorem varText_show {s : List Char} {v : Var} (h : VarText s v) : VarText (showVar v) v :=
  (c43_parse _ _).1 (c43_roundtrip s v ((c43_parse _ _).2 h))

theorem VarText.head {s : List Char} {v : Var} (h : VarText s v) : ∃ r, s = '?' :: r := by
  cases h <;> exact ⟨_, rfl⟩

theorem Writable.clause {T : OpText Op} {c : Var × Term (PatOp Op)} (h : Writable T c) (w : List Char) (hw : Ws w) :
    PieceText (PatText T parseSexp?) (w ++ writeClause T c) [c] := by
  obtain ⟨⟨s, h1⟩, h2, h3, h4, h5⟩ := h
  have hv := varText_show h1
  obtain ⟨r, er⟩ := hv.head
  have htok := tok_show _ h4.allAtoms
  have hne : showSexp (termSexp T.pat c.2) ≠ [] := by
    obtain ⟨a, cs, e, _⟩ := htok.head
    rw [e]; simp
  refine Or.inr ⟨fun hws => ?_, writeClause T c, ?_, ?_⟩
  · have : isWs '?' = true := hws '?' (by unfold writeClause; rw [er]; simp)
    exact absurd this (by decide)
  · refine ⟨w, [], hw, ws_nil, by simp, ?_, ?_⟩
    · intro x hx
      unfold writeClause at hx
      rw [er] at hx
      cases hx
      rfl
    · intro x hx
      unfold writeClause at hx
      rw [← List.append_assoc, List.getLast?_append_of_ne_nil _ hne] at hx
      exact htok.last x hx
  · refine ⟨showVar c.1 ++ [' '], showVar c.1, c.1, [' ' :: showSexp (termSexp T.pat c.2)], [c.2], ⟨?_, ?_⟩, ?_, hv, by simp,
      .cons (Writable.pat ⟨⟨s, h1⟩, h2, h3, h4, h5⟩) .nil, rfl⟩
    · intro q hq
      rcases List.mem_cons.1 hq with rfl | hq
      · intro hm
        rcases List.mem_append.1 hm with hm | hm
        · exact (h2 _ hm).2.2 rfl
        · exact absurd (List.mem_singleton.1 hm) (by decide)
      · rw [List.mem_singleton.1 hq]
        intro hm
        rcases List.mem_cons.1 hm with hm | hm
        · exact absurd hm (by decide)
        · exact (h5 _ hm).2 rfl
    · unfold writeClause
      simp
    · refine ⟨[], [' '], ws_nil, by intro x hx; rw [List.mem_singleton.1 hx]; rfl, rfl, ?_, ?_⟩
      · intro x hx; rw [er] at hx; cases hx; rfl
      · intro x hx; exact (h2 x (List.mem_of_getLast? hx)).1

theorem Writable.noComma {T : OpText Op} {c : Var × Term (PatOp Op)} (h : Writable T c) : ',' ∉ writeClause T c := by
  obtain ⟨_, h2, _, _, h5⟩ := h
  intro hm
  unfold writeClause at hm
  rcases List.mem_append.1 hm with hm | hm
  · exact (h2 _ hm).2.1 rfl
  · rcases List.mem_append.1 hm with hm | hm
    · exact absurd hm (by decide)
    · exact (h5 _ hm).1 rfl

theorem writeMulti_last {T : OpText Op} (c : Var × Term (PatOp Op)) (cs : List (Var × Term (PatOp Op)))
    (h : ∀ d ∈ c :: cs, Writable T d) : ∀ x, (writeMulti T (c :: cs)).getLast? = some x → isWs x = false := by
  have one : ∀ d, Writable T d → writeClause T d ≠ [] ∧ ∀ x, (writeClause T d).getLast? = some x → isWs x = false := by
    intro d hd
    obtain ⟨_, _, _, h4, _⟩ := hd
    have htok := tok_show _ h4.allAtoms
    have hne : showSexp (termSexp T.pat d.2) ≠ [] := by
      obtain ⟨a, cs, e, _⟩ := htok.head
      rw [e]; simp
    refine ⟨by unfold writeClause; simp, ?_⟩
    intro x hx
    unfold writeClause at hx
    rw [← List.append_assoc, List.getLast?_append_of_ne_nil _ hne] at hx
    exact htok.last x hx
  intro x hx
  rw [writeMulti] at hx
  rcases List.eq_nil_or_concat cs with rfl | ⟨ds, d, rfl⟩
  · rw [List.flatMap_nil, List.append_nil] at hx
    exact (one c (h c (List.mem_cons_self ..))).2 x hx
  · obtain ⟨k1, k2⟩ := one d (h d (by simp))
    rw [List.concat_eq_append, List.flatMap_append, List.flatMap_cons, List.flatMap_nil, List.append_nil, ← List.append_assoc,
      ← List.append_assoc, List.getLast?_append_of_ne_nil _ k1] at hx
    exact k2 x hx

/-- **C63 (round trip).**  A multi-pattern written as `?v = p, ?w = q` denotes these clauses and so is read back
(by `c63_denotes`, `c63_from_text`). -/
theorem c63_roundtrip (T : OpText Op) (cs : List (Var × Term (PatOp Op))) (hne : cs ≠ []) (h : ∀ c ∈ cs, Writable T c) :
    MultiText (PatText T parseSexp?) (writeMulti T cs) cs := by
  cases cs with
  | nil => exact absurd rfl hne
  | cons c cs =>
    have hc := h c (List.mem_cons_self ..)
    refine ⟨writeMulti T (c :: cs), writeClause T c :: cs.map (fun d => ' ' :: writeClause T d), [c] :: cs.map (fun d => [d]),
      ⟨[], [], ws_nil, ws_nil, by simp, ?_, writeMulti_last c cs h⟩, ⟨?_, ?_⟩, .cons ?_ ?_, ?_⟩
    · intro x hx
      obtain ⟨⟨s, h1⟩, _⟩ := hc
      obtain ⟨r, er⟩ := (varText_show h1).head
      rw [writeMulti, writeClause, er] at hx
      cases hx
      rfl
    · intro q hq
      rcases List.mem_cons.1 hq with rfl | hq
      · exact hc.noComma
      · obtain ⟨d, hd, rfl⟩ := List.mem_map.1 hq
        intro hm
        rcases List.mem_cons.1 hm with hm | hm
        · exact absurd hm (by decide)
        · exact (h d (List.mem_cons_of_mem _ hd)).noComma hm
    · unfold writeMulti
      rw [List.flatMap_map]
      rfl
    · exact Writable.clause hc [] ws_nil
    · rw [List.forall₂_map_left_iff, List.forall₂_map_right_iff, List.forall₂_same]
      intro d hd
      exact Writable.clause (h d (List.mem_cons_of_mem _ hd)) [' '] (by intro x hx; rw [List.mem_singleton.1 hx]; rfl)
    · rw [List.flatten_cons, ← List.flatMap_def]
      simp

end

/-! ### Examples -/

/-- Comparing the result of the parser with a list of clauses. -/
def gives (r : Except MultiErr (List (Var × PatternAst (List Char)))) (l : List (Var × List (ENode (PatOp (List Char))))) : Bool :=
  match r with
  | .ok l' => decide (l' = l)
  | .error _ => false

theorem of_gives {r l} (h : gives r l = true) : r = .ok l := by
  unfold gives at h
  split at h
  · rw [of_decide_eq_true h]
  · cases h

namespace Ex
/-- Two patterns for `?x`, a blank piece, and one pattern for `?z`. -/
def multi1 : List Char := " ?x = (f ?a) = ?y , , ?z = b".toList

example : parseMulti symbolText parseSexp? multi1 = .ok
    [(.sym "?x".toList, [⟨.var (.sym "?a".toList), []⟩, ⟨.op "f".toList, [(0 : Nat)]⟩]),
     (.sym "?x".toList, [⟨.var (.sym "?y".toList), []⟩]),
     (.sym "?z".toList, [⟨.op "b".toList, []⟩])] := of_gives (by decide +kernel)

example : parseMulti symbolText parseSexp? "?x = a, ?y".toList = .error (.assignment "?y".toList) := by rfl
example : parseMulti symbolText parseSexp? "?x = a, y = b".toList = .error (.var .missingQuestionMark) := by rfl
example : parseMulti symbolText parseSexp? "?x = a = , y".toList = .error (.pattern .badSexp) := by rfl

/-- What `c63_roundtrip` needs holds for `?x = (f ?a), ?a = b`. -/
def clauses : List (Var × Term (PatOp (List Char))) :=
  [(.sym "?x".toList, .node (.op "f".toList) [.node (.var (.sym "?a".toList)) []]), (.sym "?a".toList, .node (.op "b".toList) [])]

example : clauses ≠ [] ∧ (∀ c ∈ clauses, Writable symbolText c) ∧
    writeMulti symbolText clauses = "?x = (f ?a), ?a = b".toList ∧ FirstIsNode clauses := by
  have atom : ∀ s : List Char, (∀ c ∈ s, isWs c = false ∧ c ≠ '(' ∧ c ≠ ')' ∧ c ≠ '"') → s ≠ [] → AtomOK s := by
    intro s h hne
    refine ⟨?_, fun _ => ⟨fun c hc => (h c hc).1, ?_⟩⟩
    · rintro (h' | h' | h' | h')
      · exact absurd (h _ h').1 (by decide)
      · exact absurd rfl (h _ h').2.1
      · exact absurd rfl (h _ h').2.2.1
      · exact absurd h' hne
    · intro hh
      exact (h _ (List.mem_of_mem_head? hh)).2.2.2 rfl
  have e1 : termSexp symbolText.pat (.node (.op "f".toList) [.node (.var (.sym "?a".toList)) []]) =
      .list [.str "f".toList, .str "?a".toList] := by
    rw [termSexp_node, if_neg (by simp), List.map_singleton, termSexp_node]; rfl
  have e2 : termSexp symbolText.pat (.node (.op "b".toList) []) = .str "b".toList := by rw [termSexp_node]; rfl
  refine ⟨by simp [clauses], ?_, by
    rw [clauses, writeMulti, List.flatMap_cons, List.flatMap_nil, writeClause, writeClause, e1, e2]; decide +kernel, ⟨_, _, _, _, rfl⟩⟩
  intro c hc
  rcases List.mem_cons.1 hc with rfl | hc
  · refine ⟨⟨"?x".toList, .sym (by decide)⟩, by decide +kernel, ?_, ?_, by rw [e1]; decide +kernel⟩
    · refine .op (fun _ _ => rfl) (fun c cs h => by cases h) (fun t ht => ?_)
      rw [List.mem_singleton.1 ht]
      exact .var (s := "?a".toList) rfl
    · refine .node (atom _ (by decide) (by decide)) (fun t ht => ?_)
      rw [List.mem_singleton.1 ht]
      exact .node (atom _ (by decide) (by decide)) (by simp)
  · rw [List.mem_singleton.1 hc]
    refine ⟨⟨"?a".toList, .sym (by decide)⟩, by decide +kernel, .op (fun _ _ => rfl) (fun c cs h => by cases h) (by simp),
      .node (atom _ (by decide) (by decide)) (by simp), by rw [e2]; decide +kernel⟩

end Ex

/-- **C63, negative part.**  The text of a pattern cannot be used in a multi-pattern if it contains `=` or `,`, although
it is a correct pattern: `(<= ?a ?b)` is rejected, and `a=b` is read as two patterns. -/
theorem c63_equals_counterexample :
    (parseExpr symbolText.pat parseSexp? "(<= ?a ?b)".toList).isOk = true ∧
    (parseMulti symbolText parseSexp? "?x = (<= ?a ?b)".toList).isOk = false ∧
    parseExpr symbolText.pat parseSexp? "a=b".toList = .ok [⟨.op "a=b".toList, []⟩] ∧
    parseMulti symbolText parseSexp? "?x = a=b".toList = .ok
      [(.sym "?x".toList, [⟨.op "a".toList, []⟩]), (.sym "?x".toList, [⟨.op "b".toList, []⟩])] :=
  ⟨by decide +kernel, by decide +kernel, by rfl, of_gives (by decide +kernel)⟩

/-- **C63, negative part.**  A text without clauses is accepted; the multi-pattern it gives panics when it is
searched (`src/multipattern.rs:111`). -/
theorem c63_empty_counterexample : parseMulti symbolText parseSexp? " , ".toList = .ok [] := of_gives (by decide +kernel)

end Egg
