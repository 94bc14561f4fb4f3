import Verif.Model.Convert
import Verif.Props.Match
import Verif.Props.RecExpr
import Verif.Props.ExprText
import Verif.Lemmas.IdToPattern
/-
C52: expressions and texts as patterns.  C53: equivs and check_goals.
-/
namespace Egg
variable {Op D : Type} [DecidableEq Op] [Lang Op]

/-! ### C52 -/

/-- No node but the last denotes the term of the expression. -/
def RootOnce (e : List (ENode Op)) (t : Term Op) : Prop := ∀ i, TermOf e i t → i = e.length - 1

/-- **C52.**  `Pattern::new` succeeds on a well-formed pattern and keeps the term it denotes, unless a
node before the last one denotes that term too. -/
theorem c52_new {ordc : Compiler Op → List (Id × Nat)} (hoc : OrdOK ordc) {ast : PatternAst Op} (hw : PatWF ast)
    {t : Term (PatOp Op)} (ht : ExprTerm ast t) (hu : RootOnce ast t) :
    ∃ p f0, (∀ fuel, f0 ≤ fuel → Pattern.new ordc fuel ast = .ok p) ∧ IsPattern p t := by
  obtain ⟨f0, p, hp⟩ := pattern_new_total hoc hw
  refine ⟨p, f0, hp, ordc, f0, ast, hoc, hw, hp f0 (Nat.le_refl _), ?_⟩
  obtain ⟨e', h1, h2⟩ := c39_compact_root ast t hw.1.2 ht hu
  have h0 := hp f0 (Nat.le_refl _)
  unfold Pattern.new at h0
  rw [h1, ok_bind, bind_eq_ok] at h0
  obtain ⟨pr, _, h0⟩ := h0
  cases h0
  exact h2

theorem map_op_wf {e : List (ENode Op)} (hw : WFExpr e) : PatWF (e.map fun n => ⟨PatOp.op n.op, n.children⟩) := by
  refine ⟨⟨by simpa using hw.1, ?_⟩, ?_⟩
  · intro i n h c hc
    simp only [List.getElem?_map, Option.map_eq_some_iff] at h
    obtain ⟨m, hm, rfl⟩ := h
    exact hw.2 i m hm c hc
  · intro n hn v hv
    simp only [List.mem_map] at hn
    obtain ⟨m, _, rfl⟩ := hn
    cases hv

theorem patVars_ground : ∀ (ast : PatternAst Op), (∀ n ∈ ast, ∃ o, n.op = .op o) → ∀ vars, patVars ast vars = vars
  | [], _, _ => rfl
  | n :: rest, h, vars => by
    obtain ⟨o, ho⟩ := h n (List.mem_cons_self ..)
    rw [patVars, ho]
    exact patVars_ground rest (fun m hm => h m (List.mem_cons_of_mem _ hm)) vars

theorem compact_ground {e : List (ENode Op)} {q : PatternAst Op} (hd : Dag e)
    (h : RecExpr.compact (e.map fun n => (⟨PatOp.op n.op, n.children⟩ : ENode (PatOp Op))) = .ok q) : ∀ n ∈ q, ∃ o, n.op = .op o := by
  intro n hn
  have hdm : Dag (e.map fun n => (⟨PatOp.op n.op, n.children⟩ : ENode (PatOp Op))) := by
    intro q n hq c hc
    simp only [List.getElem?_map, Option.map_eq_some_iff] at hq
    obtain ⟨m, hm, rfl⟩ := hq
    exact hd q m hm c hc
  obtain ⟨q', g1, g2, _, g3⟩ := c39_compact _ hdm
  rw [h] at g1; cases g1
  obtain ⟨i, hi⟩ := List.getElem?_of_mem hn
  obtain ⟨u, hu⟩ := g2.exists_term i (getElem?_lt hi)
  obtain ⟨r, hr⟩ := (g3 u).2 ⟨i, hu⟩
  cases u with
  | node o us =>
    obtain ⟨m, k1, k2, _⟩ := termOf_iff.1 hu
    rw [hi] at k1; cases k1
    obtain ⟨m', k1', k2', _⟩ := termOf_iff.1 hr
    simp only [List.getElem?_map, Option.map_eq_some_iff] at k1'
    obtain ⟨m'', _, rfl⟩ := k1'
    exact ⟨m''.op, by rw [k2, ← k2']⟩

/-- **C52.**  An expression turned into a pattern denotes the same term. -/
theorem c52_from_expr {ordc : Compiler Op → List (Id × Nat)} (hoc : OrdOK ordc) {e : List (ENode Op)} (hw0 : WFExpr e)
    {t : Term Op} (ht : ExprTerm e t) (hu : RootOnce e t) :
    ∃ p f0, (∀ fuel, f0 ≤ fuel → Pattern.fromExpr ordc fuel e = .ok p) ∧ IsPattern p (t.map PatOp.op) ∧ p.vars = [] := by
  have ht' : ExprTerm (e.map fun n => (⟨PatOp.op n.op, n.children⟩ : ENode (PatOp Op))) (t.map PatOp.op) := by
    refine ⟨by simpa using ht.1, ?_⟩
    have := ht.2.opNode
    rw [List.length_map]
    exact this
  obtain ⟨p, f0, h1, h2⟩ := c52_new hoc (map_op_wf hw0) ht' (by
    intro i hi
    obtain ⟨u, hu1, hu2⟩ := termOf_mapOp hi
    have := Term.map_op_inj hu2
    subst this
    simpa using hu i hu1)
  refine ⟨p, f0, h1, h2, ?_⟩
  obtain ⟨q, hw, hast⟩ : ∃ q, RecExpr.compact (e.map fun n => (⟨PatOp.op n.op, n.children⟩ : ENode (PatOp Op))) = .ok q ∧ p.ast = q := by
    have h0 := h1 f0 (Nat.le_refl _)
    unfold Pattern.new at h0
    rw [bind_eq_ok] at h0
    obtain ⟨q, hq, h0⟩ := h0
    rw [bind_eq_ok] at h0
    obtain ⟨pr, _, h0⟩ := h0
    cases h0
    exact ⟨_, hq, rfl⟩
  rw [Pattern.vars, hast]
  exact patVars_ground _ (compact_ground hw0.2 hw) []

/-- **C52.**  Turning a pattern into an expression succeeds exactly if it has no variables, and gives
the nodes of the pattern. -/
theorem c52_try_from (ast : PatternAst Op) (e : List (ENode Op)) :
    exprOfAst ast = .ok e ↔ ast = e.map fun n => ⟨PatOp.op n.op, n.children⟩ := by
  induction ast generalizing e with
  | nil => cases e <;> simp [exprOfAst]
  | cons n rest ih =>
    obtain ⟨op, cs⟩ := n
    cases op with
    | var v =>
      simp only [exprOfAst]
      constructor
      · intro h; cases h
      · intro h
        cases e with
        | nil => cases h
        | cons m e => simp at h
    | op o =>
      simp only [exprOfAst]
      cases hr : exprOfAst rest with
      | error v =>
        simp only []
        constructor
        · intro h; cases h
        · intro h
          cases e with
          | nil => cases h
          | cons m e =>
            simp only [List.map_cons, List.cons.injEq] at h
            rw [(ih e).2 h.2] at hr
            cases hr
      | ok r =>
        simp only [Except.ok.injEq]
        have hr' := (ih r).1 hr
        constructor
        · intro h
          subst h
          simp [hr']
        · intro h
          cases e with
          | nil => cases h
          | cons m e =>
            simp only [List.map_cons, List.cons.injEq, ENode.mk.injEq, PatOp.op.injEq] at h
            obtain ⟨⟨rfl, rfl⟩, h⟩ := h
            rw [(ih e).2 h] at hr
            cases hr
            rfl

/-- **C52.**  Otherwise the error is the first variable of the pattern. -/
theorem c52_try_from_error (ast : PatternAst Op) (v : Var) :
    exprOfAst ast = .error v ↔ ∃ (pre : List (ENode Op)) (cs : List Id) (post : PatternAst Op),
      ast = (pre.map fun n => ⟨PatOp.op n.op, n.children⟩) ++ ⟨.var v, cs⟩ :: post := by
  induction ast with
  | nil => simp [exprOfAst]
  | cons n rest ih =>
    obtain ⟨op, cs⟩ := n
    cases op with
    | var w =>
      simp only [exprOfAst, Except.error.injEq]
      constructor
      · rintro rfl
        exact ⟨[], cs, rest, rfl⟩
      · rintro ⟨pre, cs', post, h⟩
        cases pre with
        | nil =>
          simp only [List.map_nil, List.nil_append, List.cons.injEq, ENode.mk.injEq, PatOp.var.injEq] at h
          exact h.1.1
        | cons m pre => simp at h
    | op o =>
      simp only [exprOfAst]
      cases hr : exprOfAst rest with
      | ok r =>
        simp only []
        constructor
        · intro h; cases h
        · rintro ⟨pre, cs', post, h⟩
          cases pre with
          | nil => simp at h
          | cons m pre =>
            simp only [List.map_cons, List.cons_append, List.cons.injEq] at h
            rw [ih.2 ⟨pre, cs', post, h.2⟩] at hr
            cases hr
      | error w =>
        simp only [Except.error.injEq]
        constructor
        · rintro rfl
          obtain ⟨pre, cs', post, h⟩ := ih.1 hr
          exact ⟨⟨o, cs⟩ :: pre, cs', post, by simp [h]⟩
        · rintro ⟨pre, cs', post, h⟩
          cases pre with
          | nil => simp at h
          | cons m pre =>
            simp only [List.map_cons, List.cons_append, List.cons.injEq] at h
            rw [ih.2 ⟨pre, cs', post, h.2⟩] at hr
            cases hr
            rfl

/-- **C52, finding.**  If an earlier, otherwise unused node denotes the term of the expression, the
pattern may denote another term: `[a, b, a]` denotes `a` and becomes the pattern `b`. -/
theorem c52_from_expr_counterexample {ordc : Compiler Nat → List (Id × Nat)} (fuel : Nat) (p : Pattern Nat)
    (h : Pattern.fromExpr ordc fuel [⟨0, []⟩, ⟨1, []⟩, ⟨0, []⟩] = .ok p) :
    ExprTerm ([⟨0, []⟩, ⟨1, []⟩, ⟨0, []⟩] : List (ENode Nat)) (.node 0 []) ∧ ExprTerm p.ast (.node (.op 1) []) := by
  refine ⟨c39_compact_counterexample.2.1, ?_⟩
  unfold Pattern.fromExpr Pattern.new at h
  have h0 : RecExpr.compact (List.map (fun n : ENode Nat => (⟨PatOp.op n.op, n.children⟩ : ENode (PatOp Nat))) [⟨0, []⟩, ⟨1, []⟩, ⟨0, []⟩]) =
    .ok [⟨.op 0, []⟩, ⟨.op 1, []⟩] := rfl
  rw [h0, ok_bind, bind_eq_ok] at h
  obtain ⟨pr, _, h⟩ := h
  cases h
  exact ⟨by simp, termOf_iff.2 ⟨_, rfl, rfl, .nil⟩⟩

/-! ### Parsed patterns -/

mutual
theorem parseInto_nodes {Op : Type} (T : OpText Op) : ∀ (s : Sexp) (e e' : List (ENode Op)) (i : Id), parseInto T s e = .ok (e', i) →
    ∀ n ∈ e', n ∈ e ∨ ∃ s ids, T.fromOp s ids = some n
  | .empty, e, e', i, h => by rw [parseInto] at h; cases h
  | .str s, e, e', i, h => by
    rw [parseInto] at h
    split at h
    · cases h
    · rename_i n hn
      cases h
      intro m hm
      rcases List.mem_append.1 hm with hm | hm
      · exact .inl hm
      · rw [List.mem_singleton.1 hm]; exact .inr ⟨_, _, hn⟩
  | .list [], e, e', i, h => by rw [parseInto] at h; cases h
  | .list (.empty :: _), e, e', i, h => by rw [parseInto] at h; cases h
  | .list (.list _ :: _), e, e', i, h => by rw [parseInto] at h; cases h
  | .list (.str op :: args), e, e', i, h => by
    rw [parseInto] at h
    split at h
    · cases h
    · rename_i e1 ids h1
      have ih := parseArgs_nodes T args e e1 ids h1
      split at h
      · cases h
      · rename_i n hn
        cases h
        intro m hm
        rcases List.mem_append.1 hm with hm | hm
        · exact ih m hm
        · rw [List.mem_singleton.1 hm]; exact .inr ⟨_, _, hn⟩
theorem parseArgs_nodes {Op : Type} (T : OpText Op) : ∀ (ss : List Sexp) (e e' : List (ENode Op)) (ids : List Id), parseArgs T ss e = .ok (e', ids) →
    ∀ n ∈ e', n ∈ e ∨ ∃ s ids, T.fromOp s ids = some n
  | [], e, e', ids, h => by
    rw [parseArgs] at h
    cases h
    exact fun n hn => .inl hn
  | s :: ss, e, e', ids, h => by
    rw [parseArgs] at h
    split at h
    · cases h
    · rename_i e1 i h1
      have ih1 := parseInto_nodes T s e e1 i h1
      split at h
      · cases h
      · rename_i e2 is h2
        have ih2 := parseArgs_nodes T ss e1 e2 is h2
        cases h
        intro n hn
        rcases ih2 n hn with hn | hn
        · exact ih1 n hn
        · exact .inr hn
end

mutual
/-- The nodes a text adds before the last one denote smaller terms. -/
theorem parseInto_smaller {Op : Type} (T : OpText Op) (hT : T.Uniform) :
    ∀ (s : Sexp) (e e' : List (ENode Op)) (i : Id), Dag e → parseInto T s e = .ok (e', i) → ∀ t, TermOf e' i t →
      ∀ j u, e.length ≤ j → TermOf e' j u → j = i ∨ sizeOf u < sizeOf t
  | .empty, e, e', i, hd, h => by rw [parseInto] at h; cases h
  | .str s, e, e', i, hd, h => by
    rw [parseInto] at h
    split at h
    · cases h
    · cases h
      intro t ht j u hj hu
      have := hu.lt
      simp at this
      omega
  | .list [], e, e', i, hd, h => by rw [parseInto] at h; cases h
  | .list (.empty :: _), e, e', i, hd, h => by rw [parseInto] at h; cases h
  | .list (.list _ :: _), e, e', i, hd, h => by rw [parseInto] at h; cases h
  | .list (.str op :: args), e, e', i, hd, h => by
    rw [parseInto] at h
    split at h
    · cases h
    · rename_i e1 ids h1
      have ih := parseArgs_smaller T hT args e e1 ids hd h1
      have hd1 := (parseArgs_dag T (fun s ids n h => by rw [hT.children h]) args e e1 ids h1 hd).1
      obtain ⟨ext, ts, rfl, _, _, hts⟩ := parseArgs_reads T hT args e e1 ids h1
      split at h
      · cases h
      · rename_i n hn
        cases h
        have hc := hT.children hn
        intro t ht j u hj hu
        have hlt := hu.lt
        simp only [List.length_append, List.length_singleton] at hlt
        by_cases hjl : j = (e ++ ext).length
        · exact .inl hjl
        · right
          have hjl : j < (e ++ ext).length := by simp only [List.length_append] at hjl ⊢; omega
          have ht' : TermOf (e ++ ext ++ [n]) (e ++ ext).length (.node n.op ts) := by
            refine termOf_iff.2 ⟨n, by simp, rfl, ?_⟩
            rw [hc]
            exact hts.imp (fun _ _ h => h.append)
          rw [ht.unique ht']
          obtain ⟨u', hu'⟩ := hd1.exists_term j hjl
          rw [hu.unique hu'.append]
          obtain ⟨k, hk, hlek⟩ := ih ts hts j u' hj hu'
          have := List.sizeOf_lt_of_mem hk
          simp only [Term.node.sizeOf_spec]
          omega
theorem parseArgs_smaller {Op : Type} (T : OpText Op) (hT : T.Uniform) :
    ∀ (ss : List Sexp) (e e' : List (ENode Op)) (ids : List Id), Dag e → parseArgs T ss e = .ok (e', ids) → ∀ ts, List.Forall₂ (TermOf e') ids ts →
      ∀ j u, e.length ≤ j → TermOf e' j u → ∃ t ∈ ts, sizeOf u ≤ sizeOf t
  | [], e, e', ids, hd, h => by
    rw [parseArgs] at h
    cases h
    intro ts _ j u hj hu
    have := hu.lt
    omega
  | s :: ss, e, e', ids, hd, h => by
    rw [parseArgs] at h
    split at h
    · cases h
    · rename_i e1 i h1
      have ih1 := parseInto_smaller T hT s e e1 i hd h1
      have hd1 := (parseInto_dag T (fun s ids n h => by rw [hT.children h]) s e e1 i h1 hd).1
      obtain ⟨ext, t1, rfl, hi, _, ht1⟩ := parseInto_reads T hT s e e1 i h1
      split at h
      · cases h
      · rename_i e2 is h2
        have ih2 := parseArgs_smaller T hT ss (e ++ ext) e2 is hd1 h2
        obtain ⟨ext', ts', rfl, _, _, _⟩ := parseArgs_reads T hT ss _ e2 is h2
        cases h
        intro ts hts j u hj hu
        cases hts with
        | @cons _ t _ ts ht hts =>
          by_cases hjl : j < (e ++ ext).length
          · obtain ⟨u', hu'⟩ := hd1.exists_term j hjl
            have e1 := hu.unique hu'.append
            have e2 := ht.unique ht1.append
            subst e1
            subst e2
            refine ⟨_, List.mem_cons_self .., ?_⟩
            rcases ih1 _ ht1 j _ hj hu' with rfl | h
            · rw [hu'.unique ht1]
            · omega
          · obtain ⟨k, hk, hle⟩ := ih2 ts hts j u (by omega) hu
            exact ⟨k, List.mem_cons_of_mem _ hk, hle⟩
end

/-- **C52.**  A parsed pattern denotes the term that was read (`c40_parse_iff` says which). -/
theorem c52_from_text {ordc : Compiler Op → List (Id × Nat)} (hoc : OrdOK ordc) (T : OpText Op) (hT : T.Uniform)
    (parse : List Char → Option Sexp) (text : List Char) (s : Sexp) (hs : parse (trim text) = some s) (t : Term (PatOp Op))
    (hr : ReadsAs T.pat s t) :
    ∃ ast p f0, parseExpr T.pat parse text = .ok ast ∧ (∀ fuel, f0 ≤ fuel → Pattern.new ordc fuel ast = .ok p) ∧ IsPattern p t := by
  obtain ⟨ast, h1, h2⟩ := (c40_parse_iff T.pat hT.pat parse text t).1 ⟨s, hs, hr⟩
  have hd := (c40_parse_wellformed T.pat (fun s ids n h => by rw [hT.pat.children h]) parse text ast h1).1
  have hp : ∃ i, parseInto T.pat s [] = .ok (ast, i) := by
    have h := h1
    unfold parseExpr at h
    rw [hs] at h
    simp only [] at h
    split at h
    · cases h
    · rename_i e i hp
      cases h
      exact ⟨i, hp⟩
  obtain ⟨i, hp⟩ := hp
  have hd0 : Dag ([] : PatternAst Op) := by intro i n h; cases h
  obtain ⟨ext, t', _, hi, _, _⟩ := parseInto_reads T.pat hT.pat s [] ast i hp
  have hi' : i = ast.length - 1 := by omega
  subst hi'
  obtain ⟨p, f0, h3, h4⟩ := c52_new hoc (ast := ast) ⟨⟨h2.1, hd⟩, by
    intro n hn v hv
    rcases parseInto_nodes T.pat s [] ast _ hp n hn with h | ⟨x, ids, h⟩
    · cases h
    · unfold OpText.pat at h
      simp only [] at h
      split at h
      · split at h
        · split at h
          · cases h; rfl
          · cases h
        · cases h
      · obtain ⟨m, _, rfl⟩ := Option.map_eq_some_iff.1 h
        cases hv⟩ h2 (by
    intro j hj
    rcases parseInto_smaller T.pat hT.pat s [] ast _ hd0 hp t h2.2 j t (Nat.zero_le _) hj with h | h
    · exact h
    · omega)
  exact ⟨ast, p, f0, h1, h3, h4⟩

/-! ### C53 -/

theorem inst_map_op (τ : Var → Term Op) (t : Term Op) : Inst τ (t.map PatOp.op) t := by
  induction t using Term.ind with
  | h op ts ih =>
    rw [Term.map_node]
    refine .node (by simp) ?_
    intro j q u hq hu
    simp only [List.getElem?_map, hu, Option.map_some, Option.some.injEq] at hq
    subst hq
    exact ih u (List.mem_of_getElem? hu)

section
variable {A : UserAnalysis Op D} {depth : Nat} {allow : Caller Op D} {U : List (UnionRec Op)} {eg : EGraph Op D}

/-- What the search for a ground pattern reports. -/
theorem search_ground (h : Hist (A.at depth) allow U eg) (hc : eg.clean = true) (hd : DiscContiguous Op)
    {ord : IterOrd} (ho : ord.OK eg) (hcyc : (A.at depth).allowCycles = true) {p : Pattern Op} {t : Term Op} (hp : IsPattern p (t.map PatOp.op)) :
    ∃ l0, ∀ limit, l0 ≤ limit → ∃ ms, p.searchWithLimit (A.at depth) eg ord limit = .ok ms ∧
      ((∃ m, ms = [m] ∧ eg.find m.eclass = .ok m.eclass ∧ Rep eg m.eclass t) ∨ (ms = [] ∧ ∀ c, ¬ Rep eg c t)) := by
  have hi := (hist_good h).inv
  have hr := c47_clean_means_rebuilt h hc
  obtain ⟨l0, hl⟩ := c18_search_finds_instances h hc hd ho hp hcyc
  refine ⟨l0, fun limit hlim => ?_⟩
  obtain ⟨ms, h1, h2⟩ := hl limit hlim
  refine ⟨ms, h1, ?_⟩
  have hsound := c17_search_sound h hc hd ho hp h1
  obtain ⟨honce, hne⟩ := (c19_each_match_once h hc hd ho hp (limit := limit)).2 ms h1
  have hm : ∀ m ∈ ms, eg.find m.eclass = .ok m.eclass ∧ Rep eg m.eclass t := by
    intro m hm
    obtain ⟨s, hs⟩ := List.exists_mem_of_ne_nil _ (hne m hm).1
    obtain ⟨g1, _, _, g4, _⟩ := hsound m.eclass s (by
      unfold flat
      exact List.mem_flatMap.2 ⟨m, hm, List.mem_map.2 ⟨s, hs, rfl⟩⟩)
    exact ⟨g1, EGraph.rep_of_pmatch t g4⟩
  cases ms with
  | nil =>
    refine .inr ⟨rfl, fun c hrep => ?_⟩
    obtain ⟨r, s, _, g2, _⟩ := h2 (fun _ => t) c t (inst_map_op _ t) hrep
    cases g2
  | cons m rest =>
    obtain ⟨g1, g2⟩ := hm m (List.mem_cons_self ..)
    refine .inl ⟨m, ?_, g1, g2⟩
    cases rest with
    | nil => rfl
    | cons m' rest =>
      obtain ⟨k1, k2⟩ := hm m' (by simp)
      refine absurd ?_ (List.rel_of_pairwise_cons honce (List.mem_cons_self ..))
      exact hi.sameClass_iff.2 ⟨hi.rep_lt g2, hi.rep_lt k2, EGraph.InvW.rep_unique hi hr.pending t g2 k2⟩

/-- **C53.**  On a rebuilt e-graph `equivs` returns the class that represents both expressions, if
there is one (then it is the only one), and nothing otherwise. -/
theorem c53_equivs (h : Hist (A.at depth) allow U eg) (hc : eg.clean = true) (hd : DiscContiguous Op)
    {ord1 ord2 : IterOrd} (ho1 : ord1.OK eg) (ho2 : ord2.OK eg) (hcyc : (A.at depth).allowCycles = true)
    {ordc : Compiler Op → List (Id × Nat)} (hoc : OrdOK ordc) {e1 e2 : List (ENode Op)} {t1 t2 : Term Op}
    (hw1 : WFExpr e1) (ht1 : ExprTerm e1 t1) (hu1 : RootOnce e1 t1)
    (hw2 : WFExpr e2) (ht2 : ExprTerm e2 t2) (hu2 : RootOnce e2 t2) :
    ∃ f0 l0, ∀ fuel limit, f0 ≤ fuel → l0 ≤ limit → ∃ ids, eg.equivs (A.at depth) ordc fuel ord1 ord2 limit e1 e2 = .ok ids ∧
      ((∃ c, ids = [c] ∧ eg.find c = .ok c ∧ Rep eg c t1 ∧ Rep eg c t2) ∨
        (ids = [] ∧ ∀ c, ¬ (Rep eg c t1 ∧ Rep eg c t2))) := by
  have hi := (hist_good h).inv
  have hr := c47_clean_means_rebuilt h hc
  obtain ⟨p1, f1, hp1, hp1', _⟩ := c52_from_expr hoc hw1 ht1 hu1
  obtain ⟨p2, f2, hp2, hp2', _⟩ := c52_from_expr hoc hw2 ht2 hu2
  obtain ⟨l1, hl1⟩ := search_ground h hc hd ho1 hcyc hp1'
  obtain ⟨l2, hl2⟩ := search_ground h hc hd ho2 hcyc hp2'
  refine ⟨max f1 f2, max l1 l2, fun fuel limit hf hl => ?_⟩
  obtain ⟨ms1, g1, g2⟩ := hl1 limit (le_trans (le_max_left _ _) hl)
  obtain ⟨ms2, k1, k2⟩ := hl2 limit (le_trans (le_max_right _ _) hl)
  have he : eg.equivs (A.at depth) ordc fuel ord1 ord2 limit e1 e2 = eg.equivsRows ms2 ms1 := by
    unfold EGraph.equivs
    rw [hp1 fuel (le_trans (le_max_left _ _) hf), ok_bind, hp2 fuel (le_trans (le_max_right _ _) hf), ok_bind, g1, ok_bind, k1, ok_bind]
  rw [he]
  rcases g2 with ⟨m1, rfl, g2, g3⟩ | ⟨rfl, g2⟩
  · rcases k2 with ⟨m2, rfl, k2, k3⟩ | ⟨rfl, k2⟩
    · by_cases heq : m1.eclass = m2.eclass
      · refine ⟨[m1.eclass], ?_, .inl ⟨_, rfl, g2, g3, heq ▸ k3⟩⟩
        simp only [EGraph.equivsRows, EGraph.equivsRow, g2, k2, ok_bind, pure, Except.pure, if_pos heq, List.append_nil]
      · refine ⟨[], ?_, .inr ⟨rfl, fun c hcr => heq ?_⟩⟩
        · simp only [EGraph.equivsRows, EGraph.equivsRow, g2, k2, ok_bind, pure, Except.pure, if_neg heq, List.append_nil]
        · have q1 := EGraph.InvW.rep_unique hi hr.pending _ g3 hcr.1
          have q2 := EGraph.InvW.rep_unique hi hr.pending _ k3 hcr.2
          rw [← (hi.find_iff.1 g2).2, ← (hi.find_iff.1 k2).2, q1, q2]
    · refine ⟨[], rfl, .inr ⟨rfl, fun c hcr => k2 c hcr.2⟩⟩
  · exact ⟨[], rfl, .inr ⟨rfl, fun c hcr => g2 c hcr.1⟩⟩

/-- **C53.**  `check_goals` panics exactly if some goal has no match in the class. -/
theorem c53_check_goals (h : Hist (A.at depth) allow U eg) (hc : eg.clean = true) (hd : DiscContiguous Op)
    {ord : IterOrd} (ho : ord.OK eg) (hcyc : (A.at depth).allowCycles = true) {c : Id} (hcv : Valid eg c)
    {goals : List (Pattern Op)} {ts : List (Term (PatOp Op))} (hg : List.Forall₂ IsPattern goals ts) :
    ∃ l0, ∀ limit, l0 ≤ limit →
      ((∀ t ∈ ts, ∃ σ, PMatch eg σ c t) ∧ eg.checkGoals (A.at depth) ord limit c goals = .ok ()) ∨
      ((∃ t ∈ ts, ∀ σ, ¬ PMatch eg σ c t) ∧ eg.checkGoals (A.at depth) ord limit c goals = .error .panic) := by
  induction hg with
  | nil => exact ⟨0, fun _ _ => .inl ⟨by simp, rfl⟩⟩
  | @cons g t goals ts hp _ ih =>
    obtain ⟨l1, h1⟩ := ih
    obtain ⟨l2, h2⟩ := c18_search_eclass_complete h hc hd ho hp hcyc hcv
    have hi := (hist_good h).inv
    have hr := c47_clean_means_rebuilt h hc
    refine ⟨max 1 (max l1 l2), fun limit hl => ?_⟩
    have hsound := fun m => c17_search_eclass_sound h hc hd ho hp hcv (limit := limit) (m := m)
    have hret : ∃ o, g.searchEclassWithLimit (A.at depth) eg ord c limit = .ok o := by
      obtain ⟨ordc, fuel, ast, hoc, hw, hnew, ht⟩ := hp
      obtain ⟨cc, e1, -, hf⟩ := pattern_fin hi hr hd hoc ord.classes hw hnew ht
      exact ⟨_, searchEclass_eq hi hr hd hc _ ho e1 hf ((valid_iff hi).1 hcv) limit⟩
    obtain ⟨o, hret⟩ := hret
    unfold EGraph.checkGoals
    rw [hret, ok_bind]
    cases o with
    | none =>
      refine .inr ⟨⟨t, List.mem_cons_self .., fun σ hσ => ?_⟩, rfl⟩
      obtain ⟨m, s, g1, _⟩ := h2 limit (le_trans (le_trans (le_max_right _ _) (le_max_right _ _)) hl) σ hσ
      rw [hret] at g1
      cases g1
    | some m =>
      obtain ⟨_, g2, g3⟩ := hsound m hret
      obtain ⟨s, hs⟩ := List.exists_mem_of_ne_nil _ g2
      have hm := (g3 s hs).2.2.1
      rcases h1 limit (le_trans (le_trans (le_max_left _ _) (le_max_right _ _)) hl) with ⟨k1, k2⟩ | ⟨k1, k2⟩
      · exact .inl ⟨by intro t' ht'; rcases List.mem_cons.1 ht' with rfl | ht'; exacts [⟨_, hm⟩, k1 t' ht'], k2⟩
      · obtain ⟨t', ht', k1⟩ := k1
        exact .inr ⟨⟨t', List.mem_cons_of_mem _ ht', k1⟩, k2⟩

end

/-! ### Examples -/

def Ex.exprFa : List (ENode Ex.S) := [Ex.leaf .a, Ex.app .f [0]]
def Ex.exprFb : List (ENode Ex.S) := [Ex.leaf .b, Ex.app .f [0]]

theorem Ex.exprFa_term : ExprTerm Ex.exprFa Ex.tfa := exprTerm_of (f := 5) rfl rfl
theorem Ex.exprFb_term : ExprTerm Ex.exprFb Ex.tfb := exprTerm_of (f := 5) rfl rfl

theorem Ex.exprFa_wf : WFExpr Ex.exprFa ∧ RootOnce Ex.exprFa Ex.tfa := by
  refine ⟨⟨by simp [Ex.exprFa], ?_⟩, ?_⟩
  · intro i n h c hc
    match i with
    | 0 => cases h; cases hc
    | 1 => cases h; simp [Ex.app] at hc; omega
    | i + 2 => cases h
  · intro i h
    match i with
    | 0 =>
      obtain ⟨n, h1, h2, _⟩ := termOf_iff.1 h
      cases h1
      cases h2
    | 1 => rfl
    | i + 2 => have := h.lt; simp [Ex.exprFa] at this; omega

theorem Ex.exprFb_wf : WFExpr Ex.exprFb ∧ RootOnce Ex.exprFb Ex.tfb := by
  refine ⟨⟨by simp [Ex.exprFb], ?_⟩, ?_⟩
  · intro i n h c hc
    match i with
    | 0 => cases h; cases hc
    | 1 => cases h; simp [Ex.app] at hc; omega
    | i + 2 => cases h
  · intro i h
    match i with
    | 0 =>
      obtain ⟨n, h1, h2, _⟩ := termOf_iff.1 h
      cases h1
      cases h2
    | 1 => rfl
    | i + 2 => have := h.lt; simp [Ex.exprFb] at this; omega

/-- The hypotheses of `c53_equivs` are met by `f a` and `f b` after `a = b`: their class is 2. -/
example : (Ex.e6.equivs Ex.N0 Ex.ordc 10 (Ex.ord Ex.e6) (Ex.ord Ex.e6) 100 Ex.exprFa Ex.exprFb).toOption = some [2] ∧
    (Ex.e6.equivs Ex.N0 Ex.ordc 10 (Ex.ord Ex.e6) (Ex.ord Ex.e6) 100 Ex.exprFa [Ex.leaf .a]).toOption = some [] ∧
    ∃ f0 l0, ∀ fuel limit, f0 ≤ fuel → l0 ≤ limit → ∃ ids,
      Ex.e6.equivs Ex.N0 Ex.ordc fuel (Ex.ord Ex.e6) (Ex.ord Ex.e6) limit Ex.exprFa Ex.exprFb = .ok ids ∧
      ((∃ c, ids = [c] ∧ Ex.e6.find c = .ok c ∧ Rep Ex.e6 c Ex.tfa ∧ Rep Ex.e6 c Ex.tfb) ∨
        (ids = [] ∧ ∀ c, ¬ (Rep Ex.e6 c Ex.tfa ∧ Rep Ex.e6 c Ex.tfb))) :=
  ⟨by decide, by decide, c53_equivs (Ex.hist6 .all) rfl Ex.discContiguous (Ex.ordOK _) (Ex.ordOK _) rfl Ex.ordcOK
    Ex.exprFa_wf.1 Ex.exprFa_term Ex.exprFa_wf.2 Ex.exprFb_wf.1 Ex.exprFb_term Ex.exprFb_wf.2⟩

/-- **C53, finding.**  An expression whose root occurs before, `[f a, b, f a]`, is compared as `b`:
`equivs` says that it equals `b`, although `f a` and `b` are in different classes. -/
theorem c53_equivs_counterexample :
    ExprTerm [Ex.leaf .a, Ex.app .f [0], Ex.leaf .b, Ex.app .f [0]] Ex.tfa ∧
    (Ex.e6.equivs Ex.N0 Ex.ordc 10 (Ex.ord Ex.e6) (Ex.ord Ex.e6) 100
      [Ex.leaf .a, Ex.app .f [0], Ex.leaf .b, Ex.app .f [0]] [Ex.leaf .b]).toOption = some [0] ∧
    ¬ SameClass Ex.e6 0 2 :=
  ⟨exprTerm_of (f := 5) rfl rfl, by decide, by rintro ⟨r, h1, h2⟩; cases h1; cases h2⟩

/-- `check_goals` accepts `(f ?x)` for the class of `f b` and refuses it for the class of `a`. -/
example : (Ex.e6.checkGoals Ex.N0 (Ex.ord Ex.e6) 100 3 [Ex.patFx]).isOk = true ∧
    (Ex.e6.checkGoals Ex.N0 (Ex.ord Ex.e6) 100 0 [Ex.patFx]).isOk = false ∧
    List.Forall₂ IsPattern [Ex.patFx] [Ex.termFx] :=
  ⟨by decide, by decide, .cons Ex.isPatFx .nil⟩

/-- `try_from` gives back the expression. -/
example : exprOfAst (Ex.exprFa.map fun n => ⟨PatOp.op n.op, n.children⟩) = .ok Ex.exprFa ∧ exprOfAst Ex.astFx = .error Ex.vx :=
  ⟨(c52_try_from _ _).2 rfl, rfl⟩

end Egg
