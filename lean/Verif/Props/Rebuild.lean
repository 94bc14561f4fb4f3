import Verif.Props.Closure
import Verif.Lemmas.Idem
import Verif.Spec.Join
import Verif.Lemmas.Terminate
import Verif.Lemmas.Clean
/-
C08-C13, C47: what `rebuild` establishes, termination, absence of panics, analysis
data, the clean flag.
-/
namespace Egg
variable {Op D : Type} [DecidableEq Op] [Lang Op]

theorem rebuilt_tidy {A : UserAnalysis Op D} {depth : Nat} {allow : Caller Op D}
    {U : List (UnionRec Op)} {eg0 eg : EGraph Op D} {fuel k : Nat}
    (h0 : Hist (A.at depth) allow U eg0) (hr : EGraph.rebuild (A.at depth) fuel eg0 = .ok (eg, k)) :
    EGraph.Good (Cfg.ofR _ isCongruence_true anyReason) eg ∧ eg.Tidy := by
  have := (EGraph.rebuild_post trivial ((soundFor_true A).hookOK trivial depth) fuel (hist_good h0)).elim hr
  exact ⟨this.1, this.2.2.1⟩

/-! ### C08 -/

/-- **C08.**  Rebuilding a rebuilt e-graph succeeds (with any positive fuel),
performs no union, and changes no class, no `find`, no hashcons answer and no
entry of the operator index. -/
theorem c08_rebuild_idempotent {A : UserAnalysis Op D} {depth : Nat} {allow : Caller Op D}
    {U : List (UnionRec Op)} {eg0 eg : EGraph Op D} {fuel k : Nat}
    (h0 : Hist (A.at depth) allow U eg0) (hr : EGraph.rebuild (A.at depth) fuel eg0 = .ok (eg, k))
    (fuel' : Nat) :
    ∃ eg', EGraph.rebuild (A.at depth) (fuel' + 1) eg = .ok (eg', 0) ∧ eg'.classes = eg.classes ∧
      (∀ i, eg'.find i = eg.find i) ∧ (∀ n, eg'.lookup n = eg.lookup n) ∧
      (∀ d, eg'.classesForOp d = eg.classesForOp d) := by
  obtain ⟨hg, ht⟩ := rebuilt_tidy h0 hr
  have hh := hr
  unfold EGraph.rebuild at hh
  rw [bind_eq_ok] at hh
  obtain ⟨⟨eg1, k1⟩, h1, h2⟩ := hh
  rw [bind_eq_ok] at h2
  obtain ⟨⟨eg2, t⟩, h3, h4⟩ := h2
  cases h4
  have hg1 := ((EGraph.processUnions_post trivial ((soundFor_true A).hookOK trivial depth) fuel eg0 0
    (hist_good h0)).elim h1).1
  obtain ⟨eg3, t3, g1, g2, _, g4, _⟩ := EGraph.rebuildClasses_good hg1
    ((EGraph.processUnions_post trivial ((soundFor_true A).hookOK trivial depth) fuel eg0 0 (hist_good h0)).elim h1).2.2.1
    ((EGraph.processUnions_post trivial ((soundFor_true A).hookOK trivial depth) fuel eg0 0 (hist_good h0)).elim h1).2.2.2
  rw [h3] at g1; cases g1
  obtain ⟨uf, b, t', q1, q2, q3⟩ := EGraph.rebuildClasses_fixed hg1.inv h3 g2.inv g4
  have hf : ∀ i, UF.find uf i = UF.find eg2.uf i := by
    intro i
    by_cases hi : i < eg2.uf.length
    · rw [UF.find_eq_ok g2.inv.wf hi, UF.find_eq_ok q2.wf (by rw [q2.len]; exact hi), q2.root]
    · rw [UF.find_error_of_ge hi, UF.find_error_of_ge (by rw [q2.len]; exact hi)]
  have hrb : EGraph.rebuildClasses { eg2 with clean := true } =
      .ok ({ eg2 with uf := uf, byOp := b, clean := true }, t') := by
    unfold EGraph.rebuildClasses at q1 ⊢
    rw [bind_eq_ok] at q1
    obtain ⟨⟨u1, b1, c1, t1⟩, z1, z2⟩ := q1
    simp only [z1, ok_bind]
    simp only [pure_eq_ok, Except.ok.injEq, Prod.mk.injEq] at z2 ⊢
    obtain ⟨z3, rfl⟩ := z2
    have e1 : u1 = uf := congrArg EGraph.uf z3
    have e2 : b1 = b := congrArg EGraph.byOp z3
    have e3 : c1 = eg2.classes := congrArg EGraph.classes z3
    subst e1 e2 e3
    exact ⟨rfl, rfl⟩
  refine ⟨{ eg2 with uf := uf, byOp := b, clean := true }, ?_, rfl, hf, ?_, q3⟩
  · unfold EGraph.rebuild EGraph.processUnions
    have hp : eg2.pending = [] := ht.pending
    have ha : eg2.apending.queue = [] := ht.apending
    have hc : (({ eg2 with clean := true } : EGraph Op D).pending.isEmpty &&
        ({ eg2 with clean := true } : EGraph Op D).apending.isEmpty) = true := by
      simp [hp, UniqueQueue.isEmpty, ha]
    rw [if_pos hc, ok_bind]
    dsimp only
    rw [hrb]
    rfl
  · intro n
    have : (({ eg2 with uf := uf, byOp := b, clean := true } : EGraph Op D).find) =
        ({ eg2 with clean := true } : EGraph Op D).find := funext hf
    simp only [EGraph.lookup, EGraph.lookupInternal, EGraph.canon, this]

/-- A rebuilt e-graph with a merged class. -/
example : Hist (Ex.U0.at 1) .noSet [Ex.un] Ex.e5 ∧
    EGraph.rebuild (Ex.U0.at 1) 20 Ex.e5 = .ok (Ex.e6, 1) ∧ Ex.e6.classes.length = 2 ∧
    Ex.e6.classesForOp .f = some [2] := ⟨Ex.hist5 _, rfl, rfl, rfl⟩

/-! ### C09 -/

theorem FiniteImprovement.quietHook {α : Type} [Preorder α] {A : UserAnalysis Op D} {rank : D → α}
    (hA : FiniteImprovement A rank) {depth : Nat} : EGraph.Quiet (A.at (depth + 1)) := by
  intro eg i
  show (A.modify i).run (A.at depth) eg = _
  rw [hA.quiet]; rfl

theorem FiniteImprovement.hookOK {α : Type} [Preorder α] {A : UserAnalysis Op D} {rank : D → α}
    (hA : FiniteImprovement A rank) {depth : Nat} :
    EGraph.HookOK (Cfg.ofR (fun _ _ => True) isCongruence_true anyReason) (fun _ => False) (A.at (depth + 1)) := by
  refine ⟨?_, ?_, fun _ _ => trivial, fun _ _ => trivial, fun _ _ => trivial, fun _ _ => trivial,
    fun _ _ _ => trivial, fun _ _ _ => trivial, ?_⟩
  · intro eg n i ds hd
    obtain ⟨d, h⟩ := hA.make eg n i ds hd
    show Post _ (A.make eg n i) _
    rw [h]; exact ⟨trivial, fun _ _ => trivial, fun _ _ => trivial⟩
  · intro eg n i ds hd
    obtain ⟨d, h⟩ := hA.remake eg n i ds hd
    show Post _ (A.remake eg n i) _
    rw [h]; exact ⟨trivial, fun _ _ => trivial, fun _ _ => trivial⟩
  · intro eg i hg _
    rw [hA.quietHook]; exact ⟨hg, EGraph.Ext.refl _⟩

/-- **C09.**  For an analysis that can improve a datum only finitely often and has
a quiet hook, `rebuild` terminates on every reachable e-graph: from some amount of
fuel on it returns, always with the same result. -/
theorem c09_rebuild_terminates {α : Type} [Preorder α] [WellFoundedLT α] {A : UserAnalysis Op D} {rank : D → α}
    (hA : FiniteImprovement A rank) {depth : Nat} {allow : Caller Op D} {U : List (UnionRec Op)}
    {eg : EGraph Op D} (h : Hist (A.at (depth + 1)) allow U eg) :
    ∃ f0 r, ∀ fuel, f0 ≤ fuel → EGraph.rebuild (A.at (depth + 1)) fuel eg = .ok r := by
  exact EGraph.rebuild_term hA.quietHook hA.hookOK (rank := rank) hA.le hA.lt (hist_good h)

/-- A fuel that suffices is not hidden in the statement: more fuel never changes
a result. -/
theorem c09_fuel_irrelevant {N : Analysis Op D} {eg : EGraph Op D} {f f' : Nat} {r r'}
    (h : EGraph.rebuild N f eg = .ok r) (h' : EGraph.rebuild N f' eg = .ok r') : r = r' := by
  rcases Nat.le_total f f' with hf | hf
  · have := EGraph.rebuild_mono hf h; rw [h'] at this; cases this; rfl
  · have := EGraph.rebuild_mono hf h'; rw [h] at this; cases this; rfl

/-! ### C10 -/

/-- The analysis' own code does not panic when used as documented: `make`,
`remake` succeed when the children have classes, the hook passes only valid ids. -/
abbrev NoUserPanic (A : UserAnalysis Op D) : Prop :=
  A.OK (Cfg.ofR (fun _ _ => True) isCongruence_true anyReason) (fun e => e = .fuel)

/-- **C10.**  In every state of every history, calls with valid ids do not panic:
`find`, `egraph[id]`, `lookup` return; `add`, `add_expr`, `union`,
`set_analysis_data` and `rebuild` return or run on (out of fuel), but never hit a
panic (out-of-range index, missing class, failed assertion). -/
theorem c10_no_panic {A : UserAnalysis Op D} (hA : NoUserPanic A) {depth : Nat}
    {allow : Caller Op D} {U : List (UnionRec Op)} {eg : EGraph Op D}
    (h : Hist (A.at depth) allow U eg) :
    (∀ i, Valid eg i → ∃ k, eg.index i = .ok k) ∧
    (∀ n : ENode Op, (∀ c ∈ n.children, Valid eg c) → (∃ o, eg.lookup n = .ok o) ∧
      EGraph.add (A.at depth) eg n ≠ .error .panic ∧ EGraph.addUncanonical (A.at depth) eg n ≠ .error .panic) ∧
    (∀ a b caller, Valid eg a → Valid eg b → EGraph.union (A.at depth) eg a b caller ≠ .error .panic ∧
      EGraph.unionTrusted (A.at depth) eg a b caller ≠ .error .panic) ∧
    (∀ i d, Valid eg i → EGraph.setAnalysisData (A.at depth) eg i d ≠ .error .panic) ∧
    (∀ e : List (ENode Op), WFExpr e → EGraph.addExpr (A.at depth) eg e ≠ .error .panic ∧
      ∃ o, eg.lookupExpr e = .ok o) ∧
    (∀ fuel, EGraph.rebuild (A.at depth) fuel eg ≠ .error .panic) := by
  have hg := hist_good h
  have hN := UserAnalysis.OK.hookOK (E := fun e => e = .fuel) rfl hA depth
  have np : ∀ {α : Type} {x : Res α} {P : α → Prop}, Post (fun e => e = Err.fuel) x P → x ≠ .error .panic := by
    intro α x P hp hx
    rw [hx] at hp
    cases hp
  refine ⟨?_, ?_, ?_, ?_, ?_, ?_⟩
  · intro i hi
    obtain ⟨k, hk, _⟩ := hg.inv.index (hg.valid_iff.1 hi)
    exact ⟨k, hk⟩
  · intro n hn
    have hn' : ∀ c ∈ n.children, c < eg.nodes.length := fun c hc => hg.valid_iff.1 (hn c hc)
    obtain ⟨o, ho, _⟩ := EGraph.lookup_ok hg.inv hn'
    exact ⟨⟨o, ho⟩, np (EGraph.Good.add_post hN hg hn), np (EGraph.addUncanonical_post hN hg hn')⟩
  · intro a b caller ha hb
    obtain ⟨s, hs⟩ := hg.sensible.inhabited a ha
    obtain ⟨t, ht⟩ := hg.sensible.inhabited b hb
    have := EGraph.Good.union_post (caller := caller) hN hg hs ht trivial trivial
    exact ⟨np this.1, np this.2⟩
  · intro i d hi
    exact np (EGraph.Good.setData_post hN hg hi ⟨fun _ _ => ⟨trivial, trivial⟩, fun _ _ => trivial⟩)
  · intro e he
    constructor
    · exact np (EGraph.addExpr_post hN (Or.inl ⟨he.1, he.2⟩) hg)
    · obtain ⟨o, h1, _⟩ := EGraph.lookupExprIdsGo_ok hg.inv he.2 e [] [] (by simp) rfl (by intro k i hi; simp at hi)
      cases o with
      | none => exact ⟨none, by simp [EGraph.lookupExpr, EGraph.lookupExprIds, h1]⟩
      | some ids => exact ⟨ids.getLast?, by simp [EGraph.lookupExpr, EGraph.lookupExprIds, h1]⟩
  · intro fuel
    exact np (EGraph.rebuild_post (E := fun e => e = .fuel) rfl hN fuel hg)

/-! ### C11 -/

/-- **C11.**  After `rebuild`: every class key is its own `find`; e-nodes listed in
a class have canonical children and are strictly sorted; an e-node is listed in at
most one class; and the list of class `c` consists of exactly the canonical forms
of the e-nodes added under ids that are now in class `c`. -/
theorem c11_partition {A : UserAnalysis Op D} {depth : Nat} {allow : Caller Op D}
    {U : List (UnionRec Op)} {eg0 eg : EGraph Op D} {fuel k : Nat}
    (h0 : Hist (A.at depth) allow U eg0) (hr : EGraph.rebuild (A.at depth) fuel eg0 = .ok (eg, k)) :
    (∀ c, (∃ cl, eg.classes.get? c = some cl) ↔ eg.find c = .ok c) ∧
    (∀ c cl, eg.classes.get? c = some cl →
      (∀ n ∈ cl.nodes, ∀ ch ∈ n.children, eg.find ch = .ok ch) ∧
      cl.nodes.Pairwise (fun x y => Lang.le x y = true ∧ x ≠ y) ∧
      (∀ n, n ∈ cl.nodes ↔ ∃ i m, eg.idToNode i = .ok m ∧ eg.find i = .ok c ∧ eg.canon m = .ok n)) ∧
    (∀ c c' cl cl' n, eg.classes.get? c = some cl → eg.classes.get? c' = some cl' → n ∈ cl.nodes → n ∈ cl'.nodes →
      c = c') := by
  obtain ⟨hg, ht⟩ := rebuilt_tidy h0 hr
  have hcanon : ∀ c cl, eg.classes.get? c = some cl → ∀ n ∈ cl.nodes, ∀ m, Cong eg.rt n m → n = m.mapChildren eg.rt := by
    intro c cl hk n hn m hc
    rw [← ht.canon c cl hk n hn]
    exact cong_iff_canon.1 hc
  refine ⟨?_, ?_, ?_⟩
  · intro c
    rw [hg.inv.find_iff, ← hg.inv.core.clsKey]
    constructor
    · rintro ⟨cl, hcl⟩; simp [EGraph.sk, hcl]
    · intro hs
      obtain ⟨s, hs⟩ := Option.isSome_iff_exists.1 hs
      obtain ⟨cl, hcl, _⟩ := EGraph.cls_of_sk hs
      exact ⟨cl, hcl⟩
  · intro c cl hk
    refine ⟨?_, ht.sorted c cl hk, ?_⟩
    · intro n hn ch hch
      rw [hg.inv.find_iff]
      refine ⟨hg.inv.core.clsNodeLt (EGraph.sk_eq hk) hn ch hch, ?_⟩
      have := congrArg ENode.children (ht.canon c cl hk n hn)
      simp only [ENode.mapChildren] at this
      have h2 : n.children.map eg.rt = n.children.map id := by rw [this, List.map_id]
      exact List.map_inj_left.1 h2 ch hch
    · intro n
      constructor
      · intro hn
        obtain ⟨i, m, h1, h2, h3⟩ := hg.inv.core.clsNodes c _ (EGraph.sk_eq hk) n hn
        refine ⟨i, m, getIdx_eq_ok.2 h1, hg.inv.find_iff.2 ⟨getElem?_lt h1, h2⟩, ?_⟩
        rw [hg.inv.canon (fun ch hch => hg.inv.core.childLt h1 hch), ← hcanon c cl hk n hn m h3]
      · rintro ⟨i, m, h1, h2, h3⟩
        have h1 := getIdx_eq_ok.1 h1
        rw [hg.inv.find_iff] at h2
        rw [hg.inv.canon (fun ch hch => hg.inv.core.childLt h1 hch)] at h3
        cases h3
        obtain ⟨s, n2, q1, q2, q3⟩ := hg.inv.core.nodesCls i m h1
        rw [h2.2] at q1
        obtain ⟨cl', hcl', rfl⟩ := EGraph.cls_of_sk q1
        rw [hk] at hcl'; cases hcl'
        rw [← hcanon c cl hk n2 q2 m q3]
        exact q2
  · intro c c' cl cl' n hk hk' hn hn'
    obtain ⟨i, m, h1, h2, h3⟩ := hg.inv.core.clsNodes c _ (EGraph.sk_eq hk) n hn
    obtain ⟨i', m', h1', h2', h3'⟩ := hg.inv.core.clsNodes c' _ (EGraph.sk_eq hk') n hn'
    have := EGraph.InvW.congruent_eq hg.inv ht.pending h1 h1' (h3.symm.trans h3')
    rw [h2, h2'] at this
    exact this

/-! ### C12 -/

/-- **C12.**  After `rebuild`, `classes_for_op(d)` lists, without repetition,
exactly the canonical ids of the classes that contain an e-node with
discriminant `d` (no entry means that there are none). -/
theorem c12_operator_index {A : UserAnalysis Op D} {depth : Nat} {allow : Caller Op D}
    {U : List (UnionRec Op)} {eg0 eg : EGraph Op D} {fuel k : Nat}
    (h0 : Hist (A.at depth) allow U eg0) (hr : EGraph.rebuild (A.at depth) fuel eg0 = .ok (eg, k))
    (d : Lang.Disc Op) :
    (∀ l, eg.classesForOp d = some l → l.Nodup) ∧
    ∀ x, (∃ l, eg.classesForOp d = some l ∧ x ∈ l) ↔
      eg.find x = .ok x ∧ ∃ cl, eg.index x = .ok cl ∧ ∃ n ∈ cl.nodes, Lang.disc n.op = d := by
  obtain ⟨hg, ht⟩ := rebuilt_tidy h0 hr
  refine ⟨fun l hl => ht.ixNodup d l hl, ?_⟩
  intro x
  refine (ht.index d x).trans ?_
  constructor
  · rintro ⟨cl, h1, h2⟩
    have := (hg.inv.core.clsKey x).1 (by simp [EGraph.sk, h1])
    exact ⟨hg.inv.find_iff.2 this, cl, hg.inv.index_iff.2 ⟨this.1, by rw [this.2]; exact h1⟩, h2⟩
  · rintro ⟨h1, cl, h2, h3⟩
    rw [hg.inv.find_iff] at h1
    rw [hg.inv.index_iff, h1.2] at h2
    exact ⟨cl, h2.2, h3⟩

/-! ### C13 -/

theorem NoSet.safe {A : UserAnalysis Op D} {le : D → D → Prop} {C : Cfg Op D} (hR : ∀ s t, C.R s t)
    (hJ : ∀ r a b, C.J r a b) (N : Analysis Op D) :
    ∀ (p : Prog Op D) (eg : EGraph Op D), p.NoSet → Sensible C eg → p.Safe C anyErr N eg := by
  intro p
  induction p with
  | done => intro eg _ _; trivial
  | panic => intro eg _ _; trivial
  | read k ih => intro eg hp h; exact ih eg eg (hp eg) h
  | add n k ih => intro eg hp h; exact ⟨Or.inr trivial, fun eg' i _ hl _ => ih i eg' (hp i) hl.sensible⟩
  | union a b caller k ih =>
    intro eg hp h
    refine ⟨Or.inr trivial, ?_, fun eg' r _ hl _ => ih r eg' (hp r) hl.sensible⟩
    intro ha hb
    obtain ⟨s, hs⟩ := h.inhabited a ha
    obtain ⟨t, ht⟩ := h.inhabited b hb
    exact ⟨⟨s, t, hs, ht, hR _ _⟩, hJ _ _ _⟩
  | setData i d k ih => intro eg hp h; exact False.elim hp

/-- The order part of a join analysis as a configuration. -/
def JoinAnalysis.cfg {A : UserAnalysis Op D} {le : D → D → Prop} {mk : Op → List D → D}
    (h : JoinAnalysis A le mk) : Cfg Op D where
  R := fun _ _ => True
  isCong := isCongruence_true
  J := anyReason
  optimized := True
  V := fun _ _ => True
  vResp := fun _ _ => trivial
  le := le
  leRefl := h.refl
  leTrans := h.trans
  B := fun op ds u => le (mk op ds) u
  bUp := fun h1 h2 => h.trans h1 h2
  bAnti := fun h1 h2 => h.trans (h.mono h1) h2

theorem JoinAnalysis.ok {A : UserAnalysis Op D} {le : D → D → Prop} {mk : Op → List D → D}
    (h : JoinAnalysis A le mk) : A.OK h.cfg anyErr where
  make := fun eg n i ds hd => by
    rw [h.make hd]; exact ⟨h.refl _, fun _ hu => hu, fun _ _ => trivial⟩
  remake := fun eg n i ds hd => by
    rw [h.remake hd]; exact ⟨h.refl _, fun _ hu => hu, fun _ _ => trivial⟩
  mergeV := fun _ _ => trivial
  mergeL := h.left
  mergeR := h.right
  mergeLub := fun h1 h2 => h.lub h1 h2
  flagL := h.flagL
  flagR := h.flagR
  modify := fun depth eg i hs _ =>
    NoSet.safe (A := A) (le := le) (fun _ _ => trivial) (fun _ _ _ => trivial) _ _ eg (h.noSet i) hs

theorem EGraph.InvW.childData_iff {W : Id → Id → Prop} {C : Cfg Op D} {eg : EGraph Op D} (h : EGraph.InvW W C eg)
    {n : ENode Op} (hn : ∀ c ∈ n.children, c < eg.nodes.length) {ds : List D} :
    EGraph.ChildData eg n ds ↔ List.Forall₂ (fun r d => eg.dt r = some d) (n.children.map eg.rt) ds := by
  rw [List.forall₂_map_left_iff]
  constructor
  · intro hc
    refine forall₂_mono_mem hc ?_
    rintro c hcm d _ ⟨k, h1, h2⟩
    rw [h.index_iff] at h1
    simp [EGraph.dt, h1.2, h2]
  · intro hc
    refine forall₂_mono_mem hc ?_
    intro c hcm d _ hd
    obtain ⟨k, h1, h2⟩ := h.index (hn c hcm)
    simp only [EGraph.dt, h2, Option.map_some, Option.some.injEq] at hd
    exact ⟨k, h1, hd⟩

/-- **C13.**  For a join analysis (whose hook may add and union, but not overwrite
data), after `rebuild` the datum of every class is the least upper bound of
`mk` over the e-nodes of the class, evaluated at the children's data. -/
theorem c13_analysis_invariant {A : UserAnalysis Op D} {le : D → D → Prop} {mk : Op → List D → D}
    (hA : JoinAnalysis A le mk) {depth : Nat} {U : List (UnionRec Op)} {eg0 eg : EGraph Op D} {fuel k : Nat}
    (h0 : Hist (A.at depth) (EquivSet le) U eg0) (hr : EGraph.rebuild (A.at depth) fuel eg0 = .ok (eg, k))
    {i : Id} {cl : EClass Op D} (hi : eg.index i = .ok cl) :
    (∀ n ∈ cl.nodes, ∃ ds, EGraph.ChildData eg n ds ∧ le (mk n.op ds) cl.data) ∧
    (∀ u, (∀ n ∈ cl.nodes, ∀ ds, EGraph.ChildData eg n ds → le (mk n.op ds) u) → le cl.data u) := by
  have hN := hA.ok.hookOK trivial depth
  have hg0 : EGraph.Good hA.cfg eg0 := (EGraph.Hist.good hN
    (fun eg i d _ ha => ⟨ha, fun _ _ => trivial⟩) h0 (fun _ _ => ⟨trivial, trivial⟩)).1
  obtain ⟨hg, _, ht, _⟩ := (EGraph.rebuild_post trivial hN fuel hg0).elim hr
  rw [hg.inv.index_iff] at hi
  obtain ⟨hil, hi⟩ := hi
  have hdt : eg.dt (eg.rt i) = some cl.data := by simp [EGraph.dt, hi]
  constructor
  · intro n hn
    have hnl := hg.inv.core.clsNodeLt (EGraph.sk_eq hi) hn
    obtain ⟨ds, hds⟩ := EGraph.cd_exists hg.inv hnl
    have hds' : List.Forall₂ (fun r d => eg.dt r = some d) (n.children.map eg.rt) ds :=
      List.forall₂_map_left_iff.2 hds
    refine ⟨ds, (hg.inv.childData_iff hnl).2 hds', ?_⟩
    obtain ⟨j, m, h1, h2, h3⟩ := hg.inv.core.clsNodes _ _ (EGraph.sk_eq hi) n hn
    obtain ⟨r, nr, h4, h5, h6, h7⟩ := hg.inv.core.cov j m h1
    rcases hg.data.acc r nr h4 h5 with ⟨hin, _⟩ | hacc
    · rw [ht.apending] at hin; simp at hin
    · have hc := h3.trans h6
      have := hacc cl.data ds (by rw [h7, h2]; exact hdt) (by
        have := hds'
        rw [hc.2, List.forall₂_map_left_iff] at this
        exact this)
      rw [← hc.1] at this
      exact this
  · intro u hu
    refine hg.data.least (eg.rt i) cl.data hdt u ?_
    intro j m ds h1 h2 hcd
    obtain ⟨s, n2, q1, q2, q3⟩ := hg.inv.core.nodesCls j m h1
    rw [h2] at q1
    obtain ⟨cl', hcl', rfl⟩ := EGraph.cls_of_sk q1
    rw [hi] at hcl'; cases hcl'
    show le (mk m.op ds) u
    rw [← q3.1]
    refine hu n2 q2 ds ((hg.inv.childData_iff (hg.inv.core.clsNodeLt q1 q2)).2 ?_)
    rw [q3.2, List.forall₂_map_left_iff]
    exact hcd

theorem Ex.kids_of_childData {D : Type} {eg : EGraph Ex.S D} {n : ENode Ex.S} {ds : List D}
    (h : EGraph.ChildData eg n ds) : Ex.kids eg n = .ok ds := by
  unfold Ex.kids EGraph.ChildData at *
  generalize n.children = cs at h
  induction h with
  | nil => rfl
  | cons h1 _ ih =>
    obtain ⟨k, h2, rfl⟩ := h1
    rw [List.mapM_cons, ih, h2]
    rfl

/-- "Some term of the class contains `a`" is a join analysis, and on the example
the datum of the class of `f b` becomes true when `b` is united with `a`. -/
theorem Ex.joinUA : JoinAnalysis Ex.UA (fun a b => a = true → b = true) Ex.containsA where
  refl := fun _ h => h
  trans := fun h1 h2 h => h2 (h1 h)
  mono := by
    intro op ds ds' h
    unfold Ex.containsA
    simp only [Bool.or_eq_true, List.any_eq_true, id]
    rintro (h1 | ⟨x, hx, hx'⟩)
    · exact Or.inl h1
    · obtain ⟨y, hy, hxy⟩ := forall₂_mem_left h hx
      exact Or.inr ⟨y, hy, hxy hx'⟩
  make := fun h => by simp [Ex.UA, Ex.kids_of_childData h]
  remake := fun h => by simp [Ex.UA, Ex.kids_of_childData h]
  left := by intro a b; cases a <;> cases b <;> simp [Ex.UA]
  right := by intro a b; cases a <;> cases b <;> simp [Ex.UA]
  lub := by intro a b u; cases a <;> cases b <;> simp [Ex.UA]
  flagL := by intro a b; cases a <;> cases b <;> simp [Ex.UA]
  flagR := by intro a b; cases a <;> cases b <;> simp [Ex.UA]
  noSet := fun _ => trivial

example : Hist (Ex.UA.at 1) (EquivSet (fun a b => a = true → b = true)) [Ex.una] Ex.a4 ∧
    EGraph.rebuild (Ex.UA.at 1) 20 Ex.a4 = .ok (Ex.a5, 0) ∧
    (∃ cl, Ex.a4.index 1 = .ok cl ∧ cl.data = false) ∧ (∃ cl, Ex.a5.index 1 = .ok cl ∧ cl.data = true) :=
  ⟨Ex.hista4 _, Ex.reba5, ⟨_, rfl, rfl⟩, ⟨_, rfl, rfl⟩⟩

/-- C09's hypothesis holds of this analysis. -/
example : FiniteImprovement Ex.UA (fun d : Bool => if d then 0 else 1) where
  le := by intro a b; cases a <;> cases b <;> decide
  lt := by intro a b; cases a <;> cases b <;> decide
  make := fun eg n i ds hd => ⟨_, Ex.joinUA.make hd⟩
  remake := fun eg n i ds hd => ⟨_, Ex.joinUA.remake hd⟩
  quiet := fun _ => rfl

/-- C10's hypothesis holds of this analysis. -/
example : NoUserPanic Ex.UA where
  make := fun eg n i ds hd => by
    simp only [Ex.UA, Ex.kids_of_childData hd, ok_bind]; exact ⟨trivial, fun _ _ => trivial, fun _ _ => trivial⟩
  remake := fun eg n i ds hd => by
    simp only [Ex.UA, Ex.kids_of_childData hd, ok_bind]; exact ⟨trivial, fun _ _ => trivial, fun _ _ => trivial⟩
  mergeV := fun _ _ => trivial
  mergeL := fun _ _ => trivial
  mergeR := fun _ _ => trivial
  mergeLub := fun _ _ => trivial
  flagL := fun _ _ _ => trivial
  flagR := fun _ _ _ => trivial
  modify := fun _ _ _ _ _ => trivial

/-! ### C47 -/

/-- **C47.**  In every state of every history, whatever the analysis and its
hooks do: when the `clean` flag is set there is no unfinished congruence work. -/
theorem c47_clean_means_rebuilt {A : UserAnalysis Op D} {depth : Nat} {allow : Caller Op D}
    {U : List (UnionRec Op)} {eg : EGraph Op D} (h : Hist (A.at depth) allow U eg) (hc : eg.clean = true) :
    Rebuilt eg :=
  (EGraph.Hist.clean (soundFor_true A) (fun _ _ _ _ _ => ⟨fun _ _ => ⟨trivial, trivial⟩, fun _ _ => trivial⟩) h
    (fun _ _ => ⟨trivial, trivial⟩) (fun _ => trivial) hc).rebuilt (hist_good h).inv

/-- The flag is set by `rebuild`, and kept by adding an e-node that is present. -/
example : Ex.e6.clean = true ∧ Ex.e5.clean = false ∧
    (∃ eg i, EGraph.addUncanonical Ex.N0 Ex.e6 (Ex.app .f [1]) = .ok (eg, i) ∧ eg.clean = true) ∧
    (∃ eg i, EGraph.addUncanonical Ex.N0 Ex.e6 (Ex.app .g [1]) = .ok (eg, i) ∧ eg.clean = false) :=
  ⟨rfl, rfl, ⟨_, _, rfl, rfl⟩, ⟨_, _, rfl, rfl⟩⟩

/-- The flag says nothing about analysis data: `set_analysis_data` leaves it set
although the parents of the class are queued for recomputation. -/
theorem c47_set_data_counterexample : ∃ eg : EGraph Ex.S Bool, Hist Ex.NA .all [Ex.una] eg ∧
    eg.clean = true ∧ eg.apending.queue ≠ [] := by
  refine ⟨_, .tail (V := []) (.tail (V := []) (Ex.hista4 _) (.rebuild Ex.reba5))
    (.setData (i := 0) (d := false) trivial rfl), rfl, by decide⟩

/-- C11 and C12 on the example: after the rebuild the classes `{a, b}` and
`{f a, f b}` are listed with one sorted list each, and the index agrees. -/
example : (∃ cl, Ex.e6.index 1 = .ok cl ∧ cl.nodes = [Ex.leaf .a, Ex.leaf .b]) ∧
    (∃ cl, Ex.e6.index 3 = .ok cl ∧ cl.nodes = [Ex.app .f [0]]) ∧
    Ex.e6.classesForOp .a = some [0] ∧ Ex.e6.classesForOp .g = none :=
  ⟨⟨_, rfl, rfl⟩, ⟨_, rfl, rfl⟩, rfl, rfl⟩

end Egg
