import Verif.Lemmas.ExtractBy
import Verif.Props.Extract
import Verif.Props.Rebuild
/-
C96: extraction with cost functions that look at the e-graph.
-/
namespace Egg
variable {Op D Cost : Type}

section
variable [DecidableEq Op] [Lang Op] {A : UserAnalysis Op D} {depth : Nat} {allow : Caller Op D}
  {U : List (UnionRec Op)} {eg : EGraph Op D} {cf : NodeCostFn Op Cost} {ks : List (EClass Op D)}

/-- **C96.**  The terms that can be read off the class of `c` at some cost are exactly
the terms represented in it. -/
theorem c96_has_cost (h : Hist (A.at depth) allow U eg) (cf : NodeCostFn Op Cost) (c : Id) (t : Term Op) :
    (∃ v, CostIn cf eg c t v) ↔ Rep eg c t :=
  ⟨fun ⟨v, hv⟩ => ByNode.costIn_rep (hist_good h).inv.classInv t c v hv, ByNode.rep_costIn (hist_good h).inv.classInv cf t c⟩

theorem ByNode.costIn_unique {C : Cfg Op D} (hi : EGraph.Inv C eg) (ht : eg.Tidy) : ∀ (t : Term Op) {c d : Id} {v w : Cost},
    CostIn cf eg c t v → CostIn cf eg d t w → v = w := by
  intro t
  induction t using Term.ind with
  | h op ts ih =>
    intro c d v w h1 h2
    have hrt : eg.rt c = eg.rt d :=
      EGraph.InvW.rep_unique hi ht.pending _ (ByNode.costIn_rep hi.classInv _ _ _ h1) (ByNode.costIn_rep hi.classInv _ _ _ h2)
    rw [ByNode.costIn_iff hi.classInv] at h1 h2
    obtain ⟨_, k, n, ps, a1, a2, a3, a4, a5, rfl⟩ := h1
    obtain ⟨_, k', n', ps', b1, b2, b3, b4, b5, rfl⟩ := h2
    rw [hrt, b1] at a1
    cases a1
    -- the children are the same ids, and the costs the same
    have hc1 : ∀ d ∈ n.children, eg.rt d = d := by
      have := congrArg ENode.children (ht.canon _ _ b1 n a2)
      exact fun d hd => List.map_inj_left.1 (this.trans (List.map_id _).symm) d hd
    have hc2 : ∀ d ∈ n'.children, eg.rt d = d := by
      have := congrArg ENode.children (ht.canon _ _ b1 n' b2)
      exact fun d hd => List.map_inj_left.1 (this.trans (List.map_id _).symm) d hd
    have key : ∀ (l l' : List Id) (ps ps' : List (Term Op × Cost)), (∀ d ∈ l, eg.rt d = d) → (∀ d ∈ l', eg.rt d = d) →
        (∀ p ∈ ps, p.1 ∈ ts) →
        List.Forall₂ (fun d (p : Term Op × Cost) => CostIn cf eg d p.1 p.2) l ps →
        List.Forall₂ (fun d (p : Term Op × Cost) => CostIn cf eg d p.1 p.2) l' ps' →
        ps.map Prod.fst = ps'.map Prod.fst → l = l' ∧ ps.map Prod.snd = ps'.map Prod.snd := by
      intro l l' ps ps' q1 q2 q3 q4
      induction q4 generalizing l' ps' with
      | nil =>
        intro q5 q6
        cases q5 with
        | nil => exact ⟨rfl, rfl⟩
        | cons _ _ => simp at q6
      | @cons d p l ps x1 x2 ih' =>
        intro q5 q6
        cases q5 with
        | nil => simp at q6
        | @cons d' p' l' ps' y1 y2 =>
          simp only [List.map_cons, List.cons.injEq] at q6
          obtain ⟨e1, e2⟩ := ih' l' ps' (fun d hd => q1 d (by simp [hd])) (fun d hd => q2 d (by simp [hd]))
            (fun p hp => q3 p (by simp [hp])) y2 q6.2
          rw [← q6.1] at y1
          have hdd : eg.rt d = eg.rt d' :=
            EGraph.InvW.rep_unique hi ht.pending _ (ByNode.costIn_rep hi.classInv _ _ _ x1) (ByNode.costIn_rep hi.classInv _ _ _ y1)
          rw [q1 d (by simp), q2 d' (by simp)] at hdd
          have hv := ih p.1 (q3 p (by simp)) x1 y1
          exact ⟨by rw [hdd, e1], by simp [hv, e2]⟩
    obtain ⟨e1, e2⟩ := key _ _ ps ps' hc1 hc2 (fun p hp => by rw [a5]; exact List.mem_map_of_mem hp) a4 b4 (a5.symm.trans b5)
    have hn : n = n' := by
      obtain ⟨o, l⟩ := n
      obtain ⟨o', l'⟩ := n'
      simp only at e1 a3 b3
      rw [e1, a3, b3]
    rw [hn, e2]

/-- **C96.**  In a rebuilt e-graph a represented term has one cost only, in whatever class
and along whatever e-nodes it is read off. -/
theorem c96_cost_unique {eg0 : EGraph Op D} {fuel k : Nat} (h0 : Hist (A.at depth) allow U eg0)
    (hr : EGraph.rebuild (A.at depth) fuel eg0 = .ok (eg, k)) {c d : Id} {t : Term Op} {v w : Cost}
    (hv : CostIn cf eg c t v) (hw : CostIn cf eg d t w) : v = w := by
  obtain ⟨hg, ht⟩ := rebuilt_tidy h0 hr
  exact ByNode.costIn_unique hg.inv ht t hv hw

/-- **C96.**  In every state of every history, for every admissible cost function, which
may look at the e-nodes and so at the e-graph, and every order in which the class table is
iterated, `Extractor::new` terminates, without panic, after at most one pass more than
there are classes. -/
theorem c96_new_terminates (h : Hist (A.at depth) allow U eg) (hcf : cf.OK) (hks : ks.Perm (eg.classes.map Prod.snd))
    {passes : Nat} (hp : eg.classes.length < passes) : ∃ x, ByNode.new cf eg ks passes = .ok x := by
  have hi := (hist_good h).inv
  exact ByNode.new_total hcf hi.classInv hks (fun k hk => ((classes_ok hi hks k).2 hk).ne) hp

/-- **C96.**  For every id `c` of the e-graph `find_best(c)` terminates without panic and
returns a cost and a well-formed expression whose term can be read off the class of `c` at
just that cost; and no term of the class can be read off at a smaller cost. -/
theorem c96_find_best (h : Hist (A.at depth) allow U eg) (hcf : cf.OK) (hks : ks.Perm (eg.classes.map Prod.snd))
    {passes : Nat} {x : Extractor Op Cost} (hx : ByNode.new cf eg ks passes = .ok x) {c : Id} (hc : Valid eg c) :
    ∃ fuel cost e t v, (∀ f, fuel ≤ f → x.findBest eg f c = .ok (cost, e)) ∧ x.findBestCost eg c = .ok cost ∧
      WFExpr e ∧ ExprTerm e t ∧ Rep eg c t ∧ CostIn cf eg c t v ∧ cf.Same cost v ∧
      ∀ t' v', CostIn cf eg c t' v' → cf.Le cost v' := by
  have hg := hist_good h
  have hi := hg.inv
  have hd := ByNode.new_done hcf hi.classInv hks (fun k hk => ((classes_ok hi hks k).2 hk).ne) hx
  rw [hg.valid_iff] at hc
  obtain ⟨t0, h0⟩ := hi.exists_rep hc
  obtain ⟨v0, h0⟩ := ByNode.rep_costIn hi.classInv cf t0 c h0
  exact hd.best hcf hi.classInv h0

/-! ### Cost functions that only look at the operator -/

theorem byNode_cmpCost (cf : CostFn Op Cost) (a b : Option Cost) : ByNode.cmpCost cf.byNode a b = cmpCost cf a b := by
  cases a <;> cases b <;> rfl

theorem byNode_minByGo (cf : CostFn Op Cost) : ∀ (l : List (Option Cost × ENode Op)) (b : Option Cost × ENode Op),
    ByNode.minByGo cf.byNode b l = minByGo cf b l
  | [], _ => rfl
  | x :: l, b => by
    simp only [ByNode.minByGo, minByGo, byNode_cmpCost]
    congr 1
    funext o
    exact byNode_minByGo cf l _

theorem byNode_makePass (cf : CostFn Op Cost) (eg : EGraph Op D) (costs : Costs Op Cost) (k : EClass Op D) :
    ByNode.makePass cf.byNode eg costs k = makePass cf eg costs k := by
  have h : ByNode.costed cf.byNode eg costs = costed cf eg costs := rfl
  simp only [ByNode.makePass, makePass, h, byNode_minByGo]
  congr 1

theorem byNode_costPass (cf : CostFn Op Cost) (eg : EGraph Op D) : ∀ (ks : List (EClass Op D)) (costs : Costs Op Cost) (did : Bool),
    ByNode.costPass cf.byNode eg costs did ks = costPass cf eg costs did ks
  | [], _, _ => rfl
  | k :: ks, costs, did => by
    simp only [ByNode.costPass, costPass, byNode_makePass]
    congr 1
    funext o
    exact byNode_costPass cf eg ks _ _

theorem byNode_findCosts (cf : CostFn Op Cost) (eg : EGraph Op D) (ks : List (EClass Op D)) : ∀ (f : Nat) (costs : Costs Op Cost),
    ByNode.findCosts cf.byNode eg ks f costs = findCosts cf eg ks f costs
  | 0, _ => rfl
  | f + 1, costs => by
    simp only [ByNode.findCosts, findCosts, byNode_costPass]
    congr 1
    funext p
    split
    · exact byNode_findCosts cf eg ks f _
    · rfl

theorem CostFn.OK.byNode {cf : CostFn Op Cost} (h : cf.OK) : cf.byNode.OK :=
  ⟨h.comparable, h.swap, h.trans, fun n => h.above n.op, fun n => h.mono n.op⟩

theorem byNode_new (cf : CostFn Op Cost) (eg : EGraph Op D) (ks : List (EClass Op D)) (passes : Nat) :
    ByNode.new cf.byNode eg ks passes = Extractor.new cf eg ks passes := by simp only [ByNode.new, Extractor.new, byNode_findCosts]

theorem byNode_costIn {cf : CostFn Op Cost} (hi : ClassInv eg) (c : Id) (t : Term Op) (v : Cost) :
    CostIn cf.byNode eg c t v ↔ Rep eg c t ∧ v = termCost cf t := by
  have hone : ∀ (t : Term Op) (c : Id) (v : Cost), CostIn cf.byNode eg c t v → v = termCost cf t := by
    intro t
    induction t using Term.ind with
    | h op ts ih =>
      intro c v hv
      rw [ByNode.costIn_iff hi] at hv
      obtain ⟨_, k, n, ps, _, _, rfl, h4, rfl, rfl⟩ := hv
      rw [termCost_node]
      show cf.cost n.op _ = _
      congr 1
      rw [List.map_map]
      refine List.map_congr_left (fun p hp => ?_)
      obtain ⟨d, _, hd⟩ := forall₂_mem_left (forall₂_flip h4) hp
      exact ih p.1 (List.mem_map_of_mem hp) d p.2 hd
  constructor
  · intro hv
    exact ⟨ByNode.costIn_rep hi t c v hv, hone t c v hv⟩
  · rintro ⟨hr, rfl⟩
    obtain ⟨v, hv⟩ := ByNode.rep_costIn hi cf.byNode t c hr
    have := hone t c v hv
    rw [← this]
    exact hv

/-- **C96.**  For a cost function that only looks at the operator, the extractor is the
one of C29–C31, and what a term costs does not depend on where it is read off: it is the
cost function folded over the tree. -/
theorem c96_by_operator (h : Hist (A.at depth) allow U eg) (cf : CostFn Op Cost) (ks : List (EClass Op D)) (passes : Nat) :
    ByNode.new cf.byNode eg ks passes = Extractor.new cf eg ks passes ∧
      ∀ c t v, CostIn cf.byNode eg c t v ↔ Rep eg c t ∧ v = termCost cf t :=
  ⟨byNode_new cf eg ks passes, byNode_costIn (hist_good h).inv.classInv⟩

end

/-! ### Examples -/

namespace Ex

/-- The sum of the costs of the children and a weight for the e-node. -/
def weighted (w : ENode Op → Nat) : NodeCostFn Op Nat := ⟨fun n cs => w n + cs.sum, CostFn.natCmp⟩

theorem weighted_ok (w : ENode Op → Nat) : (weighted w).OK := by
  have hle : ∀ a b : Nat, (weighted w).Le a b ↔ a ≤ b := fun a b => natCmp_le
  refine ⟨fun a b h => (Option.some_ne_none _ h).elim, fun a b => ?_, fun a b c => ?_, fun n cs c hc => ?_, fun n cs cs' h => ?_⟩
  · show CostFn.natCmp _ _ = _ ↔ CostFn.natCmp _ _ = _
    unfold CostFn.natCmp
    rw [Option.some_inj, Option.some_inj, Nat.compare_eq_gt, Nat.compare_eq_lt]
  · rw [hle, hle, hle]; omega
  · rw [hle]
    show c ≤ w n + cs.sum
    have : c ≤ cs.sum := by
      induction cs with
      | nil => cases hc
      | cons d cs ih =>
        rw [List.sum_cons]
        rcases List.mem_cons.1 hc with rfl | hc
        · omega
        · have := ih hc; omega
    omega
  · rw [hle]
    show w n + cs.sum ≤ w n + cs'.sum
    have : cs.sum ≤ cs'.sum := by
      induction h with
      | nil => simp
      | cons a b ih =>
        have := (hle _ _).1 a
        simp only [List.sum_cons]
        omega
    omega

/-- The e-graph `{b}`, `{a}`, `{f b, f a}` with the data "does some term of the class
contain `a`?". -/
def w4 : EGraph S Bool := st (EGraph.addUncanonical NA a3 (app .f [2]))
def w5 : EGraph S Bool := st (EGraph.union NA w4 1 3 7)
def w6 : EGraph S Bool := st (EGraph.rebuild NA 20 w5)

theorem hist_w5 (allow) : Hist NA allow [⟨7, 1, 3, tfb, tfa⟩] w5 :=
  .tail (V := [⟨7, 1, 3, tfb, tfa⟩]) (.tail (V := []) (.tail (V := []) (.tail (V := []) (.tail (V := []) .refl
    (.add (n := leaf .b) (i := 0) rfl)) (.add (n := app .f [0]) (i := 1) rfl))
    (.add (n := leaf .a) (i := 2) rfl)) (.add (n := app .f [2]) (i := 3) rfl))
    (.union (r := true) (rep_app1 (i := 0) rfl rfl (by decide) (rep_leaf rfl rfl (by decide)))
      (rep_app1 (i := 2) rfl rfl (by decide) (rep_leaf rfl rfl (by decide))) rfl)

theorem reb_w6 : EGraph.rebuild NA 20 w5 = .ok (w6, 0) := rfl

theorem hist_w6 (allow) : Hist NA allow [⟨7, 1, 3, tfb, tfa⟩] w6 := .tail (V := []) (hist_w5 allow) (.rebuild reb_w6)

/-- A weight that looks at the data of the children: 1, or 10 if a child may contain
`a`. -/
def heavy (eg : EGraph S Bool) (n : ENode S) : Nat :=
  match kids eg n with
  | .ok ds => if ds.any id then 10 else 1
  | .error _ => 1

end Ex

/-- The two e-nodes of the class have the same operator and children of the same cost;
the extractor chooses the one whose child does not contain `a`. -/
example : (Ex.weighted (Ex.heavy Ex.w6)).OK ∧ (∃ U, Hist Ex.NA .all U Ex.w6) ∧
    ∃ x, ByNode.new (Ex.weighted (Ex.heavy Ex.w6)) Ex.w6 (Ex.w6.classes.map Prod.snd) 4 = .ok x ∧
      x.findBest Ex.w6 5 3 = .ok (2, [Ex.leaf .b, Ex.app .f [0]]) :=
  ⟨Ex.weighted_ok _, ⟨_, Ex.hist_w6 _⟩, _, rfl, rfl⟩

/-- The other term of the class costs 11. -/
example : ∃ v, CostIn (Ex.weighted (Ex.heavy Ex.w6)) Ex.w6 3 Ex.tfa v ∧ v = 11 :=
  ⟨_, .mk (r := 1) (n := Ex.app .f [2]) (vs := [1]) rfl rfl (by decide) rfl rfl (fun j d t v h1 h2 h3 => by
    match j with
    | 0 =>
      simp only [Ex.app, List.getElem?_cons_zero, Option.some_inj] at h1 h2 h3
      subst h1 h2 h3
      exact .mk (n := Ex.leaf .a) (vs := []) rfl rfl (by decide) rfl rfl (fun j d t v h => by simp [Ex.leaf] at h)
    | j + 1 => simp [Ex.app] at h1), rfl⟩

/-- Costs of which `none` is comparable to nothing, like the `NaN` of a floating point
type: the cost of `b` is such a one. -/
def Ex.nan : NodeCostFn Ex.S (Option Nat) where
  cost := fun n cs => if n.op = .b then none else some (1 + cs.length)
  pcmp := fun a b => match a, b with
    | some a, some b => some (compare a b)
    | _, _ => none

/-- **C96.**  Without comparable costs `Extractor::new` may panic (as its documentation
says, `src/extract.rs:117-119`): two e-nodes of one class, one of them with a cost that is
not comparable. -/
theorem c96_incomparable_counterexample : (∃ U, Hist Ex.N0 .all U Ex.e6) ∧
    ∀ passes, ByNode.new Ex.nan Ex.e6 (Ex.e6.classes.map Prod.snd) (passes + 1) = .error .panic :=
  ⟨⟨_, Ex.hist6 _⟩, fun _ => rfl⟩

end Egg
