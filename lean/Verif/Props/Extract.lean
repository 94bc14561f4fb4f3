import Verif.Lemmas.Extract
import Verif.Props.Structure
import Verif.Examples
import Verif.ExampleTools
/-
C29, C30, C31, C49: extraction and costs.
-/
namespace Egg
variable {Op D Cost : Type}

/-! ### C49 -/

theorem costRecGo_spec {cf : CostFn Op Cost} {e : List (ENode Op)} (hd : Dag e) : ∀ (rest done : List (ENode Op)) (costs : List Cost),
    e = done ++ rest → costs.length = done.length → (∀ (i : Nat) x, costs[i]? = some x → ∀ t, TermOf e i t → x = termCost cf t) →
    ∃ cs, cf.costRecGo rest costs = .ok cs ∧ cs.length = e.length ∧
      ∀ (i : Nat) x, cs[i]? = some x → ∀ t, TermOf e i t → x = termCost cf t := by
  intro rest
  induction rest with
  | nil =>
    intro done costs he hl hc
    exact ⟨costs, rfl, by rw [hl, he]; simp, hc⟩
  | cons n rest ih =>
    intro done costs he hl hc
    have hn : e[done.length]? = some n := by rw [he]; simp
    have hlt : ∀ c ∈ n.children, ∃ x, costs[c]? = some x := by
      intro c hcn
      have := hd _ _ hn c hcn
      exact ⟨costs[c]'(by omega), List.getElem?_eq_getElem (by omega)⟩
    obtain ⟨cs, hcs⟩ := forall₂_exists (R := fun (c : Id) x => costs[c]? = some x) hlt
    have hm : n.children.mapM (getIdx costs) = .ok cs := by
      rw [mapM_eq_ok]
      exact forall₂_mono_mem hcs (fun c _ x _ h => getIdx_eq_ok.2 h)
    simp only [CostFn.costRecGo, hm, ok_bind]
    refine ih (done ++ [n]) (costs ++ [cf.cost n.op cs]) (by rw [he]; simp) (by simp [hl]) ?_
    intro i x hx t ht
    by_cases hi : i < costs.length
    · rw [List.getElem?_append_left hi] at hx
      exact hc i x hx t ht
    · rw [List.getElem?_append_right (by omega)] at hx
      obtain ⟨h1, rfl⟩ := List.getElem?_eq_some_iff.1 hx
      simp only [List.length_singleton] at h1
      have hie : i = done.length := by omega
      subst hie
      cases t with
      | node op ts =>
      rw [termOf_iff] at ht
      obtain ⟨m, h2, rfl, h3⟩ := ht
      rw [hn] at h2
      cases h2
      simp only [List.getElem_singleton]
      rw [termCost_node]
      congr 1
      clear hm hx hlt
      have hmem : ∀ c ∈ n.children, c ∈ n.children := fun _ h => h
      generalize hl' : n.children = l at hcs h3
      clear hl' hmem
      induction hcs generalizing ts with
      | nil => cases h3; rfl
      | cons a b ih' =>
        cases h3 with
        | cons a' b' => rw [List.map_cons, ih' _ b', hc _ _ a _ a']

/-- **C49.**  `cost_rec` of a well-formed expression is the cost function folded over
the tree it denotes, whatever the cost function and the sharing. -/
theorem c49_cost_rec (cf : CostFn Op Cost) {e : List (ENode Op)} {t : Term Op} (hw : WFExpr e) (ht : ExprTerm e t) :
    cf.costRec e = .ok (termCost cf t) := by
  obtain ⟨cs, h1, h2, h3⟩ := costRecGo_spec (cf := cf) (e := e) hw.2 e [] [] rfl rfl (by intro i x h; simp at h)
  have hne : e.isEmpty = false := by
    cases e with
    | nil => exact absurd rfl hw.1
    | cons _ _ => rfl
  have hlen : 0 < e.length := List.length_pos_iff.2 hw.1
  have hlt : e.length - 1 < cs.length := by omega
  have hx : cs[e.length - 1]? = some (cs[e.length - 1]'hlt) := List.getElem?_eq_getElem hlt
  simp only [CostFn.costRec, h1, ok_bind, RecExpr.root, hne]
  have := h3 _ _ hx t ht.2
  rw [this] at hx
  exact getIdx_eq_ok.2 hx

theorem astSize_cost (M : Nat) (op : Op) (cs : List (CostFn.Usize M)) :
    ((CostFn.astSize M).cost op cs).1 = min (1 + (cs.map Fin.val).sum) M := by
  have : ∀ (cs : List (CostFn.Usize M)) (a : CostFn.Usize M), (cs.foldl CostFn.satAdd a).1 = min (a.1 + (cs.map Fin.val).sum) M := by
    intro cs
    induction cs with
    | nil => intro a; simp; omega
    | cons c cs ih =>
      intro a
      rw [List.foldl_cons, ih]
      simp only [CostFn.satAdd, List.map_cons, List.sum_cons]
      omega
  show (cs.foldl CostFn.satAdd _).1 = _
  rw [this]
  simp only
  omega

theorem astDepth_fold : ∀ (cs : List Nat) (a : Nat), cs.foldl max a = max a (cs.foldl max 0) := by
  intro cs
  induction cs with
  | nil => intro a; simp
  | cons c cs ih =>
    intro a
    rw [List.foldl_cons, ih, List.foldl_cons, ih (max 0 c)]
    omega

/-- **C49.**  `AstSize` is the number of nodes of the tree, or `usize::MAX` if that is
less. -/
theorem c49_astSize (M : Nat) : ∀ t : Term Op, (termCost (CostFn.astSize M) t).1 = min t.size M := by
  intro t
  induction t using Term.ind with
  | h op ts ih =>
    rw [termCost_node, astSize_cost, Term.size]
    have : ∀ ts : List (Term Op), (∀ t ∈ ts, (termCost (CostFn.astSize M) t).1 = min t.size M) →
        min (1 + ((ts.map (termCost (CostFn.astSize M))).map Fin.val).sum) M = min (1 + Term.sizes ts) M := by
      intro ts
      induction ts with
      | nil => intro _; simp [Term.sizes]
      | cons t ts ih' =>
        intro h
        have h1 := ih' (fun t ht => h t (by simp [ht]))
        have h2 := h t (by simp)
        simp only [List.map_cons, List.sum_cons, Term.sizes, h2]
        omega
    exact this ts ih

/-- **C49.**  `AstDepth` is the height of the tree. -/
theorem c49_astDepth : ∀ t : Term Op, termCost CostFn.astDepth t = t.depth := by
  intro t
  induction t using Term.ind with
  | h op ts ih =>
    rw [termCost_node, Term.depth]
    show 1 + _ = _
    congr 1
    induction ts with
    | nil => rfl
    | cons t ts ih' =>
      have h1 := ih' (fun t ht => ih t (by simp [ht]))
      rw [List.map_cons, List.foldl_cons, astDepth_fold, h1, ih t (by simp)]
      simp [Term.depths]

theorem natCmp_le {a b : Nat} : (CostFn.natCmp a b = some .lt ∨ CostFn.natCmp a b = some .eq) ↔ a ≤ b := by
  unfold CostFn.natCmp
  rw [Option.some_inj, Option.some_inj, Nat.compare_eq_lt, Nat.compare_eq_eq]
  omega

/-- `AstSize` satisfies the assumptions on cost functions. -/
theorem c30_astSize_ok (M : Nat) : (CostFn.astSize M : CostFn Op _).OK := by
  have hle : ∀ a b : CostFn.Usize M, (CostFn.astSize M : CostFn Op _).Le a b ↔ a.1 ≤ b.1 := fun a b => natCmp_le
  refine ⟨fun a b h => (Option.some_ne_none _ h).elim, fun a b => ?_, fun a b c => ?_, fun op cs c hc => ?_, fun op cs cs' h => ?_⟩
  · show CostFn.natCmp _ _ = _ ↔ CostFn.natCmp _ _ = _
    unfold CostFn.natCmp
    rw [Option.some_inj, Option.some_inj, Nat.compare_eq_gt, Nat.compare_eq_lt]
  · rw [hle, hle, hle]; omega
  · rw [hle, astSize_cost]
    have h1 : c.1 ≤ (cs.map Fin.val).sum := by
      clear * - hc
      induction cs with
      | nil => cases hc
      | cons d cs ih =>
        rw [List.map_cons, List.sum_cons]
        rcases List.mem_cons.1 hc with rfl | hc
        · omega
        · have := ih hc; omega
    have := c.2
    omega
  · rw [hle, astSize_cost, astSize_cost]
    have : (cs.map Fin.val).sum ≤ (cs'.map Fin.val).sum := by
      induction h with
      | nil => simp
      | cons a b ih =>
        have := (hle _ _).1 a
        simp only [List.map_cons, List.sum_cons]
        omega
    omega

/-- `AstDepth` satisfies the assumptions on cost functions. -/
theorem c30_astDepth_ok : (CostFn.astDepth : CostFn Op _).OK := by
  have hle : ∀ a b : Nat, (CostFn.astDepth : CostFn Op _).Le a b ↔ a ≤ b := fun a b => natCmp_le
  refine ⟨fun a b h => (Option.some_ne_none _ h).elim, fun a b => ?_, fun a b c => ?_, fun op cs c hc => ?_, fun op cs cs' h => ?_⟩
  · show CostFn.natCmp _ _ = _ ↔ CostFn.natCmp _ _ = _
    unfold CostFn.natCmp
    rw [Option.some_inj, Option.some_inj, Nat.compare_eq_gt, Nat.compare_eq_lt]
  · rw [hle, hle, hle]; omega
  · rw [hle]
    show c ≤ 1 + cs.foldl max 0
    have : c ≤ cs.foldl max 0 := by
      induction cs with
      | nil => cases hc
      | cons d cs ih =>
        rw [List.foldl_cons, astDepth_fold]
        rcases List.mem_cons.1 hc with rfl | hc
        · omega
        · have := ih hc; omega
    omega
  · rw [hle]
    show 1 + cs.foldl max 0 ≤ 1 + cs'.foldl max 0
    have : cs.foldl max 0 ≤ cs'.foldl max 0 := by
      induction h with
      | nil => simp
      | @cons a b l l' h1 h2 ih =>
        have := (hle _ _).1 h1
        rw [List.foldl_cons, List.foldl_cons, astDepth_fold, astDepth_fold l']
        omega
    omega

/-! ### C29, C30, C31 -/

section
variable [DecidableEq Op] [Lang Op] {A : UserAnalysis Op D} {depth : Nat} {allow : Caller Op D}
  {U : List (UnionRec Op)} {eg : EGraph Op D} {cf : CostFn Op Cost} {ks : List (EClass Op D)}

theorem classes_ok {C : Cfg Op D} (hi : EGraph.Inv C eg) (hks : ks.Perm (eg.classes.map Prod.snd)) :
    ∀ k, ClsOK eg k ↔ k ∈ ks := by
  intro k
  rw [hks.mem_iff]
  constructor
  · intro h
    exact List.mem_map.2 ⟨(k.id, k), AMap.mem_of_get? h.get, rfl⟩
  · exact clsOK_of_mem hi

/-- **C31.**  In every state of every history (rebuilt or not), for every admissible cost
function and every order in which the class table is iterated, `Extractor::new`
terminates, without panic, after at most one pass more than there are classes. -/
theorem c31_new_terminates (h : Hist (A.at depth) allow U eg) (hcf : cf.OK) (hks : ks.Perm (eg.classes.map Prod.snd))
    {passes : Nat} (hp : eg.classes.length < passes) : ∃ x, Extractor.new cf eg ks passes = .ok x := by
  have hg := hist_good h
  obtain ⟨costs, hc⟩ := findCosts_total (P := fun _ => false) hcf hg.inv (classes_ok hg.inv hks) passes [] TInv.empty
    (by simp) (by have := hks.length_eq; simp at this ⊢; omega)
  exact ⟨⟨costs⟩, by simp [Extractor.new, hc]⟩

theorem new_done (h : Hist (A.at depth) allow U eg) (hcf : cf.OK) (hks : ks.Perm (eg.classes.map Prod.snd))
    {passes : Nat} {x : Extractor Op Cost} (hx : Extractor.new cf eg ks passes = .ok x) : Done cf eg x.costs := by
  have hg := hist_good h
  unfold Extractor.new at hx
  rw [bind_eq_ok] at hx
  obtain ⟨costs, h1, h2⟩ := hx
  cases h2
  rcases findCosts_partial hcf hg.inv (classes_ok hg.inv hks) passes [] TInv.empty with h3 | ⟨costs', h3, h4⟩
  · rw [h1] at h3; cases h3
  · rw [h1] at h3; cases h3; exact h4

/-- **C29, C30, C31.**  For every id `c` of the e-graph `find_best(c)` terminates without
panic and returns a cost and a well-formed expression whose term is represented in the
class of `c`; the cost is that of the term, also as computed by `cost_rec`; and no term
represented in the class has a smaller cost. -/
theorem c29_c30_find_best (h : Hist (A.at depth) allow U eg) (hcf : cf.OK) (hks : ks.Perm (eg.classes.map Prod.snd))
    {passes : Nat} {x : Extractor Op Cost} (hx : Extractor.new cf eg ks passes = .ok x) {c : Id} (hc : Valid eg c) :
    ∃ fuel cost e t, (∀ f, fuel ≤ f → x.findBest eg f c = .ok (cost, e)) ∧ x.findBestCost eg c = .ok cost ∧
      WFExpr e ∧ ExprTerm e t ∧ Rep eg c t ∧
      cf.Same cost (termCost cf t) ∧ cf.costRec e = .ok (termCost cf t) ∧
      ∀ t', Rep eg c t' → cf.Le cost (termCost cf t') := by
  have hg := hist_good h
  have hd := new_done h hcf hks hx
  rw [hg.valid_iff] at hc
  have hi := hg.inv
  obtain ⟨t, v, n, h1, h2, h3, h4⟩ := hd.unfold hcf hi hc
  obtain ⟨op, ts⟩ := t
  have hu := unfolds_iff.1 h1
  obtain ⟨n', g1, g2, g3⟩ := hu
  have hnn : n' = n := by simpa [choice, hc, h3] using g1.symm
  subst hnn
  subst g2
  have hgn : ∀ i m, choice eg x.costs i = some m → x.findBestNode eg i = .ok m := by
    intro i m hm
    unfold choice at hm
    split at hm
    · next hlt =>
      rw [Option.map_eq_some_iff] at hm
      obtain ⟨e, he, rfl⟩ := hm
      simp [Extractor.findBestNode, Extractor.entry, hi.find hlt, he, unwrap]
    · cases hm
  obtain ⟨f0, e, q1, q2, q3, _⟩ := RecExpr.build_spec hgn g3
  have hwf : WFExpr e := ⟨q3.1, q2⟩
  refine ⟨f0, v, e, .node n'.op ts, ?_, ?_, hwf, q3, h2, h4, c49_cost_rec cf hwf q3, ?_⟩
  · intro f hf
    simp [Extractor.findBest, Extractor.entry, hi.find hc, h3, unwrap, q1 f hf]
  · simp [Extractor.findBestCost, Extractor.entry, hi.find hc, h3, unwrap]
  · obtain ⟨k, x', m, r1, r2, _⟩ := hd.entry hi hc
    obtain ⟨hok, hid⟩ := clsOK_of_get hi r1
    obtain ⟨v', m', r3, r4⟩ := hd.final k hok
    rw [hid, h3] at r3
    cases r3
    intro t' ht'
    exact r4 t' (by rw [hid]; exact hi.rep_congr (hi.core.rtLt c hc) (hi.core.rtIdem c).symm ht')

/-- **C31.**  `find_best_node(c)` returns a node of the class of `c`. -/
theorem c31_find_best_node (h : Hist (A.at depth) allow U eg) (hcf : cf.OK) (hks : ks.Perm (eg.classes.map Prod.snd))
    {passes : Nat} {x : Extractor Op Cost} (hx : Extractor.new cf eg ks passes = .ok x) {c : Id} (hc : Valid eg c) :
    ∃ n k, x.findBestNode eg c = .ok n ∧ eg.index c = .ok k ∧ n ∈ k.nodes := by
  have hg := hist_good h
  have hd := new_done h hcf hks hx
  rw [hg.valid_iff] at hc
  obtain ⟨k, v, n, r1, r2, r3, _⟩ := hd.entry hg.inv hc
  refine ⟨n, k, ?_, ?_, r3⟩
  · simp [Extractor.findBestNode, Extractor.entry, hg.inv.find hc, r2, unwrap]
  · simp [EGraph.index, hg.inv.find hc, r1, unwrap]

end

/-! ### Examples -/

/-- The e-graph `{a, b, f a}` (a cycle: `f x` is in the class of `x`), `{c}`. -/
def Ex.c1 : Ex.G := Ex.st (EGraph.union Ex.N0 Ex.e4 0 1 7)
def Ex.c2 : Ex.G := Ex.st (EGraph.union Ex.N0 Ex.c1 0 2 7)
def Ex.c3 : Ex.G := Ex.st (EGraph.rebuild Ex.N0 20 Ex.c2)

theorem Ex.hist_c3 (allow) : ∃ U, Hist Ex.N0 allow U Ex.c3 :=
  ⟨_, .tail (V := []) (.tail (V := [⟨7, 0, 2, Ex.ta, Ex.tfa⟩]) (.tail (V := [Ex.un]) (Ex.hist4 allow)
    (.union (r := true) Ex.rep_e4_a Ex.rep_e4_b rfl))
    (.union (r := true) (Ex.rep_leaf rfl rfl (by decide)) (Ex.rep_app1 (i := 0) rfl rfl (by decide) (Ex.rep_leaf rfl rfl (by decide))) rfl))
    (.rebuild (fuel := 20) (n := 1) rfl)⟩

/-- The extractor on this e-graph: the classes are passed over twice, and the best term
of the class of `f b` is `a`. -/
example : ∃ x, Extractor.new (CostFn.astSize 100) Ex.c3 (Ex.c3.classes.map Prod.snd) 2 = .ok x ∧
    x.findBest Ex.c3 5 3 = .ok (1, [Ex.leaf .a]) := ⟨_, rfl, rfl⟩

/-- Another one: `g (f a) b` and so on, with `a = b`; costs are propagated. -/
example : ∃ x, Extractor.new (CostFn.astDepth) Ex.e6 (Ex.e6.classes.map Prod.snd).reverse 3 = .ok x ∧
    x.findBest Ex.e6 5 3 = .ok (2, [Ex.leaf .a, Ex.app .f [0]]) := ⟨_, rfl, rfl⟩

/-- `cost_rec` on `g (f a) a` with shared `a`. -/
example : (CostFn.astSize 100).costRec [Ex.leaf .a, Ex.app .f [0], Ex.app .g [1, 0]] = .ok 4 ∧
    (CostFn.astSize 3).costRec [Ex.leaf .a, Ex.app .f [0], Ex.app .g [1, 0]] = .ok 3 ∧
    CostFn.astDepth.costRec [Ex.leaf .a, Ex.app .f [0], Ex.app .g [1, 0]] = .ok 3 ∧
    WFExpr [Ex.leaf .a, Ex.app .f [0], Ex.app .g [1, 0]] := ⟨rfl, rfl, rfl, wfExpr_of rfl rfl⟩

end Egg
