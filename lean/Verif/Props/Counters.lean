import Verif.Model.Counters
import Verif.Lemmas.GreedyHist
import Verif.Props.Explanations
import Mathlib.Tactic.IntervalCases
/-
C78: `get_num_congr` and `get_explanation_num_nodes`.
-/
namespace Egg
variable {Op D : Type} [DecidableEq Op] [Lang Op]

namespace Explain

/-- Number of entries of the table. -/
def cells (cn : List (List Id)) : Nat := (cn.map List.length).sum

theorem cells_set {cn : List (List Id)} {i : Nat} {l l' : List Id} (h : cn[i]? = some l) : cells (cn.set i l') + l.length = cells cn + l'.length := by
  unfold cells
  induction cn generalizing i with
  | nil => simp at h
  | cons a cn ih =>
    cases i with
    | zero => simp only [List.getElem?_cons_zero, Option.some.injEq] at h; subst h; simp only [List.set_cons_zero, List.map_cons, List.sum_cons]; omega
    | succ i => simp only [List.getElem?_cons_succ] at h; have := ih h; simp only [List.set_cons_succ, List.map_cons, List.sum_cons]; omega

theorem cells_push {cn cn' : List (List Id)} {i v : Id} (h : pushAt cn i v = .ok cn') : cells cn' = cells cn + 1 := by
  obtain ⟨l, hl, rfl⟩ := pushAt_ok h
  have := cells_set (l' := l ++ [v]) hl
  simp only [List.length_append, List.length_singleton] at this
  omega

theorem cells_push2 {cn cn' cn'' : List (List Id)} {a b : Id} (h : pushAt cn a b = .ok cn') (h' : pushAt cn' b a = .ok cn'') : cells cn'' = cells cn + 2 := by
  rw [cells_push h', cells_push h]

theorem congrClassLoop_even {nodes : List (ENode Op)} {uf : UF} {limit : Nat} : ∀ (enodes : List Id)
    (canon : AMap (ENode Op) (List Id)) (counter : Nat) (cn : List (List Id)) (r : Bool × Nat × List (List Id)), cells cn % 2 = 0 →
    congrClassLoop nodes uf limit enodes canon counter cn = .ok r → cells r.2.2 % 2 = 0 := by
  intro enodes
  induction enodes with
  | nil => intro canon counter cn r hr h; cases h; exact hr
  | cons e enodes ih =>
    intro canon counter cn r hr h
    rw [congrClassLoop] at h
    obtain ⟨n, _, h⟩ := bind_eq_ok.1 h
    obtain ⟨c, _, h⟩ := bind_eq_ok.1 h
    obtain ⟨⟨canon', counter', cn'⟩, h1, h⟩ := bind_eq_ok.1 h
    have hr' : cells cn' % 2 = 0 := by
      split at h1
      · obtain ⟨cn1, h2, h1⟩ := bind_eq_ok.1 h1
        cases h1
        refine foldlM_pres (fun c => cells c % 2 = 0) _ _ _ ?_ hr h2
        intro s y s' _ hs hst
        obtain ⟨s1, k1, k2⟩ := bind_eq_ok.1 hst
        have := cells_push2 k1 k2
        show cells s' % 2 = 0
        omega
      · cases h1; exact hr
    simp only at h
    split at h
    · cases h; exact hr'
    · exact ih _ _ _ _ hr' h

theorem congrClassesLoop_even {x : Explain Op} {ch : Choices} {nodes : List (ENode Op)} {uf : UF} {fuel : Nat} :
    ∀ (classes : List Id) (counter : Nat) (cn cn' : List (List Id)), cells cn % 2 = 0 →
    congrClassesLoop x ch nodes uf fuel classes counter cn = .ok cn' → cells cn' % 2 = 0 := by
  intro classes
  induction classes with
  | nil => intro counter cn cn' hr h; cases h; exact hr
  | cons e rest ih =>
    intro counter cn cn' hr h
    rw [congrClassesLoop] at h
    obtain ⟨enodes, _, h⟩ := bind_eq_ok.1 h
    obtain ⟨⟨stop, counter', cn1⟩, h1, h⟩ := bind_eq_ok.1 h
    have hr' := congrClassLoop_even _ _ _ _ _ hr h1
    simp only at h
    split at h
    · cases h; exact hr'
    · exact ih _ _ _ hr' h

theorem cells_empty {α : Type} (l : List α) : cells (l.map (fun _ => [])) = 0 := by
  unfold cells
  induction l with
  | nil => rfl
  | cons a l ih => simpa using ih

theorem findCongruenceNeighbors_even {x : Explain Op} {ch : Choices} {nodes : List (ENode Op)} {uf : UF} {classes : List Id} {fuel : Nat}
    {cn : List (List Id)} (h : x.findCongruenceNeighbors ch nodes uf classes fuel = .ok cn) : cells cn % 2 = 0 := by
  unfold findCongruenceNeighbors at h
  obtain ⟨⟨counter, cn1⟩, h1, h⟩ := bind_eq_ok.1 h
  refine congrClassesLoop_even _ _ _ _ ?_ h
  refine foldlM_pres (fun s : Nat × List (List Id) => cells s.2 % 2 = 0) _ _ _ ?_ ?_ h1
  · intro s e s' _ hs hst
    split at hst
    · obtain ⟨c1, k1, hst⟩ := bind_eq_ok.1 hst
      obtain ⟨c2, k2, hst⟩ := bind_eq_ok.1 hst
      cases hst
      have := cells_push2 k1 k2
      simp only at hs ⊢
      omega
    · cases hst; exact hs
  · show cells _ % 2 = 0
    rw [cells_empty]

/-- The entries of the table as pairs. -/
def cellPairs (cn : List (List Id)) : List (Id × Id) := cn.zipIdx.flatMap (fun p => p.1.map (fun v => (p.2, v)))

theorem cellPairs_length (cn : List (List Id)) : (cellPairs cn).length = cells cn := by
  have : ∀ (cn : List (List Id)) k, ((cn.zipIdx k).flatMap (fun p => p.1.map (fun v => (p.2, v)))).length = cells cn := by
    intro cn
    induction cn with
    | nil => intro k; rfl
    | cons a cn ih => intro k; rw [List.zipIdx_cons, List.flatMap_cons, List.length_append, ih]; simp [cells]
  exact this cn 0

theorem mem_cellPairs {cn : List (List Id)} {u v : Id} (h : (u, v) ∈ cellPairs cn) : ∃ l, cn[u]? = some l ∧ v ∈ l := by
  obtain ⟨⟨l, i⟩, h1, h2⟩ := List.mem_flatMap.1 h
  obtain ⟨w, h3, h4⟩ := List.mem_map.1 h2
  cases h4
  exact ⟨l, List.mem_zipIdx_iff_getElem?.1 h1, h3⟩

theorem foldl_cells (cn : List (List Id)) (k : Nat) : cn.foldl (fun count v => count + v.length) k = k + cells cn := by
  induction cn generalizing k with
  | nil => rfl
  | cons a cn ih => rw [List.foldl_cons, ih]; simp only [cells, List.map_cons, List.sum_cons]; omega

end Explain

/-- `a` and `b` are ids of congruent e-nodes: the same operator, and equal children. -/
def CongruentIds (eg : EGraph Op D) (a b : Id) : Prop :=
  ∃ na nb, eg.nodes[a]? = some na ∧ eg.nodes[b]? = some nb ∧ na.op = nb.op ∧ List.Forall₂ (SameClass eg) na.children nb.children

/-- **C78.**  With explanations enabled, at any moment, `get_num_congr` returns, and its result is half the length of a
list of pairs of ids of congruent e-nodes.  (The pairs need not be different, and `a` may be `b`: see below.) -/
theorem c78_num_congr {A : UserAnalysis Op D} {depth : Nat} {allow : Caller Op D} {U : List (UnionRec Op)} {eg : EGraph Op D}
    (h : Hist (A.at depth) allow U eg) (hx : eg.explain.isSome) (ch : Explain.Choices) :
    ∃ k, (∃ f0, ∀ fuel, f0 ≤ fuel → eg.getNumCongr ch fuel = .ok k) ∧
      ∃ pairs : List (Id × Id), pairs.length = 2 * k ∧ ∀ a b, (a, b) ∈ pairs → CongruentIds eg a b := by
  obtain ⟨x, hx⟩ := Option.isSome_iff_exists.1 hx
  have hg := hist_good h
  obtain ⟨L, hL⟩ := hg.inv.expl x hx
  obtain ⟨hfo, -, cn, ⟨f0, h1⟩, h2⟩ := EGraph.congr_of hg hL ch
  have hev := Explain.findCongruenceNeighbors_even (h1 f0 (Nat.le_refl _))
  refine ⟨Explain.cells cn / 2, ⟨f0, fun fuel hf => ?_⟩, Explain.cellPairs cn, ?_, fun a b hab => ?_⟩
  · simp only [EGraph.getNumCongr, hx, Explain.getNumCongr, h1 fuel hf, ok_bind, Explain.foldl_cells, Nat.zero_add]; rfl
  · rw [Explain.cellPairs_length]; omega
  · obtain ⟨l, hl, hb⟩ := Explain.mem_cellPairs hab
    obtain ⟨na, nb, g1, g2, g3, g4⟩ := h2.sound a l hl b hb
    refine ⟨na, nb, g1, g2, g3, forall₂_mono_mem g4 (fun c hc d hd hcd => ?_)⟩
    have hcl : c < eg.nodes.length := Nat.lt_trans (hfo.dag a na g1 c hc) (getElem?_lt g1)
    have hdl : d < eg.nodes.length := Nat.lt_trans (hfo.dag b nb g2 d hd) (getElem?_lt g2)
    exact hg.inv.sameClass_iff.2 ⟨hcl, hdl, (hL.inv.logConn c d hcl hdl).1 hcd⟩

/-- **C78.**  `get_explanation_num_nodes` is the number of ids handed out; both counters panic without explanations. -/
theorem c78_num_nodes {A : UserAnalysis Op D} {depth : Nat} {allow : Caller Op D} {U : List (UnionRec Op)} {eg : EGraph Op D}
    (h : Hist (A.at depth) allow U eg) :
    (∀ k, eg.getExplanationNumNodes = .ok k ↔ eg.explain.isSome ∧ k = eg.nodes.length ∧ ∀ i, Valid eg i ↔ i < k) ∧
    (eg.explain = none → eg.getExplanationNumNodes = .error .panic ∧ ∀ ch fuel, eg.getNumCongr ch fuel = .error .panic) := by
  have hg := hist_good h
  refine ⟨fun k => ?_, fun hn => ⟨by simp [EGraph.getExplanationNumNodes, hn], fun ch fuel => by simp [EGraph.getNumCongr, hn]⟩⟩
  cases hx : eg.explain with
  | none => simp [EGraph.getExplanationNumNodes, hx]
  | some x =>
    obtain ⟨L, hL⟩ := hg.inv.expl x hx
    simp only [EGraph.getExplanationNumNodes, hx, Explain.getNumNodes, hL.inv.len, Option.isSome_some, true_and, Except.ok.injEq]
    constructor
    · rintro rfl; exact ⟨rfl, fun i => hg.valid_iff⟩
    · exact fun h => h.1.symm

/-- The counter is not the number of congruences ("Get the number of congruences between nodes in the egraph"): for the e-graph with
`a`, `b`, `f a`, `f b` and no unions it is 4, one for each e-node, since every root of the proof forest counts as congruent to itself.  It is 4 as well
after `a` and `b` are united, when `f a` and `f b` are congruent: two roots, and this pair twice, as an edge of the forest and as a pair of
congruent e-nodes. -/
theorem c78_num_congr_counterexample : Hist Ex.N0 .all [] Ex.x4 ∧ Ex.x4.getNumCongr Ex.ch0 9 = .ok 4 ∧
    Hist Ex.N0 .all [Ex.un] Ex.x6 ∧ Ex.x6.getNumCongr Ex.ch0 9 = .ok 4 :=
  ⟨Ex.histx4 _, by decide +kernel, Ex.histx6 _, by decide +kernel⟩

/-- No two different ids of the first e-graph are congruent. -/
example : ∀ a b, CongruentIds Ex.x4 a b → a = b := by
  rintro a b ⟨na, nb, h1, h2, h3, h4⟩
  have hn : Ex.x4.nodes = [Ex.leaf .a, Ex.leaf .b, Ex.app .f [0], Ex.app .f [1]] := rfl
  rw [hn] at h1 h2
  have ha := getElem?_lt h1
  have hb := getElem?_lt h2
  simp only [List.length_cons, List.length_nil] at ha hb
  have hs : ¬ SameClass Ex.x4 0 1 ∧ ¬ SameClass Ex.x4 1 0 := by
    constructor
    all_goals
      rintro ⟨r, k1, k2⟩
      have e0 : Ex.x4.find 0 = .ok 0 := rfl
      have e1 : Ex.x4.find 1 = .ok 1 := rfl
      simp only [e0, e1, Except.ok.injEq] at k1 k2
      omega
  interval_cases a <;> interval_cases b <;>
    simp only [List.getElem?_cons_zero, List.getElem?_cons_succ, Option.some.injEq] at h1 h2 <;> subst h1 <;> subst h2 <;>
    first
    | rfl
    | (exact absurd h3 (by decide))
    | (cases h4 with | cons k _ => first | exact absurd k hs.1 | exact absurd k hs.2)

example : Ex.x6.getExplanationNumNodes = .ok 4 ∧ Ex.e6.getExplanationNumNodes = .error .panic := ⟨rfl, rfl⟩

end Egg
