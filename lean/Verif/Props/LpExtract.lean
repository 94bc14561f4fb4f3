import Verif.Lemmas.LpCost
import Verif.Props.Extract
import Verif.Props.Rebuild
/-
C32: extraction by integer linear programming.
-/
namespace Egg
variable {Op D : Type} [DecidableEq Op] [Lang Op]

namespace Lp

section
variable {A : UserAnalysis Op D} {depth : Nat} {allow : Caller Op D} {U : List (UnionRec Op)} {eg : EGraph Op D}
  {ks : List (EClass Op D)} {roots : List Id} {cost : Id → ENode Op → ℚ}

theorem graphOK (h : Hist (A.at depth) allow U eg) (hb : Rebuilt eg) : GraphOK eg := by
  have hi := (hist_good h).inv
  have hkey : ∀ c, eg.find c = .ok c → ∃ cl, eg.classes.get? c = some cl := by
    intro c hc
    rw [hi.find_iff] at hc
    have := (hi.core.clsKey c).2 hc
    obtain ⟨s, hs⟩ := Option.isSome_iff_exists.1 this
    obtain ⟨cl, hcl, _⟩ := EGraph.cls_of_sk hs
    exact ⟨cl, hcl⟩
  refine ⟨fun c cl hc => ?_, fun c cl hc => hb.keys c cl hc, ?_⟩
  · simp only [EGraph.index, hb.keys c cl hc, ok_bind, hc]; rfl
  · rintro c d ⟨i, n, ⟨cl, h1, h2⟩, h3⟩
    exact hkey d (hb.canon c cl h1 n (List.mem_of_getElem? h2) d h3)

theorem listed (h : Hist (A.at depth) allow U eg) (hks : ks.Perm (eg.classes.map Prod.snd)) : Listed eg ks := by
  have hi := (hist_good h).inv
  have hall := classes_ok hi hks
  refine ⟨fun c k => ⟨fun hc => ?_, ?_⟩, ?_⟩
  · obtain ⟨h1, h2⟩ := clsOK_of_get hi hc
    exact ⟨(hall k).1 h1, h2⟩
  · rintro ⟨h1, rfl⟩
    exact ((hall k).2 h1).get
  · refine ((hks.map EClass.id).nodup_iff).2 ?_
    have : (eg.classes.map Prod.snd).map EClass.id = AMap.keys eg.classes := by
      rw [List.map_map]
      refine List.map_congr_left (fun p hp => ?_)
      obtain ⟨c, k⟩ := p
      exact (clsOK_of_get hi (AMap.get?_of_mem hi.clsNodup hp)).2
    rw [this]
    exact hi.clsNodup

theorem rootsOK (h : Hist (A.at depth) allow U eg) (hr : ∀ r ∈ roots, Valid eg r) : RootsOK eg roots := by
  intro r hr'
  have hg := hist_good h
  have hi := hg.inv
  have hlt := hg.valid_iff.1 (hr r hr')
  have hrt := hi.find hlt
  have hidem : eg.find (eg.rt r) = .ok (eg.rt r) := by
    rw [hi.find_iff]; exact ⟨hi.core.rtLt r hlt, hi.core.rtIdem r⟩
  obtain ⟨s, hs⟩ := Option.isSome_iff_exists.1 ((hi.core.clsKey (eg.rt r)).2 (hi.find_iff.1 hidem))
  obtain ⟨cl, hcl, _⟩ := EGraph.cls_of_sk hs
  exact ⟨_, cl, hrt, hcl⟩

theorem cinv_init (hk : Listed eg ks) : CInv eg (ks.foldl (fun (m : AMap Id Color) k => m.insert k.id .white) [])
    (ks.map (fun k => (true, k.id))).reverse [] [] := by
  have hw := fun c x => hk.fold (fun _ => Color.white) c x
  have hst : ∀ s : Stack, (∀ p ∈ s, p.1 = true) → StackOK eg s ∧ owner s = none := by
    intro s
    induction s with
    | nil => intro _; exact ⟨trivial, rfl⟩
    | cons p s ih =>
      intro hs
      obtain ⟨e, c⟩ := p
      have : e = true := hs (e, c) (by simp)
      subst this
      obtain ⟨h1, h2⟩ := ih (fun p hp => hs p (by simp [hp]))
      refine ⟨⟨fun y hy => ?_, fun hm => ?_, h1⟩, h2⟩
      · rw [h2] at hy; cases hy
      · have := hs (false, c) (by simp [hm]); cases this
  have htrue : ∀ p ∈ (ks.map (fun k => (true, k.id))).reverse, p.1 = true := by
    intro p hp
    simp only [List.mem_reverse, List.mem_map] at hp
    obtain ⟨k, _, rfl⟩ := hp
    rfl
  refine ⟨fun c => ?_, (hst _ htrue).1, fun p hp => ?_, fun c => ?_, fun c hc => ?_, fun c hc => ?_, by simp, trivial, fun above c below hs => ?_, by simp⟩
  · constructor
    · rintro ⟨cl, hcl⟩
      rw [(hw c .white).2 ⟨cl, hcl, rfl⟩]; rfl
    · intro hs
      obtain ⟨x, hx⟩ := Option.isSome_iff_exists.1 hs
      obtain ⟨cl, h1, _⟩ := (hw c x).1 hx
      exact ⟨cl, h1⟩
  · simp only [List.mem_reverse, List.mem_map] at hp
    obtain ⟨k, h1, rfl⟩ := hp
    exact ⟨k, (hk.mem _ _).2 ⟨h1, rfl⟩⟩
  · constructor
    · intro hc
      obtain ⟨_, _, h⟩ := (hw c .gray).1 hc
      cases h
    · intro hm
      have := htrue _ hm; cases this
  · obtain ⟨_, _, h⟩ := (hw c .black).1 hc
    cases h
  · obtain ⟨cl, h1, _⟩ := (hw c .white).1 hc
    obtain ⟨h2, h3⟩ := (hk.mem c cl).1 h1
    refine ⟨by simp, ?_⟩
    simp only [List.mem_reverse, List.mem_map]
    exact ⟨cl, h2, by rw [h3]⟩
  · have := htrue (false, c) (by rw [hs]; simp)
    cases this

/-- What the extractor hands to the solver: with enough fuel, the cycle finder returns `cyc`, and `p` is the program
built with it. -/
def Prepared (eg : EGraph Op D) (ks : List (EClass Op D)) (cost : Id → ENode Op → ℚ) (roots : List Id) (cyc : List (Id × Nat)) (p : Program) : Prop :=
  (∃ f0, ∀ fuel, f0 ≤ fuel → findCycles eg ks fuel = .ok cyc) ∧ program eg ks cost cyc roots = .ok p

theorem prepared_order (h : Hist (A.at depth) allow U eg) (hb : Rebuilt eg) (hks : ks.Perm (eg.classes.map Prod.snd)) :
    ∃ f0 cyc B, (∀ fuel, f0 ≤ fuel → findCycles eg ks fuel = .ok cyc) ∧ (∀ c i, (c, i) ∈ cyc → OnCycle eg c i) ∧ Ordered eg cyc B ∧
      ∀ c cl, eg.classes.get? c = some cl → c ∈ B := by
  have hk := listed h hks
  have hG := graphOK h hb
  have hl : ∀ c cl, eg.classes.get? c = some cl → c ∈ AMap.keys eg.classes := fun c cl hc => by
    rw [← AMap.get?_isSome_iff, hc]; rfl
  let col0 := ks.foldl (fun (m : AMap Id Color) k => m.insert k.id .white) []
  let s0 : Stack := (ks.map (fun k => (true, k.id))).reverse
  have hci : CInv eg col0 s0 [] [] := cinv_init hk
  obtain ⟨cyc, B, h1, h2, h3, h4⟩ := findCyclesLoop_spec hG hl (whites eg col0 (AMap.keys eg.classes) + weight s0 + 1) col0 s0 [] [] hci (by omega)
  exact ⟨whites eg col0 (AMap.keys eg.classes) + weight s0 + 1, cyc, B, fun fuel hf => findCyclesLoop_mono h1 hf, h2, h3, h4⟩

theorem Prepared.order {cyc : List (Id × Nat)} {p : Program} (h : Hist (A.at depth) allow U eg) (hb : Rebuilt eg)
    (hks : ks.Perm (eg.classes.map Prod.snd)) (hp : Prepared eg ks cost roots cyc p) :
    (∀ c i, (c, i) ∈ cyc → OnCycle eg c i) ∧ ∃ B, Ordered eg cyc B ∧ ∀ c cl, eg.classes.get? c = some cl → c ∈ B := by
  obtain ⟨f0, cyc', B, h1, h2, h3, h4⟩ := prepared_order h hb hks
  obtain ⟨⟨f1, h5⟩, _⟩ := hp
  have e1 := h1 (max f0 f1) (by omega)
  rw [h5 (max f0 f1) (by omega)] at e1
  cases e1
  exact ⟨h2, B, h3, h4⟩

/-- **C32.**  In every rebuilt state of every history, for every order in which the class table is
iterated, every cost function and all roots, `LpExtractor::new` and the construction of the
program terminate without panic. -/
theorem c32_prepared (h : Hist (A.at depth) allow U eg) (hb : Rebuilt eg) (hks : ks.Perm (eg.classes.map Prod.snd))
    (cost : Id → ENode Op → ℚ) (hr : ∀ r ∈ roots, Valid eg r) : ∃ cyc p, Prepared eg ks cost roots cyc p := by
  obtain ⟨f0, cyc, B, h1, _⟩ := prepared_order h hb hks
  obtain ⟨cons, h2, _⟩ := program_spec (graphOK h hb) (listed h hks) (rootsOK h hr) cost cyc
  exact ⟨cyc, _, ⟨f0, h1⟩, h2⟩

/-- **C32.**  Every e-node the cycle finder forbids lies on a cycle, and the e-nodes that remain
form no cycle. -/
theorem c32_cycles {cyc : List (Id × Nat)} {p : Program} (h : Hist (A.at depth) allow U eg) (hb : Rebuilt eg)
    (hks : ks.Perm (eg.classes.map Prod.snd)) (hp : Prepared eg ks cost roots cyc p) :
    (∀ c i, (c, i) ∈ cyc → OnCycle eg c i) ∧ ∀ c, ¬ Relation.TransGen (Allowed eg cyc) c c := by
  obtain ⟨h1, B, h2, h3⟩ := hp.order h hb hks
  refine ⟨h1, fun c hc => ?_⟩
  have hmem : ∀ {c d}, Allowed eg cyc c d → rank B d < rank B c := by
    rintro c d ⟨i, n, ⟨cl, a, b⟩, h⟩
    exact (h2.rank_lt (h3 c cl a) ⟨i, n, ⟨cl, a, b⟩, h⟩).2
  have : ∀ {c d}, Relation.TransGen (Allowed eg cyc) c d → rank B d < rank B c := by
    intro c d h
    induction h with
    | single h => exact hmem h
    | tail _ h ih => exact lt_trans (hmem h) ih
  exact lt_irrefl _ (this hc)

theorem XInv.selection {cyc : List (Id × Nat)} {sol : Var → ℚ} {ps : List (Id × Nat)} {e : List (ENode Op)} {ids : AMap Id Id} {rs : List Id}
    (hx : XInv eg cyc sol ps e ids) (hr : List.Forall₂ (fun r j => ∃ c, eg.find r = .ok c ∧ ids.get? c = some j) roots rs) :
    Selection eg roots ps := by
  refine ⟨hx.nodup, fun c i hm => ?_, fun r hm => ?_⟩
  · obtain ⟨m, _, n, h1, _, h3⟩ := forall₂_mem_left hx.uses hm
    refine ⟨n, h1, fun d hd => ?_⟩
    obtain ⟨j, _, i', h4⟩ := forall₂_mem_left (forall₂_flip h3) hd
    exact ⟨i', List.mem_of_getElem? h4⟩
  · obtain ⟨j, _, c, h1, h2⟩ := forall₂_mem_left hr hm
    obtain ⟨i, hi⟩ := (hx.entry c j).1 h2
    exact ⟨c, i, h1, List.mem_of_getElem? hi⟩

/-- **C32.**  Whatever solution the solver returns, best or not, extraction terminates without panic and returns a
well-formed expression with one index for each root; the term at this index is one of the terms of the root.  The
expression consists of exactly one e-node for each class it uses, none of them forbidden. -/
theorem c32_extract {cyc : List (Id × Nat)} {p : Program} (h : Hist (A.at depth) allow U eg) (hb : Rebuilt eg)
    (hks : ks.Perm (eg.classes.map Prod.snd)) (hr : ∀ r ∈ roots, Valid eg r) (hp : Prepared eg ks cost roots cyc p)
    {solver : Program → Option (Var → ℚ)} {sol : Var → ℚ} (hs : solver p = some sol) (hf : Feasible p sol) :
    ∃ f0 e rs sel, (∀ fuel, f0 ≤ fuel → solveMultiple eg ks cost solver fuel roots = .ok (e, rs)) ∧
      (∀ (k : Nat) n, e[k]? = some n → ∀ j ∈ n.children, j < k) ∧
      List.Forall₂ (fun r j => ∃ t, TermOf e j t ∧ Rep eg r t) roots rs ∧
      Selection eg roots sel ∧ (∀ c i, (c, i) ∈ sel → (c, i) ∉ cyc) ∧ Uses eg sel e := by
  have hk := listed h hks
  have hG := graphOK h hb
  have hro := rootsOK h hr
  obtain ⟨_, B, ho, hB⟩ := hp.order h hb hks
  have ha := (feasible_iff hG hk hro hp.2 sol).1 hf
  obtain ⟨f1, e, rs, ps, ids, h1, h2, h3⟩ := extractSolution_spec (cv := classVars ks) hG
    (fun c cl hc => (hk.classVars c _).2 ⟨cl, hc, rfl⟩) ho hB ha hro
  obtain ⟨⟨f0, h0⟩, hp2⟩ := hp
  refine ⟨max f0 f1, e, rs, ps, fun fuel hf => ?_, h2.dag, ?_, h2.selection h3, fun c i hm => (h2.picked c i hm).2, h2.uses⟩
  · simp only [solveMultiple, h0 fuel (by omega), hp2, hs, ok_bind, unwrap, h1 fuel (by omega)]
  · have hi := (hist_good h).inv
    refine forall₂_mono_mem h3 (fun r hrm j _ hx => ?_)
    obtain ⟨c, a, b⟩ := hx
    obtain ⟨t, t1, t2⟩ := h2.rep c j b
    refine ⟨t, t1, ?_⟩
    rw [hi.find_iff] at a
    obtain ⟨a1, rfl⟩ := a
    exact hi.rep_congr a1 (hi.core.rtIdem r) t2

/-- **C32.**  The program has a solution if and only if the terms of the roots can be selected without the
forbidden e-nodes. -/
theorem c32_feasible_iff {cyc : List (Id × Nat)} {p : Program} (h : Hist (A.at depth) allow U eg) (hb : Rebuilt eg)
    (hks : ks.Perm (eg.classes.map Prod.snd)) (hr : ∀ r ∈ roots, Valid eg r) (hp : Prepared eg ks cost roots cyc p) :
    (∃ sol, Feasible p sol) ↔ ∃ sel, Selection eg roots sel ∧ ∀ c i, (c, i) ∈ sel → (c, i) ∉ cyc := by
  constructor
  · rintro ⟨sol, hf⟩
    obtain ⟨_, _, _, sel, _, _, _, h1, h2, _⟩ := c32_extract h hb hks hr hp (solver := fun _ => some sol) rfl hf
    exact ⟨sel, h1, h2⟩
  · rintro ⟨sel, h1, h2⟩
    exact ⟨_, (feasible_iff (graphOK h hb) (listed h hks) (rootsOK h hr) hp.2 _).2 (answer_of_selection h1 (fun p hp => h2 p.1 p.2 hp))⟩

/-- **C32.**  If the solver returns a best solution and no cost is negative, the extracted expression has the
least cost, counting each e-node once however often it is shared, among all selections of e-nodes for the roots
that do not use a forbidden e-node. -/
theorem c32_optimal {cyc : List (Id × Nat)} {p : Program} (h : Hist (A.at depth) allow U eg) (hb : Rebuilt eg)
    (hks : ks.Perm (eg.classes.map Prod.snd)) (hr : ∀ r ∈ roots, Valid eg r) (hp : Prepared eg ks cost roots cyc p)
    (hc : ∀ c n, 0 ≤ cost c n) {solver : Program → Option (Var → ℚ)} {sol : Var → ℚ} (hs : solver p = some sol) (hf : Optimal p sol) :
    ∃ f0 e rs sel total, (∀ fuel, f0 ≤ fuel → solveMultiple eg ks cost solver fuel roots = .ok (e, rs)) ∧
      Selection eg roots sel ∧ Uses eg sel e ∧ Total eg cost sel total ∧
      ∀ sel' total', Selection eg roots sel' → (∀ c i, (c, i) ∈ sel' → (c, i) ∉ cyc) → Total eg cost sel' total' → total ≤ total' := by
  have hk := listed h hks
  have hG := graphOK h hb
  have hro := rootsOK h hr
  obtain ⟨_, B, ho, hB⟩ := hp.order h hb hks
  have hiff := feasible_iff hG hk hro hp.2
  have ha := (hiff sol).1 hf.feasible
  obtain ⟨f1, e, rs, ps, ids, h1, h2, h3⟩ := extractSolution_spec (cv := classVars ks) hG
    (fun c cl hc => (hk.classVars c _).2 ⟨cl, hc, rfl⟩) ho hB ha hro
  obtain ⟨cons, g1, _⟩ := program_spec hG hk hro cost cyc
  have hobj : p.objective = objective ks cost := by
    have := hp.2; rw [g1] at this; cases this; rfl
  obtain ⟨⟨f0, h0⟩, hp2⟩ := hp
  have hsel := h2.selection h3
  obtain ⟨total, ht⟩ := exists_total (eg := eg) cost (sel := ps) (fun c i hm => by
    obtain ⟨n, hn, _⟩ := hsel.nodes c i hm; exact ⟨n, hn⟩)
  refine ⟨max f0 f1, e, rs, ps, total, fun fuel hf => ?_, hsel, h2.uses, ht, fun sel' total' k1 k2 k3 => ?_⟩
  · simp only [solveMultiple, h0 fuel (by omega), hp2, hs, ok_bind, unwrap, h1 fuel (by omega)]
  · have l1 := total_le_value hk ha hc hsel.nodup (fun c i hm => (h2.picked c i hm).1) ht
    have l2 := hf.least _ ((hiff _).2 (answer_of_selection k1 (fun p hp => k2 p.1 p.2 hp)))
    rw [hobj, value_selSol hk k1.nodup k3] at l2
    exact le_trans l1 l2

/-- **C32.**  If no e-node lies on a cycle, no e-node is forbidden, so the program has a solution for all
roots (and the best solutions are the best selections of all). -/
theorem c32_acyclic {cyc : List (Id × Nat)} {p : Program} (h : Hist (A.at depth) allow U eg) (hb : Rebuilt eg)
    (hks : ks.Perm (eg.classes.map Prod.snd)) (hr : ∀ r ∈ roots, Valid eg r) (hp : Prepared eg ks cost roots cyc p)
    (hac : ∀ c i, ¬ OnCycle eg c i) : cyc = [] ∧ ∃ sol, Feasible p sol := by
  have hcyc : cyc = [] := by
    rw [List.eq_nil_iff_forall_not_mem]
    rintro ⟨c, i⟩ hm
    exact hac c i ((c32_cycles h hb hks hp).1 c i hm)
  refine ⟨hcyc, (c32_feasible_iff h hb hks hr hp).2 ⟨ks.map (fun k => (k.id, 0)), ⟨?_, ?_, ?_⟩, by simp [hcyc]⟩⟩
  · rw [List.map_map]; exact (listed h hks).nodup
  · intro c i hm
    obtain ⟨k, h1, h2⟩ := List.mem_map.1 hm
    cases h2
    have hok := (classes_ok (hist_good h).inv hks k).2 h1
    have hpos : 0 < k.nodes.length := List.length_pos_iff.2 hok.ne
    refine ⟨k.nodes[0], ⟨k, hok.get, List.getElem?_eq_getElem hpos⟩, fun d hd => ?_⟩
    obtain ⟨cl, hcl⟩ := (graphOK h hb).child k.id d ⟨0, _, ⟨k, hok.get, List.getElem?_eq_getElem hpos⟩, hd⟩
    obtain ⟨g1, rfl⟩ := ((listed h hks).mem d cl).1 hcl
    exact ⟨0, List.mem_map.2 ⟨cl, g1, rfl⟩⟩
  · intro r hrm
    obtain ⟨c, cl, h1, h2⟩ := rootsOK h hr r hrm
    obtain ⟨g1, rfl⟩ := ((listed h hks).mem c cl).1 h2
    exact ⟨_, 0, h1, List.mem_map.2 ⟨cl, g1, rfl⟩⟩

end

/-! ### Examples -/

end Lp

open Lp

/-- `A = {f B}`, `B = {b, g A}`. -/
def Ex.l1 : Ex.G := Ex.st (EGraph.addUncanonical Ex.N0 EGraph.new (Ex.leaf .b))
def Ex.l2 : Ex.G := Ex.st (EGraph.addUncanonical Ex.N0 Ex.l1 (Ex.app .f [0]))
def Ex.l3 : Ex.G := Ex.st (EGraph.addUncanonical Ex.N0 Ex.l2 (Ex.app .g [1]))
def Ex.l4 : Ex.G := Ex.st (EGraph.union Ex.N0 Ex.l3 0 2 7)
def Ex.l5 : Ex.G := Ex.st (EGraph.rebuild Ex.N0 20 Ex.l4)

theorem Ex.hist_l3 (allow) : Hist Ex.N0 allow [] Ex.l3 :=
  .tail (V := []) (.tail (V := []) (.tail (V := []) .refl (.add (n := Ex.leaf .b) (i := 0) rfl)) (.add (n := Ex.app .f [0]) (i := 1) rfl)) (.add (n := Ex.app .g [1]) (i := 2) rfl)

theorem Ex.hist_l4 (allow) : Hist Ex.N0 allow [⟨7, 0, 2, Ex.tb, Ex.T .g [Ex.tfb]⟩] Ex.l4 :=
  .tail (V := [⟨7, 0, 2, Ex.tb, Ex.T .g [Ex.tfb]⟩]) (Ex.hist_l3 allow)
    (.union (r := true) (Ex.rep_leaf rfl rfl (by decide)) (Ex.rep_app1 (i := 1) rfl rfl (by decide)
      (Ex.rep_app1 (i := 0) rfl rfl (by decide) (Ex.rep_leaf rfl rfl (by decide)))) rfl)

theorem Ex.hist_l5 (allow) : Hist Ex.N0 allow [⟨7, 0, 2, Ex.tb, Ex.T .g [Ex.tfb]⟩] Ex.l5 :=
  .tail (V := []) (Ex.hist_l4 allow) (.rebuild (fuel := 20) (n := 0) rfl)

theorem Ex.rebuilt_l5 : Rebuilt Ex.l5 := c47_clean_means_rebuilt (A := Ex.U0) (depth := 1) (Ex.hist_l5 Caller.all) rfl

def Ex.ksBad : List (EClass Ex.S Unit) := (Ex.l5.classes.map Prod.snd).reverse
def Ex.ksGood : List (EClass Ex.S Unit) := Ex.l5.classes.map Prod.snd

theorem Lp.Prepared.eq {Op D : Type} [DecidableEq Op] [Lang Op] {eg : EGraph Op D} {ks : List (EClass Op D)} {cost : Id → ENode Op → ℚ} {roots : List Id}
    {cyc : List (Id × Nat)} {p : Lp.Program} (h : Prepared eg ks cost roots cyc p) {f : Nat} {cyc' : List (Id × Nat)}
    (hf : findCycles eg ks f = .ok cyc') : cyc = cyc' := by
  obtain ⟨⟨f0, h0⟩, _⟩ := h
  have h1 := h0 (max f f0) (by omega)
  have h2 : findCycles eg ks (max f f0) = .ok cyc' := findCyclesLoop_mono hf (by omega)
  rw [h1] at h2
  cases h2
  rfl

theorem Ex.selection_l5 : Selection Ex.l5 [1] [(0, 0), (1, 0)] := by
  refine ⟨by decide, ?_, ?_⟩
  · intro c i hm
    simp only [List.mem_cons, Prod.mk.injEq, List.not_mem_nil, or_false] at hm
    rcases hm with ⟨rfl, rfl⟩ | ⟨rfl, rfl⟩
    · exact ⟨Ex.leaf .b, ⟨_, rfl, rfl⟩, by simp [Ex.leaf]⟩
    · exact ⟨Ex.app .f [0], ⟨_, rfl, rfl⟩, by simp [Ex.app]⟩
  · intro r hr
    simp at hr
    subst hr
    exact ⟨1, 0, rfl, by simp⟩

theorem Ex.valid_l5 : ∀ r ∈ [1], Valid Ex.l5 r := by
  intro r hr
  simp at hr
  subst hr
  exact ⟨1, rfl⟩

/-- **C32, finding.**  The cycle finder forbids more than necessary, and what it forbids depends on the order in which
the class table is iterated: in the e-graph `A = {f B}`, `B = {b, g A}`, where `A` represents the term `f b`, one
order forbids `f B`, so that the program for the root `A` has no solution and `solve` panics with every correct
solver; with the other order it has a solution. -/
theorem c32_order_counterexample : Hist Ex.N0 Caller.all [⟨7, 0, 2, Ex.tb, Ex.T .g [Ex.tfb]⟩] Ex.l5 ∧ Rebuilt Ex.l5 ∧
    Rep Ex.l5 1 Ex.tfb ∧ Ex.ksBad.Perm (Ex.l5.classes.map Prod.snd) ∧ Ex.ksGood.Perm (Ex.l5.classes.map Prod.snd) ∧
    (∀ cost cyc p, Prepared Ex.l5 Ex.ksBad cost [1] cyc p → ¬ ∃ sol, Feasible p sol) ∧
    (∀ cost (solver : Lp.Program → Option (Lp.Var → ℚ)), (∀ p sol, solver p = some sol → Feasible p sol) →
      ∀ fuel, 50 ≤ fuel → solveMultiple Ex.l5 Ex.ksBad cost solver fuel [1] = .error .panic) ∧
    (∀ cost cyc p, Prepared Ex.l5 Ex.ksGood cost [1] cyc p → ∃ sol, Feasible p sol) := by
  have hh := Ex.hist_l5 Caller.all
  have p1 : Ex.ksBad.Perm (Ex.l5.classes.map Prod.snd) := List.reverse_perm _
  have p2 : Ex.ksGood.Perm (Ex.l5.classes.map Prod.snd) := List.Perm.refl _
  have hbad : ∀ cost cyc p, Prepared Ex.l5 Ex.ksBad cost [1] cyc p → ¬ ∃ sol, Feasible p sol := by
    intro cost cyc p hp
    have he : cyc = [(1, 0)] := hp.eq (f := 50) rfl
    rw [c32_feasible_iff (A := Ex.U0) (depth := 1) hh Ex.rebuilt_l5 p1 Ex.valid_l5 hp]
    rintro ⟨sel, h1, h2⟩
    obtain ⟨c, j, h3, h4⟩ := h1.roots 1 (by simp)
    have h5 : c = 1 := by injection (h3.symm.trans (rfl : Ex.l5.find 1 = .ok 1))
    subst h5
    obtain ⟨n, ⟨cl, a, b⟩, _⟩ := h1.nodes _ _ h4
    have hcl : Ex.l5.classes.get? 1 = some cl := a
    have hj : j < cl.nodes.length := (List.getElem?_eq_some_iff.1 b).1
    have hlen : (Ex.l5.classes.get? 1).map (fun c => c.nodes.length) = some 1 := rfl
    rw [hcl] at hlen
    have hlen : cl.nodes.length = 1 := by injection hlen
    have : j = 0 := by omega
    subst this
    exact h2 _ _ h4 (by rw [he]; simp)
  refine ⟨hh, Ex.rebuilt_l5, Ex.rep_app1 (i := 0) rfl rfl (by decide) (Ex.rep_leaf rfl rfl (by decide)), p1, p2, hbad, ?_, ?_⟩
  · intro cost solver hs fuel hf
    obtain ⟨cyc, p, hp⟩ := c32_prepared (A := Ex.U0) (depth := 1) hh Ex.rebuilt_l5 p1 cost Ex.valid_l5
    have he : cyc = [(1, 0)] := hp.eq (f := 50) rfl
    have h1 : findCycles Ex.l5 Ex.ksBad fuel = .ok cyc := by
      rw [he]; exact findCyclesLoop_mono (f := 50) rfl hf
    have h2 : solver p = none := by
      cases h : solver p with
      | none => rfl
      | some sol => exact absurd ⟨sol, hs p sol h⟩ (hbad cost cyc p hp)
    simp only [solveMultiple, h1, hp.2, ok_bind, h2]
    rfl
  · intro cost cyc p hp
    have he : cyc = [(0, 1)] := hp.eq (f := 50) rfl
    refine (c32_feasible_iff (A := Ex.U0) (depth := 1) hh Ex.rebuilt_l5 p2 Ex.valid_l5 hp).2 ⟨_, Ex.selection_l5, ?_⟩
    rw [he]
    intro c i hm
    simp only [List.mem_cons, Prod.mk.injEq, List.not_mem_nil, or_false] at hm ⊢
    omega

/-- The hypotheses are met on this cyclic e-graph: with each e-node of cost 1, the solution that belongs to the selection above
is a best one, and the expression `f b` is extracted. -/
example : ∃ cyc p, Prepared Ex.l5 Ex.ksGood (fun _ _ => 1) [1] cyc p ∧ Optimal p (selSol [(0, 0), (1, 0)]) ∧
    solveMultiple Ex.l5 Ex.ksGood (fun _ _ => 1) (fun _ => some (selSol [(0, 0), (1, 0)])) 50 [1] =
      .ok ([Ex.leaf .b, Ex.app .f [0]], [1]) := by
  have hh := Ex.hist_l5 Caller.all
  obtain ⟨cyc, p, hp⟩ := c32_prepared (A := Ex.U0) (depth := 1) (ks := Ex.ksGood) hh Ex.rebuilt_l5 (List.Perm.refl _) (fun _ _ => 1) Ex.valid_l5
  have he : cyc = [(0, 1)] := hp.eq (f := 50) rfl
  have hiff := feasible_iff (graphOK (A := Ex.U0) (depth := 1) hh Ex.rebuilt_l5) (listed (A := Ex.U0) (depth := 1) hh (List.Perm.refl _))
    (rootsOK (A := Ex.U0) (depth := 1) hh Ex.valid_l5) hp.2
  have hobj : p.objective = [(1, .node 0 0), (1, .node 0 1), (1, .node 1 0)] := by
    obtain ⟨cons, g1, _⟩ := program_spec (graphOK (A := Ex.U0) (depth := 1) hh Ex.rebuilt_l5) (listed (A := Ex.U0) (depth := 1) (ks := Ex.ksGood) hh (List.Perm.refl _))
      (rootsOK (A := Ex.U0) (depth := 1) hh Ex.valid_l5) (fun _ _ => 1) cyc
    have := hp.2; rw [g1] at this; cases this; rfl
  refine ⟨cyc, p, hp, ⟨(hiff _).2 (answer_of_selection Ex.selection_l5 ?_), fun sol hs => ?_⟩, rfl⟩
  · rw [he]
    rintro ⟨c, i⟩ hm
    simp only [List.mem_cons, Prod.mk.injEq, List.not_mem_nil, or_false] at hm ⊢
    omega
  · have ha := (hiff sol).1 hs
    have h1 := ha.root 1 1 (by simp) rfl
    have h2 := ha.sum 1 _ rfl
    have h3 := ha.child 1 0 (Ex.app .f [0]) 0 ⟨_, rfl, rfl⟩ (by rw [he]; decide) (by simp [Ex.app])
    have h4 := ha.sum 0 _ rfl
    have e1 : (List.range 1).map (fun i => sol (.node 1 i)) = [sol (.node 1 0)] := rfl
    have e2 : (List.range 2).map (fun i => sol (.node 0 i)) = [sol (.node 0 0), sol (.node 0 1)] := rfl
    have h2' : ((List.range 1).map (fun i => sol (.node 1 i))).sum = sol (.active 1) := h2
    have h4' : ((List.range 2).map (fun i => sol (.node 0 i))).sum = sol (.active 0) := h4
    rw [e1] at h2'
    rw [e2] at h4'
    simp only [List.sum_cons, List.sum_nil] at h2' h4'
    rw [hobj]
    simp [value, selSol]
    linarith

/-- Without rebuilding, the constructor can panic: children that are not canonical have no colour. -/
example : findCycles Ex.e5 (Ex.e5.classes.map Prod.snd) 50 = .error .panic := rfl

end Egg
