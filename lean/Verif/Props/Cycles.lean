import Verif.Lemmas.Cycles
import Verif.Props.Match
import Verif.Props.Rewrite
import Verif.Props.MultiPattern
/-
C66: searching with `allow_ematching_cycles` returning `false`.
-/
namespace Egg
variable {Op D : Type} [DecidableEq Op] [Lang Op]

/-! ### Specification -/

/-- The class of `d` is an argument of an e-node of the class of `c`. -/
def ArgOf (eg : EGraph Op D) (c d : Id) : Prop :=
  ∃ cl n x, eg.index c = .ok cl ∧ n ∈ cl.nodes ∧ x ∈ n.children ∧ SameClass eg x d

/-- The class `d` is below the class `c`. -/
inductive StrictlyBelow (eg : EGraph Op D) (c : Id) : Id → Prop where
  | arg {d} : ArgOf eg c d → StrictlyBelow eg c d
  | step {d e} : StrictlyBelow eg c d → ArgOf eg d e → StrictlyBelow eg c e

/-- The class is below itself. -/
def OnCycle (eg : EGraph Op D) (c : Id) : Prop := StrictlyBelow eg c c

/-- The same analysis, which allows cycles or not. -/
def Analysis.cycles (N : Analysis Op D) (b : Bool) : Analysis Op D := { N with allowCycles := b }

/-! ### C66 -/

section
variable {A : UserAnalysis Op D} {depth : Nat} {allow : Caller Op D}
  {U : List (UnionRec Op)} {eg : EGraph Op D} {ord : IterOrd} {p : Pattern Op} {t : Term (PatOp Op)}

theorem report_sub {subst : List (Var × Nat)} {R : List Id} {s : Subst} (h : report false subst R = some s) :
    report true subst R = some s := by
  unfold report at h ⊢
  split at h
  · cases h
  · simp only [Bool.not_true, Bool.false_and, Bool.false_eq_true, if_false]; exact h

omit [DecidableEq Op] [Lang Op] in
theorem filterMap_sub {α β : Type} {f g : α → Option β} (h : ∀ a b, f a = some b → g a = some b) :
    ∀ l : List α, (l.filterMap f).Sublist (l.filterMap g)
  | [] => by simp
  | a :: l => by
    cases hf : f a with
    | none =>
      rw [List.filterMap_cons_none hf]
      cases hg : g a with
      | none => rw [List.filterMap_cons_none hg]; exact filterMap_sub h l
      | some b => rw [List.filterMap_cons_some hg]; exact (filterMap_sub h l).cons b
    | some b => rw [List.filterMap_cons_some hf, List.filterMap_cons_some (h a b hf)]; exact (filterMap_sub h l).cons_cons b

theorem matches_acyclic (h : Hist (A.at depth) allow U eg) (hc : eg.clean = true) (hd : DiscContiguous Op)
    (hp : IsPattern p t) {c : Id} (hcy : ¬ OnCycle eg c) (hcl : c < eg.nodes.length) :
    matchesOf false eg ord.classes p.program c = matchesOf true eg ord.classes p.program c := by
  obtain ⟨ordc, fuel, ast, hoc, hw, hnew, ht⟩ := hp
  have hi := (hist_good h).inv
  have hr := c47_clean_means_rebuilt h hc
  unfold matchesOf
  apply List.filterMap_congr
  intro R hR
  have hra : rootAgain R = false := by
    obtain ⟨cc, e1, e2, _, hf⟩ := pattern_local hi hr hd hoc ord.classes hw hnew ht
    rw [e1] at hR
    have hlt : ∀ c cl, eg.index c = .ok cl → ∀ n ∈ cl.nodes, ∀ d ∈ n.children, SameClass eg d d := by
      intro c cl h n hn d hd
      have := EGraph.InvW.index_node_lt hi h hn d hd
      exact ⟨_, hi.find this, hi.find this⟩
    obtain ⟨S, rfl, hS⟩ := runs_reach (P := StrictlyBelow eg c) hi hr hd (R := [])
      (fun cl hcl n hn d hd => .arg ⟨cl, n, d, hcl, hn, hd, hlt c cl hcl n hn d hd⟩)
      (fun x cl hx hcl n hn d hd => .step hx ⟨cl, n, d, hcl, hn, hd, hlt x cl hcl n hn d hd⟩)
      cc.extract.instrs e2.noScan (by simp) hR
    simp only [rootAgain, decide_eq_false_iff_not]
    exact fun hm => hcy (hS c hm)
  unfold report
  simp [hra]

/-- **C66**, one class.  What is reported without cycles is, for every limit, the beginning of a sublist `L'` of the
substitutions `L` reported with cycles; nothing is missing if the class is not below itself; and unless the pattern is
a variable, none of them binds a variable to the (canonical) class that is searched. -/
theorem c66_search_eclass (h : Hist (A.at depth) allow U eg) (hc : eg.clean = true) (hd : DiscContiguous Op)
    (ho : ord.OK eg) (hp : IsPattern p t) {c : Id} (hcv : Valid eg c) :
    ∃ L L' : List Subst, L'.Sublist L ∧ (¬ OnCycle eg c → L' = L) ∧
      (∀ limit, p.searchEclassWithLimit ((A.at depth).cycles true) eg ord c limit =
        .ok (if L.take limit = [] then none else some ⟨c, L.take limit, some p.ast⟩)) ∧
      (∀ limit, p.searchEclassWithLimit ((A.at depth).cycles false) eg ord c limit =
        .ok (if L'.take limit = [] then none else some ⟨c, L'.take limit, some p.ast⟩)) ∧
      (∀ s ∈ L', (∀ v, t ≠ .node (.var v) []) → eg.find c = .ok c → ∀ v x, s.get v = some x → ¬ SameClass eg x c) := by
  have hp0 := hp
  obtain ⟨ordc, fuel, ast, hoc, hw, hnew, ht⟩ := hp
  have hi := (hist_good h).inv
  have hr := c47_clean_means_rebuilt h hc
  obtain ⟨cc, e1, e2, e3, hf⟩ := pattern_local hi hr hd hoc ord.classes hw hnew ht
  have hcl := (valid_iff hi).1 hcv
  refine ⟨matchesOf true eg ord.classes p.program c, matchesOf false eg ord.classes p.program c,
    filterMap_sub (fun _ _ => report_sub) _, fun hcy => matches_acyclic h hc hd hp0 hcy hcl, fun limit => ?_, fun limit => ?_, ?_⟩
  · rw [searchEclass_eq hi hr hd hc _ ho e1 hf hcl]
    simp only [List.isEmpty_iff]; rfl
  · rw [searchEclass_eq hi hr hd hc _ ho e1 hf hcl]
    simp only [List.isEmpty_iff]; rfl
  · intro s hs hnv hcc v x hx hsame
    have hop : ∃ o ts, t = .node (.op o) ts := by
      cases t with
      | node o ts =>
        cases o with
        | op o => exact ⟨o, ts, rfl⟩
        | var v =>
          have hwp := hp0.wf.1
          obtain ⟨m, g1, g2, g3⟩ := termOf_iff.1 ht.2
          have := hwp.2 m (List.mem_of_getElem? g1) v g2
          rw [this] at g3
          cases g3
          exact absurd rfl (hnv v)
    rw [e1] at hs
    have hxc := hf.canon hi hr hd (fun x hx => hi.find_iff.2 ((order_ok hi ho).1 x |>.1 hx)) hcc hs v x hx
    have hxe : x = c := by
      obtain ⟨q, h1, h2⟩ := hsame
      rw [hxc] at h1; rw [hcc] at h2; cases h1; cases h2; rfl
    subst hxe
    rw [Compiler.mem_matchesOf] at hs
    obtain ⟨R, hR, hs, hra⟩ := hs
    have hra := hra rfl
    rw [readSubst_get hs, hf.subst_eq] at hx
    obtain ⟨r, h1, h2⟩ := Option.bind_eq_some_iff.1 hx
    have hr1 := (e3 hop).vars v r h1
    obtain ⟨S, rfl, _⟩ := runs_reach (P := fun _ => True) hi hr hd (R := []) (fun _ _ _ _ _ _ => trivial)
      (fun _ _ _ _ _ _ _ _ => trivial) cc.extract.instrs e2.noScan (by simp) hR
    obtain ⟨q, rfl⟩ : ∃ q, r = q + 1 := ⟨r - 1, by omega⟩
    simp only [List.getElem?_cons_succ] at h2
    simp only [rootAgain, decide_eq_false_iff_not] at hra
    exact hra (List.mem_of_getElem? h2)

/-- **C66**, whole e-graph. -/
theorem c66_search (h : Hist (A.at depth) allow U eg) (hc : eg.clean = true) (hd : DiscContiguous Op)
    (ho : ord.OK eg) (hp : IsPattern p t) :
    ∃ l0, ∀ limit, l0 ≤ limit → ∃ ms ms', p.searchWithLimit ((A.at depth).cycles true) eg ord limit = .ok ms ∧
      p.searchWithLimit ((A.at depth).cycles false) eg ord limit = .ok ms' ∧ (flat ms').Sublist (flat ms) ∧
      (∀ c s, (c, s) ∈ flat ms → ¬ OnCycle eg c → (c, s) ∈ flat ms') ∧
      (∀ c s, (c, s) ∈ flat ms' → (∀ v, t ≠ .node (.var v) []) → ∀ v x, s.get v = some x → ¬ SameClass eg x c) := by
  have hp0 := hp
  obtain ⟨ordc, fuel, ast, hoc, hw, hnew, ht⟩ := hp
  have hi := (hist_good h).inv
  have hr := c47_clean_means_rebuilt h hc
  obtain ⟨cc, e1, -, hf⟩ := pattern_fin hi hr hd hoc ord.classes hw hnew ht
  obtain ⟨v1, v2, v3⟩ := visited_spec hi hr ho t
  let F : Bool → List (Id × Subst) := fun b => (visited eg ord t).flatMap (fun c =>
    (matchesOf b eg ord.classes p.program c).map (fun s => (c, s)))
  have hs : ∀ b limit, ∃ ms, p.searchWithLimit ((A.at depth).cycles b) eg ord limit = .ok ms ∧ flat ms = (F b).take limit := by
    intro b limit
    obtain ⟨ms, g1, g2, -⟩ := searchEclasses_spec (visited eg ord t) (fun c hcv limit =>
      searchEclass_eq hi hr hd hc ((A.at depth).cycles b) ho e1 hf (hi.find_iff.1 (v2 c hcv)).1 limit) limit
    exact ⟨ms, by rw [search_eq _ ht]; exact g1, g2⟩
  refine ⟨max (F true).length (F false).length, fun limit hl => ?_⟩
  obtain ⟨ms, g1, g2⟩ := hs true limit
  obtain ⟨ms', g1', g2'⟩ := hs false limit
  rw [List.take_of_length_le (by omega)] at g2 g2'
  have hsub : ∀ l : List Id, (l.flatMap (fun c => (matchesOf false eg ord.classes p.program c).map (fun s => (c, s)))).Sublist
      (l.flatMap (fun c => (matchesOf true eg ord.classes p.program c).map (fun s => (c, s)))) := by
    intro l
    induction l with
    | nil => simp
    | cons c l ih =>
      simp only [List.flatMap_cons]
      refine List.Sublist.append (List.Sublist.map _ ?_) ih
      exact filterMap_sub (fun _ _ => report_sub) _
  refine ⟨ms, ms', g1, g1', by rw [g2, g2']; exact hsub _, ?_, ?_⟩
  · intro c s hm hcy
    rw [g2] at hm
    rw [g2']
    obtain ⟨c', h1, h2⟩ := List.mem_flatMap.1 hm
    obtain ⟨s', h3, h4⟩ := List.mem_map.1 h2
    cases h4
    refine List.mem_flatMap.2 ⟨c, h1, List.mem_map.2 ⟨s, ?_, rfl⟩⟩
    rw [matches_acyclic h hc hd hp0 hcy (hi.find_iff.1 (v2 c h1)).1]
    exact h3
  · intro c s hm hnv
    rw [g2'] at hm
    obtain ⟨c', h1, h2⟩ := List.mem_flatMap.1 hm
    obtain ⟨s', h3, h4⟩ := List.mem_map.1 h2
    cases h4
    obtain ⟨L, L', _, _, _, k4, k5⟩ := c66_search_eclass h hc hd ho hp0 ⟨_, v2 c h1⟩
    refine k5 s ?_ hnv (v2 c h1)
    have q1 := k4 (L'.length + (matchesOf false eg ord.classes p.program c).length)
    rw [searchEclass_eq hi hr hd hc _ ho e1 hf (hi.find_iff.1 (v2 c h1)).1] at q1
    injection q1 with q1
    have e : ((A.at depth).cycles false).allowCycles = false := rfl
    rw [e, List.take_of_length_le (by omega), List.take_of_length_le (by omega)] at q1
    rw [if_neg (by rw [List.isEmpty_iff]; exact List.ne_nil_of_mem h3)] at q1
    split at q1
    · cases q1
    · injection q1 with q1
      injection q1 with _ q1
      rw [← q1]; exact h3

end

/-! ### Examples -/

/-- The e-graph with `a`, `f a` and `a = f a`, whose class is below itself. -/
def Ex.k1 : EGraph Ex.S Unit := Ex.st (EGraph.addUncanonical Ex.N0 EGraph.new (Ex.leaf .a))
def Ex.k2 : EGraph Ex.S Unit := Ex.st (EGraph.addUncanonical Ex.N0 Ex.k1 (Ex.app .f [0]))
def Ex.k3 : EGraph Ex.S Unit := Ex.st (EGraph.union Ex.N0 Ex.k2 0 1 7)
def Ex.k4 : EGraph Ex.S Unit := Ex.st (EGraph.rebuild Ex.N0 20 Ex.k3)
def Ex.unk : UnionRec Ex.S := ⟨7, 0, 1, Ex.ta, Ex.tfa⟩

theorem Ex.hist_k2 (allow) : Hist Ex.N0 allow [] Ex.k2 :=
  .tail (V := []) (.tail (V := []) .refl (.add (n := Ex.leaf .a) (i := 0) rfl)) (.add (n := Ex.app .f [0]) (i := 1) rfl)

theorem Ex.reb_k4 : EGraph.rebuild Ex.N0 20 Ex.k3 = .ok (Ex.k4, 0) := rfl

theorem Ex.hist_k4 (allow) : Hist Ex.N0 allow [Ex.unk] Ex.k4 := by
  refine .tail (V := []) (.tail (V := [Ex.unk]) (Ex.hist_k2 allow) (.union (r := true) ?_ ?_ rfl)) (.rebuild Ex.reb_k4)
  · exact Ex.rep_leaf rfl rfl (by decide)
  · exact Ex.rep_app1 (i := 0) rfl rfl (by decide) (Ex.rep_leaf rfl rfl (by decide))

/-- The hypotheses of C66 hold of this e-graph and of the pattern `f ?x`; with cycles the pattern is found, without it is not. -/
example (allow) : Hist Ex.N0 allow [Ex.unk] Ex.k4 ∧ Ex.k4.clean = true ∧ OnCycle Ex.k4 0 ∧ IsPattern Ex.patFx Ex.termFx ∧
    (Ex.patFx.searchWithLimit (Ex.N0.cycles true) Ex.k4 (Ex.ord Ex.k4) 9).toOption.map flat = some [(0, [(Ex.vx, 0)])] ∧
    (Ex.patFx.searchWithLimit (Ex.N0.cycles false) Ex.k4 (Ex.ord Ex.k4) 9).toOption.map flat = some [] :=
  ⟨Ex.hist_k4 allow, rfl, .arg ⟨_, Ex.app .f [0], 0, rfl, by decide, by decide, _, rfl, rfl⟩, Ex.isPatFx, rfl, rfl⟩

/-- **C66**, negative part: searching a class by an id that is not canonical reports the matches that the option
should suppress. -/
theorem c66_noncanonical_counterexample : ∃ (eg : EGraph Ex.S Unit) (p : Pattern Ex.S) (t : Term (PatOp Ex.S)) (c : Id) (m : SearchMatches Ex.S)
    (s : Subst), (∀ allow, Hist Ex.N0 allow [Ex.unk] eg) ∧ eg.clean = true ∧ IsPattern p t ∧ (∀ v, t ≠ .node (.var v) []) ∧ Valid eg c ∧
    p.searchEclassWithLimit (Ex.N0.cycles false) eg (Ex.ord eg) c 9 = .ok (some m) ∧ s ∈ m.substs ∧
      ∃ v x, s.get v = some x ∧ SameClass eg x c :=
  ⟨Ex.k4, Ex.patFx, Ex.termFx, 1, ⟨1, [[(Ex.vx, 0)]], some Ex.patFx.ast⟩, [(Ex.vx, 0)], Ex.hist_k4, rfl, Ex.isPatFx,
    (by intro v h; cases h), ⟨_, rfl⟩, rfl, (by simp), Ex.vx, 0, rfl, _, rfl, rfl⟩

/-- The e-graph with `a` and `f a`. -/
def Ex.k5 : EGraph Ex.S Unit := Ex.st (EGraph.rebuild Ex.N0 20 Ex.k2)
theorem Ex.reb_k5 : EGraph.rebuild Ex.N0 20 Ex.k2 = .ok (Ex.k5, 0) := rfl

theorem Ex.argOf_k5 {c d : Id} (h : ArgOf Ex.k5 c d) : c = 1 ∧ d = 0 := by
  obtain ⟨cl, n, x, h1, h2, h3, h4⟩ := h
  match c, h1 with
  | 0, h1 =>
    cases h1
    have h2' : n ∈ [Ex.leaf .a] := h2
    have : n = Ex.leaf .a := by simpa using h2'
    subst this
    cases h3
  | 1, h1 =>
    cases h1
    have h2' : n ∈ [Ex.app .f [0]] := h2
    have : n = Ex.app .f [0] := by simpa using h2'
    subst this
    have : x = 0 := by simpa [Ex.app] using h3
    subst this
    obtain ⟨r, g1, g2⟩ := h4
    cases g1
    match d, g2 with
    | 0, _ => exact ⟨rfl, rfl⟩
    | 1, g2 => cases g2
    | d + 2, g2 => cases g2
  | c + 2, h1 => cases h1

/-- **C66**, negative part: for multi-patterns the option also suppresses matches in e-graphs without
cycles, because the classes of all clauses are compared with that of the first: `?p = (f ?x), ?q = (f ?x)` is not found in the e-graph
that consists of `a` and `f a`. -/
theorem c66_multi_counterexample : ∃ (eg : EGraph Ex.S Unit) (p : MultiPattern Ex.S),
    (∀ allow, Hist Ex.N0 allow [] eg) ∧ eg.clean = true ∧ (∀ c, ¬ OnCycle eg c) ∧
    IsMultiPattern p [(Ex.vp, Ex.termFx), (Ex.vq, Ex.termFx)] ∧
    MultiMatch eg (Subst.get [(Ex.vp, 1), (Ex.vx, 0), (Ex.vq, 1)]) 1 [(Ex.vp, Ex.termFx), (Ex.vq, Ex.termFx)] ∧
    ((p.searcher (D := Unit)).search (Ex.N0.cycles false) eg (Ex.ord eg) 9).toOption.map flat = some [] ∧
    ((p.searcher (D := Unit)).search (Ex.N0.cycles true) eg (Ex.ord eg) 9).toOption.map flat ≠ some [] := by
  have hm : PMatch Ex.k5 (Subst.get [(Ex.vp, 1), (Ex.vx, 0), (Ex.vq, 1)]) 1 Ex.termFx := by
    refine .node (n := Ex.app .f [0]) rfl (by decide) rfl ?_
    intro j d q hd hq
    match j with
    | 0 => simp [Ex.app] at hd hq; subst hd; subst hq; exact .var (x := 0) rfl ⟨0, rfl, rfl⟩
    | j + 1 => simp [Ex.app] at hd
  refine ⟨Ex.k5, match MultiPattern.new Ex.ordc 10 [(Ex.vp, Ex.astFx), (Ex.vq, Ex.astFx)] with
    | .ok p => p
    | .error _ => ⟨[], ⟨[], []⟩⟩, fun allow => .tail (V := []) (Ex.hist_k2 allow) (.rebuild Ex.reb_k5), rfl, ?_,
    ⟨Ex.ordc, 10, Ex.ordcOK, rfl, .cons ⟨rfl, patWF_of rfl rfl rfl, exprTerm_of (f := 5) rfl rfl⟩
      (.cons ⟨rfl, patWF_of rfl rfl rfl, exprTerm_of (f := 5) rfl rfl⟩ .nil)⟩, ?_, by decide, by decide⟩
  · intro c h
    have : ∀ d, StrictlyBelow Ex.k5 c d → c = 1 ∧ d = 0 := by
      intro d h
      induction h with
      | arg h => exact Ex.argOf_k5 h
      | step _ h ih => have := (Ex.argOf_k5 h).1; omega
    have := this c h
    omega
  · refine ⟨⟨1, rfl, 1, rfl, rfl⟩, hm, ?_⟩
    intro w u hw
    simp only [List.mem_singleton] at hw
    cases hw
    exact ⟨1, rfl, hm⟩

end Egg
