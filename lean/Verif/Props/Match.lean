import Verif.ExampleTools
import Verif.Props.Rebuild
/-
C17-C21, C42, C47: searching patterns.
-/
namespace Egg
variable {Op D : Type} [DecidableEq Op] [Lang Op]

section
variable {A : UserAnalysis Op D} {depth : Nat} {allow : Caller Op D}
  {U : List (UnionRec Op)} {eg : EGraph Op D} {ord : IterOrd} {p : Pattern Op} {t : Term (PatOp Op)}

/-! ### C17 -/

/-- **C17.**  In every clean state of every history: each substitution reported
for a class `c` binds exactly the variables of the pattern, to ids of the e-graph
(canonical ones, if `c` is canonical); the pattern matches in `c` under it; and
replacing the variables by terms of the bound classes gives a term of `c`. -/
theorem c17_search_eclass_sound (h : Hist (A.at depth) allow U eg) (hc : eg.clean = true) (hd : DiscContiguous Op)
    (ho : ord.OK eg) (hp : IsPattern p t) {c : Id} (hcv : Valid eg c) {limit : Nat} {m : SearchMatches Op}
    (hm : p.searchEclassWithLimit (A.at depth) eg ord c limit = .ok (some m)) :
    m.eclass = c ∧ m.substs ≠ [] ∧ ∀ s ∈ m.substs,
      (∀ v, (∃ x, s.get v = some x) ↔ Occurs v t) ∧
      (∀ v x, s.get v = some x → Valid eg x ∧ (eg.find c = .ok c → eg.find x = .ok x)) ∧
      PMatch eg s.get c t ∧
      ∀ (τ : Var → Term Op) (u : Term Op), (∀ v x, s.get v = some x → Rep eg x (τ v)) → Inst τ t u → Rep eg c u := by
  obtain ⟨ordc, fuel, ast, hoc, hw, hnew, ht⟩ := hp
  have hi := (hist_good h).inv
  have hr := c47_clean_means_rebuilt h hc
  obtain ⟨cc, e1, -, hf⟩ := pattern_fin hi hr hd hoc ord.classes hw hnew ht
  have hcl := (valid_iff hi).1 hcv
  rw [searchEclass_eq hi hr hd hc _ ho e1 hf hcl] at hm
  split at hm
  · cases hm
  · next hne =>
    cases hm
    refine ⟨rfl, by simpa using hne, fun s hs => ?_⟩
    have hs := List.mem_of_mem_take hs
    rw [e1] at hs
    obtain ⟨h1, h2, h3, -⟩ := hf.sound hi hr hd (fun x hx => ((order_ok hi ho).1 x |>.1 hx).1) hcl hs
    refine ⟨h2, fun v x hx => ⟨h3 v x hx, fun hcc => ?_⟩, h1, fun τ u hτ hu => ?_⟩
    · exact hf.canon hi hr hd (fun x hx => hi.find_iff.2 ((order_ok hi ho).1 x |>.1 hx)) hcc hs v x hx
    · exact hi.pmatch_rep t h1 (fun v x _ hx => hτ v x hx) hu

/-- The search of the whole e-graph: one entry per class, classes are canonical,
and every reported pair of class and substitution is as in
`c17_search_eclass_sound`. -/
theorem c17_search_sound (h : Hist (A.at depth) allow U eg) (hc : eg.clean = true) (hd : DiscContiguous Op)
    (ho : ord.OK eg) (hp : IsPattern p t) {limit : Nat} {ms : List (SearchMatches Op)}
    (hm : p.searchWithLimit (A.at depth) eg ord limit = .ok ms) :
    ∀ c s, (c, s) ∈ flat ms → eg.find c = .ok c ∧
      (∀ v, (∃ x, s.get v = some x) ↔ Occurs v t) ∧
      (∀ v x, s.get v = some x → eg.find x = .ok x) ∧
      PMatch eg s.get c t ∧
      ∀ (τ : Var → Term Op) (u : Term Op), (∀ v x, s.get v = some x → Rep eg x (τ v)) → Inst τ t u → Rep eg c u := by
  obtain ⟨ordc, fuel, ast, hoc, hw, hnew, ht⟩ := hp
  have hi := (hist_good h).inv
  have hr := c47_clean_means_rebuilt h hc
  obtain ⟨cc, e1, -, hf⟩ := pattern_fin hi hr hd hoc ord.classes hw hnew ht
  obtain ⟨v1, v2, v3⟩ := visited_spec hi hr ho t
  rw [search_eq _ ht] at hm
  obtain ⟨ms', g1, g2, g3, g4⟩ := searchEclasses_spec (visited eg ord t) (fun c hcv limit =>
    searchEclass_eq hi hr hd hc (A.at depth) ho e1 hf (hi.find_iff.1 (v2 c hcv)).1 limit) limit
  rw [hm] at g1; cases g1
  intro c s hcs
  rw [g2] at hcs
  have hcs := List.mem_of_mem_take hcs
  rw [List.mem_flatMap] at hcs
  obtain ⟨c', hc', hcs⟩ := hcs
  rw [List.mem_map] at hcs
  obtain ⟨s', hs, heq⟩ := hcs
  cases heq
  have hcc := v2 c hc'
  have hcl := (hi.find_iff.1 hcc).1
  rw [e1] at hs
  obtain ⟨h1, h2, h3, -⟩ := hf.sound hi hr hd (fun x hx => ((order_ok hi ho).1 x |>.1 hx).1) hcl hs
  refine ⟨hcc, h2, fun v x hx => ?_, h1, fun τ u hτ hu => ?_⟩
  · exact hf.canon hi hr hd (fun x hx => hi.find_iff.2 ((order_ok hi ho).1 x |>.1 hx)) hcc hs v x hx
  · exact hi.pmatch_rep t h1 (fun v x _ hx => hτ v x hx) hu

/-! ### C18 -/

/-- **C18**, one class: every match in `c` is reported (up to equality of the
bound classes), once the limit is large enough (`search_eclass` passes the
largest `usize`).  `allowCycles` is the default of `Analysis::allow_ematching_cycles`. -/
theorem c18_search_eclass_complete (h : Hist (A.at depth) allow U eg) (hc : eg.clean = true) (hd : DiscContiguous Op)
    (ho : ord.OK eg) (hp : IsPattern p t) (hcyc : (A.at depth).allowCycles = true) {c : Id} (hcv : Valid eg c) :
    ∃ l0, ∀ limit, l0 ≤ limit → ∀ σ : Var → Option Id, PMatch eg σ c t →
      ∃ m s, p.searchEclassWithLimit (A.at depth) eg ord c limit = .ok (some m) ∧ s ∈ m.substs ∧
        ∀ v, Occurs v t → ∃ x y, σ v = some x ∧ s.get v = some y ∧ SameClass eg x y := by
  obtain ⟨ordc, fuel, ast, hoc, hw, hnew, ht⟩ := hp
  have hi := (hist_good h).inv
  have hr := c47_clean_means_rebuilt h hc
  obtain ⟨cc, e1, -, hf⟩ := pattern_fin hi hr hd hoc ord.classes hw hnew ht
  have hcl := (valid_iff hi).1 hcv
  refine ⟨(matchesOf (A.at depth).allowCycles eg ord.classes p.program c).length, fun limit hl σ hσ => ?_⟩
  obtain ⟨R, s, k1, k2, -, k3⟩ := hf.complete hi hr hd hσ
  have hs : s ∈ matchesOf (A.at depth).allowCycles eg ord.classes p.program c := by
    rw [Compiler.mem_matchesOf, e1]
    exact ⟨R, k1, k2, fun hn => by rw [hcyc] at hn; cases hn⟩
  rw [searchEclass_eq hi hr hd hc _ ho e1 hf hcl, List.take_of_length_le hl]
  rw [if_neg (by rw [List.isEmpty_iff]; exact List.ne_nil_of_mem hs)]
  exact ⟨_, s, rfl, hs, k3⟩

/-- **C18**, whole e-graph: every match anywhere is reported, for the canonical
id of its class and with canonical bindings. -/
theorem c18_search_complete (h : Hist (A.at depth) allow U eg) (hc : eg.clean = true) (hd : DiscContiguous Op)
    (ho : ord.OK eg) (hp : IsPattern p t) (hcyc : (A.at depth).allowCycles = true) :
    ∃ l0, ∀ limit, l0 ≤ limit → ∃ ms, p.searchWithLimit (A.at depth) eg ord limit = .ok ms ∧
      ∀ (σ : Var → Option Id) (c : Id), PMatch eg σ c t →
        ∃ r s, eg.find c = .ok r ∧ (r, s) ∈ flat ms ∧
          ∀ v, Occurs v t → ∃ x y, σ v = some x ∧ eg.find x = .ok y ∧ s.get v = some y := by
  obtain ⟨ordc, fuel, ast, hoc, hw, hnew, ht⟩ := hp
  have hi := (hist_good h).inv
  have hr := c47_clean_means_rebuilt h hc
  obtain ⟨cc, e1, -, hf⟩ := pattern_fin hi hr hd hoc ord.classes hw hnew ht
  obtain ⟨v1, v2, v3⟩ := visited_spec hi hr ho t
  refine ⟨((visited eg ord t).flatMap (fun c => (matchesOf (A.at depth).allowCycles eg ord.classes p.program c).map
    (fun s => (c, s)))).length, fun limit hl => ?_⟩
  obtain ⟨ms, g1, g2, g3, g4⟩ := searchEclasses_spec (visited eg ord t) (fun c hcv limit =>
    searchEclass_eq hi hr hd hc (A.at depth) ho e1 hf (hi.find_iff.1 (v2 c hcv)).1 limit) limit
  refine ⟨ms, by rw [search_eq _ ht]; exact g1, fun σ c hσ => ?_⟩
  have hcl := hi.pmatch_lt hσ
  have hrc : eg.find (eg.rt c) = .ok (eg.rt c) := hi.find_iff.2 ⟨hi.core.rtLt _ hcl, hi.core.rtIdem _⟩
  have hσ' : PMatch eg σ (eg.rt c) t := hi.pmatch_congr ⟨_, hi.find hcl, hrc⟩ hσ
  obtain ⟨R, s, k1, k2, -, k3⟩ := hf.complete hi hr hd hσ'
  have hs : s ∈ matchesOf (A.at depth).allowCycles eg ord.classes p.program (eg.rt c) := by
    rw [Compiler.mem_matchesOf, e1]
    exact ⟨R, k1, k2, fun hn => by rw [hcyc] at hn; cases hn⟩
  refine ⟨eg.rt c, s, hi.find hcl, ?_, fun v hv => ?_⟩
  · rw [g2, List.take_of_length_le hl, List.mem_flatMap]
    exact ⟨_, v3 σ _ hσ' hrc, List.mem_map.2 ⟨s, hs, rfl⟩⟩
  · obtain ⟨x, y, q1, q2, q3⟩ := k3 v hv
    rw [e1] at hs
    have hy := hf.canon hi hr hd (fun x hx => hi.find_iff.2 ((order_ok hi ho).1 x |>.1 hx)) hrc hs v y q2
    obtain ⟨r, z1, z2⟩ := q3
    rw [hy] at z2; cases z2
    exact ⟨x, y, q1, z1, q2⟩

theorem inst_subterm {τ : Var → Term Op} : ∀ {t : Term (PatOp Op)} {u : Term Op}, Inst τ t u → ∀ v, Occurs v t → Subterm (τ v) u := by
  intro t
  induction t using Term.ind with
  | h op ts ih =>
    intro u hi v hv
    cases op with
    | var w =>
      rw [inst_var_iff] at hi
      obtain ⟨rfl, rfl⟩ := hi
      generalize hs : (Term.node (PatOp.var w) [] : Term (PatOp Op)) = s at hv
      cases hv with
      | refl => injection hs with h1; injection h1 with h1; subst h1; exact .refl
      | arg h1 h2 => injection hs with _ h3; subst h3; cases h1
    | op o =>
      rw [inst_node_iff] at hi
      obtain ⟨us, rfl, hi⟩ := hi
      generalize hs : (Term.node (PatOp.op o) ts : Term (PatOp Op)) = s at hv
      cases hv with
      | refl => injection hs with h1; cases h1
      | arg h1 h2 =>
        injection hs with _ h3; subst h3
        obtain ⟨u', hu', hiu⟩ := forall₂_mem_left hi h1
        exact .arg hu' (ih _ h1 hiu v h2)

theorem rep_subterm {W : Id → Id → Prop} {C : Cfg Op D} {eg : EGraph Op D} (hi : EGraph.InvW W C eg) {s u : Term Op}
    (hs : Subterm s u) : ∀ {c : Id}, Rep eg c u → ∃ x, Rep eg x s := by
  induction hs with
  | refl => intro c hc; exact ⟨c, hc⟩
  | @arg op ts t h1 h2 ih =>
    intro c hc
    rw [hi.rep_iff] at hc
    obtain ⟨_, n, _, _, _, h3⟩ := hc
    obtain ⟨x, hx, hr⟩ := forall₂_mem_left (forall₂_flip h3.2) h1
    exact ih hr

/-- **C18**, in terms of terms: if an instance of the pattern is represented in a
class, the search reports that class with bindings that represent the terms the
variables stand for. -/
theorem c18_search_finds_instances (h : Hist (A.at depth) allow U eg) (hc : eg.clean = true) (hd : DiscContiguous Op)
    (ho : ord.OK eg) (hp : IsPattern p t) (hcyc : (A.at depth).allowCycles = true) :
    ∃ l0, ∀ limit, l0 ≤ limit → ∃ ms, p.searchWithLimit (A.at depth) eg ord limit = .ok ms ∧
      ∀ (τ : Var → Term Op) (c : Id) (u : Term Op), Inst τ t u → Rep eg c u →
        ∃ r s, eg.find c = .ok r ∧ (r, s) ∈ flat ms ∧ ∀ v, Occurs v t → ∃ x, s.get v = some x ∧ Rep eg x (τ v) := by
  obtain ⟨l0, hl⟩ := c18_search_complete h hc hd ho hp hcyc
  have hi := (hist_good h).inv
  have hr := c47_clean_means_rebuilt h hc
  refine ⟨l0, fun limit hlim => ?_⟩
  obtain ⟨ms, g1, g2⟩ := hl limit hlim
  refine ⟨ms, g1, fun τ c u hu hcu => ?_⟩
  classical
  let σ : Var → Option Id := fun v => if hx : ∃ x, Rep eg x (τ v) then some hx.choose else none
  have hσ1 : ∀ v x, σ v = some x → Rep eg x (τ v) := by
    intro v x hx
    simp only [σ] at hx
    split at hx
    · next he => cases hx; exact he.choose_spec
    · cases hx
  have hσ2 : ∀ v, Occurs v t → (σ v).isSome := by
    intro v hv
    have := rep_subterm hi (inst_subterm hu v hv) hcu
    simp [σ, this]
  have hm := EGraph.InvW.rep_pmatch hi hr.pending hσ1 t hcu hu hσ2
  obtain ⟨r, s, k1, k2, k3⟩ := g2 σ c hm
  refine ⟨r, s, k1, k2, fun v hv => ?_⟩
  obtain ⟨x, y, q1, q2, q3⟩ := k3 v hv
  refine ⟨y, q3, ?_⟩
  have hxl := (hi.find_iff.1 q2).1
  have hxy : eg.rt x = eg.rt y := by rw [← (hi.find_iff.1 q2).2, hi.core.rtIdem]
  exact hi.rep_congr ((hi.find_iff.1 q2).2 ▸ hi.core.rtLt _ hxl) hxy (hσ1 v x q1)

/-! ### C19 -/

/-- **C19.**  The search lists every class at most once, and for one class no two
substitutions that bind the same variables to the same classes. -/
theorem c19_each_match_once (h : Hist (A.at depth) allow U eg) (hc : eg.clean = true) (hd : DiscContiguous Op)
    (ho : ord.OK eg) (hp : IsPattern p t) {limit : Nat} :
    (∀ c m, Valid eg c → p.searchEclassWithLimit (A.at depth) eg ord c limit = .ok (some m) →
      m.substs.Pairwise (fun s s' => ¬ SubstEq eg s s')) ∧
    ∀ ms, p.searchWithLimit (A.at depth) eg ord limit = .ok ms →
      ms.Pairwise (fun m m' => ¬ SameClass eg m.eclass m'.eclass) ∧
      ∀ m ∈ ms, m.substs ≠ [] ∧ m.substs.Pairwise (fun s s' => ¬ SubstEq eg s s') := by
  obtain ⟨ordc, fuel, ast, hoc, hw, hnew, ht⟩ := hp
  have hi := (hist_good h).inv
  have hr := c47_clean_means_rebuilt h hc
  obtain ⟨cc, e1, -, hf⟩ := pattern_fin hi hr hd hoc ord.classes hw hnew ht
  obtain ⟨v1, v2, v3⟩ := visited_spec hi hr ho t
  have h1 : ∀ c m limit, Valid eg c → p.searchEclassWithLimit (A.at depth) eg ord c limit = .ok (some m) →
      m.substs.Pairwise (fun s s' => ¬ SubstEq eg s s') := by
    intro c m limit hcv hm
    have hcl := (valid_iff hi).1 hcv
    rw [searchEclass_eq hi hr hd hc _ ho e1 hf hcl] at hm
    split at hm
    · cases hm
    · cases hm
      rw [e1]
      exact (hf.unique hi hr hd (fun x hx => ((order_ok hi ho).1 x |>.1 hx).1) (order_ok hi ho).2 hcl _).sublist
        (List.take_sublist _ _)
  refine ⟨fun c m => h1 c m limit, fun ms hm => ?_⟩
  rw [search_eq _ ht] at hm
  obtain ⟨ms', g1, g2, g3, g4⟩ := searchEclasses_spec (visited eg ord t) (fun c hcv limit =>
    searchEclass_eq hi hr hd hc (A.at depth) ho e1 hf (hi.find_iff.1 (v2 c hcv)).1 limit) limit
  rw [hm] at g1; cases g1
  constructor
  · have hnd : (ms.map (fun m => m.eclass)).Nodup := v1.sublist g3
    have hcan : ∀ m ∈ ms, eg.find m.eclass = .ok m.eclass := fun m hm =>
      v2 _ (g3.subset (List.mem_map.2 ⟨m, hm, rfl⟩))
    rw [List.nodup_iff_pairwise_ne, List.pairwise_map] at hnd
    refine hnd.imp_of_mem ?_
    rintro a b ha hb hne ⟨r, z1, z2⟩
    rw [hcan a ha] at z1; rw [hcan b hb] at z2
    injection z1 with z1; injection z2 with z2
    exact hne (z1.trans z2.symm)
  · clear g2 g3 g4
    have : ∀ (cs : List Id) (limit : Nat) (ms : List (SearchMatches Op)), (∀ c ∈ cs, Valid eg c) →
        searchEclassesWithLimit (p.searchEclassWithLimit (A.at depth) eg ord) cs limit = .ok ms →
        ∀ m ∈ ms, m.substs ≠ [] ∧ m.substs.Pairwise (fun s s' => ¬ SubstEq eg s s') := by
      intro cs
      induction cs with
      | nil => intro limit ms _ hm; cases hm; simp
      | cons c cs ih =>
        intro limit ms hcv hm
        unfold searchEclassesWithLimit at hm
        split at hm
        · cases hm; simp
        · rw [bind_eq_ok] at hm
          obtain ⟨o, k1, k2⟩ := hm
          cases o with
          | none => exact ih _ _ (fun c' hc' => hcv c' (by simp [hc'])) k2
          | some m0 =>
            dsimp only at k2
            split at k2
            · rw [bind_eq_ok] at k2
              obtain ⟨ms', k3, k4⟩ := k2
              cases k4
              intro m hm
              rcases List.mem_cons.1 hm with rfl | hm
              · refine ⟨?_, h1 c m limit (hcv c (by simp)) k1⟩
                unfold Pattern.searchEclassWithLimit at k1
                rw [bind_eq_ok] at k1
                obtain ⟨ss, k5, k6⟩ := k1
                split at k6
                · cases k6
                · next hne => cases k6; simpa using hne
              · exact ih _ _ (fun c' hc' => hcv c' (by simp [hc'])) k3 m hm
            · cases k2
    exact this _ _ _ (fun c hcv => ⟨c, v2 c hcv⟩) hm

/-! ### C20 -/

/-- **C20.**  A limit only truncates.  For one class there is one list `L` of
substitutions (the result without limit) such that the search with limit `l`
returns the first `l` of them; likewise for the list of pairs of class and
substitution reported by the search of the whole e-graph.  In particular the
search never panics. -/
theorem c20_limit_truncates (h : Hist (A.at depth) allow U eg) (hc : eg.clean = true) (hd : DiscContiguous Op)
    (ho : ord.OK eg) (hp : IsPattern p t) :
    (∀ c, Valid eg c → ∃ L : List Subst, ∀ limit, p.searchEclassWithLimit (A.at depth) eg ord c limit =
      .ok (if L.take limit = [] then none else some ⟨c, L.take limit, some p.ast⟩)) ∧
    ∃ F : List (Id × Subst), ∀ limit, ∃ ms, p.searchWithLimit (A.at depth) eg ord limit = .ok ms ∧
      flat ms = F.take limit := by
  obtain ⟨ordc, fuel, ast, hoc, hw, hnew, ht⟩ := hp
  have hi := (hist_good h).inv
  have hr := c47_clean_means_rebuilt h hc
  obtain ⟨cc, e1, -, hf⟩ := pattern_fin hi hr hd hoc ord.classes hw hnew ht
  obtain ⟨v1, v2, v3⟩ := visited_spec hi hr ho t
  constructor
  · intro c hcv
    refine ⟨matchesOf (A.at depth).allowCycles eg ord.classes p.program c, fun limit => ?_⟩
    rw [searchEclass_eq hi hr hd hc _ ho e1 hf ((valid_iff hi).1 hcv)]
    simp only [List.isEmpty_iff]
  · refine ⟨(visited eg ord t).flatMap (fun c => (matchesOf (A.at depth).allowCycles eg ord.classes p.program c).map
      (fun s => (c, s))), fun limit => ?_⟩
    obtain ⟨ms, g1, g2, -⟩ := searchEclasses_spec (visited eg ord t) (fun c hcv limit =>
      searchEclass_eq hi hr hd hc (A.at depth) ho e1 hf (hi.find_iff.1 (v2 c hcv)).1 limit) limit
    exact ⟨ms, by rw [search_eq _ ht]; exact g1, g2⟩

/-! ### C21 -/

/-- **C21.**  On a strictly sorted class of any size the e-nodes visited are, in
order, those with the operator and the number of children of the given e-node. -/
theorem c21_fast_path (hd : DiscContiguous Op) {nodes : List (ENode Op)}
    (hs : nodes.Pairwise (fun x y => Lang.le x y = true ∧ x ≠ y)) (node : ENode Op) :
    matchingNodes nodes node =
      nodes.filter (fun n => decide (node.op = n.op ∧ node.children.length = n.children.length)) := by
  rw [matchingNodes_eq hd hs]
  congr 1
  funext n
  unfold ENode.matches
  rw [Bool.decide_and]
  rfl

/-! ### C47 -/

/-- **C47.**  Searching a class panics when the flag is off. -/
theorem c47_search_dirty_panics (hc : eg.clean = false) (N : Analysis Op D) (c : Id) (limit : Nat) :
    p.searchEclassWithLimit N eg ord c limit = .error .panic := by
  unfold Pattern.searchEclassWithLimit Program.runWithLimit
  rw [hc]
  rfl

/-- The search of a whole e-graph with the flag off either panics or visits no
class at all (and then reports nothing). -/
theorem c47_search_all_dirty (hc : eg.clean = false) (N : Analysis Op D) (limit : Nat) {ms : List (SearchMatches Op)}
    (hm : p.searchWithLimit N eg ord limit = .ok ms) : ms = [] := by
  have : ∀ cs limit, searchEclassesWithLimit (p.searchEclassWithLimit N eg ord) cs limit = .ok ms → ms = [] := by
    intro cs limit hm
    cases cs with
    | nil => cases hm; rfl
    | cons c cs =>
      unfold searchEclassesWithLimit at hm
      split at hm
      · cases hm; rfl
      · rw [c47_search_dirty_panics hc] at hm; cases hm
  unfold Pattern.searchWithLimit at hm
  rw [bind_eq_ok] at hm
  obtain ⟨n, h1, h2⟩ := hm
  split at h2
  · split at h2
    · cases h2; rfl
    · exact this _ _ h2
  · exact this _ _ h2

end

/-! ### C42 -/

/-- **C42.**  `insert` and `get` are those of a finite map; `insert` returns the
previous value; no variable is listed twice. -/
theorem c42_subst_map (s : Subst) (v w : Var) (i : Id) :
    (Subst.insert s v i).1.get w = (if v = w then some i else s.get w) ∧
    (Subst.insert s v i).2 = s.get v ∧
    ((s.map Prod.fst).Nodup → ((Subst.insert s v i).1.map Prod.fst).Nodup) ∧
    ((s.map Prod.fst).Nodup → ∀ x, (w, x) ∈ s ↔ s.get w = some x) := by
  refine ⟨Subst.get_insert s v w i, Subst.insert_old s v i, ?_, ?_⟩
  · induction s with
    | nil => intro _; simp [Subst.insert]
    | cons a s ih =>
      obtain ⟨u, j⟩ := a
      intro hn
      simp only [List.map_cons, List.nodup_cons] at hn
      unfold Subst.insert
      split
      · simpa using hn
      · next hne =>
        simp only [List.map_cons, List.nodup_cons]
        refine ⟨?_, ih hn.2⟩
        intro hm
        have : u ∈ s.map Prod.fst ∨ u = v := by
          clear ih hn hne
          induction s with
          | nil => simp [Subst.insert] at hm; exact .inr hm
          | cons b s ih =>
            obtain ⟨w', k⟩ := b
            unfold Subst.insert at hm
            split at hm
            · left; simpa using hm
            · simp only [List.map_cons, List.mem_cons] at hm ⊢
              rcases hm with hm | hm
              · exact .inl (.inl hm)
              · rcases ih hm with h | h
                · exact .inl (.inr h)
                · exact .inr h
        rcases this with h | h
        · exact hn.1 h
        · exact hne h
  · induction s with
    | nil => intro _ x; simp [Subst.get]
    | cons a s ih =>
      obtain ⟨u, j⟩ := a
      intro hn x
      simp only [List.map_cons, List.nodup_cons] at hn
      unfold Subst.get
      split
      · next hu =>
        subst hu
        simp only [List.mem_cons, Prod.mk.injEq, true_and, Option.some.injEq]
        constructor
        · rintro (rfl | hm)
          · rfl
          · exact absurd (List.mem_map.2 ⟨(u, x), hm, rfl⟩) hn.1
        · rintro rfl; exact .inl rfl
      · next hu =>
        rw [← ih hn.2 x]
        simp [Ne.symm hu]

/-! ### Examples -/

theorem Ex.lexLe_head {x y : Nat} {xs ys : List Nat} (h : Ex.lexLe (x :: xs) (y :: ys) = true) : x ≤ y := by
  simp only [Ex.lexLe] at h
  split_ifs at h <;> omega

/-- The example language compares operators first. -/
theorem Ex.discContiguous : DiscContiguous Ex.S := by
  intro a b c hab hbc hac
  have h1 := Ex.lexLe_head hab
  have h2 := Ex.lexLe_head hbc
  have h3 : a.op = c.op := hac
  show b.op = a.op
  apply Ex.S.code_inj
  rw [h3] at h1 ⊢
  omega

def Ex.vx : Var := .sym ['?', 'x']
def Ex.vy : Var := .sym ['?', 'y']
/-- The work table in insertion order. -/
def Ex.ordc {Op : Type} : Compiler Op → List (Id × Nat) := fun c => c.todo.keys
/-- The classes in table order. -/
def Ex.ord {D : Type} (eg : EGraph Ex.S D) : IterOrd := ⟨eg.classes.map (fun kc => kc.2.id), id⟩

theorem Ex.ordOK {D : Type} (eg : EGraph Ex.S D) : (Ex.ord eg).OK eg := ⟨List.Perm.refl _, fun _ => List.Perm.refl _⟩
theorem Ex.ordcOK {Op : Type} [DecidableEq Op] : OrdOK (Ex.ordc : Compiler Op → List (Id × Nat)) := fun _ => List.Perm.refl _

/-- The pattern `(f ?x)`. -/
def Ex.astFx : PatternAst Ex.S := [⟨.var Ex.vx, []⟩, ⟨.op .f, [0]⟩]
def Ex.patFx : Pattern Ex.S := ⟨Ex.astFx, ⟨[.bind (Ex.app .f [0]) 0 1], [(Ex.vx, 1)]⟩⟩
def Ex.termFx : Term (PatOp Ex.S) := .node (.op .f) [.node (.var Ex.vx) []]

theorem Ex.isPatFx : IsPattern Ex.patFx Ex.termFx :=
  ⟨Ex.ordc, 10, Ex.astFx, Ex.ordcOK, patWF_of rfl rfl rfl, rfl, exprTerm_of (f := 5) rfl rfl⟩

/-- `Pattern::new` compiles every well-formed pattern. -/
theorem pattern_new_succeeds {ordc : Compiler Op → List (Id × Nat)} (hoc : OrdOK ordc) {ast : PatternAst Op}
    (hw : PatWF ast) : ∃ p t, IsPattern p t ∧ ∃ f0, ∀ fuel, f0 ≤ fuel → Pattern.new ordc fuel ast = .ok p := by
  obtain ⟨f0, p, hp⟩ := pattern_new_total hoc hw
  have h0 := hp f0 (Nat.le_refl _)
  have hwp : PatWF p.ast := by
    unfold Pattern.new at h0
    rw [bind_eq_ok] at h0
    obtain ⟨e, h1, h2⟩ := h0
    rw [bind_eq_ok] at h2
    obtain ⟨pr, _, h3⟩ := h2
    cases h3
    exact RecExpr.compact_pat hw h1
  obtain ⟨t, ht⟩ := patWF_term hwp
  exact ⟨p, t, ⟨ordc, f0, ast, hoc, hw, h0, ht⟩, f0, hp⟩

/-- On the e-graph with `a = b`, `f a`, `f b` the search of `(f ?x)` reports the
class of `f a`, once, with `?x` bound to the class of `a`. -/
example : (Ex.patFx.searchWithLimit Ex.N0 Ex.e6 (Ex.ord Ex.e6) 100).toOption.map flat =
    some [(2, [(Ex.vx, 0)])] := by decide

example : Hist Ex.N0 .all [Ex.un] Ex.e6 ∧ Ex.e6.clean = true ∧ (Ex.ord Ex.e6).OK Ex.e6 ∧
    DiscContiguous Ex.S ∧ IsPattern Ex.patFx Ex.termFx ∧ Ex.N0.allowCycles = true ∧
    PMatch Ex.e6 (fun v => if v = Ex.vx then some 1 else none) 3 Ex.termFx :=
  ⟨Ex.hist6 _, rfl, Ex.ordOK _, Ex.discContiguous, Ex.isPatFx, rfl,
    .node (n := Ex.app .f [0]) rfl (by decide) rfl (by
      intro j d q hd hq
      match j with
      | 0 => simp [Ex.app] at hd hq; subst hd; subst hq; exact .var (x := 1) rfl ⟨0, rfl, rfl⟩
      | j + 1 => simp [Ex.app] at hd)⟩

/-- The pattern `(g (f ?x) ?x)`, with a repeated variable, on an e-graph with
`g (f a) b`, `g (f b) a`, `g (f b) c` and `a = b`; each match is reported once. -/
def Ex.m1 : Ex.G := Ex.st (EGraph.addUncanonical Ex.N0 Ex.e4 (Ex.app .g [2, 1]))
def Ex.m2 : Ex.G := Ex.st (EGraph.addUncanonical Ex.N0 Ex.m1 (Ex.leaf .c))
def Ex.m3 : Ex.G := Ex.st (EGraph.addUncanonical Ex.N0 Ex.m2 (Ex.app .g [3, 5]))
def Ex.m4 : Ex.G := Ex.st (EGraph.addUncanonical Ex.N0 Ex.m3 (Ex.app .g [3, 0]))
def Ex.m5 : Ex.G := Ex.st (EGraph.union Ex.N0 Ex.m4 0 1 7)
def Ex.m6 : Ex.G := Ex.st (EGraph.rebuild Ex.N0 20 Ex.m5)

def Ex.astGfx : PatternAst Ex.S := [⟨.var Ex.vx, []⟩, ⟨.op .f, [0]⟩, ⟨.op .g, [1, 0]⟩]

theorem Ex.hist_m6 (allow) : Hist Ex.N0 allow [Ex.un] Ex.m6 :=
  .tail (V := []) (.tail (V := [Ex.un]) (.tail (V := []) (.tail (V := []) (.tail (V := []) (.tail (V := []) (Ex.hist4 allow)
    (.add (n := Ex.app .g [2, 1]) (i := 4) rfl)) (.add (n := Ex.leaf .c) (i := 5) rfl))
    (.add (n := Ex.app .g [3, 5]) (i := 6) rfl)) (.add (n := Ex.app .g [3, 0]) (i := 7) rfl))
    (.union (r := true) (Ex.rep_leaf rfl rfl (by decide)) (Ex.rep_leaf rfl rfl (by decide)) rfl)) (.rebuild (fuel := 20) (n := 2) rfl)

example : ∃ p, Pattern.new Ex.ordc 10 Ex.astGfx = .ok p ∧
    (p.searchWithLimit Ex.N0 Ex.m6 (Ex.ord Ex.m6) 100).toOption.map flat = some [(7, [(Ex.vx, 0)])] :=
  ⟨_, rfl, by decide⟩

/-- **C47, what is not true**: a dirty e-graph is not always refused.  After adding
`a` and no rebuild, searching the pattern `a` reports nothing, silently, although
`a` is represented: the operator index is stale and no class is visited. -/
theorem c47_dirty_search_counterexample : ∃ (eg : EGraph Ex.S Unit) (p : Pattern Ex.S) (ms : List (SearchMatches Ex.S)),
    Hist Ex.N0 .all [] eg ∧ IsPattern p (.node (.op .a) []) ∧ eg.clean = false ∧ Rep eg 0 Ex.ta ∧
    p.searchWithLimit Ex.N0 eg (Ex.ord eg) 100 = .ok ms ∧ ms = [] :=
  ⟨Ex.e1, ⟨[⟨.op .a, []⟩], ⟨[.bind (Ex.leaf .a) 0 1], []⟩⟩, [],
    .tail (V := []) .refl (.add (n := Ex.leaf .a) (i := 0) rfl),
    ⟨Ex.ordc, 10, [⟨.op .a, []⟩], Ex.ordcOK, patWF_of rfl rfl rfl, rfl, exprTerm_of (f := 5) rfl rfl⟩,
    rfl, Ex.rep_leaf rfl rfl (by decide), rfl, rfl⟩

end Egg
