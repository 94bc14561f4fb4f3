import Verif.Lemmas.MultiPattern
import Verif.Props.Match
/-
C22: searching multi-patterns.
-/
namespace Egg
variable {Op D : Type} [DecidableEq Op] [Lang Op]

section
variable {A : UserAnalysis Op D} {depth : Nat} {allow : Caller Op D}
  {U : List (UnionRec Op)} {eg : EGraph Op D} {ord : IterOrd} {p : MultiPattern Op} {ps : List (Var × Term (PatOp Op))}

/-- **C22**, one class.  In every clean state of every history there is one list of
substitutions for the class `c`, and the search with a limit returns its first
entries.  Each substitution of the list binds exactly the variables and binders
of the multi-pattern, to ids of the e-graph, and is a match.  Conversely every
match is in the list, up to equality of the bound classes, and only once. -/
theorem c22_search_eclass (h : Hist (A.at depth) allow U eg) (hc : eg.clean = true) (hd : DiscContiguous Op)
    (ho : ord.OK eg) (hp : IsMultiPattern p ps) (hfn : FirstIsNode ps) {c : Id} (hcv : Valid eg c) :
    ∃ L : List Subst,
      (∀ limit, p.searchEclassWithLimit (A.at depth) eg ord c limit =
        .ok (if L.take limit = [] then none else some ⟨c, L.take limit, none⟩)) ∧
      (∀ s ∈ L, (∀ v, (∃ x, s.get v = some x) ↔ MultiOccurs v ps) ∧
        (∀ v x, s.get v = some x → Valid eg x ∧ (eg.find c = .ok c → eg.find x = .ok x)) ∧
        MultiMatch eg s.get c ps) ∧
      ((A.at depth).allowCycles = true → ∀ σ : Var → Option Id, MultiMatch eg σ c ps →
        ∃ s ∈ L, ∀ v, MultiOccurs v ps → ∃ x y, σ v = some x ∧ s.get v = some y ∧ SameClass eg x y) ∧
      L.Pairwise (fun s t => ¬ SubstEq eg s t) := by
  have hi := (hist_good h).inv
  have hr := c47_clean_means_rebuilt h hc
  obtain ⟨o1, o2⟩ := order_ok hi ho
  obtain ⟨cc, e1, hf⟩ := multi_fin hi hr hd o1 hp hfn
  have hcl := (valid_iff hi).1 hcv
  refine ⟨matchesOf (A.at depth).allowCycles eg ord.classes p.program c, fun limit => ?_, fun s hs => ?_, fun hcyc σ hσ => ?_, ?_⟩
  · rw [multi_searchEclass_eq hi hr hd hc _ ho hp hfn e1 hf hcl]
    simp only [List.isEmpty_iff]
  · rw [e1] at hs
    obtain ⟨h1, h2, h3, -⟩ := hf.sound hi hr hd (fun x hx => (o1 x |>.1 hx).1) hcl hs
    exact ⟨h2, fun v x hx => ⟨h3 v x hx, fun hcc =>
      hf.canon hi hr hd (fun x hx => hi.find_iff.2 (o1 x |>.1 hx)) hcc hs v x hx⟩, h1⟩
  · obtain ⟨R, s, k1, k2, -, k3⟩ := hf.complete hi hr hd hσ
    refine ⟨s, ?_, k3⟩
    rw [Compiler.mem_matchesOf, e1]
    exact ⟨R, k1, k2, fun hn => by rw [hcyc] at hn; cases hn⟩
  · rw [e1]
    exact hf.unique hi hr hd (fun x hx => (o1 x |>.1 hx).1) o2 hcl _

/-- **C22**, whole e-graph.  There is one list of pairs of a canonical class and a
substitution, and the search with a limit reports its first entries; the pairs are
exactly the matches, each once. -/
theorem c22_search (h : Hist (A.at depth) allow U eg) (hc : eg.clean = true) (hd : DiscContiguous Op)
    (ho : ord.OK eg) (hp : IsMultiPattern p ps) (hfn : FirstIsNode ps) :
    ∃ F : List (Id × Subst),
      (∀ limit, ∃ ms, (p.searcher (D := D)).search (A.at depth) eg ord limit = .ok ms ∧ flat ms = F.take limit) ∧
      (∀ c s, (c, s) ∈ F → eg.find c = .ok c ∧ (∀ v, (∃ x, s.get v = some x) ↔ MultiOccurs v ps) ∧
        (∀ v x, s.get v = some x → eg.find x = .ok x) ∧ MultiMatch eg s.get c ps) ∧
      ((A.at depth).allowCycles = true → ∀ (σ : Var → Option Id) (c : Id), MultiMatch eg σ c ps →
        ∃ r s, eg.find c = .ok r ∧ (r, s) ∈ F ∧
          ∀ v, MultiOccurs v ps → ∃ x y, σ v = some x ∧ eg.find x = .ok y ∧ s.get v = some y) ∧
      F.Pairwise (fun a b => ¬ (a.1 = b.1 ∧ SubstEq eg a.2 b.2)) := by
  have hi := (hist_good h).inv
  have hr := c47_clean_means_rebuilt h hc
  obtain ⟨o1, o2⟩ := order_ok hi ho
  obtain ⟨cc, e1, hf⟩ := multi_fin hi hr hd o1 hp hfn
  have hcan : ∀ c ∈ ord.classes, eg.find c = .ok c := fun x hx => hi.find_iff.2 (o1 x |>.1 hx)
  refine ⟨ord.classes.flatMap (fun c => (matchesOf (A.at depth).allowCycles eg ord.classes p.program c).map
    (fun s => (c, s))), fun limit => ?_, fun c s hcs => ?_, fun hcyc σ c hσ => ?_, ?_⟩
  · obtain ⟨ms, g1, g2, -⟩ := searchEclasses_spec ord.classes (fun c hcv limit =>
      multi_searchEclass_eq hi hr hd hc (A.at depth) ho hp hfn e1 hf (o1 c |>.1 hcv).1 limit) limit
    exact ⟨ms, g1, g2⟩
  · rw [List.mem_flatMap] at hcs
    obtain ⟨c', hc', hcs⟩ := hcs
    rw [List.mem_map] at hcs
    obtain ⟨s', hs, heq⟩ := hcs
    cases heq
    have hcc := hcan c hc'
    rw [e1] at hs
    obtain ⟨h1, h2, h3, -⟩ := hf.sound hi hr hd (fun x hx => (o1 x |>.1 hx).1) (o1 c |>.1 hc').1 hs
    exact ⟨hcc, h2, hf.canon hi hr hd hcan hcc hs, h1⟩
  · obtain ⟨v, o, ts, rest, rfl⟩ := hfn
    have hcl := hi.pmatch_lt hσ.2.1
    have hrc : eg.find (eg.rt c) = .ok (eg.rt c) := hi.find_iff.2 ⟨hi.core.rtLt _ hcl, hi.core.rtIdem _⟩
    have hσ' : MultiMatch eg σ (eg.rt c) ((v, .node (.op o) ts) :: rest) := by
      obtain ⟨⟨x, q1, q2⟩, q3, q4⟩ := hσ
      exact ⟨⟨x, q1, hi.sameClass_trans q2 ⟨_, hi.find hcl, hrc⟩⟩, hi.pmatch_congr ⟨_, hi.find hcl, hrc⟩ q3, q4⟩
    obtain ⟨R, s, k1, k2, -, k3⟩ := hf.complete hi hr hd hσ'
    have hs : s ∈ matchesOf (A.at depth).allowCycles eg ord.classes p.program (eg.rt c) := by
      rw [Compiler.mem_matchesOf, e1]
      exact ⟨R, k1, k2, fun hn => by rw [hcyc] at hn; cases hn⟩
    refine ⟨eg.rt c, s, hi.find hcl, ?_, fun w hw => ?_⟩
    · rw [List.mem_flatMap]
      exact ⟨_, (o1 _).2 ⟨hi.core.rtLt _ hcl, hi.core.rtIdem _⟩, List.mem_map.2 ⟨s, hs, rfl⟩⟩
    · obtain ⟨x, y, q1, q2, q3⟩ := k3 w hw
      rw [e1] at hs
      have hy := hf.canon hi hr hd hcan hrc hs w y q2
      obtain ⟨r, z1, z2⟩ := q3
      rw [hy] at z2; cases z2
      exact ⟨x, y, q1, z1, q2⟩
  · rw [List.pairwise_flatMap]
    constructor
    · intro c hcc
      rw [List.pairwise_map, e1]
      exact (hf.unique hi hr hd (fun x hx => (o1 x |>.1 hx).1) o2 (o1 c |>.1 hcc).1 _).imp (fun hn hh => hn hh.2)
    · rw [List.nodup_iff_pairwise_ne] at o2
      refine o2.imp ?_
      intro a b hne x hx y hy hh
      rw [List.mem_map] at hx hy
      obtain ⟨_, _, rfl⟩ := hx
      obtain ⟨_, _, rfl⟩ := hy
      exact hne hh.1

/-- **C22.**  `MultiPattern::new` succeeds on well-formed patterns when the first one
is not a variable. -/
theorem c22_new_succeeds {ordc : Compiler Op → List (Id × Nat)} (hoc : OrdOK ordc) {asts : List (Var × PatternAst Op)}
    (hw : List.Forall₂ (fun a b => a.1 = b.1 ∧ PatWF a.2 ∧ ExprTerm a.2 b.2) asts ps) (hfn : FirstIsNode ps) :
    ∃ p f0, (∀ fuel, f0 ≤ fuel → MultiPattern.new ordc fuel asts = .ok p) ∧ p.asts = asts ∧ IsMultiPattern p ps := by
  obtain ⟨f0, p, hp⟩ := multi_new_total hoc hw hfn
  have h0 := hp f0 (Nat.le_refl _)
  obtain ⟨c, _, rfl⟩ := multi_program h0
  exact ⟨_, f0, hp, rfl, ordc, f0, hoc, h0, hw⟩

end

/-! ### Examples -/

def Ex.vp : Var := .sym ['?', 'p']
def Ex.vq : Var := .sym ['?', 'q']

/-- `?p = (g ?y ?x), ?y = (f ?x)`: the second pattern constrains a variable of the
first one. -/
def Ex.multiAsts : List (Var × PatternAst Ex.S) :=
  [(Ex.vp, [⟨.var Ex.vy, []⟩, ⟨.var Ex.vx, []⟩, ⟨.op .g, [0, 1]⟩]), (Ex.vy, Ex.astFx)]
def Ex.multiTerms : List (Var × Term (PatOp Ex.S)) :=
  [(Ex.vp, .node (.op .g) [.node (.var Ex.vy) [], .node (.var Ex.vx) []]), (Ex.vy, Ex.termFx)]
def Ex.multi : MultiPattern Ex.S :=
  match MultiPattern.new Ex.ordc 10 Ex.multiAsts with
  | .ok p => p
  | .error _ => ⟨[], ⟨[], []⟩⟩

theorem Ex.isMulti : IsMultiPattern Ex.multi Ex.multiTerms :=
  ⟨Ex.ordc, 10, Ex.ordcOK, rfl, .cons ⟨rfl, patWF_of rfl rfl rfl, exprTerm_of (f := 5) rfl rfl⟩
    (.cons ⟨rfl, patWF_of rfl rfl rfl, exprTerm_of (f := 5) rfl rfl⟩ .nil)⟩

/-- On the e-graph with `a = b`, `g (f a) b`, `g (f b) a`, `g (f b) c`: the class of
`g (f a) a` is reported, that of `g (f b) c` is not. -/
example : ((Ex.multi.searcher (D := Unit)).search Ex.N0 Ex.m6 (Ex.ord Ex.m6) 100).toOption.map flat =
    some [(7, [(Ex.vp, 7), (Ex.vy, 3), (Ex.vx, 0)])] := by decide

example : Hist Ex.N0 .all [Ex.un] Ex.m6 ∧ Ex.m6.clean = true ∧ (Ex.ord Ex.m6).OK Ex.m6 ∧
    DiscContiguous Ex.S ∧ IsMultiPattern Ex.multi Ex.multiTerms ∧ FirstIsNode Ex.multiTerms ∧ Valid Ex.m6 7 :=
  ⟨Ex.hist_m6 _, rfl, Ex.ordOK _, Ex.discContiguous, Ex.isMulti, ⟨_, _, _, _, rfl⟩, _, rfl⟩

/-- **C22, why the first pattern must not be a variable**: the check of
`search_eclass_with_limit` only recognises the one-node syntax `[?x]`.  The
two-node syntax `[?y, ?x]`, whose root is the variable `?x`, passes; the pattern
that follows then reads a register that was never written, and the search panics
although `f a` is represented. -/
theorem c22_variable_first_counterexample : ∃ (p : MultiPattern Ex.S),
    IsMultiPattern p [(Ex.vp, .node (.var Ex.vx) []), (Ex.vq, Ex.termFx)] ∧
    MultiMatch Ex.e6 (fun v => if v = Ex.vx then some 0 else if v = Ex.vp then some 0 else some 2) 0
      [(Ex.vp, .node (.var Ex.vx) []), (Ex.vq, Ex.termFx)] ∧
    p.searchEclassWithLimit Ex.N0 Ex.e6 (Ex.ord Ex.e6) 0 100 = .error .panic := by
  refine ⟨match MultiPattern.new Ex.ordc 10 [(Ex.vp, [⟨.var Ex.vy, []⟩, ⟨.var Ex.vx, []⟩]), (Ex.vq, Ex.astFx)] with
    | .ok p => p
    | .error _ => ⟨[], ⟨[], []⟩⟩, ⟨Ex.ordc, 10, Ex.ordcOK, rfl,
      .cons ⟨rfl, patWF_of rfl rfl rfl, exprTerm_of (f := 5) rfl rfl⟩
      (.cons ⟨rfl, patWF_of rfl rfl rfl, exprTerm_of (f := 5) rfl rfl⟩ .nil)⟩, ?_, rfl⟩
  refine ⟨⟨0, rfl, 0, rfl, rfl⟩, .var (x := 0) rfl ⟨0, rfl, rfl⟩, ?_⟩
  intro w u hm
  simp only [List.mem_singleton] at hm
  cases hm
  refine ⟨2, rfl, .node (n := Ex.app .f [0]) rfl (by decide) rfl (by
      intro j d q hd hq
      match j with
      | 0 => simp [Ex.app] at hd hq; subst hd; subst hq; exact .var (x := 0) rfl ⟨0, rfl, rfl⟩
      | j + 1 => simp [Ex.app] at hd)⟩

/-- **C22**: a multi-pattern without clauses, or whose first pattern is a bare variable, is refused when it is
searched: in every class, with any limit; so the search of an e-graph with a class panics. -/
theorem c22_bare_first {N : Analysis Op D} {eg : EGraph Op D} {ord : IterOrd} {p : MultiPattern Op}
    (hp : p.asts = [] ∨ ∃ v x cs rest, p.asts = (v, [⟨.var x, cs⟩]) :: rest) :
    (∀ c limit, p.searchEclassWithLimit N eg ord c limit = .error .panic) ∧
    ∀ limit, ord.classes ≠ [] → p.searcher.search N eg ord (limit + 1) = .error .panic := by
  have h1 : ∀ c limit, p.searchEclassWithLimit N eg ord c limit = .error .panic := by
    intro c limit
    unfold MultiPattern.searchEclassWithLimit
    rcases hp with hp | ⟨v, x, cs, rest, hp⟩
    · rw [hp]
    · rw [hp]; rfl
  refine ⟨h1, fun limit hne => ?_⟩
  show searchEclassesWithLimit (p.searchEclassWithLimit N eg ord) ord.classes (limit + 1) = _
  cases hc : ord.classes with
  | nil => exact absurd hc hne
  | cons c cs => simp [searchEclassesWithLimit, h1, error_bind]

/-- Such multi-patterns can be made: `?p = ?x, ?q = (f ?x)`. -/
example : (match MultiPattern.new Ex.ordc 10 [(Ex.vp, [⟨.var Ex.vx, []⟩]), (Ex.vq, Ex.astFx)] with
    | .ok p => p.searchEclassWithLimit Ex.N0 Ex.e6 (Ex.ord Ex.e6) 0 100
    | .error _ => .ok none) = .error .panic := rfl

end Egg
