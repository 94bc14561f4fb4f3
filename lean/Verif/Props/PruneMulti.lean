import Verif.Lemmas.ThinMultiComplete
import Verif.Props.PruneSearch
/-
C101: multi-patterns, and runs with multi-pattern rules, on e-graphs whose classes are pruned.
-/
namespace Egg
variable {Op D S H : Type} [DecidableEq Op] [Lang Op] {K : Op → Nat → Prop}
variable {A : PruneAnalysis Op D} {depth : Nat} {allow : Caller Op D} {U : List (UnionRec Op)} {eg : EGraph Op D}
  {ord : IterOrd} {p : MultiPattern Op} {ps : List (Var × Term (PatOp Op))}

/-- **C101**, what is reported is true.  A match of a multi-pattern reported in a pruned e-graph binds exactly the
variables and binders of the multi-pattern, to canonical ids; the binder of the first pattern is bound to the class
for which the match is reported; and whatever terms of the bound classes the variables stand for, every instance of
a pattern is a term (`TermFor`) of the class its binder is bound to. -/
theorem c101_search_sound (h : Pruned K (A.full.at depth) allow U eg) (hc : eg.clean = true) (hd : DiscContiguous Op)
    (ho : ord.OK eg) (hp : IsMultiPattern p ps) (hfn : FirstIsNode ps) {limit : Nat} {ms : List (SearchMatches Op)}
    (hm : (p.searcher (D := D)).search (A.at depth) eg ord limit = .ok ms) :
    ∀ c s, (c, s) ∈ flat ms → eg.find c = .ok c ∧
      (∀ v, (∃ x, s.get v = some x) ↔ MultiOccurs v ps) ∧
      (∀ v x, s.get v = some x → eg.find x = .ok x) ∧
      (∀ v q, ps.head? = some (v, q) → s.get v = some c) ∧
      ∀ τ : Var → Term Op, (∀ v x, s.get v = some x → TermFor eg x (τ v)) →
        ∀ v q u, (v, q) ∈ ps → Inst τ q u → ∃ x, s.get v = some x ∧ TermFor eg x u := by
  obtain ⟨g, h1, h2, -⟩ := h
  have hcg : g.clean = true := by rw [← h2.clean]; exact hc
  have hi := (hist_good h1).inv
  let ord' : IterOrd := ⟨g.classes.map fun kc => kc.2.id, fun l => l⟩
  have ho' : ord'.OK g := ⟨.refl _, fun l => .refl l⟩
  obtain ⟨limit', ms0, k1, k2⟩ := multi_found_thin (M := A.full.at depth) h1 hcg hd h2 ho ho' hp hfn (A.allowCycles_at depth) hm
  obtain ⟨F, f1, f2, -⟩ := c22_search h1 hcg hd ho' hp hfn
  obtain ⟨ms1, e1, e2⟩ := f1 limit'
  rw [k1] at e1; cases e1
  intro c s hcs
  have hcs := k2.flat hcs
  rw [e2] at hcs
  obtain ⟨q1, q2, q3, q4⟩ := f2 c s (List.mem_of_mem_take hcs)
  refine ⟨by rw [h2.find]; exact q1, q2, fun v x hx => by rw [h2.find]; exact q3 v x hx, ?_, fun τ hτ v q u hvq hu => ?_⟩
  · intro v q hq
    cases ps with
    | nil => cases hq
    | cons a rest =>
      cases hq
      obtain ⟨⟨x, z1, r, z2, z3⟩, -⟩ := q4
      rw [q3 v x z1] at z2; cases z2
      rw [q1] at z3; cases z3
      exact z1
  · obtain ⟨x, hx, hxm⟩ := multiMatch_binder (hist_good h1) q4 v q hvq
    exact ⟨x, hx, (c86_terms h1 h2 _ _).2 (hi.pmatch_rep q hxm (fun v x _ hx => (c86_terms h1 h2 _ _).1 (hτ v x hx)) hu)⟩

/-- **C101**, and nothing is missed: the search of a clean e-graph does not panic, and with a limit that is large enough
it reports every match made of the e-nodes that are left. -/
theorem c101_search_complete (hA : A.OK K) (ha : allow.Blind) (h : PruneHist K (A.at depth) allow U eg) (hc : eg.clean = true)
    (hd : DiscContiguous Op) (ho : ord.OK eg) (hp : IsMultiPattern p ps) (hfn : FirstIsNode ps) (hcyc : A.allowCycles = true) :
    ∃ l0, ∀ limit, l0 ≤ limit → ∃ ms, (p.searcher (D := D)).search (A.at depth) eg ord limit = .ok ms ∧
      ∀ (σ : Var → Option Id) (c : Id), MultiMatch eg σ c ps →
        ∃ r s, eg.find c = .ok r ∧ (r, s) ∈ flat ms ∧
          ∀ v, MultiOccurs v ps → ∃ x y, σ v = some x ∧ eg.find x = .ok y ∧ s.get v = some y := by
  have hio := h.inOrder hc
  have hpr := c87_history hA ha h
  have hsound : ∀ {limit ms}, (p.searcher (D := D)).search (A.at depth) eg ord limit = .ok ms → _ :=
    fun hm => c101_search_sound hpr hc hd ho hp hfn hm
  obtain ⟨g, h1, hth, -⟩ := hpr
  have hcg : g.clean = true := by rw [← hth.clean]; exact hc
  have hi := (hist_good h1).inv
  have hr := c47_clean_means_rebuilt h1 hcg
  have hac : (A.at depth).allowCycles = true := by cases depth <;> exact hcyc
  let ord' : IterOrd := ⟨g.classes.map fun kc => kc.2.id, fun l => l⟩
  have ho' : ord'.OK g := ⟨.refl _, fun l => .refl l⟩
  have hoo := hth.order ho ho'
  obtain ⟨o1, -⟩ := order_ok hi ho'
  obtain ⟨cc, e1, hf⟩ := multi_fin hi hr hd o1 hp hfn
  have hlt : ∀ c ∈ ord.classes, c < eg.nodes.length := fun c hcm => by
    rw [hth.nodes]; exact (o1 c |>.1 (hoo c hcm)).1
  have hall : ∀ x, eg.find x = .ok x → x ∈ ord.classes := fun x hx =>
    visited_complete (t := .node (.var (.num 0)) []) (σ := fun _ => some x) hth hi hio ho (.var rfl ⟨x, hx, hx⟩) hx
  refine ⟨(ord.classes.flatMap (fun c => (matchesOf (A.at depth).allowCycles eg ord.classes p.program c).map
    (fun s => (c, s)))).length, fun limit hl => ?_⟩
  obtain ⟨ms, g1, g2, -⟩ := searchEclasses_spec ord.classes (fun c hcv limit =>
    multi_searchEclass_thin_eq hth hi hc (A.at depth) hlt hp hfn e1 hf (hlt c hcv) limit) limit
  have hms : (p.searcher (D := D)).search (A.at depth) eg ord limit = .ok ms := g1
  refine ⟨ms, hms, fun σ c hσ => ?_⟩
  have hfn' := hfn
  obtain ⟨v, o, ts, rest, rfl⟩ := hfn'
  have hcl := hi.pmatch_lt (hth.pmatch hσ.2.1)
  have hfc : eg.find c = .ok (g.rt c) := by rw [hth.find]; exact hi.find hcl
  have hrc : eg.find (g.rt c) = .ok (g.rt c) := by rw [hth.find]; exact hi.find_iff.2 ⟨hi.core.rtLt _ hcl, hi.core.rtIdem _⟩
  have hσ' : MultiMatch eg σ (g.rt c) ((v, .node (.op o) ts) :: rest) := by
    obtain ⟨⟨x, q1, q2⟩, q3, q4⟩ := hσ
    exact ⟨⟨x, q1, q2.trans ⟨_, hfc, hrc⟩⟩, q3.same ⟨_, hfc, hrc⟩, q4⟩
  obtain ⟨s, hs, k3⟩ := multi_matchesOf_complete hth hi hr hio hd hall o1 hoo hp hfn hσ'
  have hmem : (g.rt c, s) ∈ flat ms := by
    rw [g2, List.take_of_length_le hl, List.mem_flatMap]
    exact ⟨_, hall _ hrc, List.mem_map.2 ⟨s, by rw [hac]; exact hs, rfl⟩⟩
  refine ⟨g.rt c, s, hfc, hmem, fun v hv => ?_⟩
  obtain ⟨x, y, q1, q2, q3⟩ := k3 v hv
  have hy := (hsound hms _ _ hmem).2.2.1 v y q2
  obtain ⟨r, z1, z2⟩ := q3
  rw [hy] at z2; cases z2
  exact ⟨x, y, q1, z1, q2⟩

/-- **C101**, in terms of terms: if the operators of the patterns are among those whose e-nodes are never dropped,
pruning hides no instance.  Whenever each binder stands for a term of a class that also has the instance of its pattern
(whether or not the e-nodes are left), a match is reported whose bindings have the terms the variables stand for. -/
theorem c101_search_finds_instances (hA : A.OK K) (ha : allow.Blind) (h : PruneHist K (A.at depth) allow U eg) (hc : eg.clean = true)
    (hd : DiscContiguous Op) (ho : ord.OK eg) (hp : IsMultiPattern p ps) (hfn : FirstIsNode ps) (hcyc : A.allowCycles = true)
    (hK : ∀ v t, (v, t) ∈ ps → t.AllOps K) :
    ∃ l0, ∀ limit, l0 ≤ limit → ∃ ms, (p.searcher (D := D)).search (A.at depth) eg ord limit = .ok ms ∧
      ∀ τ : Var → Term Op, (∀ v t, (v, t) ∈ ps → ∃ c u, Inst τ t u ∧ TermFor eg c u ∧ TermFor eg c (τ v)) →
        ∃ r s, (r, s) ∈ flat ms ∧ ∀ v, MultiOccurs v ps → ∃ x, s.get v = some x ∧ TermFor eg x (τ v) := by
  obtain ⟨l0, hl⟩ := c101_search_complete hA ha h hc hd ho hp hfn hcyc
  obtain ⟨g, h1, hth, hk⟩ := c87_history hA ha h
  have hcg : g.clean = true := by rw [← hth.clean]; exact hc
  have hi := (hist_good h1).inv
  have hr := c47_clean_means_rebuilt h1 hcg
  refine ⟨l0, fun limit hlim => ?_⟩
  obtain ⟨ms, g1, g2⟩ := hl limit hlim
  refine ⟨ms, g1, fun τ hτ => ?_⟩
  classical
  let σ : Var → Option Id := fun v => if hx : ∃ x, Rep g x (τ v) then some hx.choose else none
  have hσ1 : ∀ v x, σ v = some x → Rep g x (τ v) := by
    intro v x hx
    simp only [σ] at hx
    split at hx
    · next he => cases hx; exact he.choose_spec
    · cases hx
  have back : ∀ {t : Term (PatOp Op)} {c : Id}, PMatch g σ c t → t.AllOps K → PMatch eg σ c t := by
    intro t c hm
    induction hm with
    | var q1 q2 => intro _; exact .var q1 (hth.sameClass.2 q2)
    | @node c kf n ps q1 q2 q3 q4 ih =>
      intro hK
      obtain ⟨k, hk1⟩ := hth.index_total q1
      refine .node hk1 (hk c k kf hk1 q1 n q2 ?_) q3 (fun j d q hj hq => ih j d q hj hq fun o ts hs => hK o ts (.arg (List.mem_of_getElem? hq) hs))
      rw [q3]
      exact hK _ _ .refl
  have each : ∀ v t, (v, t) ∈ ps → ∃ x, σ v = some x ∧ PMatch eg σ x t ∧ eg.find x = .ok (g.rt x) := by
    intro v t hvt
    obtain ⟨c, u, hu, hcu, hcv⟩ := hτ v t hvt
    have hcu := (c86_terms h1 hth _ _).1 hcu
    have hcv := (c86_terms h1 hth _ _).1 hcv
    have hex : ∃ x, Rep g x (τ v) := ⟨c, hcv⟩
    have hsv : σ v = some hex.choose := by simp only [σ, dif_pos hex]
    have hx := hσ1 v _ hsv
    have hxl := hi.rep_lt hx
    have e := EGraph.InvW.rep_unique hi hr.pending _ hcv hx
    have hxu : Rep g hex.choose u := hi.rep_congr hxl e hcu
    have hm := EGraph.InvW.rep_pmatch hi hr.pending hσ1 t hxu hu (fun w hw => by
      have := rep_subterm hi (inst_subterm hu w hw) hxu
      simp [σ, this])
    exact ⟨_, hsv, back hm (hK v t hvt), by rw [hth.find]; exact hi.find hxl⟩
  obtain ⟨v, o, ts, rest, rfl⟩ := hfn
  obtain ⟨x, q1, q2, q3⟩ := each v _ (List.mem_cons_self ..)
  obtain ⟨r, s, -, k2, k3⟩ := g2 σ x ⟨⟨x, q1, _, q3, q3⟩, q2, fun w u hwu => by
    obtain ⟨y, z1, z2, -⟩ := each w u (List.mem_cons_of_mem _ hwu)
    exact ⟨y, z1, z2⟩⟩
  refine ⟨r, s, k2, fun v hv => ?_⟩
  obtain ⟨x, y, q1, q2, q3⟩ := k3 v hv
  refine ⟨y, q3, (c86_terms h1 hth _ _).2 ?_⟩
  rw [hth.find] at q2
  have hxl := (hi.find_iff.1 q2).1
  have hxy : g.rt x = g.rt y := by rw [← (hi.find_iff.1 q2).2, hi.core.rtIdem]
  exact hi.rep_congr ((hi.find_iff.1 q2).2 ▸ hi.core.rtLt _ hxl) hxy (hσ1 v x q1)

/-! ### Runs -/

variable {env : RunEnv Op D} {sch : Scheduler Op D S} {hooks : List (Hook Op D H)} {rules : List (Rewrite Op D)}
  {R : Term Op → Term Op → Prop} {r r' : Runner Op D S H}

/-- The rule is between patterns, and its instances are in `R`; or it is between multi-patterns, and `R` is closed under
it. -/
def CorrectRule (R : Term Op → Term Op → Prop) (rw : Rewrite Op D) : Prop :=
  (∃ tl t, BlindRule rw tl t ∧ ∀ (τ : Var → Term Op) s w, Inst τ tl s → Inst τ t w → R s w) ∨
  ∃ ls rs, MultiRule rw ls rs ∧ HornClosed R ls rs

/-- **C101**: equality saturation with pruning and with rules between patterns and between multi-patterns is sound.  If a
congruence contains the unions made before and the equations of the hooks, the rules are correct in it and the analysis
respects it, then after the run terms of one class are related, whether or not their e-nodes have been dropped; and the
state is a pruned one again. -/
theorem c101_run_sound (hR : IsCongruence R) (hA : A.OK K) (hS : SoundFor A.full R hR) (ha : allow.Blind)
    (hN : env.analysis = A.at depth) (hord : ∀ i eg, (env.ord i eg).OK eg)
    (hd : DiscContiguous Op) (hs : sch.Honest env) (hh : PruneHooksOK K (A.at depth) allow R hooks)
    (hr : ∀ rw' ∈ rules, CorrectRule R rw') (h : Pruned K (A.full.at depth) allow U r.egraph)
    (hU : ∀ s t, eqsOf U s t → R s t) {f : Nat} (hrun : r.run env sch hooks rules f = .ok r') :
    (r'.egraph.clean = true ∧ ∃ V, Pruned K (A.full.at depth) allow (V ++ U) r'.egraph) ∧
    ∀ (a b : Id) (s t : Term Op), SameClass r'.egraph a b → TermFor r'.egraph a s → TermFor r'.egraph b t → R s t := by
  obtain ⟨g, g1, g2, g3⟩ := h
  have hC := g2.thinC g3 (hist_good g1).inv
  unfold Runner.run at hrun
  obtain ⟨⟨eg, n⟩, h1, h2⟩ := bind_eq_ok.1 hrun
  rw [hN] at h1
  obtain ⟨⟨g', n'⟩, k1, k2, -⟩ := (Thin.rebuild (hA.hookSim depth) hC _).of_ok h1
  have hU' : ∀ u ∈ [] ++ U, R u.s u.t := fun u hu => hU _ _ ⟨u, hu, rfl, rfl⟩
  have hK := hA.hookSim depth
  have hord' : ∀ i eg, ((env.unpruned (A.full.at depth)).ord i eg).OK eg := hord
  obtain ⟨c2, gf, ⟨V, s1, q1⟩, C2⟩ := Runner.runLoop_psound hK ha (fun _ _ _ _ h => h) (.inl ⟨rfl, fun _ h => h⟩) hN hs hh
    (fun rw' hrw => by
      rcases hr rw' hrw with ⟨tl, t, z1, z2⟩ | ⟨ls, rs, z1, z2⟩
      · exact ⟨z1.follows hK hN hord hd, c62_pattern_sound hR rfl hord' hd (z1.rule _) z2⟩
      · exact ⟨z1.follows hK hN hord hd, c62_multi_sound hR hS rfl hord' hd z1 z2⟩)
    f _ _ ([] ++ U) g' (Steps.trans g1 (.single (.rebuild k1))) hU' k2 (EGraph.rebuild_clean h1) h2
  have hh : Hist (A.full.at depth) allow (V ++ ([] ++ U)) gf := Steps.trans (Steps.trans g1 (.single (.rebuild k1))) s1
  have hT := C2.thin.thinner
  refine ⟨⟨c2, V, gf, hh, hT, C2.kept⟩, fun a b s t hab hs' ht => ?_⟩
  refine c02_no_spurious_equality hR hS hh (fun s t hst => ?_) (hT.sameClass.1 hab) ((c86_terms hh hT _ _).1 hs') ((c86_terms hh hT _ _).1 ht)
  obtain ⟨u, hu, rfl, rfl⟩ := hst
  rcases List.mem_append.1 hu with hu | hu
  · exact q1 u hu
  · exact hU' u hu

/-! ### Examples -/

namespace Ex

/-- a, b, f a, f b (ids 0 to 3), g (f a) a (4) and g (f b) b (5); the class of g (f a) a is emptied. -/
def q12 : G := st (EGraph.addUncanonical PN q4 (app .g [2, 0]))
def q13 : G := st (EGraph.addUncanonical PN q12 (app .g [3, 1]))
def q14 : G := st (do return (← q13.retain 4 (fun _ => false), ()))
def q15 : G := st (EGraph.rebuild PN 20 q14)

theorem histQ13 (K) : PruneHist K PN .noSet [] q13 :=
  .tail (V := []) (.tail (V := []) (.tail (V := []) (.tail (V := []) (.tail (V := []) (.tail (V := []) .new
    (.call (.add (n := leaf .a) (i := 0) rfl))) (.call (.add (n := leaf .b) (i := 1) rfl)))
    (.call (.add (n := app .f [0]) (i := 2) rfl))) (.call (.add (n := app .f [1]) (i := 3) rfl)))
    (.call (.add (n := app .g [2, 0]) (i := 4) rfl))) (.call (.add (n := app .g [3, 1]) (i := 5) rfl))

theorem histQ15 : PruneHist (fun _ _ => False) PN .noSet [] q15 :=
  .tail (V := []) (.tail (V := []) (histQ13 _) (.retain (eg' := q14) (i := 4) (keep := fun _ => false) (fun _ h => h.elim) rfl))
    (.call (.rebuild (fuel := 20) (n := 0) rfl))

/-- `?p = (g ?y ?x), ?y = (f ?x)` had two matches; the one that needs the dropped e-node is gone, the other is found. -/
example : ((multi.searcher (D := Unit)).search PN (st (EGraph.rebuild PN 20 q13)) (Ex.ord (st (EGraph.rebuild PN 20 q13))) 100).toOption.map flat =
      some [(4, [(vp, 4), (vy, 2), (vx, 0)]), (5, [(vp, 5), (vy, 3), (vx, 1)])] ∧
    ((multi.searcher (D := Unit)).search PN q15 (Ex.ord q15) 100).toOption.map flat = some [(5, [(vp, 5), (vy, 3), (vx, 1)])] := by
  constructor <;> decide

/-- Dropping the e-node of f a instead changes nothing: the second pattern, whose variables are bound by the first one,
is looked up in the table of e-nodes. -/
def q18 : G := st (do EGraph.rebuild PN 20 (← q13.retain 2 (fun _ => false)))

example : (q18.classes.get? 2).map (·.nodes) = some [] ∧ ((multi.searcher (D := Unit)).search PN q18 (Ex.ord q18) 100).toOption.map flat =
    some [(4, [(vp, 4), (vy, 2), (vx, 0)]), (5, [(vp, 5), (vy, 3), (vx, 1)])] := by
  constructor <;> decide

def sg15 : Var → Option Id := fun v => if v = vp then some 5 else if v = vy then some 3 else some 1

theorem match15 : MultiMatch q15 sg15 5 multiTerms := by
  refine ⟨⟨5, rfl, 5, rfl, rfl⟩, .node (k := ⟨5, [app .g [3, 1]], (), []⟩) (n := app .g [3, 1]) rfl (by simp) rfl ?_, ?_⟩
  · intro j d q hj hq
    match j with
    | 0 => cases hj; cases hq; exact .var rfl ⟨3, rfl, rfl⟩
    | 1 => cases hj; cases hq; exact .var rfl ⟨1, rfl, rfl⟩
    | j + 2 => cases hj
  · intro w u hwu
    simp only [List.mem_singleton, Prod.mk.injEq] at hwu
    obtain ⟨rfl, rfl⟩ := hwu
    refine ⟨3, rfl, .node (k := ⟨3, [app .f [1]], (), [5]⟩) (n := app .f [1]) rfl (by simp) rfl ?_⟩
    intro j d q hj hq
    match j with
    | 0 => cases hj; cases hq; exact .var rfl ⟨1, rfl, rfl⟩
    | j + 1 => cases hj

/-- The hypotheses of the search theorems are met. -/
example : q15.clean = true ∧ MultiMatch q15 sg15 5 multiTerms ∧ Pruned (fun _ _ => False) (PU.full.at 1) .noSet [] q15 ∧
    ∃ l0, ∀ limit, l0 ≤ limit → ∃ ms, (multi.searcher (D := Unit)).search PN q15 (Ex.ord q15) limit = .ok ms ∧
      ∀ (σ : Var → Option Id) (c : Id), MultiMatch q15 σ c multiTerms →
        ∃ r s, q15.find c = .ok r ∧ (r, s) ∈ flat ms ∧
          ∀ v, MultiOccurs v multiTerms → ∃ x y, σ v = some x ∧ q15.find x = .ok y ∧ s.get v = some y :=
  ⟨rfl, match15, c87_history PU_ok blind_noSet histQ15,
    c101_search_complete PU_ok blind_noSet histQ15 rfl discContiguous (ordOK q15) isMulti ⟨_, _, _, _, rfl⟩ rfl⟩

example {limit : Nat} {ms : List (SearchMatches Ex.S)} (hm : (multi.searcher (D := Unit)).search PN q15 (Ex.ord q15) limit = .ok ms) :
    ∀ c s, (c, s) ∈ flat ms → s.get vp = some c := fun c s hcs =>
  (c101_search_sound (c87_history PU_ok blind_noSet histQ15) rfl discContiguous (ordOK q15) isMulti ⟨_, _, _, _, rfl⟩ hm c s hcs).2.2.2.1 _ _ rfl

/-- Only e-nodes of `f` and `g` are kept for certain: the class of a is emptied. -/
def KFG : Ex.S → Nat → Prop := fun o _ => o = .f ∨ o = .g
def q16 : G := st (do return (← q13.retain 0 (fun n => n.op == .f || n.op == .g), ()))
def q17 : G := st (EGraph.rebuild PN 20 q16)

theorem histQ17 : PruneHist KFG PN .noSet [] q17 :=
  .tail (V := []) (.tail (V := []) (histQ13 _) (.retain (eg' := q16) (i := 0) (keep := fun n => n.op == .f || n.op == .g) (fun n h => by
      have h : n.op = .f ∨ n.op = .g := h
      rcases h with h | h <;> (show (n.op == .f || n.op == .g) = true) <;> rw [h] <;> rfl) rfl))
    (.call (.rebuild (fuel := 20) (n := 0) rfl))

theorem termA17 : TermFor q17 0 ta := termFor_iff.2 ⟨0, leaf .a, ⟨_, rfl, rfl⟩, rfl, rfl, .nil⟩
theorem termFA17 : TermFor q17 2 tfa := termFor_iff.2 ⟨2, app .f [0], ⟨_, rfl, rfl⟩, rfl, rfl, .cons termA17 .nil⟩
theorem termGFA17 : TermFor q17 4 (.node .g [tfa, ta]) :=
  termFor_iff.2 ⟨4, app .g [2, 0], ⟨_, rfl, rfl⟩, rfl, rfl, .cons termFA17 (.cons termA17 .nil)⟩

/-- The instance g (f a) a is found although the e-node of a was dropped. -/
example : (q17.classes.get? 0).map (·.nodes) = some [] ∧
    ∃ l0, ∀ limit, l0 ≤ limit → ∃ ms, (multi.searcher (D := Unit)).search PN q17 (Ex.ord q17) limit = .ok ms ∧
      ∃ r s, (r, s) ∈ flat ms ∧ ∃ x, s.get vx = some x ∧ TermFor q17 x ta := by
  obtain ⟨l0, hl⟩ := c101_search_finds_instances (K := KFG) (A := PU) (depth := 1) ⟨fun _ _ _ _ _ => rfl, fun _ _ _ _ _ => rfl, fun _ => ⟨trivial, trivial, trivial⟩⟩
    blind_noSet histQ17 rfl discContiguous (ordOK q17) isMulti ⟨_, _, _, _, rfl⟩ rfl (fun v t hvt o ts hs => by
      simp only [multiTerms, List.mem_cons, Prod.mk.injEq, List.not_mem_nil, or_false] at hvt
      have leafs : ∀ {w : Var} {o : Ex.S} {ts : List (Term (PatOp Ex.S))}, ¬ Subterm (.node (.op o) ts) (.node (.var w) []) := by
        intro w o ts h
        cases h with
        | arg h _ => cases h
      rcases hvt with ⟨rfl, rfl⟩ | ⟨rfl, rfl⟩
      · cases hs with
        | refl => exact .inr rfl
        | arg h1 h2 =>
          simp only [List.mem_cons, List.not_mem_nil, or_false] at h1
          rcases h1 with rfl | rfl <;> exact (leafs h2).elim
      · cases hs with
        | refl => exact .inl rfl
        | arg h1 h2 =>
          simp only [List.mem_singleton] at h1
          subst h1
          exact (leafs h2).elim)
  refine ⟨rfl, l0, fun limit hlim => ?_⟩
  obtain ⟨ms, g1, g2⟩ := hl limit hlim
  refine ⟨ms, g1, ?_⟩
  obtain ⟨r, s, k1, k2⟩ := g2 (fun v => if v = vp then .node .g [tfa, ta] else if v = vy then tfa else ta) (fun v t hvt => by
    simp only [multiTerms, List.mem_cons, Prod.mk.injEq, List.not_mem_nil, or_false] at hvt
    rcases hvt with ⟨rfl, rfl⟩ | ⟨rfl, rfl⟩
    · exact ⟨4, .node .g [tfa, ta], inst_node_iff.2 ⟨_, rfl, .cons .var (.cons .var .nil)⟩, termGFA17, termGFA17⟩
    · exact ⟨2, tfa, inst_node_iff.2 ⟨_, rfl, .cons .var .nil⟩, termFA17, termFA17⟩)
  obtain ⟨x, z1, z2⟩ := k2 vx ⟨vy, termFx, by simp [multiTerms], .inr (.arg (t := .node (.var vx) []) (by simp) .refl)⟩
  exact ⟨r, s, k1, x, z1, z2⟩

/-- A run of the multi-pattern rule `?p = (f ?x) => ?q = (g ?x), ?p = ?q` on the pruned example of C87. -/
def doneQM : Runner Ex.S Unit Unit Unit := stR () (({ runnerQ with limits := ⟨3, 1000, 5⟩ }).run penv simpleScheduler [] [ruleM] 10)

example : TermFor doneQM.egraph 2 tfa ∧ TermFor doneQM.egraph 4 tga ∧ SameClass doneQM.egraph 2 4 :=
  ⟨termFor_iff.2 ⟨2, app .f [0], ⟨_, rfl, rfl⟩, rfl, rfl, .cons (termFor_iff.2 ⟨0, leaf .a, ⟨_, rfl, rfl⟩, rfl, rfl, .nil⟩) .nil⟩,
    termFor_iff.2 ⟨4, app .g [0], ⟨_, rfl, rfl⟩, rfl, rfl, .cons (termFor_iff.2 ⟨0, leaf .a, ⟨_, rfl, rfl⟩, rfl, rfl, .nil⟩) .nil⟩,
    ⟨_, rfl, rfl⟩⟩

/-- The hypotheses of `c101_run_sound` are met by that run. -/
example {s t : Term Ex.S} {a b : Id} (hab : SameClass doneQM.egraph a b) (ha : TermFor doneQM.egraph a s) (hb : TermFor doneQM.egraph b t) :
    RM s t :=
  (c101_run_sound (A := PU) (depth := 1) (K := fun _ _ => False) (hooks := []) (R := RM) .geq PU_ok
    (soundFor_of_quiet (fun _ => rfl) _ _) blind_noSet (env := penv) (sch := simpleScheduler) (rules := [ruleM])
    (r := { runnerQ with limits := ⟨3, 1000, 5⟩ }) (r' := doneQM) rfl (fun _ eg => ordOK eg) discContiguous simple_honest
    (fun k hk => by cases hk) (fun rw' h => by
      simp only [List.mem_singleton] at h
      subst h
      exact .inr ⟨_, _, multiRule, hornM⟩) prunedQ
    (fun _ _ h => .ax (Or.inl h)) (f := 10) rfl).2 a b s t hab ha hb

end Ex
end Egg
