import Verif.Lemmas.ThinComplete
import Verif.Props.PruneRun
/-
C87: a pruned e-graph is searched completely.
-/
namespace Egg
variable {Op D : Type} [DecidableEq Op] [Lang Op] {K : Op → Nat → Prop}
variable {A : PruneAnalysis Op D} {depth : Nat} {allow : Caller Op D} {U : List (UnionRec Op)} {eg : EGraph Op D}
  {ord : IterOrd} {p : Pattern Op} {t : Term (PatOp Op)}

/-- **C87**, searching, the other direction: after any history with pruning, the search of a clean e-graph does not
panic, and with a limit that is large enough it reports every match made of the e-nodes that are left, for the
canonical id of its class and with canonical bindings. -/
theorem c87_search_complete (hA : A.OK K) (ha : allow.Blind) (h : PruneHist K (A.at depth) allow U eg) (hc : eg.clean = true)
    (hd : DiscContiguous Op) (ho : ord.OK eg) (hp : IsPattern p t) (hcyc : A.allowCycles = true) :
    ∃ l0, ∀ limit, l0 ≤ limit → ∃ ms, p.searchWithLimit (A.at depth) eg ord limit = .ok ms ∧
      ∀ (σ : Var → Option Id) (c : Id), PMatch eg σ c t →
        ∃ r s, eg.find c = .ok r ∧ (r, s) ∈ flat ms ∧
          ∀ v, Occurs v t → ∃ x y, σ v = some x ∧ eg.find x = .ok y ∧ s.get v = some y := by
  have hio := h.inOrder hc
  have hpr := c87_history hA ha h
  have hsound : ∀ {limit ms}, p.searchWithLimit (A.at depth) eg ord limit = .ok ms → _ := fun hm => c87_search_sound hpr hc hd ho hp hm
  obtain ⟨g, h1, hth, -⟩ := hpr
  have hcg : g.clean = true := by rw [← hth.clean]; exact hc
  have hi := (hist_good h1).inv
  have hr := c47_clean_means_rebuilt h1 hcg
  have hac : (A.at depth).allowCycles = true := by cases depth <;> exact hcyc
  let ord' : IterOrd := ⟨g.classes.map fun kc => kc.2.id, fun l => l⟩
  have ho' : ord'.OK g := ⟨.refl _, fun l => .refl l⟩
  have hoo := hth.order ho ho'
  obtain ⟨ordc, fuel, ast, hoc, hw, hnew, ht⟩ := hp
  obtain ⟨cc, e1, -, hf⟩ := pattern_fin hi hr hd hoc ord'.classes hw hnew ht
  obtain ⟨v1, v2, v3⟩ := visited_spec hi hr ho' t
  have hlt : ∀ c ∈ ord.classes, c < eg.nodes.length := fun c hcm => by
    rw [hth.nodes]; exact ((order_ok hi ho').1 c |>.1 (hoo c hcm)).1
  refine ⟨((visited eg ord t).flatMap (fun c => (matchesOf (A.at depth).allowCycles eg ord.classes p.program c).map
    (fun s => (c, s)))).length, fun limit hl => ?_⟩
  obtain ⟨ms, g1, g2, g3, g4⟩ := searchEclasses_spec (visited eg ord t) (fun c hcv limit =>
    searchEclass_thin_eq hth hi hc (A.at depth) hlt e1 hf (by
      rw [hth.nodes]; exact (hi.find_iff.1 (v2 c (hth.visited ho ho' hcv))).1) limit) limit
  have hms : p.searchWithLimit (A.at depth) eg ord limit = .ok ms := by rw [search_eq _ ht]; exact g1
  refine ⟨ms, hms, fun σ c hσ => ?_⟩
  have hcl := hi.pmatch_lt (hth.pmatch hσ)
  have hfc : eg.find c = .ok (g.rt c) := by rw [hth.find]; exact hi.find hcl
  have hrc : eg.find (g.rt c) = .ok (g.rt c) := by rw [hth.find]; exact hi.find_iff.2 ⟨hi.core.rtLt _ hcl, hi.core.rtIdem _⟩
  have hσ' : PMatch eg σ (g.rt c) t := by
    cases hσ with
    | var q1 q2 =>
      obtain ⟨r, z1, z2⟩ := q2
      rw [hfc] at z2; cases z2
      exact .var q1 ⟨_, z1, hrc⟩
    | node q1 q2 q3 q4 =>
      refine .node ?_ q2 q3 q4
      unfold EGraph.index at q1 ⊢
      rw [hfc] at q1
      rw [hrc]
      exact q1
  obtain ⟨s, hs, k3⟩ := matchesOf_complete (order := ord.classes) hth hi hr hio hd hoc hoo hw hnew ht hσ'
  have hmem : (g.rt c, s) ∈ flat ms := by
    rw [g2, List.take_of_length_le hl, List.mem_flatMap]
    exact ⟨_, visited_complete hth hi hio ho hσ' hrc, List.mem_map.2 ⟨s, by rw [hac]; exact hs, rfl⟩⟩
  refine ⟨g.rt c, s, hfc, hmem, fun v hv => ?_⟩
  obtain ⟨x, y, q1, q2, q3⟩ := k3 v hv
  have hy := (hsound hms _ _ hmem).2.2.1 v y q2
  obtain ⟨r, z1, z2⟩ := q3
  rw [hy] at z2; cases z2
  exact ⟨x, y, q1, z1, q2⟩

omit [DecidableEq Op] [Lang Op] in
/-- Every operator of the pattern, with its number of children, satisfies `K`. -/
def Term.AllOps (K : Op → Nat → Prop) (t : Term (PatOp Op)) : Prop := ∀ o ts, Subterm (.node (.op o) ts) t → K o ts.length

/-- **C87**, in terms of terms: if the operators of the pattern are among those whose e-nodes are never dropped, pruning
does not hide instances: whenever an instance of the pattern is a term of a class (`TermFor`: whether or not its e-nodes
are left), the class is reported, with bindings that have the terms the variables stand for. -/
theorem c87_search_finds_instances (hA : A.OK K) (ha : allow.Blind) (h : PruneHist K (A.at depth) allow U eg) (hc : eg.clean = true)
    (hd : DiscContiguous Op) (ho : ord.OK eg) (hp : IsPattern p t) (hcyc : A.allowCycles = true) (hK : t.AllOps K) :
    ∃ l0, ∀ limit, l0 ≤ limit → ∃ ms, p.searchWithLimit (A.at depth) eg ord limit = .ok ms ∧
      ∀ (τ : Var → Term Op) (c : Id) (u : Term Op), Inst τ t u → TermFor eg c u →
        ∃ r s, eg.find c = .ok r ∧ (r, s) ∈ flat ms ∧ ∀ v, Occurs v t → ∃ x, s.get v = some x ∧ TermFor eg x (τ v) := by
  obtain ⟨l0, hl⟩ := c87_search_complete hA ha h hc hd ho hp hcyc
  obtain ⟨g, h1, hth, hk⟩ := c87_history hA ha h
  have hcg : g.clean = true := by rw [← hth.clean]; exact hc
  have hi := (hist_good h1).inv
  have hr := c47_clean_means_rebuilt h1 hcg
  refine ⟨l0, fun limit hlim => ?_⟩
  obtain ⟨ms, g1, g2⟩ := hl limit hlim
  refine ⟨ms, g1, fun τ c u hu hcu => ?_⟩
  have hcu := (c86_terms h1 hth _ _).1 hcu
  classical
  let σ : Var → Option Id := fun v => if hx : ∃ x, Rep g x (τ v) then some hx.choose else none
  have hσ1 : ∀ v x, σ v = some x → Rep g x (τ v) := by
    intro v x hx
    simp only [σ] at hx
    split at hx
    · next he => cases hx; exact he.choose_spec
    · cases hx
  have hσ2 : ∀ v, Occurs v t → (σ v).isSome := by
    intro v hv
    have := rep_subterm hi (inst_subterm hu v hv) hcu
    simp [σ, this]
  have hm := EGraph.InvW.rep_pmatch hi hr.pending hσ1 t hcu hu hσ2
  have back : ∀ {t : Term (PatOp Op)} {c : Id}, PMatch g σ c t → t.AllOps K → PMatch eg σ c t := by
    intro t c hm
    induction hm with
    | var q1 q2 => intro _; exact .var q1 (hth.sameClass.2 q2)
    | @node c kf n ps q1 q2 q3 q4 ih =>
      intro hK
      obtain ⟨k, hk1⟩ := hth.index_total q1
      refine .node hk1 (hk c k kf hk1 q1 n q2 ?_) q3 (fun j d q hj hq => ih j d q hj hq fun o ts hs => hK o ts (.arg (List.mem_of_getElem? hq) hs))
      rw [q3]
      exact hK _ _ .refl
  obtain ⟨r, s, k1, k2, k3⟩ := g2 σ c (back hm hK)
  refine ⟨r, s, k1, k2, fun v hv => ?_⟩
  obtain ⟨x, y, q1, q2, q3⟩ := k3 v hv
  refine ⟨y, q3, (c86_terms h1 hth _ _).2 ?_⟩
  rw [hth.find] at q2
  have hxl := (hi.find_iff.1 q2).1
  have hxy : g.rt x = g.rt y := by rw [← (hi.find_iff.1 q2).2, hi.core.rtIdem]
  exact hi.rep_congr ((hi.find_iff.1 q2).2 ▸ hi.core.rtLt _ hxl) hxy (hσ1 v x q1)

namespace Ex

theorem histQ9 : PruneHist (fun _ _ => False) PN .noSet [] q9 :=
  .tail (V := []) (.tail (V := []) (.tail (V := []) (.tail (V := []) (.tail (V := []) (.tail (V := []) (.tail (V := []) .new
    (.call (.add (n := leaf .a) (i := 0) rfl))) (.call (.add (n := leaf .b) (i := 1) rfl)))
    (.call (.add (n := app .f [0]) (i := 2) rfl))) (.call (.add (n := app .f [1]) (i := 3) rfl)))
    (.retain (eg' := q5) (i := 2) (keep := fun _ => false) (fun _ h => h.elim) rfl))
    (.retain (eg' := q6) (i := 0) (keep := fun _ => false) (fun _ h => h.elim) rfl))
    (.call (.rebuild (fuel := 20) (n := 0) rfl))

/-- The hypotheses of `c87_search_complete` are met: the e-node f(1) is left and matches, f(0) was dropped and
does not. -/
example : q9.clean = true ∧ PMatch q9 (fun _ => some 1) 3 termFx ∧ (∀ σ, ¬ PMatch q9 σ 2 termFx) ∧
    ∃ l0, ∀ limit, l0 ≤ limit → ∃ ms, patFx.searchWithLimit PN q9 (Ex.ord q9) limit = .ok ms ∧
      ∀ (σ : Var → Option Id) (c : Id), PMatch q9 σ c termFx →
        ∃ r s, q9.find c = .ok r ∧ (r, s) ∈ flat ms ∧
          ∀ v, Occurs v termFx → ∃ x y, σ v = some x ∧ q9.find x = .ok y ∧ s.get v = some y := by
  refine ⟨rfl, .node (k := ⟨3, [app .f [1]], (), []⟩) (n := app .f [1]) rfl (by simp) rfl ?_, ?_,
    c87_search_complete PU_ok blind_noSet histQ9 rfl discContiguous (ordOK q9) isPatFx rfl⟩
  · intro j d q hj hq
    match j with
    | 0 => cases hj; cases hq; exact .var rfl ⟨1, rfl, rfl⟩
    | j + 1 => cases hj
  · intro σ h
    have key : ∀ {t c}, PMatch q9 σ c t → (∃ v, t = .node (.var v) []) ∨ ∃ k, q9.index c = .ok k ∧ k.nodes ≠ [] := by
      intro t c h
      cases h with
      | var _ _ => exact .inl ⟨_, rfl⟩
      | node q1 q2 _ _ => exact .inr ⟨_, q1, List.ne_nil_of_mem q2⟩
    rcases key h with ⟨v, hv⟩ | ⟨k, q1, q2⟩
    · cases hv
    · have : q9.index 2 = .ok ⟨2, [], (), []⟩ := rfl
      rw [this] at q1
      cases q1
      exact q2 rfl

/-- Only e-nodes of `f` are kept for certain. -/
def KF : S → Nat → Prop := fun o _ => o = .f

/-- The class of a is emptied; f a and f b stay. -/
def q10 : G := st (do return (← q4.retain 0 (fun n => n.op == .f), ()))
def q11 : G := st (EGraph.rebuild PN 20 q10)

theorem histQ11 : PruneHist KF PN .noSet [] q11 :=
  .tail (V := []) (.tail (V := []) (.tail (V := []) (.tail (V := []) (.tail (V := []) (.tail (V := []) .new
    (.call (.add (n := leaf .a) (i := 0) rfl))) (.call (.add (n := leaf .b) (i := 1) rfl)))
    (.call (.add (n := app .f [0]) (i := 2) rfl))) (.call (.add (n := app .f [1]) (i := 3) rfl)))
    (.retain (eg' := q10) (i := 0) (keep := fun n => n.op == .f) (fun n h => by
      have h : n.op = .f := h
      rw [h]; rfl) rfl))
    (.call (.rebuild (fuel := 20) (n := 0) rfl))

/-- The hypotheses of `c87_search_finds_instances` are met: f a is found although the e-node of a was dropped. -/
example : (q11.classes.get? 0).map (·.nodes) = some [] ∧ TermFor q11 2 tfa ∧ Inst (fun _ => ta) termFx tfa ∧
    ∃ l0, ∀ limit, l0 ≤ limit → ∃ ms, patFx.searchWithLimit PN q11 (Ex.ord q11) limit = .ok ms ∧
      ∀ (τ : Var → Term S) (c : Id) (u : Term S), Inst τ termFx u → TermFor q11 c u →
        ∃ r s, q11.find c = .ok r ∧ (r, s) ∈ flat ms ∧ ∀ v, Occurs v termFx → ∃ x, s.get v = some x ∧ TermFor q11 x (τ v) := by
  refine ⟨rfl, termFor_iff.2 ⟨2, app .f [0], ⟨_, rfl, rfl⟩, rfl, rfl, .cons (termFor_iff.2 ⟨0, leaf .a, ⟨_, rfl, rfl⟩, rfl, rfl, .nil⟩) .nil⟩,
    ?_, c87_search_finds_instances (K := KF) ⟨fun _ _ _ _ _ => rfl, fun _ _ _ _ _ => rfl, fun _ => ⟨trivial, trivial, trivial⟩⟩
      blind_noSet histQ11 rfl discContiguous (ordOK q11) isPatFx rfl fun o ts hs => ?_⟩
  · refine .node rfl fun j t s h1 h2 => ?_
    match j with
    | 0 => cases h1; cases h2; exact .var
    | j + 1 => cases h1
  · cases hs with
    | refl => rfl
    | arg h1 h2 =>
      simp only [List.mem_singleton] at h1
      subst h1
      cases h2 with
      | arg h _ => cases h

end Ex
end Egg
