import Verif.Props.Still
import Verif.Props.GraphUnion
/-
C84: `add_instantiation` and `union_instantiations`, called directly.
-/
namespace Egg
variable {Op D : Type} [DecidableEq Op] [Lang Op]

/-- The substitution gives every variable node of the pattern an id of the e-graph. -/
def BindsAll (eg : EGraph Op D) (s : Subst) (pat : PatternAst Op) : Prop :=
  ∀ n ∈ pat, ∀ v, n.op = .var v → ∃ x, s.get v = some x ∧ Valid eg x

/-- `w` is an instance of `t`: every variable is replaced by some term of the class it is bound to. -/
def InstanceIn (eg : EGraph Op D) (s : Subst) (t : Term (PatOp Op)) (w : Term Op) : Prop :=
  ∃ τ : Var → Term Op, (∀ v x, s.get v = some x → Rep eg x (τ v)) ∧ Inst τ t w

section
variable {A : UserAnalysis Op D} {depth : Nat} {allow : Caller Op D} {U : List (UnionRec Op)} {eg eg' : EGraph Op D}
  {pat pat1 pat2 : PatternAst Op} {t t1 t2 : Term (PatOp Op)} {s : Subst} {i : Id}

theorem BindsAll.binds {C : Cfg Op D} (hg : EGraph.Good C eg) (hb : BindsAll eg s pat) : EGraph.Binds eg s pat := by
  intro n hn v hv
  obtain ⟨x, h1, h2⟩ := hb n hn v hv
  exact ⟨x, h1, hg.valid_iff.1 h2⟩

/-- **C84.**  `add_instantiation` adds the instance of the pattern and nothing else happens: the call is a
sequence of `add`s without any union, the id it returns is canonical, and the class of that id matches
the pattern under the substitution and represents all its instances. -/
theorem c84_add (h : Hist (A.at depth) allow U eg) (hp : PatWF pat) (ht : ExprTerm pat t) (hb : BindsAll eg s pat)
    (he : eg.addInstantiation (A.at depth) pat s = .ok (eg', i)) :
    Steps (A.at depth) allow eg [] eg' ∧ eg'.find i = .ok i ∧ PMatch eg' s.get i t ∧
    ∀ w, InstanceIn eg s t w → Rep eg' i w := by
  have hg := hist_good h
  have hN := (soundFor_true A).hookOK trivial depth
  unfold EGraph.addInstantiation at he
  obtain ⟨⟨eg1, j⟩, h1, he⟩ := bind_eq_ok.1 he
  obtain ⟨r, h2, he⟩ := bind_eq_ok.1 he
  cases he
  obtain ⟨g1, x1, g3, g4⟩ := (EGraph.addInst_post hN hp hg (hb.binds hg)).elim h1
  obtain ⟨hj, rfl⟩ := g1.inv.find_iff.1 h2
  have hr := g1.inv.core.rtLt j hj
  have hm : PMatch eg' s.get (eg'.rt j) t :=
    g1.inv.pmatch_congr (g1.inv.sameClass_iff.2 ⟨hj, hr, (g1.inv.core.rtIdem j).symm⟩) (g4 t ht)
  refine ⟨AddSteps.steps (EGraph.addInst_steps h1), ?_, hm, ?_⟩
  · rw [g1.inv.find hr, g1.inv.core.rtIdem]
  · rintro w ⟨τ, hτ, hw⟩
    exact g1.inv.pmatch_rep _ hm (fun v x _ hv => x1.rep hg.inv g1.inv _ (hτ v x hv)) hw

/-- **C84.**  With a variable that the substitution does not bind, `add_instantiation` does not return;
with all variables bound to ids of the e-graph it does not panic. -/
theorem c84_add_panics {N : Analysis Op D} (hu : ∃ n ∈ pat, ∃ v, n.op = .var v ∧ s.get v = none) :
    ∀ r, eg.addInstantiation N pat s ≠ .ok r := by
  have key : ∀ (e : List (ENode (PatOp Op))) (g : EGraph Op D) (ids : List Id),
      (∃ n ∈ e, ∃ v, n.op = .var v ∧ s.get v = none) → ∀ r, EGraph.addInstGo N s g e ids ≠ .ok r := by
    intro e
    induction e with
    | nil => rintro g ids ⟨n, hn, _⟩; cases hn
    | cons n rest ih =>
      rintro g ids ⟨m, hm, v, h1, h2⟩ r hr
      unfold EGraph.addInstGo at hr
      split at hr
      · next w hw =>
        obtain ⟨x, k1, hr⟩ := bind_eq_ok.1 hr
        obtain ⟨y, k2, hr⟩ := bind_eq_ok.1 hr
        rcases List.mem_cons.1 hm with rfl | hm
        · rw [hw] at h1; cases h1
          unfold Subst.index at k1
          rw [h2] at k1; cases k1
        · exact ih _ _ ⟨m, hm, v, h1, h2⟩ r hr
      · next o ho =>
        obtain ⟨x, k1, hr⟩ := bind_eq_ok.1 hr
        obtain ⟨y, k2, hr⟩ := bind_eq_ok.1 hr
        rcases List.mem_cons.1 hm with rfl | hm
        · rw [ho] at h1; cases h1
        · exact ih _ _ ⟨m, hm, v, h1, h2⟩ r hr
  intro r hr
  unfold EGraph.addInstantiation EGraph.addInstantiationNoncanonical at hr
  obtain ⟨x, h1, hr⟩ := bind_eq_ok.1 hr
  obtain ⟨y, h2, _⟩ := bind_eq_ok.1 h1
  exact key pat eg [] hu y h2

theorem c84_no_panic (hA : NoUserPanic A) (h : Hist (A.at depth) allow U eg) (hp : PatWF pat1) (hb : BindsAll eg s pat1) :
    eg.addInstantiation (A.at depth) pat1 s ≠ .error .panic ∧
    ∀ rule, PatWF pat2 → BindsAll eg s pat2 → eg.unionInstantiations (A.at depth) pat1 pat2 s rule ≠ .error .panic := by
  have hg := hist_good h
  have hN := UserAnalysis.OK.hookOK (E := fun e => e = .fuel) rfl hA depth
  have np : ∀ {α : Type} {x : Res α} {P : α → Prop}, Post (fun e => e = Err.fuel) x P → x ≠ .error .panic := by
    intro α x P hp hx
    rw [hx] at hp
    cases hp
  constructor
  · refine np (P := fun _ => True) ?_
    unfold EGraph.addInstantiation
    refine Post.bind (EGraph.addInst_post hN hp hg (hb.binds hg)) ?_
    rintro ⟨eg1, j⟩ ⟨g1, g2, g3, g4⟩
    have g3 : j < eg1.nodes.length := g3
    dsimp only at g1 ⊢
    rw [g1.inv.find g3]
    trivial
  · intro rule hp2 hb2
    refine np (P := fun _ => True) ?_
    unfold EGraph.unionInstantiations
    refine Post.bind (EGraph.addInst_post hN hp hg (hb.binds hg)) ?_
    rintro ⟨eg1, id1⟩ ⟨h1, h2, h3, h4⟩
    refine Post.bind (EGraph.addInst_post hN hp2 h1 ((hb2.binds hg).ext h2)) ?_
    rintro ⟨eg2, id2⟩ ⟨g1, g2, g3, g4⟩
    have h3 : id1 < eg1.nodes.length := h3
    have g3 : id2 < eg2.nodes.length := g3
    have h3' : id1 < eg2.nodes.length := g2.lt h3
    obtain ⟨u, hu⟩ := g1.inv.exists_rep h3'
    obtain ⟨w, hw⟩ := g1.inv.exists_rep g3
    refine Post.bind ((EGraph.Good.union_post (caller := rule) hN g1 hu hw trivial trivial).2) ?_
    rintro ⟨eg3, did⟩ ⟨k1, k2, k3, k4⟩
    have hf := k1.inv.find (k2.lt h3')
    dsimp only at hf ⊢
    rw [hf]
    trivial

/-- **C84.**  `union_instantiations` adds the instances of both patterns and unites them, by the rule named:
first only `add`s, then one `union_trusted` of an id of the first instance with an id of the second.
The flag says whether the two were in different classes.  The id returned is canonical, and its class
matches both patterns and represents all instances of both. -/
theorem c84_union (h : Hist (A.at depth) allow U eg) (hp1 : PatWF pat1) (ht1 : ExprTerm pat1 t1) (hp2 : PatWF pat2)
    (ht2 : ExprTerm pat2 t2) (hb1 : BindsAll eg s pat1) (hb2 : BindsAll eg s pat2) {rule : Symbol} {did : Bool}
    (he : eg.unionInstantiations (A.at depth) pat1 pat2 s rule = .ok (eg', i, did)) :
    (∃ g a b, Steps (A.at depth) allow eg [] g ∧ PMatch g s.get a t1 ∧ PMatch g s.get b t2 ∧
      EGraph.unionTrusted (A.at depth) g a b rule = .ok (eg', did) ∧ (did = true ↔ ¬ SameClass g a b)) ∧
    eg'.find i = .ok i ∧ PMatch eg' s.get i t1 ∧ PMatch eg' s.get i t2 ∧
    ∀ w, InstanceIn eg s t1 w ∨ InstanceIn eg s t2 w → Rep eg' i w := by
  have hg := hist_good h
  have hN := (soundFor_true A).hookOK trivial depth
  unfold EGraph.unionInstantiations at he
  obtain ⟨⟨eg1, id1⟩, e1, he⟩ := bind_eq_ok.1 he
  obtain ⟨⟨eg2, id2⟩, e2, he⟩ := bind_eq_ok.1 he
  obtain ⟨⟨eg3, d⟩, e3, he⟩ := bind_eq_ok.1 he
  obtain ⟨r, e4, he⟩ := bind_eq_ok.1 he
  cases he
  obtain ⟨h1, x1, h3, h4⟩ := (EGraph.addInst_post hN hp1 hg (hb1.binds hg)).elim e1
  obtain ⟨g1, x2, g3, g4⟩ := (EGraph.addInst_post hN hp2 h1 ((hb2.binds hg).ext x1)).elim e2
  have h3 : id1 < eg1.nodes.length := h3
  have g3 : id2 < eg2.nodes.length := g3
  have h3' : id1 < eg2.nodes.length := x2.lt h3
  obtain ⟨u, hu⟩ := g1.inv.exists_rep h3'
  obtain ⟨w, hw⟩ := g1.inv.exists_rep g3
  obtain ⟨k1, x3, k3, k4⟩ := ((EGraph.Good.union_post (caller := rule) hN g1 hu hw trivial trivial).2).elim e3
  have m1 : PMatch eg2 s.get id1 t1 := x2.pmatch h1.inv g1.inv (h4 _ ht1)
  have m2 : PMatch eg2 s.get id2 t2 := g4 _ ht2
  obtain ⟨hl1, rfl⟩ := k1.inv.find_iff.1 e4
  have hl2 : id2 < eg'.nodes.length := x3.lt g3
  have hr := k1.inv.core.rtLt id1 hl1
  have k3 : eg'.rt id1 = eg'.rt id2 := k3
  have n1 : PMatch eg' s.get (eg'.rt id1) t1 :=
    k1.inv.pmatch_congr (k1.inv.sameClass_iff.2 ⟨hl1, hr, (k1.inv.core.rtIdem _).symm⟩) (x3.pmatch g1.inv k1.inv m1)
  have n2 : PMatch eg' s.get (eg'.rt id1) t2 :=
    k1.inv.pmatch_congr (k1.inv.sameClass_iff.2 ⟨hl2, hr, by rw [k1.inv.core.rtIdem, k3]⟩) (x3.pmatch g1.inv k1.inv m2)
  refine ⟨⟨eg2, id1, id2, AddSteps.steps (AddSteps.trans (EGraph.addInst_steps e1) (EGraph.addInst_steps e2)), m1, m2, e3, ?_⟩, ?_, n1, n2, ?_⟩
  · rw [g1.inv.sameClass_iff]
    rw [k4]
    constructor
    · rintro hne ⟨_, _, e⟩; exact hne e
    · intro hne e; exact hne ⟨h3', g3, e⟩
  · rw [k1.inv.find hr, k1.inv.core.rtIdem]
  · have hrep : ∀ x t, Rep eg x t → Rep eg' x t := fun x t hx =>
      x3.rep g1.inv k1.inv _ (x2.rep h1.inv g1.inv _ (x1.rep hg.inv h1.inv _ hx))
    rintro w (⟨τ, hτ, hw⟩ | ⟨τ, hτ, hw⟩)
    · exact k1.inv.pmatch_rep _ n1 (fun v x _ hv => hrep _ _ (hτ v x hv)) hw
    · exact k1.inv.pmatch_rep _ n2 (fun v x _ hv => hrep _ _ (hτ v x hv)) hw

/-- **C84.**  In a rebuilt e-graph, instantiating a pattern that a class already matches changes nothing:
the id returned is of that class, and the numbers of e-nodes and classes stay. -/
theorem c84_present (hA : ∀ i, A.modify i = .done) {eg0 : EGraph Op D} {fuel k : Nat} (h0 : Hist (A.at depth) allow U eg0)
    (hr : eg0.rebuild (A.at depth) fuel = .ok (eg, k)) (hp : PatWF pat) (ht : ExprTerm pat t)
    (hlive : ∀ k, k < pat.length → Live pat k) (hv : ∀ v x, s.get v = some x → Valid eg x) {c : Id} (hc : PMatch eg s.get c t)
    (hb : BindsAll eg s pat) (he : eg.addInstantiation (A.at depth) pat s = .ok (eg', i)) :
    SameClass eg' c i ∧ eg'.numberOfClasses = eg.numberOfClasses ∧ eg'.totalSize = eg.totalSize ∧
    ∀ s t, (∃ c, Rep eg' c s ∧ Rep eg' c t) ↔ ∃ c, Rep eg c s ∧ Rep eg c t := by
  have h : Hist (A.at depth) allow ([] ++ U) eg := Steps.trans h0 (.single (.rebuild hr))
  have hcl := EGraph.rebuild_clean hr
  have hF := Full.of_hist h hcl
  obtain ⟨a1, a2, a3, a4⟩ := c84_add h hp ht hb he
  have hg := hist_good h
  have hN := (soundFor_true A).hookOK trivial depth
  have hst := Still.start hA h hcl (rebuilt_tidy h0 hr).2.apending
  unfold EGraph.addInstantiation at he
  obtain ⟨⟨eg1, j⟩, h1, he⟩ := bind_eq_ok.1 he
  obtain ⟨r, h2, he⟩ := bind_eq_ok.1 he
  cases he
  have hsteps := EGraph.addInst_inst (P := EntryOf pat) (tl := t) (t := t) (L := [(c, s)]) hN hp (fun _ hq => hq) (c := c) (s := s) (by simp) hg (hb.binds hg) h1
  obtain ⟨-, u, -⟩ := Still.applySteps (M := eg) (hM := hF) hA (tl := t) (t := t) (by
      intro τ s w c hs hw hcs
      exact Inst.unique hs hw ▸ hcs) (fun q hq => Or.inl (entry_subterm hp ht hlive hq)) (fun τ => inst_exists hp τ t _ ht.2) hsteps hst (by
      intro c' s' hcs
      simp only [List.mem_singleton, Prod.mk.injEq] at hcs
      obtain ⟨rfl, rfl⟩ := hcs
      exact ⟨hc, fun v x hx => hg.valid_iff.1 (hv v x hx)⟩)
  refine ⟨?_, u.classes, u.size, ?_⟩
  · have hr1 := hg.inv.pmatch_lt hc
    obtain ⟨τ, hτ⟩ := EGraph.exists_assignment hg.inv (fun v x hx => hg.valid_iff.1 (hv v x hx)) hr1
    obtain ⟨w, hw⟩ := EGraph.inst_of_pmatch τ _ hc
    have k1 := u.kept _ _ (hg.inv.pmatch_rep _ hc (fun v x _ hv => hτ v x hv) hw)
    have k2 := a4 w ⟨τ, hτ, hw⟩
    have gi := u.under.good.inv
    exact gi.sameClass_iff.2 ⟨gi.rep_lt k1, gi.rep_lt k2, EGraph.InvW.rep_unique gi u.pending w k1 k2⟩
  · exact fun s t => ⟨fun ⟨c, a, b⟩ => u.under.below c s t a b, fun ⟨c, a, b⟩ => ⟨c, u.kept _ _ a, u.kept _ _ b⟩⟩

end

theorem Ex.bindX {eg : Ex.G} {x : Id} (hx : Valid eg x) {pat : PatternAst Ex.S} (h : ∀ n ∈ pat, ∀ v, n.op = .var v → v = Ex.vx) :
    BindsAll eg [(Ex.vx, x)] pat := by
  intro n hn v hv
  rw [h n hn v hv]
  exact ⟨x, rfl, hx⟩

theorem Ex.varsX {eg : Ex.G} {x : Id} (hx : Valid eg x) : ∀ v y, Subst.get [(Ex.vx, x)] v = some y → Valid eg y := by
  intro v y h
  rw [Subst.get, Subst.get] at h
  split at h
  · cases h; exact hx
  · cases h

theorem Ex.onlyX {o : Ex.S} : ∀ n ∈ ([⟨.var Ex.vx, []⟩, ⟨.op o, [0]⟩] : PatternAst Ex.S), ∀ v, n.op = .var v → v = Ex.vx := by
  intro n hn v hv
  simp only [List.mem_cons, List.not_mem_nil, or_false] at hn
  rcases hn with rfl | rfl
  · cases hv; rfl
  · cases hv

/-- In `e6`, where a = b: `add_instantiation` of `g ?x` with `?x` bound to the class of `a` and `b` returns a
class that represents `g a` and `g b`. -/
example : ∃ eg' i, Ex.e6.addInstantiation Ex.N0 Ex.astGx [(Ex.vx, 1)] = .ok (eg', i) ∧
    Rep eg' i (Ex.T .g [Ex.ta]) ∧ Rep eg' i (Ex.T .g [Ex.tb]) := by
  have hb : Valid Ex.e6 1 := ⟨0, rfl⟩
  have key := c84_add (eg' := (Ex.st (Ex.e6.addInstantiation Ex.N0 Ex.astGx [(Ex.vx, 1)]))) (i := 4) (t := Ex.termGx)
    (A := Ex.U0) (depth := 1) (allow := .all) (pat := Ex.astGx) (s := [(Ex.vx, 1)]) (Ex.hist6 .all) (patWF_of rfl rfl rfl)
    (exprTerm_of (f := 5) rfl rfl) (Ex.bindX hb Ex.onlyX) rfl
  have inst : ∀ t : Term Ex.S, Rep Ex.e6 1 t → InstanceIn Ex.e6 [(Ex.vx, 1)] Ex.termGx (Ex.T .g [t]) := by
    intro t ht
    refine ⟨fun _ => t, ?_, ?_⟩
    · intro v x h
      rw [Subst.get, Subst.get] at h
      split at h
      · cases h; exact ht
      · cases h
    · refine Inst.node rfl ?_
      intro j q u hq hu
      cases j with
      | zero => cases hq; cases hu; exact .var
      | succ j => simp at hq
  exact ⟨_, 4, rfl, key.2.2.2 _ (inst _ (Ex.rep_leaf rfl rfl (by decide))), key.2.2.2 _ (inst _ Ex.rep_e6_b)⟩

/-- `union_instantiations` of `f ?x` and `g ?x` there: a union is made; a second time none is made. -/
example : ∃ g1 g2, Ex.e6.unionInstantiations Ex.N0 Ex.astFx Ex.astGx [(Ex.vx, 1)] 9 = .ok (g1, 2, true) ∧
    g1.unionInstantiations Ex.N0 Ex.astFx Ex.astGx [(Ex.vx, 0)] 9 = .ok (g2, 2, false) ∧
    BindsAll Ex.e6 [(Ex.vx, 1)] Ex.astFx ∧ BindsAll Ex.e6 [(Ex.vx, 1)] Ex.astGx ∧ PatWF Ex.astFx ∧ PatWF Ex.astGx ∧
    ExprTerm Ex.astFx Ex.termFx ∧ ExprTerm Ex.astGx Ex.termGx :=
  ⟨Ex.st (Ex.e6.unionInstantiations Ex.N0 Ex.astFx Ex.astGx [(Ex.vx, 1)] 9), _, rfl, rfl, Ex.bindX ⟨0, rfl⟩ Ex.onlyX,
    Ex.bindX ⟨0, rfl⟩ Ex.onlyX, patWF_of rfl rfl rfl, patWF_of rfl rfl rfl, exprTerm_of (f := 5) rfl rfl, exprTerm_of (f := 5) rfl rfl⟩

/-- `f ?x` is present already (`c84_present`): the id returned is of the class of `f a`. -/
example : ∃ eg' i, Ex.e6.addInstantiation Ex.N0 Ex.astFx [(Ex.vx, 1)] = .ok (eg', i) ∧ SameClass eg' 3 i ∧
    eg'.numberOfClasses = Ex.e6.numberOfClasses := by
  have hb : Valid Ex.e6 1 := ⟨0, rfl⟩
  have hm : PMatch Ex.e6 (Subst.get [(Ex.vx, 1)]) 3 Ex.termFx := by
    refine PMatch.node (n := (⟨Ex.S.f, [0]⟩ : ENode Ex.S)) rfl (by decide) rfl ?_
    intro j d q hd hq
    cases j with
    | zero => cases hd; cases hq; exact .var rfl ⟨0, rfl, rfl⟩
    | succ j => simp at hq
  have := c84_present (eg' := (Ex.st (Ex.e6.addInstantiation Ex.N0 Ex.astFx [(Ex.vx, 1)]))) (i := 2) (t := Ex.termFx)
    (A := Ex.U0) (depth := 1) (allow := .all) (pat := Ex.astFx) (s := [(Ex.vx, 1)]) (fun _ => rfl) (Ex.hist5 .all) Ex.reb6 (patWF_of rfl rfl rfl)
    (exprTerm_of (f := 5) rfl rfl) Ex.liveFx (Ex.varsX hb) hm (Ex.bindX hb Ex.onlyX) rfl
  exact ⟨_, 2, rfl, this.1, this.2.1⟩

/-- Without a binding of `?x` the call panics. -/
example : Ex.e6.addInstantiation Ex.N0 Ex.astFx [] = .error .panic ∧ ∃ n ∈ Ex.astFx, ∃ v, n.op = .var v ∧ Subst.get [] v = none :=
  ⟨rfl, ⟨.var Ex.vx, []⟩, by simp [Ex.astFx], Ex.vx, rfl, rfl⟩

end Egg
