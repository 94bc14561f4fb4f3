import Verif.Props.Below
import Verif.Props.Describe
/-
C76: analysis data are the least solution, whatever the order of the calls.
-/
namespace Egg
variable {Op D D' : Type} [DecidableEq Op] [Lang Op]
variable {A : UserAnalysis Op D} {A' : UserAnalysis Op D'} {depth depth' : Nat} {allow' : Caller Op D'}
variable {U U' : List (UnionRec Op)} {eg eg0 : EGraph Op D} {M : EGraph Op D'} {le : D → D → Prop} {mk : Op → List D → D}

/-- The datum is below the solution `W`, at every class of `M` with the term. -/
def Bounded (le : D → D → Prop) (M : EGraph Op D') (W : Id → D) (d : D) (t : Term Op) : Prop :=
  ∀ c, M.find c = .ok c → Rep M c t → le d (W c)

theorem describing_of (hA : JoinAnalysis A le mk) (hq : ∀ i, A.modify i = .done) (hM : Full M) {W : Id → D} (hW : Solves le mk M W) :
    Describing A (RelIn M) hM.cong (Bounded le M W) (fun h hd c hc hr => hd c hc ((h c).2 hr)) := by
  have step : ∀ (n : ENode Op) (ds : List D) (ts : List (Term Op)), List.Forall₂ (Bounded le M W) ds ts → Bounded le M W (mk n.op ds) (.node n.op ts) := by
    intro n ds ts h c hc hr
    rw [EGraph.rep_iff] at hr
    obtain ⟨r, k, m, h1, h2, h3, h4, h5⟩ := hr
    rw [hc] at h1
    cases h1
    have hcl := hM.good.inv.find_iff.1 hc
    have hlt : ∀ a ∈ m.children, a < M.nodes.length := fun a ha => by
      obtain ⟨t, _, ht⟩ := forall₂_mem_left h5 ha
      exact hM.good.inv.rep_lt ht
    have hk : M.index c = .ok k := hM.good.inv.index_iff.2 ⟨hcl.1, by rw [hcl.2]; exact h2⟩
    have hs := hW c k m (m.children.map M.rt) hc hk h3 (by
      rw [List.forall₂_map_right_iff]
      exact List.forall₂_same.2 (fun a ha => hM.good.inv.find (hlt a ha)))
    rw [h4] at hs
    refine hA.trans (hA.mono ?_) hs
    rw [List.map_map, List.forall₂_map_right_iff]
    refine forall₂_comp h (forall₂_flip h5) (fun d t a _ _ ha hd hr => ?_)
    have hal := hlt a ha
    exact hd _ (hM.good.inv.find_iff.2 ⟨hM.good.inv.core.rtLt a hal, hM.good.inv.core.rtIdem a⟩)
      (hM.good.inv.rep_congr (hM.good.inv.core.rtLt a hal) (hM.good.inv.core.rtIdem a).symm hr)
  refine ⟨fun eg n i ds d hd hm ts hts => ?_, fun eg n i ds d hd hm ts hts => ?_, fun a b t ha hb c hc hr => hA.lub (ha c hc hr) (hb c hc hr), fun depth eg i _ _ => ?_⟩
  · rw [hA.make hd] at hm; cases hm; exact step n ds ts hts
  · rw [hA.remake hd] at hm; cases hm; exact step n ds ts hts
  · rw [hq i]; trivial

/-- **C76.**  Data are never too large.  Let `M` be any rebuilt e-graph in which the two terms of each union made in the history of
`eg` are equal, and `W` any assignment of data to its classes that accounts for all its e-nodes.  Then at every moment the
datum of a class of `eg` is below that of every class of `M` with a term in common. -/
theorem c76_bounded (hA : JoinAnalysis A le mk) (hq : ∀ i, A.modify i = .done) (h : Hist (A.at depth) (EquivSet le) U eg)
    (hM : Hist (A'.at depth') allow' U' M) (hc : M.clean = true)
    (hU : ∀ u ∈ U, ∃ d, Rep M d u.s ∧ Rep M d u.t) {W : Id → D} (hW : Solves le mk M W)
    {i d : Id} {k : EClass Op D} {t : Term Op} (hk : eg.index i = .ok k) (ht : Rep eg i t) (hd : M.find d = .ok d) (htd : Rep M d t) :
    le k.data (W d) := by
  have hF := Full.of_hist hM hc
  have hD := describing_of hA hq hF hW
  have hg := (EGraph.Hist.good (hD.ok.hookOK trivial depth) (fun eg i d hg ha => ⟨fun _ _ => ⟨trivial, trivial⟩, fun t ht c hc hr => by
      obtain ⟨k, hk, -⟩ := hg.inv.index (hg.inv.rep_lt ht)
      exact hA.trans (ha k hk).2 (hg.sensible.data i k t hk ht c hc hr)⟩) h
    (fun u hu => by obtain ⟨d, h1, h2⟩ := hU u hu; exact ⟨hF.rel h1 h2, trivial⟩)).1
  exact hg.sensible.data i k t hk ht d hd htd

/-- After `rebuild` the data account for all e-nodes. -/
theorem data_solves (hA : JoinAnalysis A le mk) (h0 : Hist (A.at depth) (EquivSet le) U eg0) {fuel n : Nat}
    (hr : EGraph.rebuild (A.at depth) fuel eg0 = .ok (eg, n)) (d0 : D) : Solves le mk eg (fun c => (eg.dt c).getD d0) := by
  intro d k n cs hd hk hn hcs
  have hg := hist_good (Steps.tail (V := []) h0 (.rebuild hr))
  obtain ⟨ds, h1, h2⟩ := (c13_analysis_invariant hA h0 hr hk).1 n hn
  have hdt : eg.dt d = some k.data := by
    have := hg.inv.index_iff.1 hk
    rw [(hg.inv.find_iff.1 hd).2] at this
    simp [EGraph.dt, this.2]
  have : cs.map (fun c => (eg.dt c).getD d0) = ds := by
    have h3 : List.Forall₂ (fun b d => (eg.dt b).getD d0 = id d) cs ds := forall₂_comp (forall₂_flip hcs) h1 (fun b a d _ _ _ hb hd => by
      obtain ⟨k', k1, k2⟩ := hd
      have q1 := hg.inv.index_iff.1 k1
      have q2 := (hg.inv.find_iff.1 hb).2
      rw [q2] at q1
      simp [EGraph.dt, q1.2, k2])
    rw [forall₂_map_eq, List.map_id] at h3
    exact h3
  rw [this]
  simp only [hdt, Option.getD_some]
  exact h2

/-- **C76.**  After `rebuild` the data are the least solution: they account for all e-nodes, and they are
below every assignment of data to the classes that accounts for all e-nodes. -/
theorem c76_least_solution (hA : JoinAnalysis A le mk) (hq : ∀ i, A.modify i = .done) (h0 : Hist (A.at depth) (EquivSet le) U eg0) {fuel n : Nat}
    (hr : EGraph.rebuild (A.at depth) fuel eg0 = .ok (eg, n)) {i r : Id} {k : EClass Op D} (hk : eg.index i = .ok k) (hi : eg.find i = .ok r) :
    (∀ m ∈ k.nodes, ∃ ds, EGraph.ChildData eg m ds ∧ le (mk m.op ds) k.data) ∧
    ∀ W, Solves le mk eg W → le k.data (W r) := by
  refine ⟨(c13_analysis_invariant hA h0 hr hk).1, fun W hW => ?_⟩
  have h := Steps.tail (V := []) h0 (.rebuild hr)
  have hg := hist_good h
  obtain ⟨hil, rfl⟩ := hg.inv.find_iff.1 hi
  obtain ⟨t, ht⟩ := hg.inv.exists_rep hil
  have hrl := hg.inv.core.rtLt i hil
  have hid := hg.inv.core.rtIdem i
  refine c76_bounded hA hq h h (EGraph.rebuild_clean hr) (fun u hu => ?_) hW hk ht (hg.inv.find_iff.2 ⟨hrl, hid⟩) (hg.inv.rep_congr hrl hid.symm ht)
  obtain ⟨h1, h2, h3⟩ := (hist_good_of_sound (soundFor_true A) h (fun _ _ _ => trivial)).2 u hu
  exact ⟨u.a, h1, hg.inv.rep_congr (hg.inv.rep_lt h1) h3.symm h2⟩

theorem unions_within (h : Hist (A.at depth) (EquivSet le) U eg) (hw : Within eg M) : ∀ u ∈ U, ∃ d, Rep M d u.s ∧ Rep M d u.t := by
  intro u hu
  have hg := hist_good h
  obtain ⟨h1, h2, h3⟩ := (hist_good_of_sound (soundFor_true A) h (fun _ _ _ => trivial)).2 u hu
  exact hw u.a u.s u.t h1 (hg.inv.rep_congr (hg.inv.rep_lt h1) h3.symm h2)

theorem data_le (hA : JoinAnalysis A le mk) (hq : ∀ i, A.modify i = .done) {eg' eg0' : EGraph Op D} (h : Hist (A.at depth) (EquivSet le) U eg)
    (h' : Hist (A.at depth) (EquivSet le) U' eg0') {fuel n : Nat} (hr : EGraph.rebuild (A.at depth) fuel eg0' = .ok (eg', n))
    (hw : Within eg eg') {i j : Id} {k l : EClass Op D} {t : Term Op} (hk : eg.index i = .ok k) (hl : eg'.index j = .ok l)
    (hi : Rep eg i t) (hj : Rep eg' j t) : le k.data l.data := by
  have hh' := Steps.tail (V := []) h' (.rebuild hr)
  have hg := hist_good hh'
  have hjl := hg.inv.rep_lt hj
  have hrl := hg.inv.core.rtLt j hjl
  have hid := hg.inv.core.rtIdem j
  have := c76_bounded hA hq h hh' (EGraph.rebuild_clean hr) (unions_within h hw) (data_solves hA h' hr k.data) hk hi
    (hg.inv.find_iff.2 ⟨hrl, hid⟩) (hg.inv.rep_congr hrl hid.symm hj)
  simpa [EGraph.dt, (hg.inv.index_iff.1 hl).2] using this

/-- **C76.**  Two e-graphs, just rebuilt, that contain each other have the same data. -/
theorem c76_same_data (hA : JoinAnalysis A le mk) (hq : ∀ i, A.modify i = .done) {eg1 eg2 : EGraph Op D} {U1 U2 : List (UnionRec Op)} {f1 f2 n1 n2 : Nat}
    {eg1' eg2' : EGraph Op D}
    (h1 : Hist (A.at depth) (EquivSet le) U1 eg1) (r1 : EGraph.rebuild (A.at depth) f1 eg1 = .ok (eg1', n1))
    (h2 : Hist (A.at depth) (EquivSet le) U2 eg2) (r2 : EGraph.rebuild (A.at depth) f2 eg2 = .ok (eg2', n2))
    (w1 : Within eg1' eg2') (w2 : Within eg2' eg1') : SameData le eg1' eg2' := by
  intro i k j l t hk hl hi hj
  exact ⟨data_le hA hq (Steps.tail (V := []) h1 (.rebuild r1)) h2 r2 w1 hk hl hi hj,
    data_le hA hq (Steps.tail (V := []) h2 (.rebuild r2)) h1 r1 w2 hl hk hj hi⟩

/-- A program ends with `rebuild`. -/
theorem runCalls_last {allow : Caller Op D} {fuel : Nat} : ∀ {cs : List (Call Op)} {eg0 : EGraph Op D} {U : List (UnionRec Op)}, (∀ c ∈ cs, c.WF) →
    Hist (A.at depth) allow U eg0 → runCalls (A.at depth) fuel eg0 cs = .ok eg →
    ∃ V eg1 n, Hist (A.at depth) allow V eg1 ∧ EGraph.rebuild (A.at depth) fuel eg1 = .ok (eg, n) := by
  intro cs
  induction cs with
  | nil =>
    intro eg0 U _ h he
    obtain ⟨⟨g, i⟩, h1, h2⟩ := bind_eq_ok.1 he
    cases h2
    exact ⟨U, eg0, i, h, h1⟩
  | cons c cs ih =>
    intro eg0 U hw h he
    obtain ⟨g, h1, he⟩ := bind_eq_ok.1 he
    obtain ⟨V, hV⟩ := Call.run_steps (hw c (by simp)) h h1
    exact ih (fun c hc => hw c (by simp [hc])) (Steps.trans h hV) he

theorem SameUpTo.within {φ : Id → Id} {eg eg' : EGraph Op D} (hs : SameUpTo φ eg eg') (hg : EGraph.Good (Cfg.ofR _ isCongruence_true anyReason) eg)
    (hg' : EGraph.Good (Cfg.ofR _ isCongruence_true anyReason) eg') : Within eg eg' ∧ Within eg' eg := by
  constructor
  · intro c s t hcs hct
    have hl := hg.inv.rep_lt hcs
    have hrl := hg.inv.core.rtLt c hl
    have hid := hg.inv.core.rtIdem c
    have hf := hg.inv.find_iff.2 ⟨hrl, hid⟩
    exact ⟨_, (hs.terms _ hf s).1 (hg.inv.rep_congr hrl hid.symm hcs), (hs.terms _ hf t).1 (hg.inv.rep_congr hrl hid.symm hct)⟩
  · intro c s t hcs hct
    have hl := hg'.inv.rep_lt hcs
    have hrl := hg'.inv.core.rtLt c hl
    have hid := hg'.inv.core.rtIdem c
    obtain ⟨d, hd, e⟩ := hs.onto _ (hg'.inv.find_iff.2 ⟨hrl, hid⟩)
    exact ⟨d, (hs.terms _ hd s).2 (by rw [e]; exact hg'.inv.rep_congr hrl hid.symm hcs), (hs.terms _ hd t).2 (by rw [e]; exact hg'.inv.rep_congr hrl hid.symm hct)⟩

/-- **C76.**  The order of the calls does not matter for the data either (compare C74). -/
theorem c76_order (hA : JoinAnalysis A le mk) (hq : ∀ i, A.modify i = .done) (h : Hist (A.at depth) (EquivSet le) U eg0) {l l' : List (Call Op)} {fuel fuel' : Nat}
    (hw : ∀ c ∈ l, c.WF) (hsame : ∀ c, c ≠ .rebuild → (c ∈ l ↔ c ∈ l')) {eg eg' : EGraph Op D}
    (he : runCalls (A.at depth) fuel eg0 l = .ok eg) (he' : runCalls (A.at depth) fuel' eg0 l' = .ok eg') : SameData le eg eg' := by
  have hw' : ∀ c ∈ l', c.WF := by
    intro c hc
    by_cases e : c = .rebuild
    · subst e; trivial
    · exact hw c ((hsame c e).2 hc)
  obtain ⟨φ, hs, -⟩ := c74_order hq h hw hsame he he'
  obtain ⟨V, eg1, n, h1, r1⟩ := runCalls_last hw h he
  obtain ⟨V', eg2, n', h2, r2⟩ := runCalls_last hw' h he'
  obtain ⟨w1, w2⟩ := hs.within (hist_good (Steps.tail (V := []) h1 (.rebuild r1))) (hist_good (Steps.tail (V := []) h2 (.rebuild r2)))
  exact c76_same_data hA hq h1 r1 h2 r2 w1 w2

/-! ### Runs -/

section
variable {S H : Type} {env : RunEnv Op D} {sch : Scheduler Op D S} {hooks : List (Hook Op D H)} {rules : List (Rewrite Op D)}
  {eqs : List (Term (PatOp Op) × Term (PatOp Op))} {Q : Term Op → Term Op → Prop} {r r' r4 : Runner Op D S H} {allow : Caller Op D}

/-- The e-graph is the result of a `rebuild`. -/
def JustRebuilt (A : UserAnalysis Op D) (depth : Nat) (allow : Caller Op D) (eg : EGraph Op D) : Prop :=
  ∃ V eg1 fuel n, Hist (A.at depth) allow V eg1 ∧ EGraph.rebuild (A.at depth) fuel eg1 = .ok (eg, n)

theorem Runner.runOne_last (hN : env.analysis = A.at depth) (hord : ∀ i eg, (env.ord i eg).OK eg)
    (hd : DiscContiguous Op) (hs : sch.Honest env) (hh : HooksOK (A.at depth) allow Q hooks)
    (hr : AreRules (A.at depth) rules eqs) {it : Iteration}
    (h : Hist (A.at depth) allow U r.egraph) (hc : r.egraph.clean = true)
    (ho : runOne env sch hooks rules r = .ok (r4, it)) : JustRebuilt A depth allow r4.egraph := by
  obtain ⟨_, r1, res1, r2, ms, r3, applied, res3, eg, nReb, quiet, p1, p2, p3, p4, p5, -⟩ := runOne_inv ho
  obtain ⟨f2, e2⟩ := searchPhase_frame p2
  obtain ⟨f4, e4⟩ := quietPhase_frame p5
  obtain ⟨c1, V1, s1, q1⟩ := hookPhase_reach hh hc p1
  have h1 : Hist (A.at depth) allow _ r1.egraph := Steps.trans h s1
  have rc2 : Reach (A.at depth) allow (RunEquation eqs Q) r2.egraph r3.egraph := by
    unfold applyPhase at p3
    split at p3
    · cases p3; exact Reach.rfl'
    next mss =>
    refine applyEachRule_reach (i := r1.iterations.length) hN hord hd hs h1 c1 _ r2 r3 _ _ _ [] (fun rw' ms hm => ⟨?_, hr rw' (List.of_mem_zip hm).1⟩) (by rw [e2]; exact .refl) p3
    unfold searchPhase at p2
    split at p2
    · cases p2
    rw [bind_eq_ok] at p2
    obtain ⟨⟨s, tick, ms0⟩, k1, k2⟩ := p2
    cases k2
    exact hs.search _ _ _ _ _ _ _ _ _ k1 rw' ms hm
  rw [hN] at p4
  rw [e2] at rc2
  obtain ⟨V2, s2, -⟩ := rc2
  exact ⟨_, r3.egraph, _, nReb, Steps.trans h1 s2, by rw [e4]; exact p4⟩

theorem Runner.runLoop_last (hN : env.analysis = A.at depth) (hord : ∀ i eg, (env.ord i eg).OK eg)
    (hd : DiscContiguous Op) (hs : sch.Honest env) (hh : HooksOK (A.at depth) allow Q hooks)
    (hr : AreRules (A.at depth) rules eqs) : ∀ (f : Nat) (r r' : Runner Op D S H) (U : List (UnionRec Op)),
    Hist (A.at depth) allow U r.egraph → r.egraph.clean = true →
    runLoop env sch hooks rules f r = .ok r' → JustRebuilt A depth allow r'.egraph := by
  intro f
  induction f with
  | zero => intro r r' U _ _ h; cases h
  | succ f ih =>
    intro r r' U h hc hl
    unfold runLoop at hl
    rw [bind_eq_ok] at hl
    obtain ⟨⟨r1, it⟩, h1, hl⟩ := hl
    have hj := runOne_last hN hord hd hs hh hr h hc h1
    obtain ⟨c1, ⟨V, s1, -⟩, -⟩ := runOne_reach hN hord hd hs hh hr h hc h1
    dsimp only at hl
    split at hl
    · cases hl; exact hj
    · split at hl
      · cases hl; exact hj
      · exact ih _ _ _ (by exact Steps.trans h s1) (by exact c1) hl

/-- A run ends with `rebuild`. -/
theorem Runner.run_last (hN : env.analysis = A.at depth) (hord : ∀ i eg, (env.ord i eg).OK eg)
    (hd : DiscContiguous Op) (hs : sch.Honest env) (hh : HooksOK (A.at depth) allow Q hooks)
    (hr : AreRules (A.at depth) rules eqs) (h : Hist (A.at depth) allow U r.egraph) {f : Nat}
    (hrun : r.run env sch hooks rules f = .ok r') : JustRebuilt A depth allow r'.egraph := by
  unfold Runner.run at hrun
  obtain ⟨⟨eg, n⟩, h1, h2⟩ := bind_eq_ok.1 hrun
  rw [hN] at h1
  exact runLoop_last hN hord hd hs hh hr f _ _ ([] ++ U) (Steps.trans h (.single (.rebuild h1))) (EGraph.rebuild_clean h1) h2

/-- **C76, C13.**  After a run, however it stopped, with any rules and hooks, the datum of every class is the least upper bound of
`mk` over its e-nodes; and with a quiet `modify` the data are the least solution. -/
theorem c76_run (hA : JoinAnalysis A le mk) (hN : env.analysis = A.at depth) (hord : ∀ i eg, (env.ord i eg).OK eg)
    (hd : DiscContiguous Op) (hs : sch.Honest env) (hh : HooksOK (A.at depth) (EquivSet le) Q hooks)
    (hr : AreRules (A.at depth) rules eqs) (h : Hist (A.at depth) (EquivSet le) U r.egraph) {f : Nat}
    (hrun : r.run env sch hooks rules f = .ok r') {i c : Id} {k : EClass Op D} (hk : r'.egraph.index i = .ok k) (hi : r'.egraph.find i = .ok c) :
    (∀ n ∈ k.nodes, ∃ ds, EGraph.ChildData r'.egraph n ds ∧ le (mk n.op ds) k.data) ∧
    (∀ u, (∀ n ∈ k.nodes, ∀ ds, EGraph.ChildData r'.egraph n ds → le (mk n.op ds) u) → le k.data u) ∧
    ((∀ i, A.modify i = .done) → ∀ W, Solves le mk r'.egraph W → le k.data (W c)) := by
  obtain ⟨V, eg1, fuel, n, h1, h2⟩ := Runner.run_last hN hord hd hs hh hr h hrun
  obtain ⟨q1, q2⟩ := c13_analysis_invariant hA h1 h2 hk
  exact ⟨q1, q2, fun hq => (c76_least_solution hA hq h1 h2 hk hi).2⟩

end

/-- **C76.**  Two runs with the same rules, started with the same e-graph, that both end with `Saturated`
(compare C75) yield the same data. -/
theorem c76_confluent (hA : JoinAnalysis A le mk) (hq : ∀ i, A.modify i = .done) (hcyc : (A.at depth).allowCycles = true) (hd : DiscContiguous Op)
    (h : Hist (A.at depth) (EquivSet le) U eg0) {eqs : List (Term (PatOp Op) × Term (PatOp Op))} {eg eg' : EGraph Op D}
    (h1 : SaturatedRun A depth eqs eg0 eg) (h2 : SaturatedRun A depth eqs eg0 eg') : SameData le eg eg' := by
  obtain ⟨φ, hs, -⟩ := c75_confluent hq hcyc hd h h1 h2
  have last : ∀ {a : EGraph Op D}, SaturatedRun A depth eqs eg0 a → JustRebuilt A depth (EquivSet le) a := by
    intro a ha
    obtain ⟨k1, k2, k3, k4, k5, k6, k7, k8, rfl, k10, k11, k12⟩ := ha
    have ht : AreTightRules _ eqs := k8.1
    exact Runner.run_last k1 k2 hd k3 (k7.ok (N := A.at depth) (allow := EquivSet le)) ht.areRules h k10
  obtain ⟨V, eg1, f1, n, h1, r1⟩ := last h1
  obtain ⟨V', eg2, f2, n', h2, r2⟩ := last h2
  obtain ⟨w1, w2⟩ := hs.within (hist_good (Steps.tail (V := []) h1 (.rebuild r1))) (hist_good (Steps.tail (V := []) h2 (.rebuild r2)))
  exact c76_same_data hA hq h1 r1 h2 r2 w1 w2

/-! ### Examples -/

/-- The analysis "some term of the class contains `a`": on the example of C13 the data are the least solution; the class of `f b`
got its datum by the merge of `a` and `b`. -/
example (W : Id → Bool) (h : Solves (fun a b => a = true → b = true) Ex.containsA Ex.a5 W) : W 1 = true :=
  (c76_least_solution Ex.joinUA (fun _ => rfl) (Ex.hista4 _) Ex.reba5 (i := 1) (r := 1) (k := ⟨1, [Ex.app .f [0]], true, []⟩) rfl rfl).2 W h rfl

def Ex.graphB (x : Res (EGraph Ex.S Bool)) : EGraph Ex.S Bool := match x with | .ok g => g | _ => .new

/-- The programs of C74 with this analysis. -/
def Ex.fcA : EGraph Ex.S Bool := Ex.graphB (Call.run Ex.NA 9 .new (.addExpr [Ex.leaf .c, Ex.app .f [0]]))
def Ex.endA1 : EGraph Ex.S Bool := Ex.graphB (runCalls Ex.NA 20 Ex.fcA Ex.prog1)
def Ex.endA2 : EGraph Ex.S Bool := Ex.graphB (runCalls Ex.NA 20 Ex.fcA Ex.prog2)

example : SameData (fun a b => a = true → b = true) Ex.endA1 Ex.endA2 := by
  refine c76_order (A := Ex.UA) (depth := 1) Ex.joinUA (fun _ => rfl) (eg0 := Ex.fcA) (U := []) ?_ (l := Ex.prog1) (l' := Ex.prog2) (fuel := 20) (fuel' := 20) Ex.prog1_wf ?_ rfl rfl
  · exact EGraph.addExpr_steps (eg := .new) (e := [Ex.leaf .c, Ex.app .f [0]]) (i := 1) rfl
  intro c hc
  simp only [Ex.prog1, Ex.prog2, List.mem_cons, List.not_mem_nil, or_false, hc, false_or]
  tauto

/-- At first no class has a term with `a`; at the end both classes do. -/
example : Ex.fcA.classes.map (fun k => k.2.data) = [false, false] ∧ Ex.endA1.classes.map (fun k => k.2.data) = [true, true] ∧
    Ex.endA2.classes.map (fun k => k.2.data) = [true, true] := ⟨rfl, rfl, rfl⟩

/-- Runs with this analysis: the rule `f ?x => g ?x`, from the e-graph with `f b` and `a = b` (not yet rebuilt). -/
def Ex.ruleFGA : Rewrite Ex.S Bool := ⟨7, Ex.patFx.searcher, Ex.patGx.applier⟩
def Ex.renvA : RunEnv Ex.S Bool := ⟨Ex.NA, fun _ eg => Ex.ord eg, fun _ => 0, 20, 8⟩
def Ex.runnerA {S : Type} (s : S) : Runner Ex.S Bool S Unit := { (Runner.new s () : Runner Ex.S Bool S Unit) with egraph := Ex.a4 }
def Ex.stA {S : Type} (d : S) (x : Res (Runner Ex.S Bool S Unit)) : Runner Ex.S Bool S Unit := match x with | .ok r => r | _ => Ex.runnerA d
def Ex.doneA : Runner Ex.S Bool Unit Unit := Ex.stA () ((Ex.runnerA ()).run Ex.renvA simpleScheduler [] [Ex.ruleFGA] 10)
def Ex.doneB : Runner Ex.S Bool Backoff Unit := Ex.stA .default ((Ex.runnerA Ex.bo).run Ex.renvA Backoff.scheduler [] [Ex.ruleFGA, Ex.ruleFGA] 10)

theorem Ex.tightFGA : TightRule Ex.ruleFGA Ex.termFx Ex.termGx :=
  ⟨Ex.patFx, Ex.patGx, Ex.isPatFx, Ex.liveFx, Ex.live, Ex.isPatGx, Ex.liveGx, rfl⟩

theorem Ex.rulesAreA {l : List (Rewrite Ex.S Bool)} (hl : l ≠ []) (h : ∀ rw' ∈ l, rw' = Ex.ruleFGA) : RulesAre l [(Ex.termFx, Ex.termGx)] := by
  refine ⟨fun rw' hr => ?_, fun tl t ht => ?_⟩
  · rw [h rw' hr]
    exact ⟨_, _, by simp, Ex.tightFGA⟩
  · simp only [List.mem_singleton, Prod.mk.injEq] at ht
    obtain ⟨rfl, rfl⟩ := ht
    obtain ⟨x, hx⟩ := List.exists_mem_of_ne_nil l hl
    exact ⟨Ex.ruleFGA, h x hx ▸ hx, Ex.tightFGA⟩

theorem Ex.satDoneA : SaturatedRun Ex.UA 1 [(Ex.termFx, Ex.termGx)] Ex.a4 Ex.doneA.egraph := by
  refine .mk (env := Ex.renvA) (sch := simpleScheduler) (hooks := []) (rules := [Ex.ruleFGA]) (I := fun _ _ => True) (r := Ex.runnerA ()) (r' := Ex.doneA) (f := 10)
    rfl (fun _ eg => Ex.ordOK eg) simple_honest simple_limited (simple_thorough _) trivial (fun k hk => by cases hk)
    (Ex.rulesAreA (by simp) (by simp)) rfl rfl rfl ?_
  intro rw' h
  simp only [List.mem_cons, List.not_mem_nil, or_false] at h
  subst h
  exact ⟨Ex.ord _, _, Ex.ordOK _, rfl, by decide⟩

theorem Ex.satDoneB : SaturatedRun Ex.UA 1 [(Ex.termFx, Ex.termGx)] Ex.a4 Ex.doneB.egraph := by
  refine .mk (env := Ex.renvA) (sch := Backoff.scheduler) (hooks := []) (rules := [Ex.ruleFGA, Ex.ruleFGA]) (I := BackoffOK 8 30) (r := Ex.runnerA Ex.bo) (r' := Ex.doneB) (f := 10)
    rfl (fun _ eg => Ex.ordOK eg) backoff_honest backoff_limited (backoff_thorough _) Ex.bo_ok (fun k hk => by cases hk)
    (Ex.rulesAreA (by simp) (by simp)) rfl rfl rfl ?_
  intro rw' h
  simp only [List.mem_cons, List.not_mem_nil, or_false, or_self] at h
  subst h
  exact ⟨Ex.ord _, _, Ex.ordOK _, rfl, by decide⟩

example : SameData (fun a b => a = true → b = true) Ex.doneA.egraph Ex.doneB.egraph :=
  c76_confluent Ex.joinUA (fun _ => rfl) rfl Ex.discContiguous (Ex.hista4 _) Ex.satDoneA Ex.satDoneB

example : Ex.doneA.egraph.classes.map (fun k => (k.1, k.2.nodes.length, k.2.data)) = [(0, 2, true), (3, 2, true)] ∧
    Ex.doneB.egraph.classes.map (fun k => (k.1, k.2.nodes.length, k.2.data)) = [(0, 2, true), (3, 2, true)] := ⟨rfl, rfl⟩

/-- `c76_run` on the first run. -/
example : (∀ W, Solves (fun a b => a = true → b = true) Ex.containsA Ex.doneA.egraph W → W 3 = true) := fun W hW =>
  (c76_run Ex.joinUA (env := Ex.renvA) (depth := 1) (sch := simpleScheduler) (hooks := []) (rules := [Ex.ruleFGA]) (Q := fun _ _ => False)
    (r := Ex.runnerA ()) (r' := Ex.doneA) (f := 10) rfl (fun _ eg => Ex.ordOK eg) Ex.discContiguous simple_honest
    (fun k hk => by cases hk) (AreTightRules.areRules (Ex.rulesAreA (l := [Ex.ruleFGA]) (by simp) (by simp)).1)
    (Ex.hista4 _) rfl (i := 1) (c := 3) rfl rfl).2.2 (fun _ => rfl) W hW rfl

end Egg
