import Verif.Lemmas.ThinRun
import Verif.Props.Prune
import Verif.Props.Run
import Verif.ExampleRun
/-
C87: searching, rewriting and equality saturation on e-graphs whose classes are pruned.
-/
namespace Egg
variable {Op D S H : Type} [DecidableEq Op] [Lang Op] {K : Op → Nat → Prop}
variable {A : PruneAnalysis Op D} {depth : Nat} {allow : Caller Op D} {U V : List (UnionRec Op)} {eg eg' : EGraph Op D}

/-- Histories with pruning lead to pruned states (C86) … -/
theorem c87_history (hA : A.OK K) (ha : allow.Blind) (h : PruneHist K (A.at depth) allow U eg) : Pruned K (A.full.at depth) allow U eg := by
  obtain ⟨g, h1, h2, h3, -⟩ := c86_same_as_unpruned hA ha h
  exact ⟨g, h1, h2, h3⟩

/-- … and so do calls on pruned states. -/
theorem c87_calls (hA : A.OK K) (ha : allow.Blind) (h : Pruned K (A.full.at depth) allow U eg) (hs : PruneSteps K (A.at depth) allow eg V eg') :
    Pruned K (A.full.at depth) allow (V ++ U) eg' := by
  obtain ⟨g, h1, h2, h3⟩ := h
  obtain ⟨g', q1, q2⟩ := hs.follow (hA.hookSim depth) ha (fun _ _ _ _ h => h) (.inl ⟨rfl, fun _ h => h⟩) h1 (h2.thinC h3 (hist_good h1).inv)
  exact ⟨g', Steps.trans h1 q1, q2.thin.thinner, q2.kept⟩

/-- **C87**, searching: a match reported in a pruned e-graph binds exactly the variables of the pattern, to canonical
ids, and every instance of the pattern by terms of the bound classes is a term of the class for which the match is
reported: `TermFor`, and any id with that term is in that class. -/
theorem c87_search_sound (h : Pruned K (A.full.at depth) allow U eg) (hc : eg.clean = true) (hd : DiscContiguous Op)
    {ord : IterOrd} (ho : ord.OK eg) {p : Pattern Op} {t : Term (PatOp Op)} (hp : IsPattern p t) {limit : Nat} {ms : List (SearchMatches Op)}
    (hm : p.searchWithLimit (A.at depth) eg ord limit = .ok ms) :
    ∀ c s, (c, s) ∈ flat ms → eg.find c = .ok c ∧
      (∀ v, (∃ x, s.get v = some x) ↔ Occurs v t) ∧
      (∀ v x, s.get v = some x → eg.find x = .ok x) ∧
      ∀ (τ : Var → Term Op) (u : Term Op), (∀ v x, s.get v = some x → TermFor eg x (τ v)) → Inst τ t u →
        TermFor eg c u ∧ ∀ d, TermFor eg d u → SameClass eg c d := by
  obtain ⟨g, h1, h2, -⟩ := h
  have hcg : g.clean = true := by rw [← h2.clean]; exact hc
  have hi := (hist_good h1).inv
  have hr := c47_clean_means_rebuilt h1 hcg
  -- any order of the classes of the complete e-graph will do
  let ord' : IterOrd := ⟨g.classes.map fun kc => kc.2.id, fun l => l⟩
  have ho' : ord'.OK g := ⟨.refl _, fun l => .refl l⟩
  obtain ⟨limit', ms0, k1, k2⟩ := found_thin (M := A.full.at depth) h1 hcg hd h2 ho ho' hp (A.allowCycles_at depth) hm
  intro c s hcs
  obtain ⟨q1, q2, q3, q4, q5⟩ := c17_search_sound h1 hcg hd ho' hp k1 c s (k2.flat hcs)
  refine ⟨by rw [h2.find]; exact q1, q2, fun v x hx => by rw [h2.find]; exact q3 v x hx, fun τ u hτ hu => ?_⟩
  have hrep := q5 τ u (fun v x hx => (c86_terms h1 h2 _ _).1 (hτ v x hx)) hu
  refine ⟨(c86_terms h1 h2 _ _).2 hrep, fun d hdu => h2.sameClass.2 ?_⟩
  have hd' := (c86_terms h1 h2 _ _).1 hdu
  have e := EGraph.InvW.rep_unique hi hr.pending u hrep hd'
  exact ⟨_, hi.find (hi.rep_lt hrep), by rw [e]; exact hi.find (hi.rep_lt hd')⟩

variable {env : RunEnv Op D} {sch : Scheduler Op D S} {hooks : List (Hook Op D H)} {rules : List (Rewrite Op D)}
  {eqs : List (Term (PatOp Op) × Term (PatOp Op))} {Q : Term Op → Term Op → Prop} {r r' : Runner Op D S H}

/-- **C87**, running: a run of rewrite rules on a pruned e-graph, with an analysis that prunes and hooks that may prune,
leads to a pruned state again.  The unions made are instances of the rules, or made by the hooks. -/
theorem c87_run (hA : A.OK K) (ha : allow.Blind) (hN : env.analysis = A.at depth) (hord : ∀ i eg, (env.ord i eg).OK eg)
    (hd : DiscContiguous Op) (hs : sch.Honest env) (hh : PruneHooksOK K (A.at depth) allow Q hooks)
    (hr : AreBlindRules rules eqs) (h : Pruned K (A.full.at depth) allow U r.egraph) {f : Nat}
    (hrun : r.run env sch hooks rules f = .ok r') :
    r'.egraph.clean = true ∧ ∃ V, Pruned K (A.full.at depth) allow (V ++ U) r'.egraph ∧
      ∀ u ∈ V, Q u.s u.t ∨ RuleInstance eqs u.s u.t ∨ RuleInstance eqs u.t u.s := by
  obtain ⟨g, g1, g2, g3⟩ := h
  have hC := g2.thinC g3 (hist_good g1).inv
  unfold Runner.run at hrun
  obtain ⟨⟨eg, n⟩, h1, h2⟩ := bind_eq_ok.1 hrun
  rw [hN] at h1
  obtain ⟨⟨g', n'⟩, k1, k2, -⟩ := (Thin.rebuild (hA.hookSim depth) hC _).of_ok h1
  obtain ⟨c2, gf, ⟨V, s1, q1⟩, C2⟩ := Runner.runLoop_preach (hA.hookSim depth) ha (fun _ _ _ _ h => h) (.inl ⟨rfl, fun _ h => h⟩) hN hord hd hs hh hr f _ _ ([] ++ U) g' (Steps.trans g1 (.single (.rebuild k1)))
    k2 (EGraph.rebuild_clean h1) h2
  exact ⟨c2, V, ⟨gf, Steps.trans (Steps.trans g1 (.single (.rebuild k1))) s1, C2.thin.thinner, C2.kept⟩, q1⟩

/-- **C87**: equality saturation with pruning is sound.  If a congruence contains the unions made before, the
instances of the rules and the equations of the hooks, and is respected by the analysis, then terms of one class are
related, whether or not their e-nodes have been dropped. -/
theorem c87_run_sound {R : Term Op → Term Op → Prop} (hR : IsCongruence R) (hA : A.OK K) (hS : SoundFor A.full R hR) (ha : allow.Blind)
    (hN : env.analysis = A.at depth) (hord : ∀ i eg, (env.ord i eg).OK eg)
    (hd : DiscContiguous Op) (hs : sch.Honest env) (hh : PruneHooksOK K (A.at depth) allow Q hooks)
    (hr : AreBlindRules rules eqs) (h : Pruned K (A.full.at depth) allow U r.egraph)
    (hU : ∀ s t, eqsOf U s t → R s t) (hI : ∀ s t, RuleInstance eqs s t → R s t) (hQ : ∀ s t, Q s t → R s t)
    {f : Nat} (hrun : r.run env sch hooks rules f = .ok r')
    {a b : Id} {s t : Term Op} (hab : SameClass r'.egraph a b) (hs' : TermFor r'.egraph a s) (ht : TermFor r'.egraph b t) : R s t := by
  obtain ⟨_, V, ⟨g, g1, g2, -⟩, q1⟩ := c87_run hA ha hN hord hd hs hh hr h hrun
  refine c02_no_spurious_equality hR hS g1 (fun s t hst => ?_) (g2.sameClass.1 hab) ((c86_terms g1 g2 _ _).1 hs') ((c86_terms g1 g2 _ _).1 ht)
  obtain ⟨u, hu, rfl, rfl⟩ := hst
  rcases List.mem_append.1 hu with hu | hu
  · rcases q1 u hu with hq | hq | hq
    · exact hQ _ _ hq
    · exact hI _ _ hq
    · exact hR.symm (hI _ _ hq)
  · exact hU _ _ ⟨u, hu, rfl, rfl⟩

/-- **C87**: and nothing is lost.  When the e-graph is clean, as after a run, two ids are in one class iff their terms
are equal by the unions of the whole history, those of the runs included. -/
theorem c87_same_class_iff (h : Pruned K (A.full.at depth) allow U eg) (hS : SoundFor A.full (GEq (eqsOf U)) .geq) (hc : eg.clean = true)
    {a b : Id} {s t : Term Op} (hs : TermFor eg a s) (ht : TermFor eg b t) : SameClass eg a b ↔ GEq (eqsOf U) s t := by
  obtain ⟨g, g1, g2, -⟩ := h
  have hcg : g.clean = true := by rw [← g2.clean]; exact hc
  have hs' := (c86_terms g1 g2 _ _).1 hs
  have ht' := (c86_terms g1 g2 _ _).1 ht
  obtain ⟨hg, hU⟩ := hist_good_of_sound hS g1 (fun _ _ => .ax)
  have hp := (c47_clean_means_rebuilt g1 hcg).pending
  rw [g2.sameClass]
  refine ⟨fun hab => hg.sensible.sound a b s t hab hs' ht', fun hst => ?_⟩
  have := (rebuilt_closed hg hp hU hst a).1 hs'
  rw [hg.inv.sameClass_iff]
  exact ⟨hg.inv.rep_lt hs', hg.inv.rep_lt ht', EGraph.InvW.rep_unique hg.inv hp t this ht'⟩

/-- **C87**, constant folding that prunes (`tests/math.rs`): if the unions made before and the instances of the rules
are true of the values, then after the run terms of one class have one value, whether or not their e-nodes have been
dropped; the assertion of `merge` has not failed; the datum of a class is the value of its terms, and the class still
contains the constant. -/
theorem c87_fold_run {W : Type} [DecidableEq W] {F : Folding Op W} {caller : Symbol} {M : Op → List W → W} (hM : F.Agrees M)
    {env : RunEnv Op (Option (Known W))} {sch : Scheduler Op (Option (Known W)) S}
    {hooks : List (Hook Op (Option (Known W)) H)} {rules : List (Rewrite Op (Option (Known W)))} {r r' : Runner Op (Option (Known W)) S H}
    (hN : env.analysis = (F.pruning caller).at depth) (hord : ∀ i eg, (env.ord i eg).OK eg)
    (hd : DiscContiguous Op) (hs : sch.Honest env) (hh : PruneHooksOK leaves ((F.pruning caller).at depth) .noSet Q hooks)
    (hr : AreBlindRules rules eqs) (h : Pruned leaves ((F.pruning caller).full.at depth) .noSet U r.egraph)
    (hU : ∀ s t, eqsOf U s t → absValue M s = absValue M t) (hI : ∀ s t, RuleInstance eqs s t → absValue M s = absValue M t)
    (hQ : ∀ s t, Q s t → absValue M s = absValue M t) {f : Nat} (hrun : r.run env sch hooks rules f = .ok r') :
    (∀ a b s t, SameClass r'.egraph a b → TermFor r'.egraph a s → TermFor r'.egraph b t → absValue M s = absValue M t) ∧
    ∀ i k, r'.egraph.index i = .ok k → k.data ≠ some .clash ∧
      ∀ v, k.data = some (.val v) → Rep r'.egraph i (.node (F.con v) []) ∧ ∀ t, TermFor r'.egraph i t → absValue M t = v := by
  obtain ⟨_, V, ⟨g, g1, g2, g3⟩, q1⟩ := c87_run (F.pruning_ok caller) blind_noSet hN hord hd hs hh hr h hrun
  refine fold_of_thin hM g1 g2 g3 ?_
  rintro s t ⟨u, hu, rfl, rfl⟩
  rcases List.mem_append.1 hu with hu | hu
  · rcases q1 u hu with hq | hq | hq
    · exact hQ _ _ hq
    · exact hI _ _ hq
    · exact (hI _ _ hq).symm
  · exact hU _ _ ⟨u, hu, rfl, rfl⟩

/-! ### Examples -/

namespace Ex

/-- A run of (f ?x) => (g ?x) on the pruned example of C86: the classes of a and of f a were emptied before a = b. -/
def penv : RunEnv Ex.S Unit := { renv with analysis := PN }
def runnerQ : Runner Ex.S Unit Unit Unit := { runner () with egraph := q8 }
def doneQ : Runner Ex.S Unit Unit Unit := stR () (runnerQ.run penv simpleScheduler [] [ruleFG] 10)

theorem prunedQ : Pruned (fun _ _ => False) (PU.full.at 1) .noSet [un] q8 :=
  c87_history PU_ok blind_noSet (.tail (V := []) (histQ .noSet) (.call (.rebuild rebQ)))

theorem blindRules : AreBlindRules [ruleFG] [(termFx, termGx)] := by
  intro rw' h
  simp only [List.mem_singleton] at h
  subst h
  exact ⟨_, _, by simp, .inl patternRule⟩

theorem ranQ : runnerQ.run penv simpleScheduler [] [ruleFG] 10 = .ok doneQ := rfl

def tga : Term Ex.S := .node .g [ta]

/-- In the end the class of f a, which the pruning had emptied, has f b and g a (and so g b). -/
example : (q6.classes.get? 2).map (·.nodes) = some [] ∧ TermFor doneQ.egraph 2 tfa ∧ TermFor doneQ.egraph 4 tga ∧ SameClass doneQ.egraph 2 4 ∧
    ((doneQ.egraph.index 2).toOption.map (·.nodes)) = some [app .f [0], app .g [0]] :=
  ⟨rfl, termFor_iff.2 ⟨2, app .f [0], ⟨_, rfl, rfl⟩, rfl, rfl, .cons (termFor_iff.2 ⟨0, leaf .a, ⟨_, rfl, rfl⟩, rfl, rfl, .nil⟩) .nil⟩,
    termFor_iff.2 ⟨4, app .g [0], ⟨_, rfl, rfl⟩, rfl, rfl, .cons (termFor_iff.2 ⟨0, leaf .a, ⟨_, rfl, rfl⟩, rfl, rfl, .nil⟩) .nil⟩,
    ⟨_, rfl, rfl⟩, rfl⟩

/-- The hypotheses of C87 are met by that run. -/
example {s t : Term Ex.S} {a b : Id} (hab : SameClass doneQ.egraph a b) (ha : TermFor doneQ.egraph a s) (hb : TermFor doneQ.egraph b t) :
    GEq (fun s t => eqsOf [un] s t ∨ RuleInstance [(termFx, termGx)] s t) s t :=
  c87_run_sound (A := PU) (depth := 1) (K := fun _ _ => False) (Q := fun _ _ => False) (hooks := []) .geq PU_ok
    (soundFor_of_quiet (fun _ => rfl) _ _) blind_noSet rfl (fun _ eg => ordOK eg) discContiguous simple_honest
    (fun k hk => by cases hk) blindRules prunedQ
    (fun _ _ h => .ax (Or.inl h)) (fun _ _ h => .ax (Or.inr h)) (fun _ _ h => h.elim) ranQ hab ha hb

/-- Pruned e-nodes are not found: f ?x has two matches before and one after the pruning. -/
def q9 : G := st (EGraph.rebuild PN 20 q6)
def hits (eg : G) : Nat := match patFx.searchWithLimit PN eg (ord eg) 10 with | .ok ms => (flat ms).length | _ => 99

example : hits (st (EGraph.rebuild PN 20 q4)) = 2 ∧ hits q9 = 1 ∧ q9.clean = true := ⟨rfl, rfl, rfl⟩

end Ex

/-! ### An example: commutativity, with constant folding that prunes -/

namespace Fold

theorem lexLe_two {x y x' y' : Nat} {xs ys : List Nat} (h : Ex.lexLe (x :: y :: xs) (x' :: y' :: ys) = true) : x < x' ∨ x = x' ∧ y ≤ y' := by
  simp only [Ex.lexLe] at h
  split_ifs at h <;> omega

theorem discContiguous : DiscContiguous O := by
  rintro ⟨a, as⟩ ⟨b, bs⟩ ⟨c, cs⟩ hab hbc (hac : a = c)
  subst hac
  show b = a
  have hab : Ex.lexLe (key ⟨a, as⟩) (key ⟨b, bs⟩) = true := hab
  have hbc : Ex.lexLe (key ⟨b, bs⟩) (key ⟨a, cs⟩) = true := hbc
  cases a <;> cases b <;> simp only [key, O.code, List.cons_append, List.nil_append] at hab hbc <;>
    have h1 := lexLe_two hab <;> have h2 := lexLe_two hbc <;> simp <;> omega

/-- (+ ?x ?y) => (+ ?y ?x). -/
def patXY : Pattern O := ⟨[⟨.var Ex.vx, []⟩, ⟨.var Ex.vy, []⟩, ⟨.op .plus, [0, 1]⟩], ⟨[.bind ⟨.plus, [0, 0]⟩ 0 1], [(Ex.vx, 1), (Ex.vy, 2)]⟩⟩
def patYX : Pattern O := ⟨[⟨.var Ex.vy, []⟩, ⟨.var Ex.vx, []⟩, ⟨.op .plus, [0, 1]⟩], ⟨[.bind ⟨.plus, [0, 0]⟩ 0 1], [(Ex.vy, 1), (Ex.vx, 2)]⟩⟩
def termXY : Term (PatOp O) := .node (.op .plus) [.node (.var Ex.vx) [], .node (.var Ex.vy) []]
def termYX : Term (PatOp O) := .node (.op .plus) [.node (.var Ex.vy) [], .node (.var Ex.vx) []]

theorem isPatXY : IsPattern patXY termXY :=
  ⟨Ex.ordc, 10, patXY.ast, Ex.ordcOK, patWF_of rfl rfl rfl, rfl, exprTerm_of (f := 5) rfl rfl⟩
theorem isPatYX : IsPattern patYX termYX :=
  ⟨Ex.ordc, 10, patYX.ast, Ex.ordcOK, patWF_of rfl rfl rfl, rfl, exprTerm_of (f := 5) rfl rfl⟩

def comm : Rewrite O (Option (Known Nat)) := ⟨9, patXY.searcher, patYX.applier⟩

theorem commRule : AreBlindRules [comm] [(termXY, termYX)] := by
  intro rw' h
  simp only [List.mem_singleton] at h
  subst h
  refine ⟨_, _, by simp, .inl ⟨patXY, patYX, isPatXY, fun v hv => ?_, isPatYX, rfl⟩⟩
  have hvy : (Ex.vy : Var) ≠ Ex.vx := by decide
  have : v = Ex.vx ∨ v = Ex.vy := by simpa [Pattern.vars, patVars, patXY, hvy] using hv
  rcases this with rfl | rfl
  · exact .arg (t := .node (.var Ex.vx) []) (by simp) .refl
  · exact .arg (t := .node (.var Ex.vy) []) (by simp) .refl

/-- A run on the e-graph with x, 1, 2, x + 2 and (x + 2) + 2; the user has emptied the last class. -/
def commEnv : RunEnv O (Option (Known Nat)) := ⟨NP, fun _ eg => ⟨eg.classes.map (fun kc => kc.2.id), id⟩, fun _ => 0, 20, 8⟩
def runnerP : Runner O (Option (Known Nat)) Unit Unit := { (Runner.new () () : Runner O (Option (Known Nat)) Unit Unit) with egraph := p6 }
def doneP : Runner O (Option (Known Nat)) Unit Unit :=
  match runnerP.run commEnv simpleScheduler [] [comm] 10 with | .ok r => r | .error _ => runnerP

theorem ranP : runnerP.run commEnv simpleScheduler [] [comm] 10 = .ok doneP := by
  unfold doneP
  have : (runnerP.run commEnv simpleScheduler [] [comm] 10).toBool = true := by decide +kernel
  generalize runnerP.run commEnv simpleScheduler [] [comm] 10 = x at this ⊢
  cases x with
  | ok r => rfl
  | error e => cases this

theorem prunedP : Pruned leaves ((sums.pruning 0).full.at 3) .noSet [] p6 := c87_history (sums.pruning_ok 0) blind_noSet histP6

/-- The run adds 2 + x to the class of x + 2, and does not find the dropped e-node of (x + 2) + 2. -/
example : (clsS p6 3).1 = [] ∧ (clsS doneP.egraph 2).1 = [⟨.plus, [0, 1]⟩, ⟨.plus, [1, 0]⟩] ∧ (clsS doneP.egraph 3).1 = [] := by decide +kernel

theorem inst_two {τ : Var → Term O} {v w : Var} {s : Term O} (h : Inst τ (.node (.op .plus) [.node (.var v) [], .node (.var w) []]) s) :
    s = .node .plus [τ v, τ w] := by
  cases h with
  | @node _ _ ts h1 h2 =>
    obtain ⟨a, b, rfl⟩ : ∃ a b, ts = [a, b] := by
      match ts, h1 with
      | [a, b], _ => exact ⟨a, b, rfl⟩
    have ha := h2 0 _ _ rfl rfl
    have hb := h2 1 _ _ rfl rfl
    cases ha
    cases hb
    rfl

/-- Commutativity is true of sums. -/
theorem comm_true (ρ : Nat → Nat) : ∀ s t, RuleInstance [(termXY, termYX)] s t → absValue (meaning ρ) s = absValue (meaning ρ) t := by
  rintro s t ⟨tl, t', hm, τ, h1, h2⟩
  rw [List.mem_singleton] at hm
  cases hm
  rw [inst_two h1, inst_two h2]
  simp [absValue, absValues, meaning, Nat.add_comm]

/-- The hypotheses of C87 are met: whatever the value of x, the run equates only terms with equal values. -/
example (ρ : Nat → Nat) {a b : Id} {s t : Term O} (hab : SameClass doneP.egraph a b) (hs : TermFor doneP.egraph a s)
    (ht : TermFor doneP.egraph b t) : absValue (meaning ρ) s = absValue (meaning ρ) t :=
  (c87_fold_run (sums_agrees ρ) (Q := fun _ _ => False) (caller := 0) (depth := 3) (env := commEnv) rfl
    (fun _ _ => ⟨.refl _, fun _ => .refl _⟩) discContiguous simple_honest (fun k hk => by cases hk) commRule prunedP
    (by rintro s t ⟨u, hu, -, -⟩; cases hu) (comm_true ρ) (fun _ _ h => h.elim) ranP).1 a b s t hab hs ht

end Fold

end Egg
