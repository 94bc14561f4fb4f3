import Verif.Lemmas.ChaseFinite
import Verif.Props.Chase
/-
C103: forward chaining with pattern rules and multi-pattern rules reaches a fixpoint exactly if what the rules derive is finite.
-/
namespace Egg
variable {Op D S H : Type} [DecidableEq Op] [Lang Op]
variable {A : UserAnalysis Op D} {depth : Nat} {allow : Caller Op D} {U : List (UnionRec Op)} {eg0 : EGraph Op D}
variable {env : RunEnv Op D} {sch : Scheduler Op D S} {hooks : List (Hook Op D H)} {rules : List (Rewrite Op D)} {cs : List (Clause Op)}
variable {r r' : Runner Op D S H} {f : Nat}

/-- **C103.**  If what the rules derive from an e-graph has finitely many classes, there is a number `N` of iterations such that each run on this e-graph with more than `N`
iterations, whatever the order of the rules and of the hash maps and however the run ends, has reached the fixpoint: two terms are there and equal exactly if the rules
derive it in any number of rounds, and the numbers of e-nodes and of classes are those that the last iteration recorded at its start. -/
theorem c103_reaches (hA : ∀ i, A.modify i = .done) (hcyc : (A.at depth).allowCycles = true) (hd : DiscContiguous Op)
    (h : Hist (A.at depth) allow U eg0) (hfin : FinitelyDerived cs (Equal eg0)) :
    ∃ N, ∀ (S H : Type) (env : RunEnv Op D) (sch : Scheduler Op D S) (hooks : List (Hook Op D H)) (rules : List (Rewrite Op D))
      (r r' : Runner Op D S H) (f : Nat), env.analysis = A.at depth → (∀ i eg, (env.ord i eg).OK eg) → sch.Eager env → sch.Limited env →
      HooksRead hooks → AreTightClauses rules cs → r.egraph = eg0 → r.AlwaysFitsAny env sch hooks rules → r.run env sch hooks rules f = .ok r' →
      N < r'.iterations.length - r.iterations.length →
      (∀ s t, Equal r'.egraph s t ↔ ∃ k, Chase cs (Equal eg0) k s t) ∧
      ∃ it, r'.iterations.getLast? = some it ∧ r'.egraph.totalSize = it.egraphNodes ∧ r'.egraph.numberOfClasses = it.egraphClasses := by
  by_cases hsc : ∀ c ∈ cs, c.Scoped
  swap
  · refine ⟨0, fun S H env sch hooks rules r r' f _ _ _ _ _ hr => absurd (fun c hc => ?_) hsc⟩
    obtain ⟨rw', -, q⟩ := hr.2 c hc
    exact q.isClause.scoped
  obtain ⟨k, hk⟩ := hfin.rounds (hist_good h) hsc
  refine ⟨k, fun S H env sch hooks rules r r' f hN hord hs hlim hh hr he hfit hrun hlen => ?_⟩
  subst he
  exact c102_closes hA hN hord hd hcyc hs hlim hh hr h hfit hrun (fun s t hst => hk s t ⟨_, hst⟩) hlen

/-- **C103.**  Conversely a run can reach a fixpoint only if what the rules derive has finitely many classes. -/
theorem c103_finite (hA : ∀ i, A.modify i = .done) (hN : env.analysis = A.at depth) (hord : ∀ i eg, (env.ord i eg).OK eg) (hd : DiscContiguous Op)
    (hcyc : (A.at depth).allowCycles = true) (hs : sch.Eager env) (hlim : sch.Limited env) (hh : HooksRead hooks) (hr : AreTightClauses rules cs)
    (h : Hist (A.at depth) allow U r.egraph) (hfit : r.AlwaysFitsAny env sch hooks rules)
    (hrun : r.run env sch hooks rules f = .ok r') {it : Iteration} (hlast : r'.iterations.getLast? = some it) (hcpl : it.Completed)
    (hnodes : r'.egraph.totalSize = it.egraphNodes) (hcls : r'.egraph.numberOfClasses = it.egraphClasses) : FinitelyDerived cs (Equal r.egraph) := by
  have hdec := c102_decides hA hN hord hd hcyc hs hlim hh hr h hfit hrun hlast hcpl hnodes hcls
  obtain ⟨V, hV⟩ : ∃ V, Hist (A.at depth) allow V r'.egraph := by
    unfold Runner.run at hrun
    obtain ⟨⟨eg, n⟩, h1, h2⟩ := bind_eq_ok.1 hrun
    have hfit := fun k rk => hfit eg n k rk h1
    rw [hN] at h1
    have k1 : Hist (A.at depth) allow ([] ++ [] ++ U) eg := Steps.trans h (.single (.rebuild h1))
    obtain ⟨⟨-, V, q⟩, -⟩ := Runner.runLoop_chase hN hord hd hcyc hs hlim hh hr.areClauses f _ r' _ k1 (EGraph.rebuild_clean h1) hfit h2
      (fun it' h' => by rw [hlast] at h'; cases h'; exact hcpl)
    exact ⟨_, Steps.trans k1 q⟩
  have hg := hist_good hV
  have hl : ∀ n, n ≤ r'.egraph.nodes.length → ∃ l : List (Term Op), ∀ c < n, ∃ u ∈ l, Rep r'.egraph c u := by
    intro n
    induction n with
    | zero => exact fun _ => ⟨[], fun c hc => by omega⟩
    | succ n ih =>
      intro hn
      obtain ⟨l, hl⟩ := ih (by omega)
      obtain ⟨u, hu⟩ := hg.inv.exists_rep (i := n) (by omega)
      refine ⟨u :: l, fun c hc => ?_⟩
      by_cases hcn : c = n
      · exact ⟨u, by simp, hcn ▸ hu⟩
      · obtain ⟨w, hw, hw'⟩ := hl c (by omega)
        exact ⟨w, by simp [hw], hw'⟩
  obtain ⟨l, hl⟩ := hl _ (Nat.le_refl _)
  refine ⟨l, fun t ht => ?_⟩
  obtain ⟨c, hc, -⟩ := (hdec t t).2 ht
  obtain ⟨u, hu, hu'⟩ := hl c (hg.inv.rep_lt hc)
  exact ⟨u, hu, (hdec t u).1 ⟨c, hc, hu'⟩⟩

/-! ### Examples -/

namespace Ex

/-- The rule `?p = (f ?x) => ?q = (g ?x), ?p = ?q` together with `(g ?x) => ?x` derives finitely many classes from the example … -/
theorem finiteM : FinitelyDerived clausesM (Equal Ex.e6) :=
  c103_finite (A := Ex.U0) (depth := 1) (allow := .all) (env := Ex.renv) (sch := simpleScheduler) (hooks := []) (rules := rulesM) (r := runnerM) (f := 10)
    (fun _ => rfl) rfl (fun _ eg => Ex.ordOK eg) Ex.discContiguous rfl simple_eager simple_limited (fun k hk => by cases hk) tightClauses (Ex.hist6 _) fitsM (r' := doneM2) rfl
    (it := _) rfl (.inl rfl) rfl rfl

/-- … so each sufficiently long run reaches the fixpoint, for instance with the rules in the other order. -/
example : ∃ N, ∀ (r' : Runner Ex.S Unit Unit Unit) (n f : Nat),
    ({ runnerM with limits := ⟨n, 1000, 5⟩ }).AlwaysFitsAny Ex.renv simpleScheduler ([] : List (Hook Ex.S Unit Unit)) rulesM.reverse →
    ({ runnerM with limits := ⟨n, 1000, 5⟩ }).run Ex.renv simpleScheduler [] rulesM.reverse f = .ok r' → N < r'.iterations.length →
    ∀ s t, Equal r'.egraph s t ↔ ∃ k, Chase clausesM (Equal Ex.e6) k s t := by
  obtain ⟨N, hN⟩ := c103_reaches (A := Ex.U0) (depth := 1) (allow := .all) (fun _ => rfl) rfl Ex.discContiguous (Ex.hist6 _) finiteM
  refine ⟨N, fun r' n f hfit hrun hlen => ?_⟩
  refine (hN _ _ Ex.renv simpleScheduler [] rulesM.reverse { runnerM with limits := ⟨n, 1000, 5⟩ } r' f rfl (fun _ eg => Ex.ordOK eg) simple_eager simple_limited
    (fun k hk => by cases hk) ⟨fun rw' h => ?_, fun c h => ?_⟩ rfl hfit hrun (by exact hlen)).1
  · exact tightClauses.1 rw' (by simpa using h)
  · obtain ⟨rw', q1, q2⟩ := tightClauses.2 c h
    exact ⟨rw', by simpa using q1, q2⟩

/-- Runs of any length exist: multi-pattern rules do not let a run stop with `Saturated`. -/
example : (Ex.stR () (({ runnerM with limits := ⟨6, 1000, 5⟩ }).run Ex.renv simpleScheduler [] rulesM.reverse 10)).iterations.length = 6 := by decide +kernel

/-- The rule `?p = (f ?x) => ?q = (f ?p)` derives infinitely many classes from `f a`. -/
def clausesFF : List (Clause Ex.S) := [.horn [(vp, .node (.op .f) [.node (.var vx) []])] [(vq, .node (.op .f) [.node (.var vp) []])]]

def fPow : Nat → Term Ex.S
  | 0 => tfa
  | n + 1 => .node .f [fPow n]

theorem fPow_derived {E : Term Ex.S → Term Ex.S → Prop} (hE : E tfa tfa) : ∀ n, Chase clausesFF E n (fPow n) (fPow n)
  | 0 => .base hE
  | n + 1 => by
    obtain ⟨x, hx⟩ : ∃ x, fPow n = .node .f [x] := by
      cases n with
      | zero => exact ⟨_, rfl⟩
      | succ n => exact ⟨_, rfl⟩
    refine .base (.inr ⟨_, List.mem_singleton.2 rfl, fun v => if v = vp then fPow n else x, fun v p hvp => ?_, ?_⟩)
    · simp only [List.mem_singleton, Prod.mk.injEq] at hvp
      obtain ⟨rfl, rfl⟩ := hvp
      refine ⟨.node .f [x], inst_node_iff.2 ⟨_, rfl, .cons (inst_var_iff.2 ⟨rfl, by rw [if_neg (by decide)]⟩) .nil⟩, ?_⟩
      rw [← hx]
      exact fPow_derived hE n
    · exact ⟨fPow (n + 1), inst_node_iff.2 ⟨_, rfl, .cons (inst_var_iff.2 ⟨rfl, by rw [if_pos rfl]⟩) .nil⟩, .inl ⟨rfl, rfl⟩⟩

theorem eqHull_eq {Op : Type} {E : Term Op → Term Op → Prop} (hE : ∀ s t, E s t → s = t) {s t : Term Op} (h : EqHull E s t) : s = t := by
  induction h with
  | base h => exact hE _ _ h
  | symm _ ih => exact ih.symm
  | trans _ _ ih1 ih2 => exact ih1.trans ih2
  | arg => rfl
  | congr _ hl _ _ ih =>
    congr 1
    refine List.ext_getElem hl.symm (fun i h1 h2 => ?_)
    exact ih i _ _ (List.getElem?_eq_getElem h1) (List.getElem?_eq_getElem h2)

theorem clausesFF_eq {E : Term Ex.S → Term Ex.S → Prop} (hE : ∀ s t, E s t → s = t) : ∀ (k : Nat) (s t : Term Ex.S), Chase clausesFF E k s t → s = t
  | 0, _, _, h => eqHull_eq hE h
  | k + 1, _, _, h => eqHull_eq (fun s t hst => by
    rcases hst with hst | ⟨c, hc, hst⟩
    · exact clausesFF_eq hE k s t hst
    · cases List.mem_singleton.1 hc
      obtain ⟨τ, -, u, -, ⟨rfl, rfl⟩ | ⟨⟨w, p, h1, h2⟩, -⟩ | ⟨-, h⟩ | ⟨-, h⟩⟩ := hst
      · rfl
      · exfalso
        simp only [List.mem_singleton, Prod.mk.injEq] at h1
        obtain ⟨rfl, rfl⟩ := h1
        rcases h2 with h2 | h2
        · exact absurd h2 (by decide)
        · cases h2 with
          | arg h3 h4 =>
            cases List.mem_singleton.1 h3
            cases h4 with
            | arg h5 _ => cases h5
      · exact h.elim
      · exact h.elim) h

/-- So what it derives is not finite, and by `c103_finite` no run on such an e-graph reaches a fixpoint. -/
example : ¬ FinitelyDerived clausesFF (fun s t => s = t ∧ (s = ta ∨ s = tfa)) := by
  rintro ⟨l, hl⟩
  have inj : Function.Injective fPow := by
    intro n
    induction n with
    | zero =>
      intro m h
      cases m with
      | zero => rfl
      | succ m => exfalso; cases m <;> injection h with _ h <;> injection h with h <;> cases h
    | succ n ih =>
      intro m h
      cases m with
      | zero => exfalso; cases n <;> injection h with _ h <;> injection h with h <;> cases h
      | succ m =>
        injection h with _ h
        injection h with h
        rw [ih h]
  have hmem : ∀ n, fPow n ∈ l := fun n => by
    obtain ⟨u, hu, k, hk⟩ := hl (fPow n) ⟨n, fPow_derived ⟨rfl, .inr rfl⟩ n⟩
    rw [clausesFF_eq (fun _ _ h => h.1) k _ _ hk]
    exact hu
  exact Set.infinite_range_of_injective inj (Set.Finite.subset (List.finite_toSet l) (by rintro _ ⟨n, rfl⟩; exact hmem n))

end Ex

end Egg
