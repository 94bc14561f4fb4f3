import Verif.Model.CheckRules
import Verif.Props.Fair
import Verif.Props.Quiet
/-
C100: the warning about duplicated names.
-/
namespace Egg
variable {Op D : Type} [DecidableEq Op] [Lang Op]

theorem nameCounts_get (rules : List (Rewrite Op D)) : (AMap.keys (nameCounts rules)).Nodup ∧ ∀ name,
    (nameCounts rules).get? name = if (rules.map (·.name)).count name = 0 then none else some ((rules.map (·.name)).count name) := by
  have key : ∀ (rules : List (Rewrite Op D)) (m : AMap Symbol Nat) (f : Symbol → Nat), (AMap.keys m).Nodup →
      (∀ name, m.get? name = if f name = 0 then none else some (f name)) →
      (AMap.keys (rules.foldl (fun m rw => bumpName m rw.name) m)).Nodup ∧ ∀ name,
      (rules.foldl (fun m rw => bumpName m rw.name) m).get? name = if f name + (rules.map (·.name)).count name = 0 then none else some (f name + (rules.map (·.name)).count name) := by
    intro rules
    induction rules with
    | nil => intro m f h1 h2; simpa using ⟨h1, h2⟩
    | cons rw' rules ih =>
      intro m f h1 h2
      rw [List.foldl_cons]
      obtain ⟨k1, k2⟩ := ih (bumpName m rw'.name) (fun name => f name + if rw'.name = name then 1 else 0) (by unfold bumpName; split <;> exact AMap.nodup_insert h1 _ _) (fun name => by
          have := h2 rw'.name
          unfold bumpName
          split
          · next k hk =>
            rw [hk] at this
            rw [AMap.get?_insert]
            split at this
            · cases this
            · cases this
              by_cases e : rw'.name = name
              · simp [e]
              · simpa [e] using h2 name
          · next hk =>
            rw [hk] at this
            rw [AMap.get?_insert]
            split at this
            · next h0 =>
              by_cases e : rw'.name = name
              · subst e; simp [h0]
              · simpa [e] using h2 name
            · cases this)
      refine ⟨k1, fun name => ?_⟩
      rw [k2 name, List.map_cons, List.count_cons]
      have e : f name + (if rw'.name = name then 1 else 0) + (rules.map (·.name)).count name =
        f name + ((rules.map (·.name)).count name + if rw'.name == name then 1 else 0) := by
        simp only [beq_iff_eq]
        omega
      rw [e]
  have := key rules [] (fun _ => 0) List.nodup_nil (fun _ => rfl)
  simpa [nameCounts] using this

/-- **C100.**  The warning at the start of a run lists exactly the names that more than one rule has, with the numbers of these rules; so
if it does not appear, `c100_fair` and `c100_saturates` apply. -/
theorem c100_warned (rules : List (Rewrite Op D)) :
    (∀ name n, (name, n) ∈ checkRules rules ↔ n = (rules.map (·.name)).count name ∧ 1 < n) ∧ (checkRules rules = [] ↔ (rules.map (·.name)).Nodup) := by
  have h1 : ∀ name n, (name, n) ∈ checkRules rules ↔ n = (rules.map (·.name)).count name ∧ 1 < n := by
    intro name n
    obtain ⟨k1, k2⟩ := nameCounts_get rules
    unfold checkRules
    simp only [List.mem_filter, decide_eq_true_eq]
    have k2 := k2 name
    constructor
    · rintro ⟨h1, h2⟩
      rw [AMap.get?_of_mem k1 h1] at k2
      split at k2
      · cases k2
      · cases k2; exact ⟨rfl, h2⟩
    · rintro ⟨rfl, h2⟩
      rw [if_neg (by omega)] at k2
      exact ⟨AMap.mem_of_get? k2, h2⟩
  refine ⟨h1, ?_⟩
  rw [List.nodup_iff_count_le_one]
  constructor
  · intro h name
    by_contra hc
    have := (h1 name _).2 ⟨rfl, Nat.lt_of_not_le hc⟩
    rw [h] at this
    cases this
  · intro h
    cases hx : checkRules rules with
    | nil => rfl
    | cons p l =>
      obtain ⟨name, n⟩ := p
      obtain ⟨e, h2⟩ := (h1 name n).1 (by rw [hx]; simp)
      have := h name
      omega

/-! ### Examples -/

namespace Ex

/-- The pattern `b`, and the rule `a → b` with the name of `f(x) → g(x)`. -/
def patB : Pattern Ex.S := ⟨[⟨.op .b, []⟩], ⟨[.bind (leaf .b) 0 1], []⟩⟩
def termB : Term (PatOp Ex.S) := .node (.op .b) []
theorem isPatB : IsPattern patB termB :=
  ⟨ordc, 10, patB.ast, ordcOK, patWF_of rfl rfl rfl, rfl, exprTerm_of (f := 5) rfl rfl⟩
def ruleAB (name : Symbol) : Rewrite Ex.S Unit := ⟨name, patA.searcher, patB.applier⟩
theorem tightAB (name : Symbol) : TightRule (ruleAB name) termA termB := by
  refine ⟨patA, patB, isPatA, fun k hk => ?_, ?_, isPatB, fun k hk => ?_, rfl⟩
  · have hk : k < 1 := hk
    obtain rfl : k = 0 := by omega
    exact .root
  · intro v hv
    cases hv
  · have hk : k < 1 := hk
    obtain rfl : k = 0 := by omega
    exact .root

def namesAt (name : Symbol) (k : Nat) : Option (Runner Ex.S Unit Backoff Unit) := Runner.after renv Backoff.scheduler [] [ruleFG, ruleAB name] k fairStart
def names1 : Runner Ex.S Unit Backoff Unit := match namesAt 9 1 with | some r => r | none => fairStart
def names2 : Runner Ex.S Unit Backoff Unit := match namesAt 9 2 with | some r => r | none => fairStart

theorem namesAt_0 : namesAt 9 0 = some fairStart := rfl
theorem namesAt_1 : namesAt 9 1 = some names1 := rfl
theorem namesAt_2 : namesAt 9 2 = some names2 := rfl
theorem namesAt_3 : ∀ k, namesAt 9 (k + 3) = none := by
  intro k
  induction k with
  | zero => rfl
  | succ k ih =>
    cases h : namesAt 9 (k + 4) with
    | none => exact h
    | some r =>
      obtain ⟨r1, h1, -⟩ := Runner.after_last (k := k + 3) h
      have h1 : namesAt 9 (k + 3) = some r1 := h1
      rw [ih] at h1
      cases h1

theorem names_atMost : ∀ k rk, namesAt 9 k = some rk → rk.AtMost renv (ruleAB 9) 1 := by
  intro k rk h
  have hk : k = 0 ∨ k = 1 ∨ k = 2 ∨ ∃ j, k = j + 3 := by
    rcases Nat.lt_or_ge k 3 with h | h
    · omega
    · exact Or.inr (Or.inr (Or.inr ⟨k - 3, by omega⟩))
  rcases hk with rfl | rfl | rfl | ⟨j, rfl⟩
  · rw [namesAt_0] at h
    cases h
    exact fun ms hm => by cases hm; decide +kernel
  · rw [namesAt_1] at h
    cases h
    exact fun ms hm => by cases hm; decide +kernel
  · rw [namesAt_2] at h
    cases h
    exact fun ms hm => by cases hm; decide +kernel
  · rw [namesAt_3] at h
    cases h

theorem names_passes : Runner.PassesOver renv Backoff.scheduler [] [ruleFG, ruleAB 9] fairStart termA termB 0 := by
  refine ⟨_, _, namesAt_0, namesAt_1, fun _ => .node .a [], .node .a [], .node .b [], 0,
    inst_node_iff.2 ⟨_, rfl, .nil⟩, inst_node_iff.2 ⟨_, rfl, .nil⟩, rep_leaf rfl rfl (by decide), fun h => ?_⟩
  obtain ⟨_, k, n, h1, h0, h2, h3, -⟩ := EGraph.rep_iff.1 h
  cases h1
  have : ∀ n ∈ (names1.egraph.classes.get? 0).elim [] (·.nodes), n.op ≠ .b := by decide +kernel
  rw [h0] at this
  exact this n h2 h3

end Ex

/-- **C100.**  Without the hypothesis that the names differ `c100_fair` is false: the rule `a → b` never has more than one match, and its match limit is 1, so that
by the formula it is never passed over; but it has the name of a rule with two matches, and the first iteration passes over it. -/
theorem c100_same_name_counterexample : ∃ (r : Runner Ex.S Unit Backoff Unit) (rules : List (Rewrite Ex.S Unit)) (rw' : Rewrite Ex.S Unit)
    (tl t : Term (PatOp Ex.S)) (eg : EGraph Ex.S Unit), Hist (Ex.U0.at 1) .all [] r.egraph ∧ r.egraph.rebuild Ex.N0 20 = .ok (eg, 0) ∧
    r.scheduler.WF ∧ rw' ∈ rules ∧ TightRule rw' tl t ∧ r.scheduler.Fresh rw'.name 1 1 ∧ Covers Ex.renv.bits 1 0 1 ∧
    (∀ k rk, Runner.after Ex.renv Backoff.scheduler [] rules k { r with egraph := eg } = some rk → rk.AtMost Ex.renv rw' 1) ∧
    checkRules rules = [(rw'.name, 2)] ∧ Runner.PassesOver Ex.renv Backoff.scheduler [] rules { r with egraph := eg } tl t 0 :=
  ⟨Ex.fairRunner, [Ex.ruleFG, Ex.ruleAB 9], Ex.ruleAB 9, Ex.termA, Ex.termB, _, Ex.hist4 _, rfl, Ex.fair_wf, by simp, Ex.tightAB 9, rfl, ⟨by decide, by decide⟩,
    Ex.names_atMost, rfl, Ex.names_passes⟩

/-- The names are listed in the order in which they first appear. -/
example : checkRules [Ex.ruleFG, Ex.ruleAB 9, Ex.ruleFX, Ex.ruleAB 8, Ex.ruleAB 9, Ex.ruleAB 3] = [(9, 3), (8, 2)] := rfl

end Egg
