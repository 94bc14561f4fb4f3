import Verif.Lemmas.Novel
import Verif.Lemmas.FlatLength
/-
Number of rules applied in the explanations that requests return.
-/
namespace Egg
variable {Op : Type} [DecidableEq Op]

/-- A rule joined `u` and `v`. -/
def RulePair (L : Log) (u v : Id) : Prop := ∃ s, (u, v, Justification.rule s) ∈ L ∨ (v, u, Justification.rule s) ∈ L

theorem RulePair.joins {L : Log} {u v : Id} (h : RulePair L u v) : ∃ k a b s, L[k]? = some (a, b, .rule s) ∧ Joins L k u v := by
  obtain ⟨s, h | h⟩ := h
  · obtain ⟨k, hk⟩ := List.getElem?_of_mem h
    exact ⟨k, _, _, _, hk, _, _, _, hk, .inl ⟨rfl, rfl⟩⟩
  · obtain ⟨k, hk⟩ := List.getElem?_of_mem h
    exact ⟨k, _, _, _, hk, _, _, _, hk, .inr ⟨rfl, rfl⟩⟩

theorem RulePair.of_joins {L : Log} {u v : Id} {k : Nat} {a b : Id} {s : Symbol} (h : L[k]? = some (a, b, .rule s)) (hj : Joins L k u v) : RulePair L u v := by
  obtain ⟨a', b', q, h1, h2⟩ := hj
  rw [h] at h1; cases h1
  have hm := List.mem_of_getElem? h
  rcases h2 with ⟨rfl, rfl⟩ | ⟨rfl, rfl⟩
  · exact ⟨s, .inl hm⟩
  · exact ⟨s, .inr hm⟩

/-- Two entries of the log do not join the same ids. -/
theorem joins_unique {L : Log} (hf : Fresh L) {k k' : Nat} {u v : Id} (h : Joins L k u v) (h' : Joins L k' u v) : k = k' := by
  rcases Nat.lt_trichotomy k k' with hlt | rfl | hlt
  · exact absurd (h.conn hlt) (hf.joins h')
  · rfl
  · exact absurd (h'.conn hlt) (hf.joins h)

theorem RulePair.ne {L : Log} (hf : Fresh L) {u v : Id} (h : RulePair L u v) : u ≠ v := by
  rintro rfl
  obtain ⟨k, _, _, _, _, hj⟩ := h.joins
  exact hf.joins hj (.refl _)

theorem RulePair.dist {nodes : List (ENode Op)} {L : Log} (hf : Fresh L) {u v : Id} (h : RulePair L u v) : D nodes L u v = 1 := by
  obtain ⟨k, a, b, s, h1, hj⟩ := h.joins
  rw [D_trail hf (Trail.cons hj .nil) (by simp)]
  simp [wt_rule h1]

open Classical in
/-- What a step from `u` to `v` costs. -/
noncomputable def pw (nodes : List (ENode Op)) (L : Log) (c : Connection) : Nat :=
  if RulePair L c.current c.next then 1 else Explain.kd nodes L c.current c.next

/-- A step of a path whose cost is the one counted. -/
def StepOK (nodes : List (ENode Op)) (L : Log) (c : Connection) : Prop :=
  (c.justification.isRule = true ∧ RulePair L c.current c.next) ∨
  (c.justification = .congruence ∧ ¬ RulePair L c.current c.next ∧ CongrIds nodes L c.current c.next)

namespace Explain
variable {x : Explain Op} {nodes : List (ENode Op)} {conn : Id → Id → Prop} {L : Log} {cn : List (List Id)}

theorem step_idx (hx : XInv nodes conn x L) {c : Connection} {k : Nat} (h : IdxOf L c k) : StepOK nodes L c ∧ pw nodes L c = wt nodes L k := by
  have hfr : Fresh L := hx.logFresh
  have hlc : LogCongr nodes L := hx.logCongr
  obtain ⟨hj, a, b, h1⟩ := h
  cases hju : c.justification with
  | rule s =>
    rw [hju] at h1
    have hr := RulePair.of_joins h1 hj
    exact ⟨.inl ⟨by rw [hju]; rfl, hr⟩, by rw [pw, if_pos hr, wt_rule h1]⟩
  | congruence =>
    rw [hju] at h1
    have hn : ¬ RulePair L c.current c.next := by
      intro hr
      obtain ⟨k', a', b', s, g1, g2⟩ := hr.joins
      have := joins_unique hfr hj g2
      subst this
      rw [h1] at g1; cases g1
    obtain ⟨na, nb, e1, e2, e3, e4⟩ := hlc k a b h1
    have e4' : List.Forall₂ (Conn L) na.children nb.children := e4.imp (fun _ _ h => conn_of_take h)
    have hw := wt_congr hfr hlc h1 e1 e2
    obtain ⟨a', b', q, g1, g2⟩ := hj
    rw [h1] at g1; cases g1
    have hc : CongrIds nodes L a b := ⟨na, nb, e1, e2, e3, e4'⟩
    rw [pw, if_neg hn, hw]
    rcases g2 with ⟨g2, g3⟩ | ⟨g2, g3⟩
    · exact ⟨.inr ⟨hju, hn, by rw [g2, g3]; exact hc⟩, by rw [g2, g3]; exact kd_eq e1 e2⟩
    · have hc' : CongrIds nodes L b a := ⟨nb, na, e2, e1, e3.symm, (forall₂_flip e4').imp (fun _ _ h => Conn.symm h)⟩
      exact ⟨.inr ⟨hju, hn, by rw [g2, g3]; exact hc'⟩, by rw [g2, g3, kd_symm hfr hc']; exact kd_eq e1 e2⟩

theorem unopt_cost (hf : Fo nodes conn L x) {f : Nat} {l r : Id} (hl : l < nodes.length) (hr : r < nodes.length) (hc : Conn L l r)
    {lc rc : List Connection} (h : getPathUnoptimized x f l r = .ok (lc, rc)) :
    (∀ c ∈ lc ++ rc.reverse.map flip, StepOK nodes L c) ∧ ((lc ++ rc.reverse.map flip).map (pw nodes L)).sum = D nodes L l r := by
  obtain ⟨f0, h0⟩ := getPathUnoptimized_ok hf.inv hl hr ((hf.inv.logConn l r hl hr).1 hc)
  obtain ⟨lc', rc', ks, h1, h2, h3, h4⟩ := h0 (max f f0) (le_max_right _ _)
  have hm := FuelMono.le (fun f => getPathUnoptimized_mono x f l r) (le_max_left f f0)
  rw [h, h1] at hm
  rcases hm with hm | hm
  · cases hm
  cases hm
  refine ⟨fun c hc => ?_, ?_⟩
  · obtain ⟨k, _, hk⟩ := forall₂_mem_left h2 hc
    exact (step_idx hf.inv hk).1
  · rw [D_trail hf.inv.logFresh h3 h4]
    congr 1
    clear h3 h4 h1 h h0
    generalize lc ++ rc.reverse.map flip = path at h2
    induction h2 with
    | nil => rfl
    | cons h _ ih => rw [List.map_cons, List.map_cons, (step_idx hf.inv h).2, ih]

theorem rulePair_of_direct (hn : NbLog x L) {l r : Id} (h : DirectStep x l r) : RulePair L l r := by
  obtain ⟨e, nb, h1, h2, h3, h4⟩ := h
  cases hj : nb.justification with
  | congruence => rw [hj] at h4; cases h4
  | rule s =>
    have := hn l e h1 nb h2 s hj
    rw [h3] at this
    exact ⟨s, this⟩

theorem direct_of_rulePair (hf : Fo nodes conn L x) {l r : Id} (h : RulePair L l r) : DirectStep x l r := by
  obtain ⟨s, h | h⟩ := h
  · obtain ⟨⟨e, h1, h2⟩, _⟩ := hf.logNb _ _ _ h
    exact ⟨e, _, h1, h2, rfl, rfl⟩
  · obtain ⟨_, ⟨e, h1, h2⟩⟩ := hf.logNb _ _ _ h
    exact ⟨e, _, h1, h2, rfl, rfl⟩

theorem getNeighbor_cases (hf : Fo nodes conn L x) (hn : NbLog x L) {l nx : Id} {c : Connection} (h : getNeighbor x l nx = .ok c) :
    c.current = l ∧ c.next = nx ∧ ((c.justification.isRule = true ∧ RulePair L l nx) ∨ (c.justification = .congruence ∧ ¬ RulePair L l nx)) := by
  unfold getNeighbor at h
  obtain ⟨e, he, h⟩ := bind_eq_ok.1 h
  rw [getIdx_eq_ok] at he
  cases hfi : e.neighbors.find? (fun c => decide (c.next = nx) && c.justification.isRule) with
  | none =>
    rw [hfi] at h
    cases h
    refine ⟨rfl, rfl, .inr ⟨rfl, fun hr => ?_⟩⟩
    obtain ⟨e', nb, h1, h2, h3, h4⟩ := direct_of_rulePair hf hr
    rw [he] at h1; cases h1
    have := List.find?_eq_none.1 hfi nb h2
    simp [h3, h4] at this
  | some d =>
    rw [hfi] at h
    cases h
    have h1 := List.find?_some hfi
    have h2 := List.mem_of_find?_eq_some hfi
    simp only [Bool.and_eq_true, decide_eq_true_eq] at h1
    exact ⟨(hf.nb l e he c h2).1, h1.1, .inl ⟨h1.2, rulePair_of_direct hn ⟨e, c, he, h2, h1.1, h1.2⟩⟩⟩

/-- Ids joined by a rule stand for different terms. -/
def Apart (nodes : List (ENode Op)) (L : Log) : Prop := ∀ u v, RulePair L u v → ∀ t, TermOf nodes u t → ¬ TermOf nodes v t

theorem same_of_zero (hf : Fo nodes conn L x) {u v : Id} (h : CongrIds nodes L u v) (h0 : kd nodes L u v = 0) :
    ∃ t, TermOf nodes u t ∧ TermOf nodes v t := by
  obtain ⟨na, nb, ha, hb, ho, hc⟩ := h
  rw [kd_eq ha hb] at h0
  obtain ⟨⟨o, ss⟩, hs⟩ := hf.dag.exists_term u (getElem?_lt ha)
  obtain ⟨⟨o', ts⟩, ht⟩ := hf.dag.exists_term v (getElem?_lt hb)
  obtain ⟨n1, e1, e2, e3⟩ := termOf_iff.1 hs
  obtain ⟨n2, e4, e5, e6⟩ := termOf_iff.1 ht
  rw [ha] at e1; cases e1
  rw [hb] at e4; cases e4
  have key : ∀ (xs ys : List Id) (ss ts : List (Term Op)), List.Forall₂ (Conn L) xs ys →
      ((xs.zip ys).map (fun p => D nodes L p.1 p.2)).sum = 0 →
      List.Forall₂ (TermOf nodes) xs ss → List.Forall₂ (TermOf nodes) ys ts → ss = ts := by
    intro xs ys ss ts hxy
    induction hxy generalizing ss ts with
    | nil => intro _ h h'; cases h; cases h'; rfl
    | cons hc _ ihc =>
      intro hz h h'
      simp only [List.zip_cons_cons, List.map_cons, List.sum_cons, Nat.add_eq_zero_iff] at hz
      cases h with
      | cons hh h =>
        cases h' with
        | cons hh' h' =>
          rw [zero_term hf.dag hf.inv.logFresh hf.inv.logCongr L.length _ _ (by rw [List.take_length]; exact hc) hz.1 _ _ hh hh', ihc _ _ hz.2 h h']
  have hss := key _ _ _ _ hc h0 e3 e6
  subst hss
  have : o = o' := by rw [← e2, ← e5, ho]
  subst this
  exact ⟨_, hs, ht⟩

theorem memo_step (hf : Fo nodes conn L x) (hc : CnOK x nodes L cn) (hn : NbLog x L) (hap : Apart nodes L) {c0 c : Connection} {w : Nat}
    (hg : GC x nodes L cn c0 w) (h : getNeighbor x c0.current c0.next = .ok c) :
    c.current = c0.current ∧ c.next = c0.next ∧ StepOK nodes L c ∧ pw nodes L c ≤ w := by
  obtain ⟨h1, h2, h3⟩ := getNeighbor_cases hf hn h
  refine ⟨h1, h2, ?_⟩
  unfold StepOK pw
  rw [h1, h2]
  rcases hg with ⟨g1, rfl, e, g2, g3⟩ | ⟨g1, rfl, g2⟩
  · have hr : RulePair L c0.current c0.next := rulePair_of_direct hn ⟨e, c0, g2, g3, rfl, g1⟩
    rcases h3 with ⟨h3, _⟩ | ⟨_, h3⟩
    · exact ⟨.inl ⟨h3, hr⟩, by rw [if_pos hr]⟩
    · exact absurd hr h3
  · have hci := hc.has g2
    rcases h3 with ⟨h3, hr⟩ | ⟨h3, hr⟩
    · refine ⟨.inl ⟨h3, hr⟩, ?_⟩
      rw [if_pos hr]
      by_contra hlt
      obtain ⟨t, h5, h6⟩ := same_of_zero hf hci (by omega)
      exact hap _ _ hr t h5 h6
    · exact ⟨.inr ⟨h3, hr, hci⟩, by rw [if_neg hr]⟩

theorem mp_cost (hf : Fo nodes conn L x) (hc : CnOK x nodes L cn) (hn : NbLog x L) (hap : Apart nodes L) {r i : Id} {k : Nat} (h : MP x nodes L cn r i k) :
    ∀ {f : Nat} {lc rc : List Connection}, getPath x f i r = .ok (lc, rc) →
      (∀ c ∈ lc ++ rc.reverse.map flip, StepOK nodes L c) ∧ ((lc ++ rc.reverse.map flip).map (pw nodes L)).sum ≤ k := by
  induction h with
  | nil =>
    intro f lc rc h
    cases f with
    | zero => cases h
    | succ f => rw [getPath, if_pos rfl] at h; cases h; simp
  | @step l cost c0 w k h1 h2 h3 h4 h5 ih =>
    intro f lc rc h
    cases f with
    | zero => cases h
    | succ f =>
      rw [getPath, if_neg h1, h2] at h
      simp only at h
      obtain ⟨c, g1, h⟩ := bind_eq_ok.1 h
      obtain ⟨⟨lc', rc'⟩, g2, h⟩ := bind_eq_ok.1 h
      cases h
      obtain ⟨i1, i2⟩ := ih g2
      rw [← h3] at g1
      obtain ⟨j1, j2, j3, j4⟩ := memo_step hf hc hn hap h4 g1
      constructor
      · intro d hd
        rcases List.mem_cons.1 (show d ∈ c :: (lc' ++ rc'.reverse.map flip) from hd) with rfl | hd
        · exact j3
        · exact i1 d hd
      · simp only [List.cons_append, List.map_cons, List.sum_cons]
        omega

/-- Every path costs as much as (`R` is `=`), or no more than (`R` is `≤`), the distance. -/
def PathCost (R : Nat → Nat → Prop) (x : Explain Op) (nodes : List (ENode Op)) (L : Log) : Prop :=
  ∀ f l r lc rc, l < nodes.length → r < nodes.length → Conn L l r → getPath x f l r = .ok (lc, rc) →
    (∀ c ∈ lc ++ rc.reverse.map flip, StepOK nodes L c) ∧ R (((lc ++ rc.reverse.map flip).map (pw nodes L)).sum) (D nodes L l r)

theorem direct_path (hf : Fo nodes conn L x) (hn : NbLog x L) {l r : Id} {cost : Nat} (hne : l ≠ r) (hg : x.shortMemo.get? (l, r) = some (cost, r))
    (hd : DirectStep x l r) {f : Nat} {lc rc : List Connection} (h : getPath x f l r = .ok (lc, rc)) :
    (∀ c ∈ lc ++ rc.reverse.map flip, StepOK nodes L c) ∧ ((lc ++ rc.reverse.map flip).map (pw nodes L)).sum = D nodes L l r := by
  have hr := rulePair_of_direct hn hd
  cases f with
  | zero => cases h
  | succ f =>
    rw [getPath, if_neg hne, hg] at h
    simp only at h
    obtain ⟨c, g1, h⟩ := bind_eq_ok.1 h
    obtain ⟨⟨lc', rc'⟩, g2, h⟩ := bind_eq_ok.1 h
    cases h
    cases f with
    | zero => cases g2
    | succ f =>
      rw [getPath, if_pos rfl] at g2
      cases g2
      obtain ⟨h1, h2, h3⟩ := getNeighbor_cases hf hn g1
      have h4 : c.justification.isRule = true := h3.elim (·.1) (fun h => absurd hr h.2)
      rw [hr.dist hf.inv.logFresh]
      have hr' : RulePair L c.current c.next := by rw [h1, h2]; exact hr
      refine ⟨?_, by simp [pw, if_pos hr']⟩
      intro d hd
      rw [List.mem_singleton.1 (show d ∈ [c] from by simpa using hd)]
      exact .inl ⟨h4, hr'⟩

theorem memo_cost (hf : Fo nodes conn L x) (hc : CnOK x nodes L cn) (hn : NbLog x L) (hap : Apart nodes L) (hm : MemoInv x nodes L cn) : PathCost (· ≤ ·) x nodes L := by
  intro f l r lc rc hl hr hlr h
  by_cases hne : l = r
  · subst hne
    cases f with
    | zero => cases h
    | succ f => rw [getPath, if_pos rfl] at h; cases h; simp
  · cases hg : x.shortMemo.get? (l, r) with
    | none =>
      cases f with
      | zero => cases h
      | succ f =>
        rw [getPath, if_neg hne, hg] at h
        obtain ⟨h1, h2⟩ := unopt_cost hf hl hr hlr h
        exact ⟨h1, le_of_eq h2⟩
    | some v =>
      obtain ⟨cost, nx⟩ := v
      obtain ⟨k, h1, h2 | ⟨rfl, h2⟩⟩ := hm l r cost nx hg hne hl hr hlr
      · obtain ⟨g1, g2⟩ := mp_cost hf hc hn hap h1 h
        exact ⟨g1, le_trans g2 h2⟩
      · obtain ⟨g1, g2⟩ := direct_path hf hn hne hg h2 h
        exact ⟨g1, le_of_eq g2⟩

theorem direct_cost (hf : Fo nodes conn L x) (hn : NbLog x L) (hm : DirectMemo x) : PathCost (· = ·) x nodes L := by
  intro f l r lc rc hl hr hlr h
  by_cases hne : l = r
  · subst hne
    cases f with
    | zero => cases h
    | succ f => rw [getPath, if_pos rfl] at h; cases h; simp [D_self hf.inv.logFresh]
  · cases hg : x.shortMemo.get? (l, r) with
    | none =>
      cases f with
      | zero => cases h
      | succ f =>
        rw [getPath, if_neg hne, hg] at h
        exact unopt_cost hf hl hr hlr h
    | some v =>
      obtain ⟨cost, nx⟩ := v
      obtain ⟨rfl, h2⟩ := hm l r cost nx hg
      exact direct_path hf hn hne hg h2 h

/-! ### Rules applied in the trees built -/

open TreeTerm

theorem rulesProof_cons (t : TreeTerm Op) (ts : List (TreeTerm Op)) : rulesProof (t :: ts) = rulesAll t.childProofs + rulesSteps ts := by
  cases t; rw [rulesProof]; rfl

theorem rules_eq (t : TreeTerm Op) : rules t = (if t.bwd.isSome || t.fwd.isSome then 1 else 0) + rulesAll t.childProofs := by
  cases t; rw [rules]; rfl

theorem rulesSteps_append (ts ts' : List (TreeTerm Op)) : rulesSteps (ts ++ ts') = rulesSteps ts + rulesSteps ts' := by
  induction ts with
  | nil => simp [rulesSteps]
  | cons t ts ih => rw [List.cons_append, rulesSteps, rulesSteps, ih]; omega

theorem rulesAll_append (ts ts' : List (List (TreeTerm Op))) : rulesAll (ts ++ ts') = rulesAll ts + rulesAll ts' := by
  induction ts with
  | nil => simp [rulesAll]
  | cons t ts ih => rw [List.cons_append, rulesAll, rulesAll, ih]; omega

/-- No rules in the cache of terms. -/
def NodeCache (c : AMap Id (TreeTerm Op)) : Prop := ∀ i t, c.get? i = some t → rules t = 0

theorem nodeToExplanation_rules : ∀ (f : Nat) (i : Id) (c : AMap Id (TreeTerm Op)) (t : TreeTerm Op) (c' : AMap Id (TreeTerm Op)),
    nodeToExplanation nodes f i c = .ok (t, c') → NodeCache c → rules t = 0 ∧ NodeCache c' := by
  intro f
  induction f with
  | zero => intro i c t c' h; cases h
  | succ f ih =>
    intro i c t c' h hc
    rw [nodeToExplanation] at h
    cases hg : c.get? i with
    | some t0 => rw [hg] at h; cases h; exact ⟨hc i t hg, hc⟩
    | none =>
      rw [hg] at h
      simp only at h
      obtain ⟨n, _, h⟩ := bind_eq_ok.1 h
      obtain ⟨⟨ts, c1⟩, h1, h⟩ := bind_eq_ok.1 h
      cases h
      have key : ∀ (l : List Id) (acc acc' : List (List (TreeTerm Op)) × AMap Id (TreeTerm Op)),
          l.foldlM (fun (acc : List (List (TreeTerm Op)) × AMap Id (TreeTerm Op)) c => do
            let (t, cache) ← nodeToExplanation nodes f c acc.2
            return (acc.1 ++ [[t]], cache)) acc = .ok acc' → rulesAll acc.1 = 0 → NodeCache acc.2 → rulesAll acc'.1 = 0 ∧ NodeCache acc'.2 := by
        intro l
        induction l with
        | nil => intro acc acc' h h1 h2; cases h; exact ⟨h1, h2⟩
        | cons a l ihl =>
          intro acc acc' h h1 h2
          rw [List.foldlM_cons] at h
          obtain ⟨acc1, h3, h⟩ := bind_eq_ok.1 h
          obtain ⟨⟨t, c2⟩, h4, h3⟩ := bind_eq_ok.1 h3
          cases h3
          obtain ⟨h5, h6⟩ := ih _ _ _ _ h4 h2
          refine ihl _ _ h ?_ h6
          rw [rules_eq] at h5
          simp only [rulesAll_append, rulesAll, rulesProof_cons, rulesSteps, h1]
          omega
      obtain ⟨h2, h3⟩ := key _ _ _ h1 rfl hc
      have h4 : rules (TreeTerm.new n.op ts) = 0 := by simp [TreeTerm.new, rules, h2]
      refine ⟨h4, ?_⟩
      intro j t hj
      rw [AMap.get?_insert] at hj
      split at hj
      · cases hj; exact h4
      · exact h3 j t hj

/-- The caches hold trees that apply as many rules (`R` is `=`), or no more rules (`R` is `≤`), than counted. -/
def CacheCost (R : Nat → Nat → Prop) (nodes : List (ENode Op)) (L : Log) (cs : Caches Op) : Prop :=
  (∀ u v t, cs.1.get? (u, v) = some t → ∀ c : Connection, c.current = u → c.next = v → R (rules t) (pw nodes L c)) ∧ NodeCache cs.2

/-- The two relations used. -/
structure CostRel (R : Nat → Nat → Prop) : Prop where
  refl : ∀ n, R n n
  trans : ∀ {a b c}, R a b → R b c → R a c
  add : ∀ {a b c d}, R a b → R c d → R (a + c) (b + d)

theorem costRel_eq : CostRel (· = ·) := ⟨fun _ => rfl, fun h h' => h.trans h', fun h h' => by omega⟩

theorem costRel_le : CostRel (· ≤ ·) := ⟨fun _ => le_refl _, fun h h' => le_trans h h', fun h h' => by omega⟩

theorem explain_rules {R : Nat → Nat → Prop} (hR : CostRel R) (hd : Dag nodes) (hp : PathCost R x nodes L) : ∀ (f : Nat),
    (∀ (l r : Id) (cs : Caches Op) (p : List (TreeTerm Op)) (cs' : Caches Op), l < nodes.length → r < nodes.length → Conn L l r →
      CacheCost R nodes L cs → explainEnodes x nodes f l r cs = .ok (p, cs') → R (rulesProof p) (D nodes L l r) ∧ CacheCost R nodes L cs') ∧
    (∀ (c : Connection) (cs : Caches Op) (t : TreeTerm Op) (cs' : Caches Op), StepOK nodes L c →
      CacheCost R nodes L cs → explainAdjacent x nodes f c cs = .ok (t, cs') → R (rules t) (pw nodes L c) ∧ CacheCost R nodes L cs') := by
  have hins : ∀ (c : Connection) (cs : Caches Op) (t : TreeTerm Op) (nc : AMap Id (TreeTerm Op)), CacheCost R nodes L cs → NodeCache nc →
      R (rules t) (pw nodes L c) → CacheCost R nodes L (cs.1.insert (c.current, c.next) t, nc) := by
    intro c cs t nc h1 h2 h3
    refine ⟨?_, h2⟩
    intro u v t' hg d e1 e2
    rw [AMap.get?_insert] at hg
    split at hg
    · rename_i h
      cases hg
      cases h
      unfold pw at h3 ⊢
      rw [e1, e2]
      exact h3
    · exact h1.1 u v t' hg d e1 e2
  intro f
  induction f with
  | zero => exact ⟨fun l r cs p cs' _ _ _ _ h => (by cases h), fun c cs t cs' _ _ h => (by cases h)⟩
  | succ f ih =>
    obtain ⟨ihE, ihA⟩ := ih
    constructor
    · intro l r cs p cs' hl hr hlr hcs h
      rw [explainEnodes] at h
      obtain ⟨⟨t0, nc⟩, h1, h⟩ := bind_eq_ok.1 h
      obtain ⟨⟨lc, rc⟩, h2, h⟩ := bind_eq_ok.1 h
      obtain ⟨h3, h4⟩ := nodeToExplanation_rules _ _ _ _ _ h1 hcs.2
      obtain ⟨h5, h6⟩ := hp f l r lc rc hl hr hlr h2
      simp only at h
      have key : ∀ (path : List Connection) (ts : List (TreeTerm Op)) (cs : Caches Op) (res : List (TreeTerm Op) × Caches Op),
          (∀ c ∈ path, StepOK nodes L c) → CacheCost R nodes L cs →
          path.foldlM (fun (acc : List (TreeTerm Op) × Caches Op) c => do
            let (t, cs) ← explainAdjacent x nodes f c acc.2
            return (acc.1 ++ [t], cs)) (ts, cs) = .ok res →
          ∃ ts', res.1 = ts ++ ts' ∧ R (rulesSteps ts') ((path.map (pw nodes L)).sum) ∧ CacheCost R nodes L res.2 := by
        intro path
        induction path with
        | nil => intro ts cs res _ hcs h; cases h; exact ⟨[], by simp, by simpa [rulesSteps] using hR.refl 0, hcs⟩
        | cons c path ihp =>
          intro ts cs res hs hcs h
          rw [List.foldlM_cons] at h
          obtain ⟨acc1, g1, h⟩ := bind_eq_ok.1 h
          obtain ⟨⟨t, cs1⟩, g2, g1⟩ := bind_eq_ok.1 g1
          cases g1
          obtain ⟨g3, g4⟩ := ihA c cs t cs1 (hs c (by simp)) hcs g2
          obtain ⟨ts', g5, g6, g7⟩ := ihp _ _ _ (fun d hd => hs d (by simp [hd])) g4 h
          refine ⟨t :: ts', by rw [g5]; simp, ?_, g7⟩
          rw [rulesSteps, List.map_cons, List.sum_cons]
          exact hR.add g3 g6
      obtain ⟨ts', k1, k2, k3⟩ := key _ _ (cs.1, nc) _ h5 ⟨hcs.1, h4⟩ h
      refine ⟨?_, k3⟩
      simp only at k1
      rw [k1, List.singleton_append, rulesProof_cons]
      have : rulesAll t0.childProofs = 0 := by rw [rules_eq] at h3; omega
      rw [this, Nat.zero_add]
      exact hR.trans k2 h6
    · intro c cs t cs' hs hcs h
      rw [explainAdjacent] at h
      cases hg : cs.1.get? (c.current, c.next) with
      | some t0 => rw [hg] at h; cases h; exact ⟨hcs.1 _ _ _ hg c rfl rfl, hcs⟩
      | none =>
        rw [hg] at h
        simp only at h
        rcases hs with ⟨hs1, hs2⟩ | ⟨hs1, hs2, na, nb, e1, e2, e3, e4⟩
        · cases hj : c.justification with
          | congruence => rw [hj] at hs1; cases hs1
          | rule s =>
            rw [hj] at h
            simp only at h
            obtain ⟨⟨t1, nc⟩, h1, h⟩ := bind_eq_ok.1 h
            cases h
            obtain ⟨h3, h4⟩ := nodeToExplanation_rules _ _ _ _ _ h1 hcs.2
            have hpw : pw nodes L c = 1 := by rw [pw, if_pos hs2]
            have h0 : rulesAll t1.childProofs = 0 := by rw [rules_eq] at h3; omega
            have hr : rules (if c.isRewriteForward then TreeTerm.mk t1.op t1.bwd (some s) t1.childProofs
                else TreeTerm.mk t1.op (some s) t1.fwd t1.childProofs) = 1 := by
              split <;> simp [rules, h0]
            have h5 : R (rules (if c.isRewriteForward then TreeTerm.mk t1.op t1.bwd (some s) t1.childProofs
                else TreeTerm.mk t1.op (some s) t1.fwd t1.childProofs)) (pw nodes L c) := by rw [hr, hpw]; exact hR.refl 1
            exact ⟨h5, hins c cs _ nc hcs h4 h5⟩
        · rw [hs1] at h
          simp only [getIdx_eq_ok.2 e1, getIdx_eq_ok.2 e2, ok_bind] at h
          split at h
          · obtain ⟨⟨sub, cs1⟩, h1, h⟩ := bind_eq_ok.1 h
            cases h
            have key : ∀ (ps : List (Id × Id)) (acc acc' : List (List (TreeTerm Op)) × Caches Op),
                (∀ p q, (p, q) ∈ ps → p < nodes.length ∧ q < nodes.length ∧ Conn L p q) → CacheCost R nodes L acc.2 →
                ps.foldlM (fun (acc : List (List (TreeTerm Op)) × Caches Op) p => do
                  let (q, cs) ← explainEnodes x nodes f p.1 p.2 acc.2
                  return (acc.1 ++ [q], cs)) acc = .ok acc' →
                ∃ sub, acc'.1 = acc.1 ++ sub ∧ R (rulesAll sub) ((ps.map (fun p => D nodes L p.1 p.2)).sum) ∧ CacheCost R nodes L acc'.2 := by
              intro ps
              induction ps with
              | nil => intro acc acc' _ hcs h; cases h; exact ⟨[], by simp, by simpa [rulesAll] using hR.refl 0, hcs⟩
              | cons pq ps ihp =>
                obtain ⟨p, q⟩ := pq
                intro acc acc' hps hcs h
                rw [List.foldlM_cons] at h
                obtain ⟨acc1, g1, h⟩ := bind_eq_ok.1 h
                obtain ⟨⟨t, cs1⟩, g2, g1⟩ := bind_eq_ok.1 g1
                cases g1
                obtain ⟨i1, i2, i3⟩ := hps p q (by simp)
                obtain ⟨g3, g4⟩ := ihE p q _ t cs1 i1 i2 i3 hcs g2
                obtain ⟨sub, g5, g6, g7⟩ := ihp _ _ (fun p q h => hps p q (by simp [h])) g4 h
                refine ⟨t :: sub, by rw [g5]; simp, ?_, g7⟩
                rw [rulesAll, List.map_cons, List.sum_cons]
                exact hR.add g3 g6
            obtain ⟨sub', k1, k2, k3⟩ := key _ _ _ (by
              intro p q hpq
              have hm := List.of_mem_zip hpq
              have hp := hd _ _ e1 p hm.1
              have hq := hd _ _ e2 q hm.2
              have := getElem?_lt e1
              have := getElem?_lt e2
              exact ⟨by omega, by omega, (List.forall₂_iff_zip.1 e4).2 hpq⟩) hcs h1
            simp only [List.nil_append] at k1
            subst k1
            have h5 : R (rules (TreeTerm.new na.op sub)) (pw nodes L c) := by
              rw [pw, if_neg hs2, kd_eq e1 e2, childD]
              simpa [TreeTerm.new, rules] using k2
            exact ⟨h5, hins c cs1 _ cs1.2 k3 k3.2 h5⟩
          · cases h

end Explain

namespace EGraph
open Explain TreeTerm
variable {Dat : Type} [Lang Op] {C C' : Cfg Op Dat} {eg : EGraph Op Dat} {L : Log} {cn : List (List Id)}

/-- A request with the optimization on, or after such requests. -/
theorem request_rules (hg : Good C eg) {ch : Choices} {x : Explain Op} (hx : eg.explain = some x) (hr : ReqReady ch eg x L cn)
    (hn : NbLog x L) (hap : Apart eg.nodes L) {fuel : Nat} {a b : Id} {p : List (TreeTerm Op)} {eg' : EGraph Op Dat}
    (he : eg.explainIdEquivalence ch fuel a b = .ok (p, eg')) :
    (∃ x', eg' = { eg with explain := some x' } ∧ ReqReady ch eg' x' L cn ∧ NbLog x' L) ∧ rulesProof p ≤ Egg.D eg.nodes L a b := by
  obtain ⟨ha, hb, hrt, y, x', hy, rfl, h1, _, _, cs, h3⟩ := explainId_ok hg he
  rw [hx] at hy; cases hy
  have hab : Conn L a b := (hr.fo.inv.logConn a b ha hb).2 hrt
  have hm : MemoInv x' eg.nodes L cn := by
    obtain ⟨f0, ⟨q, y⟩, ⟨_, g1⟩, g2⟩ := request_ok hr.fo ch hr.cls hr.cnOf hr.cnOk hr.memo ⟨ha, hb, hab⟩
    have he' : x.explainEquivalence ch eg.nodes eg.uf eg.classes.keys fuel a b = .ok (p, x') := by
      unfold explainIdEquivalence at he
      rw [hg.inv.find ha, hg.inv.find hb] at he
      simp only [ok_bind, hrt, ne_eq, not_true, if_false, hx] at he
      obtain ⟨⟨p', y⟩, k1, k2⟩ := bind_eq_ok.1 he
      simp only at k2
      injection k2 with k2
      injection k2 with k2 k3
      have k3 := congrArg EGraph.explain k3
      simp only [Option.some.injEq] at k3
      rw [k1, k2, k3]
    have := (FuelMono.eq_or (fun f => explainEquivalence_mono x ch eg.nodes eg.uf eg.classes.keys a b f) he') f0
    have g2 : x.explainEquivalence ch eg.nodes eg.uf eg.classes.keys f0 a b = .ok (q, y) := g2 f0 (le_refl _)
    rw [g2] at this
    rcases this with h | h
    · cases h
    · injection h with h
      rw [Prod.mk.injEq] at h
      rw [← h.2]; exact g1
  have hf' := hr.fo.same h1
  have hc' := hr.cnOk.same h1
  have hn' := hn.same h1.find
  refine ⟨⟨x', rfl, ⟨hf', hr.cls, hr.cnOf.same h1, hc', hm⟩, hn'⟩, ?_⟩
  exact ((explain_rules costRel_le hf'.dag (memo_cost hf' hc' hn' hap hm) fuel).1 a b _ p cs ha hb hab
    ⟨by intro u v t h; simp [AMap.get?] at h, by intro i t h; simp [AMap.get?] at h⟩ h3).1

theorem asks_inv (hC : C.optimized) {ch : Choices} (fuel : Nat) (hap : Apart eg.nodes L) : ∀ (as : List Ask) (x : Explain Op) (ps : List (List (TreeTerm Op))) (eg' : EGraph Op Dat),
    Good C { eg with explain := some x } → ReqReady ch { eg with explain := some x } x L cn → NbLog x L →
    asks ch fuel as { eg with explain := some x } = .ok (ps, eg') →
    ∃ x', eg' = { eg with explain := some x' } ∧ Good C eg' ∧ ReqReady ch eg' x' L cn ∧ NbLog x' L := by
  intro as
  induction as with
  | nil => intro x ps eg' hg hr hn h; cases h; exact ⟨x, rfl, hg, hr, hn⟩
  | cons q as ih =>
    intro x ps eg' hg hr hn h
    cases q with
    | lengths on =>
      simp only [asks] at h
      have h1 : asks ch fuel as { eg with explain := some { x with optimize := on } } = .ok (ps, eg') := by
        cases on <;> exact h
      refine ih _ _ _ ?_ (hr.lengths on) (hn.same rfl) h1
      cases on
      · exact (noOptimize_good hg (eg' := { eg with explain := some { x with optimize := false } }) rfl).1
      · exact (optimize_good hg (eg' := { eg with explain := some { x with optimize := true } }) rfl).1
    | explain a b =>
      simp only [asks] at h
      obtain ⟨⟨p, eg1⟩, h1, h⟩ := bind_eq_ok.1 h
      obtain ⟨⟨ps', eg2⟩, h2, h⟩ := bind_eq_ok.1 h
      cases h
      obtain ⟨⟨x', rfl, g1, g2⟩, _⟩ := request_rules hg rfl hr hn hap h1
      exact ih x' ps' _ (query_good hg (fun _ _ _ => hC) h1).1 g1 g2 h2

/-- A request with the optimization off, when no request before had it on. -/
theorem unopt_rules (hg : Good C eg) {x : Explain Op} (hx : eg.explain = some x) (ho : x.optimize = false)
    (hf : Fo eg.nodes (fun i j => eg.rt i = eg.rt j) L x) (hm : DirectMemo x)
    (hn : NbLog x L) {ch : Choices} {fuel : Nat} {a b : Id} {p : List (TreeTerm Op)} {eg' : EGraph Op Dat}
    (he : eg.explainIdEquivalence ch fuel a b = .ok (p, eg')) : rulesProof p = Egg.D eg.nodes L a b := by
  obtain ⟨ha, hb, hrt, y, x', hy, rfl, _, _, h2, cs, h3⟩ := explainId_ok hg he
  rw [hx] at hy; cases hy
  have := h2 ho
  subst this
  have hab : Conn L a b := (hf.inv.logConn a b ha hb).2 hrt
  exact ((explain_rules costRel_eq hf.dag (direct_cost hf hn hm) fuel).1 a b _ p cs ha hb hab
    ⟨by intro u v t h; simp [AMap.get?] at h, by intro i t h; simp [AMap.get?] at h⟩ h3).1

end EGraph
end Egg
