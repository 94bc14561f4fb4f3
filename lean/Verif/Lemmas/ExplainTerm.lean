import Verif.Lemmas.TreePath
import Verif.Spec.Extract
/-
Extraction of explanations terminates.
-/
namespace Egg
variable {Op : Type} [DecidableEq Op]

open Classical in
/-- Size of the term an id stands for. -/
noncomputable def tsize (nodes : List (ENode Op)) (i : Id) : Nat :=
  if h : ∃ t, TermOf nodes i t then (Classical.choose h).size else 0

theorem tsize_eq {nodes : List (ENode Op)} {i : Id} {t : Term Op} (h : TermOf nodes i t) : tsize nodes i = t.size := by
  have h' : ∃ t, TermOf nodes i t := ⟨t, h⟩
  rw [tsize, dif_pos h', (Classical.choose_spec h').unique h]

theorem size_lt_of_mem {t : Term Op} {ts : List (Term Op)} (h : t ∈ ts) : t.size ≤ Term.sizes ts := by
  induction ts with
  | nil => simp at h
  | cons a ts ih =>
    rw [Term.sizes]
    rcases List.mem_cons.1 h with rfl | h
    · omega
    · have := ih h; omega

theorem tsize_child {nodes : List (ENode Op)} (hd : Dag nodes) {i c : Id} {n : ENode Op} (hn : nodes[i]? = some n) (hc : c ∈ n.children) :
    tsize nodes c < tsize nodes i := by
  obtain ⟨⟨o, ts⟩, ht⟩ := hd.exists_term i (getElem?_lt hn)
  obtain ⟨n', h1, h2, h3⟩ := termOf_iff.1 ht
  rw [hn] at h1; cases h1
  obtain ⟨t, htm, hct⟩ := forall₂_mem_left h3 hc
  rw [tsize_eq ht, tsize_eq hct, Term.size]
  have := size_lt_of_mem htm
  omega

/-- A congruence step: same operator, children connected. -/
def CongrIds (nodes : List (ENode Op)) (L : Log) (a b : Id) : Prop := ∃ na nb, nodes[a]? = some na ∧ nodes[b]? = some nb ∧
  na.op = nb.op ∧ List.Forall₂ (Conn L) na.children nb.children

/-- Cost of a connection. -/
noncomputable def cw (nodes : List (ENode Op)) (L : Log) (c : Connection) : Nat :=
  match c.justification with
  | .rule _ => 1
  | .congruence => match nodes[c.current]?, nodes[c.next]? with
    | some na, some nb => childD nodes L na nb
    | _, _ => 0

theorem children_zero {nodes : List (ENode Op)} {L : Log} (hd : Dag nodes) (hf : Fresh L) (hl : LogCongr nodes L) {a b : Id}
    {na nb : ENode Op} (ha : nodes[a]? = some na) (hb : nodes[b]? = some nb) (ho : na.op = nb.op)
    (hc : List.Forall₂ (Conn L) na.children nb.children) (h0 : childD nodes L na nb = 0) : tsize nodes a = tsize nodes b := by
  obtain ⟨⟨o, ss⟩, hs⟩ := hd.exists_term a (getElem?_lt ha)
  obtain ⟨⟨o', ts⟩, ht⟩ := hd.exists_term b (getElem?_lt hb)
  rw [tsize_eq hs, tsize_eq ht]
  obtain ⟨n1, e1, e2, e3⟩ := termOf_iff.1 hs
  obtain ⟨n2, e4, e5, e6⟩ := termOf_iff.1 ht
  rw [ha] at e1; cases e1
  rw [hb] at e4; cases e4
  have key : ∀ (xs ys : List Id) (ss ts : List (Term Op)), List.Forall₂ (Conn L) xs ys →
      ((xs.zip ys).map (fun p => D nodes L p.1 p.2)).sum = 0 →
      List.Forall₂ (TermOf nodes) xs ss → List.Forall₂ (TermOf nodes) ys ts → ss = ts := by
    intro xs ys ss ts hxy
    induction hxy generalizing ss ts with
    | nil => intro _ h h'; cases h; cases h'; rfl
    | cons hc _ ihc =>
      intro hz h h'
      simp only [List.zip_cons_cons, List.map_cons, List.sum_cons, Nat.add_eq_zero_iff] at hz
      cases h with
      | cons hh h =>
        cases h' with
        | cons hh' h' =>
          rw [zero_term hd hf hl L.length _ _ (by rw [List.take_length]; exact hc) hz.1 _ _ hh hh', ihc _ _ hz.2 h h']
  rw [key _ _ _ _ hc h0 e3 e6, ← e2, ← e5, ho]

/-- The pair `(p, q)` comes before `(l, r)` in the order that makes the search for explanations
terminate. -/
def Before (nodes : List (ENode Op)) (L : Log) (p q l r : Id) : Prop :=
  D nodes L p q < D nodes L l r ∨ (D nodes L p q = D nodes L l r ∧ tsize nodes p < tsize nodes l)

/-- A step of a path for `(l, r)`: a rule, or a congruence whose children come before. -/
def StepGood (nodes : List (ENode Op)) (L : Log) (l r : Id) (c : Connection) : Prop :=
  c.next < nodes.length ∧ (c.justification = .congruence → ∃ na nb, nodes[c.current]? = some na ∧ nodes[c.next]? = some nb ∧ na.op = nb.op ∧
    List.Forall₂ (Conn L) na.children nb.children ∧ ∀ p q, (p, q) ∈ na.children.zip nb.children → Before nodes L p q l r)

/-- A path that costs at most the distance is good. -/
theorem good_of_cost {nodes : List (ENode Op)} {L : Log} (hd : Dag nodes) (hf : Fresh L) (hl : LogCongr nodes L) {l r : Id} :
    ∀ (path : List Connection) (i : Id), IdPath (fun _ _ _ => True) nodes.length i path r →
      (∀ c ∈ path, c.justification = .congruence → CongrIds nodes L c.current c.next) →
      (path.map (cw nodes L)).sum ≤ D nodes L l r → ((path.map (cw nodes L)).sum = D nodes L l r → tsize nodes i = tsize nodes l) →
      ∀ c ∈ path, StepGood nodes L l r c := by
  intro path
  induction path with
  | nil => intro i _ _ _ _ c hc; simp at hc
  | cons c path ih =>
    intro i hp hcong hle hsz c' hc'
    cases hp with
    | cons hci hp =>
      simp only [List.map_cons, List.sum_cons] at hle hsz
      rcases List.mem_cons.1 hc' with rfl | hc'
      · refine ⟨hci.lt, fun hj => ?_⟩
        obtain ⟨na, nb, h1, h2, h3, h4⟩ := hcong c' (by simp) hj
        refine ⟨na, nb, h1, h2, h3, h4, ?_⟩
        intro p q hpq
        have hw : cw nodes L c' = childD nodes L na nb := by simp [cw, hj, h1, h2]
        have hle' : D nodes L p q ≤ childD nodes L na nb :=
          le_sum_of_mem (List.mem_map.2 ⟨(p, q), hpq, rfl⟩ : D nodes L p q ∈ (na.children.zip nb.children).map (fun p => D nodes L p.1 p.2))
        by_cases he : D nodes L p q = D nodes L l r
        · refine .inr ⟨he, ?_⟩
          rw [← hsz (by omega), ← hci.cur]
          exact tsize_child hd h1 (List.of_mem_zip hpq).1
        · exact .inl (by omega)
      · refine ih c.next hp (fun d hd' => hcong d (by simp [hd'])) (by omega) ?_ c' hc'
        intro he
        have h0 : cw nodes L c = 0 := by omega
        rw [← hsz (by omega)]
        unfold cw at h0
        cases hj : c.justification with
        | rule s => rw [hj] at h0; simp at h0
        | congruence =>
          obtain ⟨na, nb, h1, h2, h3, h4⟩ := hcong c (by simp) hj
          simp only [hj, h1, h2] at h0
          rw [← hci.cur]
          exact (children_zero hd hf hl h1 h2 h3 h4 h0).symm

namespace Explain
variable {x : Explain Op} {nodes : List (ENode Op)} {conn : Id → Id → Prop} {L : Log}

/-- For every pair of connected ids the code finds a good path. -/
def PathGood (x : Explain Op) (nodes : List (ENode Op)) (L : Log) : Prop :=
  ∀ l r, l < nodes.length → r < nodes.length → Conn L l r → ∃ f0, ∀ f, f0 ≤ f → ∃ lc rc, getPath x f l r = .ok (lc, rc) ∧
    ∀ c ∈ lc ++ rc.reverse.map flip, StepGood nodes L l r c

theorem nodeToExplanation_ok (hd : Dag nodes) : ∀ (f : Nat) (i : Id) (c : AMap Id (TreeTerm Op)), i < f → i < nodes.length →
    ∃ t c', nodeToExplanation nodes f i c = .ok (t, c') := by
  intro f
  induction f with
  | zero => intro i c h; omega
  | succ f ih =>
    intro i c hif hi
    rw [nodeToExplanation]
    cases hg : c.get? i with
    | some t => exact ⟨t, c, rfl⟩
    | none =>
      have hn := List.getElem?_eq_getElem hi
      simp only [getIdx_eq_ok.2 hn, ok_bind]
      have key : ∀ (l : List Id) (acc : List (List (TreeTerm Op)) × AMap Id (TreeTerm Op)), (∀ c ∈ l, c < i) → ∃ acc',
          l.foldlM (fun (acc : List (List (TreeTerm Op)) × AMap Id (TreeTerm Op)) c => do
            let (t, cache) ← nodeToExplanation nodes f c acc.2
            return (acc.1 ++ [[t]], cache)) acc = .ok acc' := by
        intro l
        induction l with
        | nil => intro acc _; exact ⟨acc, rfl⟩
        | cons a l ihl =>
          intro acc hl
          have ha := hl a (by simp)
          obtain ⟨t, c', h1⟩ := ih a acc.2 (by omega) (by omega)
          rw [List.foldlM_cons, h1]
          exact ihl _ (fun c hc => hl c (by simp [hc]))
      obtain ⟨acc', h⟩ := key nodes[i].children ([], c) (fun c hc => hd i _ hn c hc)
      rw [h]
      exact ⟨_, _, rfl⟩

theorem bound_all {n : Nat} {P : Id → Id → Prop} {Q : Id → Id → Nat → Prop}
    (h : ∀ p q, p < n → q < n → P p q → ∃ f0, ∀ f, f0 ≤ f → Q p q f) :
    ∃ F, ∀ p q, p < n → q < n → P p q → ∀ f, F ≤ f → Q p q f := by
  classical
  have h1 : ∀ p q, ∃ f0, p < n → q < n → P p q → ∀ f, f0 ≤ f → Q p q f := by
    intro p q
    by_cases hc : p < n ∧ q < n ∧ P p q
    · obtain ⟨f0, hf⟩ := h p q hc.1 hc.2.1 hc.2.2
      exact ⟨f0, fun _ _ _ => hf⟩
    · exact ⟨0, fun a b c => absurd ⟨a, b, c⟩ hc⟩
  choose g hg using h1
  have hb : ∀ (G : Nat → Nat) (n : Nat), ∃ F, ∀ p, p < n → G p ≤ F := by
    intro G n
    induction n with
    | zero => exact ⟨0, by intro p hp; omega⟩
    | succ n ih =>
      obtain ⟨F, hF⟩ := ih
      refine ⟨F + G n, fun p hp => ?_⟩
      by_cases e : p = n
      · subst e; omega
      · have := hF p (by omega); omega
  have hb1 : ∀ p, ∃ F, ∀ q, q < n → g p q ≤ F := fun p => hb (g p) n
  choose G hG using hb1
  obtain ⟨F, hF⟩ := hb G n
  refine ⟨F, fun p q hp hq hpq f hf => hg p q hp hq hpq f ?_⟩
  exact le_trans (hG p q hq) (le_trans (hF p hp) hf)

theorem explain_terminates (hd : Dag nodes) (hL : ∀ a b j, (a, b, j) ∈ L → a < nodes.length ∧ b < nodes.length)
    (hpg : PathGood x nodes L) : ∀ (n m : Nat) (l r : Id), l < nodes.length → r < nodes.length → Conn L l r →
      D nodes L l r = n → tsize nodes l = m →
      ∃ f0, ∀ f, f0 ≤ f → ∀ cs, ∃ p cs', explainEnodes x nodes f l r cs = .ok (p, cs') := by
  intro n
  induction n using Nat.strongRecOn with
  | ind n ihn =>
    intro m
    induction m using Nat.strongRecOn with
    | ind m ihm =>
      intro l r hl hr hc hDn hsm
      obtain ⟨f1, hf1⟩ := hpg l r hl hr hc
      obtain ⟨F, hF⟩ := bound_all (n := nodes.length) (P := fun p q => Conn L p q ∧ Before nodes L p q l r)
        (Q := fun p q f => ∀ cs, ∃ t cs', explainEnodes x nodes f p q cs = .ok (t, cs')) (by
          intro p q hp hq ⟨hpq, hb⟩
          rcases hb with hb | ⟨hb1, hb2⟩
          · exact ihn _ (by omega) _ p q hp hq hpq rfl rfl
          · exact ihm _ (by omega) p q hp hq hpq (by omega) rfl)
      refine ⟨f1 + F + nodes.length + 2, fun f hf cs => ?_⟩
      obtain ⟨f, rfl⟩ : ∃ k, f = k + 1 := ⟨f - 1, by omega⟩
      rw [explainEnodes]
      obtain ⟨t0, nc, h0⟩ := nodeToExplanation_ok hd f l cs.2 (by omega) hl
      obtain ⟨lc, rc, h1, h2⟩ := hf1 f (by omega)
      simp only [h0, h1, ok_bind]
      have adj : ∀ c cs, StepGood nodes L l r c → ∃ t cs', explainAdjacent x nodes f c cs = .ok (t, cs') := by
        intro c cs ⟨hnx, hg⟩
        obtain ⟨f, rfl⟩ : ∃ k, f = k + 1 := ⟨f - 1, by omega⟩
        rw [explainAdjacent]
        cases hcache : cs.1.get? (c.current, c.next) with
        | some t => exact ⟨t, cs, rfl⟩
        | none =>
          simp only
          cases hj : c.justification with
          | rule s =>
            obtain ⟨t, nc, h⟩ := nodeToExplanation_ok hd f c.next cs.2 (by omega) hnx
            simp only [h, ok_bind]
            exact ⟨_, _, rfl⟩
          | congruence =>
            obtain ⟨na, nb, g1, g2, g3, g4, g5⟩ := hg hj
            simp only [getIdx_eq_ok.2 g1, getIdx_eq_ok.2 g2, ok_bind]
            have hm : na.matches nb = true := by
              simp only [ENode.matches, Bool.and_eq_true, decide_eq_true_eq, beq_iff_eq]
              exact ⟨g3, g4.length_eq⟩
            rw [if_pos hm]
            have key : ∀ (ps : List (Id × Id)) (acc : List (List (TreeTerm Op)) × Caches Op),
                (∀ p q, (p, q) ∈ ps → p < nodes.length ∧ q < nodes.length ∧ Conn L p q ∧ Before nodes L p q l r) → ∃ acc',
                ps.foldlM (fun (acc : List (List (TreeTerm Op)) × Caches Op) p => do
                  let (q, cs) ← explainEnodes x nodes f p.1 p.2 acc.2
                  return (acc.1 ++ [q], cs)) acc = .ok acc' := by
              intro ps
              induction ps with
              | nil => intro acc _; exact ⟨acc, rfl⟩
              | cons pq ps ihp =>
                intro acc h
                obtain ⟨p, q⟩ := pq
                obtain ⟨h1, h2, h3, h4⟩ := h p q (by simp)
                obtain ⟨t, cs', h5⟩ := hF p q h1 h2 ⟨h3, h4⟩ f (by omega) acc.2
                rw [List.foldlM_cons]
                simp only [h5, ok_bind]
                exact ihp _ (fun p q hpq => h p q (by simp [hpq]))
            obtain ⟨acc', h⟩ := key (na.children.zip nb.children) ([], cs) (by
              intro p q hpq
              have hm := List.of_mem_zip hpq
              have hp := hd _ _ g1 p hm.1
              have hq := hd _ _ g2 q hm.2
              have := getElem?_lt g1
              have := getElem?_lt g2
              exact ⟨by omega, by omega, (List.forall₂_iff_zip.1 g4).2 hpq, g5 p q hpq⟩)
            rw [h]
            exact ⟨_, _, rfl⟩
      have key : ∀ (path : List Connection) (acc : List (TreeTerm Op) × Caches Op), (∀ c ∈ path, StepGood nodes L l r c) → ∃ acc',
          path.foldlM (fun (acc : List (TreeTerm Op) × Caches Op) c => do
            let (t, cs) ← explainAdjacent x nodes f c acc.2
            return (acc.1 ++ [t], cs)) acc = .ok acc' := by
        intro path
        induction path with
        | nil => intro acc _; exact ⟨acc, rfl⟩
        | cons c path ihp =>
          intro acc h
          obtain ⟨t, cs', h1⟩ := adj c acc.2 (h c (by simp))
          rw [List.foldlM_cons]
          simp only [h1, ok_bind]
          exact ihp _ (fun c hc => h c (by simp [hc]))
      obtain ⟨acc', h⟩ := key (lc ++ rc.reverse.map flip) ([t0], (cs.1, nc)) h2
      exact ⟨_, _, h⟩

/-- The unoptimized path is good. -/
theorem unoptimized_good (hd : Dag nodes) (hx : XInv nodes conn x L) {l r : Id} (hl : l < nodes.length) (hr : r < nodes.length)
    (hc : conn l r) : ∃ f0, ∀ f, f0 ≤ f → ∃ lc rc, getPathUnoptimized x f l r = .ok (lc, rc) ∧
      ∀ c ∈ lc ++ rc.reverse.map flip, StepGood nodes L l r c := by
  obtain ⟨f0, h⟩ := getPathUnoptimized_ok hx hl hr hc
  refine ⟨f0, fun f hf => ?_⟩
  obtain ⟨lc, rc, ks, h1, h2, h3, h4⟩ := h f hf
  refine ⟨lc, rc, h1, ?_⟩
  have hfr : Fresh L := hx.logFresh
  have hlc : LogCongr nodes L := hx.logCongr
  have hcongr : ∀ c k, IdxOf L c k → c.justification = .congruence → CongrIds nodes L c.current c.next ∧ cw nodes L c = wt nodes L k := by
    rintro c k ⟨⟨a, b, q, g1, g2⟩, a', b', g3⟩ hj
    rw [g1] at g3
    cases g3
    rw [hj] at g1
    obtain ⟨na, nb, e1, e2, e3, e4⟩ := hlc k a b g1
    have e4' : List.Forall₂ (Conn L) na.children nb.children := e4.imp (fun _ _ h => conn_of_take h)
    have hw := wt_congr hfr hlc g1 e1 e2
    rcases g2 with ⟨g2, g3⟩ | ⟨g2, g3⟩
    · refine ⟨⟨na, nb, by rw [g2]; exact e1, by rw [g3]; exact e2, e3, e4'⟩, ?_⟩
      simp [cw, hj, g2, g3, e1, e2, hw]
    · refine ⟨⟨nb, na, by rw [g2]; exact e2, by rw [g3]; exact e1, e3.symm, (forall₂_flip e4').imp (fun _ _ h => Conn.symm h)⟩, ?_⟩
      simp [cw, hj, g2, g3, e1, e2, hw, childD_symm hfr e4']
  have hw : ∀ c k, IdxOf L c k → cw nodes L c = wt nodes L k := by
    intro c k hck
    cases hj : c.justification with
    | congruence => exact (hcongr c k hck hj).2
    | rule s =>
      obtain ⟨_, a, b, g⟩ := hck
      rw [hj] at g
      rw [wt_rule g]
      simp [cw, hj]
  have hsum : ((lc ++ rc.reverse.map flip).map (cw nodes L)).sum = D nodes L l r := by
    rw [D_trail hfr h3 h4]
    congr 1
    clear h3 h4 h1
    generalize lc ++ rc.reverse.map flip = path at h2
    induction h2 with
    | nil => rfl
    | cons h _ ih => rw [List.map_cons, List.map_cons, hw _ _ h, ih]
  refine good_of_cost hd hfr hlc _ l ?_ ?_ (le_of_eq hsum) (fun _ => rfl)
  · unfold getPathUnoptimized at h1
    obtain ⟨anc, k1, h1⟩ := bind_eq_ok.1 h1
    obtain ⟨l', k2, h1⟩ := bind_eq_ok.1 h1
    obtain ⟨r', k3, h1⟩ := bind_eq_ok.1 h1
    cases h1
    exact (idPath_of_chain hx k2).append ((idPath_of_chain hx k3).flip hr)
  · intro c hc hj
    obtain ⟨k, _, hk⟩ := forall₂_mem_left h2 hc
    exact (hcongr c k hk hj).1

/-- A memo that only holds direct applications of rules. -/
def DirectMemo (x : Explain Op) : Prop := ∀ l r c nx, x.shortMemo.get? (l, r) = some (c, nx) → nx = r ∧
  ∃ (e : ExplainNode) (nb : Connection), x.find[l]? = some e ∧ nb ∈ e.neighbors ∧ nb.next = r ∧ nb.justification.isRule = true

theorem direct_good (hd : Dag nodes) (hx : XInv nodes conn x L) (hm : DirectMemo x) : PathGood x nodes L := by
  intro l r hl hr hc
  have hc' := (hx.logConn l r hl hr).1 hc
  by_cases hlr : l = r
  · refine ⟨1, fun f hf => ?_⟩
    obtain ⟨f, rfl⟩ : ∃ k, f = k + 1 := ⟨f - 1, by omega⟩
    exact ⟨[], [], by rw [getPath, if_pos hlr], by simp⟩
  · cases hg : x.shortMemo.get? (l, r) with
    | none =>
      obtain ⟨f0, h⟩ := unoptimized_good hd hx hl hr hc'
      refine ⟨f0 + 1, fun f hf => ?_⟩
      obtain ⟨f, rfl⟩ : ∃ k, f = k + 1 := ⟨f - 1, by omega⟩
      obtain ⟨lc, rc, h1, h2⟩ := h f (by omega)
      exact ⟨lc, rc, by rw [getPath, if_neg hlr, hg]; exact h1, h2⟩
    | some v =>
      obtain ⟨cost, nx⟩ := v
      obtain ⟨rfl, e, nb, h1, h2, h3, h4⟩ := hm l r cost nx hg
      refine ⟨2, fun f hf => ?_⟩
      obtain ⟨f, rfl⟩ : ∃ k, f = k + 2 := ⟨f - 2, by omega⟩
      have hnb : ∃ c, getNeighbor x l nx = .ok c ∧ c.justification.isRule = true ∧ c.next = nx := by
        unfold getNeighbor
        rw [getIdx_eq_ok.2 h1, ok_bind]
        cases hf : e.neighbors.find? (fun c => decide (c.next = nx) && c.justification.isRule) with
        | none =>
          rw [List.find?_eq_none] at hf
          have := hf nb h2
          simp [h3, h4] at this
        | some c =>
          have := List.find?_some hf
          simp only [Bool.and_eq_true, decide_eq_true_eq] at this
          exact ⟨c, rfl, this.2, this.1⟩
      obtain ⟨c, g1, g2, g3⟩ := hnb
      refine ⟨[c], [], ?_, ?_⟩
      · rw [getPath, if_neg hlr, hg]
        simp only [g1, ok_bind]
        rw [getPath, if_pos rfl]
        rfl
      · intro c' hc'
        simp at hc'
        subst hc'
        refine ⟨by rw [g3]; exact hr, fun hj => ?_⟩
        rw [hj] at g2
        simp [Justification.isRule] at g2

end Explain
end Egg
