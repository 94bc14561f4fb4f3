import Verif.Lemmas.Explain
import Verif.Model.ShortPath
/-
What the optimization of explanation lengths leaves unchanged.
-/
namespace Egg
variable {Op : Type} [DecidableEq Op]

theorem foldlM_pres {σ α : Type} {f : σ → α → Res σ} (I : σ → Prop) : ∀ (l : List α) (s s' : σ),
    (∀ s x s', x ∈ l → I s → f s x = .ok s' → I s') → I s → l.foldlM f s = .ok s' → I s' := by
  intro l
  induction l with
  | nil => intro s s' _ hs h; cases h; exact hs
  | cons x l ih =>
    intro s s' step hs h
    rw [List.foldlM_cons] at h
    obtain ⟨s1, h1, h2⟩ := bind_eq_ok.1 h
    exact ih s1 s' (fun s y s' hy => step s y s' (by simp [hy])) (step s x s1 (by simp) hs h1) h2

namespace Explain

/-- Only the memo of paths differs. -/
structure SameTree (x x' : Explain Op) : Prop where
  find : x'.find = x.find
  uncanon : x'.uncanonMemo = x.uncanonMemo
  optimize : x'.optimize = x.optimize

theorem SameTree.refl (x : Explain Op) : SameTree x x := ⟨rfl, rfl, rfl⟩
theorem SameTree.trans {x y z : Explain Op} (h : SameTree x y) (h' : SameTree y z) : SameTree x z :=
  ⟨h'.1.trans h.1, h'.2.trans h.2, h'.3.trans h.3⟩

/-- The entries of the memo lead to ids below `len`. -/
def MemoLt (len : Nat) (x : Explain Op) : Prop := ∀ l r c nx, x.shortMemo.get? (l, r) = some (c, nx) → nx < len

/-- The lists of neighbours are in range. -/
structure Rows (len : Nat) (cn : List (List Id)) : Prop where
  size : cn.length = len
  lt : ∀ row ∈ cn, ∀ v ∈ row, v < len

theorem pushAt_ok {cn cn' : List (List Id)} {i v : Id} (h : pushAt cn i v = .ok cn') :
    ∃ l, cn[i]? = some l ∧ cn' = cn.set i (l ++ [v]) := by
  unfold pushAt at h
  split at h
  · cases h
  · rename_i l hl; cases h; exact ⟨l, hl, rfl⟩

theorem Rows.push {len : Nat} {cn cn' : List (List Id)} {i v : Id} (hr : Rows len cn) (hv : v < len)
    (h : pushAt cn i v = .ok cn') : Rows len cn' := by
  obtain ⟨l, hl, rfl⟩ := pushAt_ok h
  refine ⟨by simpa using hr.size, ?_⟩
  intro row hrow w hw
  rcases List.mem_or_eq_of_mem_set hrow with hrow | rfl
  · exact hr.lt row hrow w hw
  · rcases List.mem_append.1 hw with hw | hw
    · exact hr.lt l (List.mem_of_getElem? hl) w hw
    · rw [List.mem_singleton.1 hw]; exact hv

theorem Rows.push2 {len : Nat} {cn cn' cn'' : List (List Id)} {a b : Id} (hr : Rows len cn)
    (h : pushAt cn a b = .ok cn') (h' : pushAt cn' b a = .ok cn'') : Rows len cn'' := by
  obtain ⟨l, hl, e⟩ := pushAt_ok h
  obtain ⟨l', hl', e'⟩ := pushAt_ok h'
  have ha : a < len := by rw [← hr.size]; exact getElem?_lt hl
  have hb : b < len := by
    have := getElem?_lt hl'
    rw [e] at this
    simpa [hr.size] using this
  exact (hr.push hb h).push ha h'

theorem congrClassLoop_rows {nodes : List (ENode Op)} {uf : UF} {limit len : Nat} : ∀ (enodes : List Id)
    (canon : AMap (ENode Op) (List Id)) (counter : Nat) (cn : List (List Id)) (r : Bool × Nat × List (List Id)), Rows len cn →
    congrClassLoop nodes uf limit enodes canon counter cn = .ok r → Rows len r.2.2 := by
  intro enodes
  induction enodes with
  | nil => intro canon counter cn r hr h; cases h; exact hr
  | cons e enodes ih =>
    intro canon counter cn r hr h
    rw [congrClassLoop] at h
    obtain ⟨n, _, h⟩ := bind_eq_ok.1 h
    obtain ⟨c, _, h⟩ := bind_eq_ok.1 h
    obtain ⟨⟨canon', counter', cn'⟩, h1, h⟩ := bind_eq_ok.1 h
    have hr' : Rows len cn' := by
      split at h1
      · obtain ⟨cn1, h2, h1⟩ := bind_eq_ok.1 h1
        cases h1
        refine foldlM_pres (Rows len) _ _ _ ?_ hr h2
        intro s y s' _ hs hst
        obtain ⟨s1, k1, k2⟩ := bind_eq_ok.1 hst
        exact hs.push2 k1 k2
      · cases h1; exact hr
    simp only at h
    split at h
    · cases h; exact hr'
    · exact ih _ _ _ _ hr' h

theorem congrClassesLoop_rows {x : Explain Op} {ch : Choices} {nodes : List (ENode Op)} {uf : UF} {fuel len : Nat} :
    ∀ (classes : List Id) (counter : Nat) (cn cn' : List (List Id)), Rows len cn →
    congrClassesLoop x ch nodes uf fuel classes counter cn = .ok cn' → Rows len cn' := by
  intro classes
  induction classes with
  | nil => intro counter cn cn' hr h; cases h; exact hr
  | cons e rest ih =>
    intro counter cn cn' hr h
    rw [congrClassesLoop] at h
    obtain ⟨enodes, _, h⟩ := bind_eq_ok.1 h
    obtain ⟨⟨stop, counter', cn1⟩, h1, h⟩ := bind_eq_ok.1 h
    have hr' := congrClassLoop_rows _ _ _ _ _ hr h1
    simp only at h
    split at h
    · cases h; exact hr'
    · exact ih _ _ _ hr' h

theorem findCongruenceNeighbors_rows {x : Explain Op} {ch : Choices} {nodes : List (ENode Op)} {uf : UF} {classes : List Id} {fuel : Nat}
    {cn : List (List Id)} (h : x.findCongruenceNeighbors ch nodes uf classes fuel = .ok cn) : Rows x.find.length cn := by
  unfold findCongruenceNeighbors at h
  obtain ⟨⟨counter, cn1⟩, h1, h⟩ := bind_eq_ok.1 h
  refine congrClassesLoop_rows _ _ _ _ ?_ h
  refine foldlM_pres (fun s : Nat × List (List Id) => Rows x.find.length s.2) _ _ _ ?_ ?_ h1
  · intro s e s' _ hs hst
    split at hst
    · obtain ⟨c1, k1, hst⟩ := bind_eq_ok.1 hst
      obtain ⟨c2, k2, hst⟩ := bind_eq_ok.1 hst
      cases hst
      exact hs.push2 k1 k2
    · cases hst; exact hs
  · exact ⟨by simp, by intro row hrow v hv; simp at hrow; obtain ⟨_, rfl⟩ := hrow; simp at hv⟩

/-- All neighbours are in range. -/
def NbLt (x : Explain Op) : Prop := ∀ (i : Id) (e : ExplainNode), x.find[i]? = some e → ∀ c ∈ e.neighbors, c.next < x.find.length

theorem dijkstra_lt {x : Explain Op} {ch : Choices} {nodes : List (ENode Op)} {cn : List (List Id)} {fuel : Nat} {endId : Id}
    (hx : NbLt x) (hcn : Rows x.find.length cn) : ∀ (f : Nat) (todo : List (Nat × Connection)) (last : AMap Id Connection)
    (pc : AMap Id Nat) (dm : DistanceMemo) (r : AMap Id Connection × AMap Id Nat × DistanceMemo),
    (∀ h ∈ todo, h.2.next < x.find.length) → (∀ k c, last.get? k = some c → c.next < x.find.length) →
    dijkstra x ch nodes cn fuel endId f todo last pc dm = .ok r → ∀ k c, r.1.get? k = some c → c.next < x.find.length := by
  intro f
  induction f with
  | zero => intro todo last pc dm r _ _ h; cases h
  | succ f ih =>
    intro todo last pc dm r ht hl h
    rw [dijkstra] at h
    cases hp : ch.pop todo with
    | none => rw [hp] at h; cases h; exact hl
    | some q =>
      obtain ⟨⟨cost, conn⟩, rest⟩ := q
      rw [hp] at h
      simp only at h
      obtain ⟨hperm, _⟩ := ch.popSome _ _ _ hp
      have hrest : ∀ h ∈ rest, h.2.next < x.find.length := fun h hh => ht h (hperm.mem_iff.2 (by simp [hh]))
      have hcur : conn.next < x.find.length := ht _ (hperm.mem_iff.2 (List.mem_cons_self ..))
      split at h
      · exact ih _ _ _ _ _ hrest hl h
      · have hl' : ∀ k c, (last.insert conn.next conn).get? k = some c → c.next < x.find.length := by
          intro k c hk
          rw [AMap.get?_insert] at hk
          split at hk
          · cases hk; exact hcur
          · exact hl k c hk
        split at h
        · cases h; exact hl'
        · obtain ⟨e, he, h⟩ := bind_eq_ok.1 h
          obtain ⟨others, ho, h⟩ := bind_eq_ok.1 h
          obtain ⟨⟨todo', dm'⟩, h1, h⟩ := bind_eq_ok.1 h
          have he := getIdx_eq_ok.1 he
          have ho := getIdx_eq_ok.1 ho
          refine ih _ _ _ _ _ ?_ hl' h
          refine foldlM_pres (fun s : List (Nat × Connection) × DistanceMemo => ∀ h ∈ s.1, h.2.next < x.find.length) _ _ _ ?_ ?_ h1
          · intro s v s' hv hs hst
            obtain ⟨⟨d, dm1⟩, _, hst⟩ := bind_eq_ok.1 hst
            cases hst
            intro q hq
            rcases List.mem_append.1 hq with hq | hq
            · exact hs q hq
            · rw [List.mem_singleton.1 hq]; exact hcn.lt others (List.mem_of_getElem? ho) v hv
          · intro q hq
            rcases List.mem_append.1 hq with hq | hq
            · exact hrest q hq
            · obtain ⟨nb, hnb, rfl⟩ := List.mem_map.1 hq
              exact hx _ e he nb (List.mem_filter.1 hnb).1

theorem walkBack_lt {last : AMap Id Connection} {start : Id} {len : Nat} (hl : ∀ k c, last.get? k = some c → c.next < len) :
    ∀ (f : Nat) (cur : Id) (acc r : List Connection), (∀ c ∈ acc, c.next < len) → walkBack last start f cur acc = .ok r →
    ∀ c ∈ r, c.next < len := by
  intro f
  induction f with
  | zero => intro cur acc r _ h; cases h
  | succ f ih =>
    intro cur acc r ha h
    rw [walkBack] at h
    split at h
    · cases h; exact ha
    · split at h
      · rename_i c hc
        refine ih _ _ _ ?_ h
        intro d hd
        rcases List.mem_cons.1 hd with rfl | hd
        · exact hl _ _ hc
        · exact ha d hd
      · cases h; exact ha

theorem populate_lt {x : Explain Op} {nodes : List (ENode Op)} {fuel : Nat} {right : Id} {cs : List Connection} {dm dm' : DistanceMemo}
    {x' : Explain Op} {len : Nat} (h : x.populatePathLength nodes fuel right cs dm = .ok (x', dm')) (hm : MemoLt len x)
    (hr : right < len) (hc : ∀ c ∈ cs, c.next < len) : SameTree x x' ∧ MemoLt len x' := by
  unfold populatePathLength at h
  refine foldlM_pres (fun s : Explain Op × DistanceMemo => SameTree x s.1 ∧ MemoLt len s.1) _ _ (x', dm') ?_ ?_ h
  · intro s c s' hcm hs hst
    obtain ⟨nc, _, hst⟩ := bind_eq_ok.1 hst
    obtain ⟨⟨d, dm1⟩, _, hst⟩ := bind_eq_ok.1 hst
    cases hst
    refine ⟨⟨hs.1.1, hs.1.2, hs.1.3⟩, ?_⟩
    intro l r c' nx hg
    simp only [AMap.get?_insert] at hg
    split at hg
    · cases hg; exact hc c (by simpa using hcm)
    · exact hs.2 _ _ _ _ hg
  · refine ⟨⟨rfl, rfl, rfl⟩, ?_⟩
    intro l r c' nx hg
    simp only [AMap.get?_insert] at hg
    split at hg
    · cases hg; exact hr
    · exact hm _ _ _ _ hg

theorem shortestPath_lt {x : Explain Op} {ch : Choices} {nodes : List (ENode Op)} {cn : List (List Id)} {fuel : Nat} {start endId : Id}
    {dm : DistanceMemo} {r : (List Connection × List Connection) × Explain Op × DistanceMemo}
    (hx : NbLt x) (hcn : Rows x.find.length cn) (hm : MemoLt x.find.length x) (hs : start < x.find.length) (he : endId < x.find.length)
    (h : x.shortestPath ch nodes cn fuel start endId dm = .ok r) : SameTree x r.2.1 ∧ MemoLt x.find.length r.2.1 := by
  unfold shortestPath at h
  obtain ⟨⟨last, pc, dm1⟩, h1, h⟩ := bind_eq_ok.1 h
  obtain ⟨total, _, h⟩ := bind_eq_ok.1 h
  obtain ⟨⟨d, dm2⟩, _, h⟩ := bind_eq_ok.1 h
  have hl := dijkstra_lt hx hcn _ _ _ _ _ _ (by intro q hq; rw [List.mem_singleton.1 hq]; exact hs)
    (by intro k c hk; simp [AMap.get?] at hk) h1
  simp only at h
  split at h
  · obtain ⟨p, _, h⟩ := bind_eq_ok.1 h
    cases h; exact ⟨.refl x, hm⟩
  · obtain ⟨cs, hw, h⟩ := bind_eq_ok.1 h
    obtain ⟨⟨x', dm3⟩, hp, h⟩ := bind_eq_ok.1 h
    cases h
    exact populate_lt hp hm he (walkBack_lt hl _ _ _ _ (by simp) hw)

theorem childPairs_lt {nodes : List (ENode Op)} (hd : Dag nodes) {path : List Connection} {pairs : List (Id × Id)}
    (h : childPairs nodes path = .ok pairs) : ∀ p ∈ pairs, p.1 < nodes.length ∧ p.2 < nodes.length := by
  unfold childPairs at h
  refine foldlM_pres (fun s : List (Id × Id) => ∀ p ∈ s, p.1 < nodes.length ∧ p.2 < nodes.length) _ _ _ ?_ (by simp) h
  intro s c s' _ hs hst
  split at hst
  · obtain ⟨cur, h1, hst⟩ := bind_eq_ok.1 hst
    obtain ⟨nxt, h2, hst⟩ := bind_eq_ok.1 hst
    cases hst
    have h1 := getIdx_eq_ok.1 h1
    have h2 := getIdx_eq_ok.1 h2
    intro p hp
    rcases List.mem_append.1 hp with hp | hp
    · exact hs p hp
    · have ha := List.of_mem_zip (a := p.1) (b := p.2) hp
      have e1 := hd _ _ h1 _ ha.1
      have e2 := hd _ _ h2 _ ha.2
      have e3 := getElem?_lt h1
      have e4 := getElem?_lt h2
      exact ⟨by omega, by omega⟩
  · cases hst; exact hs

theorem greedyLoop_lt {ch : Choices} {nodes : List (ENode Op)} {cn : List (List Id)} {fuel : Nat} (hd : Dag nodes) :
    ∀ (f : Nat) (todo : List (Id × Id)) (budget : Nat) (x : Explain Op) (dm : DistanceMemo) (x' : Explain Op),
    x.find.length = nodes.length → NbLt x → Rows x.find.length cn → MemoLt x.find.length x →
    (∀ p ∈ todo, p.1 < nodes.length ∧ p.2 < nodes.length) →
    greedyLoop ch nodes cn fuel f todo budget x dm = .ok x' → SameTree x x' ∧ MemoLt x.find.length x' := by
  intro f
  induction f with
  | zero => intro todo budget x dm x' _ _ _ _ _ h; cases h
  | succ f ih =>
    intro todo budget x dm x' hlen hx hcn hm ht h
    cases todo with
    | nil => cases h; exact ⟨.refl x, hm⟩
    | cons p todo =>
      obtain ⟨s, e⟩ := p
      rw [greedyLoop] at h
      obtain ⟨enodes, _, h⟩ := bind_eq_ok.1 h
      have ht' : ∀ p ∈ todo, p.1 < nodes.length ∧ p.2 < nodes.length := fun p hp => ht p (by simp [hp])
      split at h
      · exact ih _ _ _ _ _ hlen hx hcn hm ht' h
      · obtain ⟨⟨⟨l, r⟩, x1, dm1⟩, h1, h⟩ := bind_eq_ok.1 h
        obtain ⟨pairs, h2, h⟩ := bind_eq_ok.1 h
        have hse := ht (s, e) (by simp)
        obtain ⟨g1, g2⟩ := shortestPath_lt hx hcn hm (by rw [hlen]; exact hse.1) (by rw [hlen]; exact hse.2) h1
        simp only at g1 g2
        have hf := g1.find
        have := ih _ _ _ _ _ (by rw [hf]; exact hlen) (by unfold NbLt; rw [hf]; exact hx) (by rw [hf]; exact hcn)
          (by rw [hf]; exact g2) ?_ h
        · rw [hf] at this
          exact ⟨g1.trans this.1, this.2⟩
        · intro p hp
          rcases List.mem_append.1 hp with hp | hp
          · exact ht' p hp
          · exact childPairs_lt hd h2 p hp

theorem calculateShortest_lt {x x' : Explain Op} {ch : Choices} {nodes : List (ENode Op)} {uf : UF} {classes : List Id} {fuel : Nat}
    {start endId : Id} (hd : Dag nodes) (hlen : x.find.length = nodes.length) (hx : NbLt x) (hm : MemoLt x.find.length x)
    (hs : start < nodes.length) (he : endId < nodes.length)
    (h : x.calculateShortestExplanations ch nodes uf classes fuel start endId = .ok x') : SameTree x x' ∧ MemoLt x.find.length x' := by
  unfold calculateShortestExplanations at h
  obtain ⟨cn, h1, h⟩ := bind_eq_ok.1 h
  obtain ⟨ca, _, h⟩ := bind_eq_ok.1 h
  obtain ⟨td, _, h⟩ := bind_eq_ok.1 h
  exact greedyLoop_lt hd _ _ _ _ _ _ hlen hx (findCongruenceNeighbors_rows h1) hm
    (by intro p hp; rw [List.mem_singleton.1 hp]; exact ⟨hs, he⟩) h

theorem explainEquivalence_lt {x x' : Explain Op} {ch : Choices} {nodes : List (ENode Op)} {uf : UF} {classes : List Id} {fuel : Nat}
    {l r : Id} {p : List (TreeTerm Op)} (hd : Dag nodes) (hlen : x.find.length = nodes.length) (hx : NbLt x) (hm : MemoLt x.find.length x)
    (hs : l < nodes.length) (he : r < nodes.length)
    (h : x.explainEquivalence ch nodes uf classes fuel l r = .ok (p, x')) :
    SameTree x x' ∧ MemoLt x.find.length x' ∧ (x.optimize = false → x' = x) ∧
    ∃ cs, explainEnodes x' nodes fuel l r ([], []) = .ok (p, cs) := by
  unfold explainEquivalence at h
  obtain ⟨x1, h1, h⟩ := bind_eq_ok.1 h
  obtain ⟨⟨p', cs⟩, h2, h⟩ := bind_eq_ok.1 h
  cases h
  split at h1
  · rename_i ho
    obtain ⟨g1, g2⟩ := calculateShortest_lt hd hlen hx hm hs he h1
    exact ⟨g1, g2, fun h => (by rw [ho] at h; cases h), cs, h2⟩
  · cases h1
    exact ⟨.refl x, hm, fun _ => rfl, cs, h2⟩

end Explain
end Egg
