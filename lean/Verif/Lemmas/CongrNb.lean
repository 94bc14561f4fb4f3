import Verif.Lemmas.Tarjan
/-
The table of congruent neighbors.
-/
namespace Egg
variable {Op : Type} [DecidableEq Op]

namespace Explain
variable {x : Explain Op} {nodes : List (ENode Op)} {conn : Id → Id → Prop} {L : Log}

/-- `v` is in row `u`. -/
def Has (cn : List (List Id)) (u v : Id) : Prop := ∃ l, cn[u]? = some l ∧ v ∈ l

theorem pushAt_has {cn : List (List Id)} {u : Id} (hu : u < cn.length) (v : Id) : ∃ cn', pushAt cn u v = .ok cn' ∧ cn'.length = cn.length ∧
    ∀ a b, Has cn' a b ↔ Has cn a b ∨ (a = u ∧ b = v) := by
  have hg := List.getElem?_eq_getElem hu
  refine ⟨cn.set u (cn[u] ++ [v]), by rw [pushAt, hg], by simp, fun a b => ?_⟩
  unfold Has
  rw [set_getElem? hu]
  constructor
  · rintro ⟨l, h1, h2⟩
    split at h1
    · rename_i e; subst e; cases h1
      rcases List.mem_append.1 h2 with h2 | h2
      · exact .inl ⟨_, hg, h2⟩
      · exact .inr ⟨rfl, by simpa using h2⟩
    · exact .inl ⟨l, h1, h2⟩
  · rintro (⟨l, h1, h2⟩ | ⟨rfl, rfl⟩)
    · split
      · rename_i e; subst e
        rw [hg] at h1; cases h1
        exact ⟨_, rfl, by simp [h2]⟩
      · exact ⟨l, h1, h2⟩
    · exact ⟨_, if_pos rfl, by simp⟩

theorem CongrIds.symm {u v : Id} (h : CongrIds nodes L u v) : CongrIds nodes L v u := by
  obtain ⟨na, nb, h1, h2, h3, h4⟩ := h
  exact ⟨nb, na, h2, h1, h3.symm, (forall₂_flip h4).imp (fun _ _ h => Conn.symm h)⟩

/-- The part of `CnOK` that does not mention the proof forest. -/
def CnSound (nodes : List (ENode Op)) (L : Log) (cn : List (List Id)) : Prop := cn.length = nodes.length ∧ ∀ u v, Has cn u v → CongrIds nodes L u v

theorem pushBoth_ok {cn : List (List Id)} (h : CnSound nodes L cn) {u v : Id} (hc : CongrIds nodes L u v) :
    ∃ cn1 cn2, pushAt cn u v = .ok cn1 ∧ pushAt cn1 v u = .ok cn2 ∧ CnSound nodes L cn2 ∧ (∀ a b, Has cn a b → Has cn2 a b) ∧
      Has cn2 u v ∧ Has cn2 v u := by
  obtain ⟨na, nb, g1, g2, _⟩ := id hc
  obtain ⟨cn1, h1, h2, h3⟩ := pushAt_has (cn := cn) (u := u) (by rw [h.1]; exact getElem?_lt g1) v
  obtain ⟨cn2, h4, h5, h6⟩ := pushAt_has (cn := cn1) (u := v) (by rw [h2, h.1]; exact getElem?_lt g2) u
  refine ⟨cn1, cn2, h1, h4, ⟨by rw [h5, h2, h.1], fun a b hab => ?_⟩, fun a b hab => (h6 a b).2 (.inl ((h3 a b).2 (.inl hab))),
    (h6 u v).2 (.inl ((h3 u v).2 (.inr ⟨rfl, rfl⟩))), (h6 v u).2 (.inr ⟨rfl, rfl⟩)⟩
  rcases (h6 a b).1 hab with hab | ⟨rfl, rfl⟩
  · rcases (h3 a b).1 hab with hab | ⟨rfl, rfl⟩
    · exact h.2 a b hab
    · exact hc
  · exact CongrIds.symm hc

/-- The union-find and the log agree. -/
def UfOK (nodes : List (ENode Op)) (L : Log) (uf : UF) : Prop := (∀ i, i < nodes.length → ∃ r, UF.find uf i = .ok r) ∧
  ∀ i j r, UF.find uf i = .ok r → UF.find uf j = .ok r → i < nodes.length → j < nodes.length → Conn L i j

theorem mapM_find {nodes : List (ENode Op)} {uf : UF} (hu : UfOK nodes L uf) {n : ENode Op} (hn : ∀ c ∈ n.children, c < nodes.length) :
    ∃ c, n.mapChildrenM (UF.find uf) = .ok c ∧ c.op = n.op ∧ List.Forall₂ (fun a b => UF.find uf a = .ok b) n.children c.children := by
  have : ∀ l : List Id, (∀ c ∈ l, c < nodes.length) → ∃ rs, l.mapM (UF.find uf) = .ok rs := by
    intro l
    induction l with
    | nil => intro _; exact ⟨[], rfl⟩
    | cons a l ih =>
      intro h
      obtain ⟨r, hr⟩ := hu.1 a (h a (by simp))
      obtain ⟨rs, hrs⟩ := ih (fun c hc => h c (by simp [hc]))
      exact ⟨r :: rs, by rw [List.mapM_cons, hr, ok_bind, hrs, ok_bind]; rfl⟩
  obtain ⟨rs, hrs⟩ := this _ hn
  refine ⟨⟨n.op, rs⟩, by rw [ENode.mapChildrenM, hrs, ok_bind]; rfl, rfl, mapM_eq_ok.1 hrs⟩

/-- Nodes with the same canonical form are congruent. -/
theorem congr_of_canon (hd : Dag nodes) {uf : UF} (hu : UfOK nodes L uf) {a b : Id} {na nb c : ENode Op} (ha : nodes[a]? = some na)
    (hb : nodes[b]? = some nb) (h1 : na.mapChildrenM (UF.find uf) = .ok c) (h2 : nb.mapChildrenM (UF.find uf) = .ok c) : CongrIds nodes L a b := by
  rw [ENode.mapChildrenM, bind_eq_ok] at h1 h2
  obtain ⟨rs, h3, h4⟩ := h1
  obtain ⟨rs', h5, h6⟩ := h2
  cases h4
  injection h6 with h6
  injection h6 with h6 h7
  subst h7
  rw [mapM_eq_ok] at h3 h5
  refine ⟨na, nb, ha, hb, h6.symm, ?_⟩
  have := forall₂_comp h3 (forall₂_flip h5) (T := Conn L) (fun p r q hp _ hq h1 h2 => by
    have := hd _ _ ha p hp
    have := hd _ _ hb q hq
    have := getElem?_lt ha
    have := getElem?_lt hb
    exact hu.2 p q r h1 h2 (by omega) (by omega))
  exact this

theorem congrClassLoop_ok (hd : Dag nodes) {uf : UF} (hu : UfOK nodes L uf) (limit : Nat) : ∀ (es : List Id) (canon : AMap (ENode Op) (List Id)) (counter : Nat)
    (cn : List (List Id)), (∀ e ∈ es, e < nodes.length) →
    (∀ c others, canon.get? c = some others → ∀ o ∈ others, ∃ n, nodes[o]? = some n ∧ n.mapChildrenM (UF.find uf) = .ok c) → CnSound nodes L cn →
    ∃ b k cn', congrClassLoop nodes uf limit es canon counter cn = .ok (b, k, cn') ∧ CnSound nodes L cn' ∧ ∀ a b, Has cn a b → Has cn' a b := by
  intro es
  induction es with
  | nil => intro canon counter cn _ _ h; exact ⟨_, _, cn, rfl, h, fun _ _ h => h⟩
  | cons enode es ih =>
    intro canon counter cn hes hcan h
    have he := hes enode (by simp)
    have hn := List.getElem?_eq_getElem he
    have hch : ∀ c ∈ nodes[enode].children, c < nodes.length := fun c hc => by have := hd _ _ hn c hc; omega
    obtain ⟨c, hc, _⟩ := mapM_find hu hch
    rw [congrClassLoop]
    simp only [getIdx_eq_ok.2 hn, ok_bind, hc]
    cases hg : canon.get? c with
    | none =>
      simp only [ok_bind]
      split
      · exact ⟨_, _, cn, rfl, h, fun _ _ h => h⟩
      · refine ih _ _ cn (fun e he => hes e (by simp [he])) ?_ h
        intro c' others hg' o ho
        simp only [AMap.get?_insert] at hg'
        split at hg'
        · rename_i e; cases hg'; subst e
          rw [List.mem_singleton] at ho; subst ho
          exact ⟨_, hn, hc⟩
        · exact hcan c' others hg' o ho
    | some others =>
      have hall := hcan c others hg
      have hfold : ∀ (l : List Id) (cn : List (List Id)), (∀ o ∈ l, CongrIds nodes L enode o) → CnSound nodes L cn →
          ∃ cn', (l.foldlM (fun cn other => do
          let cn ← pushAt cn enode other
          pushAt cn other enode) cn : Res (List (List Id))) = .ok cn' ∧ CnSound nodes L cn' ∧ ∀ a b, Has cn a b → Has cn' a b := by
        intro l
        induction l with
        | nil => intro cn _ h; exact ⟨cn, rfl, h, fun _ _ h => h⟩
        | cons o l ihl =>
          intro cn ho h
          obtain ⟨cn1, cn2, g1, g2, g3, g4, _⟩ := pushBoth_ok h (ho o (by simp))
          obtain ⟨cn', g5, g6, g7⟩ := ihl cn2 (fun o' ho' => ho o' (by simp [ho'])) g3
          refine ⟨cn', ?_, g6, fun a b hab => g7 a b (g4 a b hab)⟩
          rw [List.foldlM_cons]
          simp only [g1, ok_bind, g2]
          exact g5
      obtain ⟨cn', f1, f2, f3⟩ := hfold others cn (fun o ho => by
        obtain ⟨n, q1, q2⟩ := hall o ho
        exact congr_of_canon hd hu hn q1 hc q2) h
      simp only [f1, ok_bind, pure, Except.pure]
      split
      · exact ⟨_, _, cn', rfl, f2, f3⟩
      · obtain ⟨b, k, cn2, q1, q2, q3⟩ := ih (canon.insert c (others ++ [enode])) (counter + others.length) cn' (fun e he => hes e (by simp [he])) (by
          intro c' others' hg' o ho
          simp only [AMap.get?_insert] at hg'
          split at hg'
          · rename_i e; cases hg'; subst e
            rcases List.mem_append.1 ho with ho | ho
            · exact hall o ho
            · rw [List.mem_singleton] at ho; subst ho
              exact ⟨_, hn, hc⟩
          · exact hcan c' others' hg' o ho) f2
        exact ⟨b, k, cn2, q1, q2, fun a b hab => q3 a b (f3 a b hab)⟩

theorem congrClassesLoop_ok (h : Fo nodes conn L x) (ch : Choices) {uf : UF} (hu : UfOK nodes L uf) : ∀ (cls : List Id) (counter : Nat)
    (cn : List (List Id)), (∀ c ∈ cls, c < nodes.length) → CnSound nodes L cn →
    Returns (fun f => congrClassesLoop x ch nodes uf f cls counter cn) (fun cn' => CnSound nodes L cn' ∧ ∀ a b, Has cn a b → Has cn' a b) := by
  intro cls
  induction cls with
  | nil => intro counter cn _ hs; simp only [congrClassesLoop]; exact Returns.ret ⟨hs, fun _ _ h => h⟩
  | cons c cls ih =>
    intro counter cn hc hs
    simp only [congrClassesLoop]
    refine Returns.bind (findAllEnodes_ok h (hc c (by simp))) ?_
    rintro s ⟨_, _, hs3⟩
    obtain ⟨b, k, cn', q1, q2, q3⟩ := congrClassLoop_ok h.dag hu (2 * x.find.length) (ch.order s) [] counter cn
      (fun e he => (hs3 e ((ch.orderPerm s).mem_iff.1 he)).1) (by intro c o hc; simp [AMap.get?] at hc) hs
    simp only [q1, ok_bind]
    split
    · exact Returns.ret ⟨q2, q3⟩
    · exact (ih k cn' (fun d hd => hc d (by simp [hd])) q2).mono (fun _ ⟨h1, h2⟩ => ⟨h1, fun a b hab => h2 a b (q3 a b hab)⟩)

theorem findCongruenceNeighbors_ok (h : Fo nodes conn L x) (ch : Choices) {uf : UF} (hu : UfOK nodes L uf) {classes : List Id}
    (hcl : ∀ c ∈ classes, c < nodes.length) :
    Returns (fun f => x.findCongruenceNeighbors ch nodes uf classes f) (CnOK x nodes L) := by
  unfold findCongruenceNeighbors
  refine Returns.bind (Returns.foldlM (I := fun (pre : List ExplainNode) (acc : Nat × List (List Id)) => CnSound nodes L acc.2 ∧
    ∀ e ∈ pre, e.parent.justification = .congruence → Has acc.2 e.parent.current e.parent.next ∧ Has acc.2 e.parent.next e.parent.current)
    x.find [] _ ?_ ?_) ?_
  · refine ⟨⟨by simp [h.len], ?_⟩, by simp⟩
    rintro u v ⟨l, h1, h2⟩
    simp only [List.getElem?_map, Option.map_eq_some_iff] at h1
    obtain ⟨_, _, rfl⟩ := h1
    simp at h2
  · rintro pre e post ⟨k, cn⟩ epe ⟨h1, h2⟩
    have hem : e ∈ x.find := by rw [show x.find = pre ++ e :: post from epe]; simp
    obtain ⟨i, hi⟩ := List.mem_iff_getElem?.1 hem
    have hcur := h.inv.cur i e hi
    cases hj : e.parent.justification with
    | rule s =>
      refine Returns.ret ⟨h1, fun e' he' hj' => ?_⟩
      rcases List.mem_append.1 he' with he' | he'
      · exact h2 e' he' hj'
      · rw [List.mem_singleton] at he'; subst he'
        rw [hj] at hj'; cases hj'
    | congruence =>
      have hil : i < nodes.length := by rw [← h.len]; exact getElem?_lt hi
      have hcong : CongrIds nodes L e.parent.current e.parent.next := by
        by_cases hne : e.parent.next = i
        · have hn := List.getElem?_eq_getElem hil
          rw [hcur, hne]
          refine ⟨_, _, hn, hn, rfl, ?_⟩
          exact List.forall₂_same.2 (fun c _ => Conn.refl c)
        · obtain ⟨k, hk, _⟩ := exists_idx h.inv hi hne
          obtain ⟨⟨na, nb, g1, g2, g3, g4⟩, _⟩ := idx_congr h.inv hk hj
          exact ⟨na, nb, g1, g2, g3, g4.imp (fun _ _ h => conn_of_take h)⟩
      obtain ⟨cn1, cn2, g1, g2, g3, g4, g5, g6⟩ := pushBoth_ok h1 hcong
      simp only [g1, ok_bind, g2]
      refine Returns.ret ⟨g3, fun e' he' hj' => ?_⟩
      rcases List.mem_append.1 he' with he' | he'
      · exact ⟨g4 _ _ (h2 e' he' hj').1, g4 _ _ (h2 e' he' hj').2⟩
      · rw [List.mem_singleton] at he'; subst he'
        exact ⟨g5, g6⟩
  · rintro ⟨counter, cn⟩ ⟨h1, h2⟩
    refine (congrClassesLoop_ok h ch hu (ch.order classes) counter cn (fun c hc => hcl c ((ch.orderPerm classes).mem_iff.1 hc)) h1).mono ?_
    rintro cn' ⟨h3, h4⟩
    refine ⟨h3.1, fun u l hl v hv => h3.2 u v ⟨l, hl, hv⟩, fun i e he hj => ?_⟩
    have := h2 e (by simpa using List.mem_of_getElem? he) hj
    rw [h.inv.cur i e he, ← up_of_get he] at this
    exact ⟨h4 _ _ this.1, h4 _ _ this.2⟩

end Explain
end Egg
