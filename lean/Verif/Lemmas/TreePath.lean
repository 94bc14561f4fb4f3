import Verif.Lemmas.Dist
import Verif.Lemmas.ExplainPath
/-
The path between two ids in the proof forest is a trail of the log.
-/
namespace Egg
variable {Op : Type} [DecidableEq Op]

namespace Explain

/-- The parent of `i` in the proof forest. -/
def up (x : Explain Op) (i : Id) : Id := match x.find[i]? with
  | some e => e.parent.next
  | none => i

variable {x : Explain Op}

theorem up_of_get {i : Id} {e : ExplainNode} (h : x.find[i]? = some e) : up x i = e.parent.next := by simp [up, h]

theorem up_lt (hw : UF.WF (ptab x.find)) {i : Id} (hi : i < x.find.length) : up x i < x.find.length := by
  obtain ⟨d, hd⟩ := hw
  rw [up_of_get (List.getElem?_eq_getElem hi)]
  have := (hd i _ (ptab_get (List.getElem?_eq_getElem hi))).1
  simpa using this

theorem iter_lt (hw : UF.WF (ptab x.find)) {i : Id} (hi : i < x.find.length) (n : Nat) : (up x)^[n] i < x.find.length := by
  induction n with
  | zero => exact hi
  | succ n ih => rw [Function.iterate_succ_apply']; exact up_lt hw ih

theorem iter_root {i r : Id} (h : UF.RootOf (ptab x.find) i r) : ∃ n, ∀ m, n ≤ m → (up x)^[m] i = r := by
  induction h with
  | @base r h =>
    obtain ⟨e, he, hn⟩ := ptab_get_iff.1 h
    refine ⟨0, fun m _ => ?_⟩
    have hu : up x r = r := by rw [up_of_get he, hn]
    exact Function.iterate_fixed hu m
  | @step i p r h hne _ ih =>
    obtain ⟨n, hn⟩ := ih
    obtain ⟨e, he, hp⟩ := ptab_get_iff.1 h
    refine ⟨n + 1, fun m hm => ?_⟩
    obtain ⟨m, rfl⟩ : ∃ k, m = k + 1 := ⟨m - 1, by omega⟩
    rw [Function.iterate_succ_apply, up_of_get he, hp]
    exact hn m (by omega)

/-- A repeated node on the way up is a root. -/
theorem iter_inj (hw : UF.WF (ptab x.find)) {i : Id} (hi : i < x.find.length) {a b : Nat} (hab : a < b)
    (e : (up x)^[a] i = (up x)^[b] i) : up x ((up x)^[a] i) = (up x)^[a] i := by
  obtain ⟨d, hd⟩ := hw
  have hw : UF.WF (ptab x.find) := ⟨d, hd⟩
  have hstep : ∀ n, d ((up x)^[n + 1] i) < d ((up x)^[n] i) ∨ (up x)^[n + 1] i = (up x)^[n] i := by
    intro n
    have hl := iter_lt hw hi n
    rw [Function.iterate_succ_apply']
    have := (hd _ _ (ptab_get (List.getElem?_eq_getElem hl))).2
    rw [up_of_get (List.getElem?_eq_getElem hl)]
    by_cases h : x.find[(up x)^[n] i].parent.next = (up x)^[n] i
    · exact .inr h
    · exact .inl (this h)
  have hmono : ∀ n m, n ≤ m → d ((up x)^[m] i) ≤ d ((up x)^[n] i) := by
    intro n m h
    induction m, h using Nat.le_induction with
    | base => exact le_refl _
    | succ m _ ih =>
      rcases hstep m with h | h
      · omega
      · rw [h]; exact ih
  rcases hstep a with h | h
  · have := hmono (a + 1) b hab
    rw [← e] at this
    omega
  · rw [← Function.iterate_succ_apply' (f := up x)]; exact h

theorem commonAncestorLoop_ok (hw : UF.WF (ptab x.find)) {l r : Id} (hl : l < x.find.length) (hr : r < x.find.length)
    {N : Nat} (hN : (up x)^[N] l = (up x)^[N] r) :
    ∀ (f n : Nat) (sl sr : List Id), N < f + n →
      (∀ i, i ∈ sl ↔ ∃ a, a < n ∧ (up x)^[a] l = i) → (∀ i, i ∈ sr ↔ ∃ a, a < n ∧ (up x)^[a] r = i) →
      (∀ a b, a < n → b < n → (up x)^[a] l ≠ (up x)^[b] r) →
      ∃ anc a b, commonAncestorLoop x f ((up x)^[n] l) ((up x)^[n] r) sl sr = .ok anc ∧
        (up x)^[a] l = anc ∧ (up x)^[b] r = anc ∧ ∀ a' b', a' < a → b' < b → (up x)^[a'] l ≠ (up x)^[b'] r := by
  intro f
  induction f with
  | zero =>
    intro n sl sr hf hsl hsr hdis
    exact absurd hN (hdis N N (by omega) (by omega))
  | succ f ih =>
    intro n sl sr hf hsl hsr hdis
    rw [commonAncestorLoop]
    simp only
    split
    · rename_i h
      obtain ⟨b, hb, e⟩ := (hsr _).1 h
      exact ⟨_, n, b, rfl, rfl, e, fun a' b' h1 h2 => hdis a' b' h1 (by omega)⟩
    · rename_i h1
      split
      · rename_i h
        rcases List.mem_cons.1 h with e | h
        · exact ⟨_, n, n, rfl, e.symm, rfl, fun a' b' h1 h2 => hdis a' b' h1 h2⟩
        · obtain ⟨a, ha, e⟩ := (hsl _).1 h
          exact ⟨_, a, n, rfl, e, rfl, fun a' b' h1 h2 => hdis a' b' (by omega) h2⟩
      · rename_i h2
        have gl := List.getElem?_eq_getElem (iter_lt hw hl n)
        have gr := List.getElem?_eq_getElem (iter_lt hw hr n)
        rw [getIdx_eq_ok.2 gl, getIdx_eq_ok.2 gr]
        simp only [ok_bind]
        rw [← up_of_get gl, ← up_of_get gr]
        have hdis' : ∀ a b, a < n + 1 → b < n + 1 → (up x)^[a] l ≠ (up x)^[b] r := by
          intro a b ha hb e
          by_cases hbn : b < n
          · by_cases han : a < n
            · exact hdis a b han hbn e
            · have : a = n := by omega
              subst this
              exact h1 ((hsr _).2 ⟨b, hbn, e.symm⟩)
          · have : b = n := by omega
            subst this
            by_cases han : a < b
            · exact h2 (List.mem_cons_of_mem _ ((hsl _).2 ⟨a, han, e⟩))
            · have : a = b := by omega
              subst this
              exact h2 (by rw [← e]; exact List.mem_cons_self)
        rw [if_pos]
        · have := ih (n + 1) ((up x)^[n] l :: sl) ((up x)^[n] r :: sr) (by omega) ?_ ?_ hdis'
          · rw [Function.iterate_succ_apply', Function.iterate_succ_apply'] at this
            exact this
          · intro i
            rw [List.mem_cons, hsl]
            constructor
            · rintro (rfl | ⟨a, ha, e⟩)
              · exact ⟨n, by omega, rfl⟩
              · exact ⟨a, by omega, e⟩
            · rintro ⟨a, ha, e⟩
              by_cases han : a = n
              · subst han; exact .inl e.symm
              · exact .inr ⟨a, by omega, e⟩
          · intro i
            rw [List.mem_cons, hsr]
            constructor
            · rintro (rfl | ⟨a, ha, e⟩)
              · exact ⟨n, by omega, rfl⟩
              · exact ⟨a, by omega, e⟩
            · rintro ⟨a, ha, e⟩
              by_cases han : a = n
              · subst han; exact .inl e.symm
              · exact .inr ⟨a, by omega, e⟩
        · by_contra hcon
          push Not at hcon
          -- both are roots, so they stay apart
          have fl : ∀ m, n ≤ m → (up x)^[m] l = (up x)^[n] l := by
            intro m hm
            obtain ⟨k, rfl⟩ := Nat.exists_eq_add_of_le hm
            rw [Nat.add_comm, Function.iterate_add_apply]
            exact Function.iterate_fixed hcon.1 k
          have fr : ∀ m, n ≤ m → (up x)^[m] r = (up x)^[n] r := by
            intro m hm
            obtain ⟨k, rfl⟩ := Nat.exists_eq_add_of_le hm
            rw [Nat.add_comm, Function.iterate_add_apply]
            exact Function.iterate_fixed hcon.2 k
          by_cases hNn : N < n + 1
          · exact hdis' N N hNn hNn hN
          · rw [fl N (by omega), fr N (by omega)] at hN
            exact hdis' n n (by omega) (by omega) hN

theorem commonAncestor_ok (hw : UF.WF (ptab x.find)) {l r : Id} (hl : l < x.find.length) (hr : r < x.find.length)
    (h : UF.root (ptab x.find) l = UF.root (ptab x.find) r) :
    ∃ f0, ∀ f, f0 ≤ f → ∃ anc a b, commonAncestor x f l r = .ok anc ∧ (up x)^[a] l = anc ∧ (up x)^[b] r = anc ∧
      ∀ a' b', a' < a → b' < b → (up x)^[a'] l ≠ (up x)^[b'] r := by
  obtain ⟨n1, h1⟩ := iter_root (UF.rootOf_root hw (i := l) (by simpa using hl))
  obtain ⟨n2, h2⟩ := iter_root (UF.rootOf_root hw (i := r) (by simpa using hr))
  refine ⟨n1 + n2 + 1, fun f hf => ?_⟩
  have hN : (up x)^[n1 + n2] l = (up x)^[n1 + n2] r := by rw [h1 _ (by omega), h2 _ (by omega), h]
  exact commonAncestorLoop_ok hw hl hr hN f 0 [] [] (by omega) (by simp) (by simp) (by simp)

/-- The connections collected by `get_connections` are the parent connections of the nodes on the
way up, all different. -/
theorem getConnections_ok (hw : UF.WF (ptab x.find)) : ∀ (a : Nat) (l anc : Id), l < x.find.length → (up x)^[a] l = anc →
    ∀ f, a ≤ f → ∃ (is : List Id) (cs : List Connection), getConnections x f l anc = .ok cs ∧
      List.Forall₂ (fun i c => ∃ e : ExplainNode, x.find[i]? = some e ∧ e.parent = c ∧ c.next ≠ i) is cs ∧ is.Nodup ∧
      ∀ i ∈ is, ∃ a', a' < a ∧ (up x)^[a'] l = i ∧ ∀ b, b ≤ a' → (up x)^[b] l ≠ anc := by
  intro a
  induction a with
  | zero =>
    intro l anc hl h f _
    rw [Function.iterate_zero, id_eq] at h
    exact ⟨[], [], by rw [getConnections, if_pos h], .nil, by simp, by simp⟩
  | succ a ih =>
    intro l anc hl h f hf
    by_cases hne : l = anc
    · exact ⟨[], [], by rw [getConnections, if_pos hne], .nil, by simp, by simp⟩
    · obtain ⟨f, rfl⟩ : ∃ k, f = k + 1 := ⟨f - 1, by omega⟩
      have gl := List.getElem?_eq_getElem hl
      have hup := up_of_get gl
      have hself : up x l ≠ l := by
        intro hs
        rw [Function.iterate_fixed hs (a + 1)] at h
        exact hne h
      have hself' : x.find[l].parent.next ≠ l := by rw [← hup]; exact hself
      rw [getConnections, if_neg hne, getConnectionsLoop, getIdx_eq_ok.2 gl, ok_bind]
      rw [Function.iterate_succ_apply] at h
      obtain ⟨is, cs, h1, h2, h3, h4⟩ := ih (up x l) anc (up_lt hw hl) h f (by omega)
      by_cases hanc : x.find[l].parent.next = anc
      · rw [if_pos hanc]
        refine ⟨[l], [x.find[l].parent], rfl, .cons ⟨_, gl, rfl, hself'⟩ .nil, by simp, ?_⟩
        intro i hi
        rw [List.mem_singleton] at hi
        subst hi
        refine ⟨0, by omega, rfl, fun b hb => ?_⟩
        have : b = 0 := by omega
        subst this; exact hne
      · rw [if_neg hanc, if_pos hself']
        rw [getConnections, if_neg (by rw [hup]; exact hanc), hup] at h1
        rw [h1]
        refine ⟨l :: is, x.find[l].parent :: cs, rfl, .cons ⟨_, gl, rfl, hself'⟩ h2, ?_, ?_⟩
        · refine List.nodup_cons.2 ⟨?_, h3⟩
          intro hm
          obtain ⟨a', _, e, _⟩ := h4 l hm
          rw [← Function.iterate_succ_apply] at e
          have := iter_inj hw hl (a := 0) (b := a' + 1) (by omega) (by rw [e]; rfl)
          exact hself this
        · intro i hi
          rcases List.mem_cons.1 hi with rfl | hi
          · refine ⟨0, by omega, rfl, fun b hb => ?_⟩
            have : b = 0 := by omega
            subst this; exact hne
          · obtain ⟨a', h5, h6, h7⟩ := h4 i hi
            refine ⟨a' + 1, by omega, by rw [Function.iterate_succ_apply]; exact h6, fun b hb => ?_⟩
            cases b with
            | zero => exact hne
            | succ b => rw [Function.iterate_succ_apply]; exact h7 b (by omega)

/-- Connection `c` is log entry `k`, in one of its two directions. -/
def IdxOf (L : Log) (c : Connection) (k : Nat) : Prop :=
  Joins L k c.current c.next ∧ ∃ a b, L[k]? = some (a, b, c.justification)

theorem IdxOf.flip {L : Log} {c : Connection} {k : Nat} (h : IdxOf L c k) : IdxOf L (flip c) k :=
  ⟨h.1.symm, h.2⟩

theorem idx_inj {L : Log} (hf : Fresh L) {k k' : Nat} {i j : Id} (h : Joins L k i j) (h' : Joins L k' i j) : k = k' := by
  rcases Nat.lt_trichotomy k k' with hlt | rfl | hlt
  · exact absurd (h.conn hlt) (hf.joins h')
  · rfl
  · exact absurd (h'.conn hlt) (hf.joins h)

variable {nodes : List (ENode Op)} {conn : Id → Id → Prop} {L : Log}

theorem exists_idx (hx : XInv nodes conn x L) {i : Id} {e : ExplainNode} (he : x.find[i]? = some e) (hne : e.parent.next ≠ i) :
    ∃ k, IdxOf L e.parent k ∧ e.parent.current = i := by
  obtain ⟨k, a, b, h1, h2, h3⟩ := hx.edge i e he hne
  refine ⟨k, ⟨⟨a, b, _, h1, ?_⟩, a, b, h1⟩, h2⟩
  rw [h2]
  rcases h3 with ⟨_, h4, h5⟩ | ⟨_, h4, h5⟩
  · exact .inl ⟨h4, h5⟩
  · exact .inr ⟨h4, h5⟩

/-- Different nodes have different parent edges. -/
theorem parent_idx_inj (hx : XInv nodes conn x L) {i j : Id} {e e' : ExplainNode} {k : Nat}
    (he : x.find[i]? = some e) (he' : x.find[j]? = some e') (hne : e.parent.next ≠ i) (hne' : e'.parent.next ≠ j)
    (hc : e.parent.current = i) (hc' : e'.parent.current = j) (hk : IdxOf L e.parent k) (hk' : IdxOf L e'.parent k) : i = j := by
  obtain ⟨⟨a, b, q, h1, h2⟩, _⟩ := hk
  obtain ⟨⟨a', b', q', h3, h4⟩, _⟩ := hk'
  rw [h1] at h3
  cases h3
  rw [hc] at h2
  rw [hc'] at h4
  have cyc : e.parent.next = j → e'.parent.next = i → False := by
    intro h h'
    obtain ⟨d, hd⟩ := hx.wf
    have d1 := (hd i _ (ptab_get he)).2 hne
    have d2 := (hd j _ (ptab_get he')).2 hne'
    rw [h] at d1; rw [h'] at d2
    omega
  rcases h2 with ⟨rfl, h2⟩ | ⟨rfl, h2⟩ <;> rcases h4 with ⟨rfl, h4⟩ | ⟨rfl, h4⟩
  · rfl
  · exact absurd h4 (fun h => cyc h2 h)
  · exact absurd h4 (fun h => cyc h2 h)
  · rfl

/-- A way up in the forest, as a trail. -/
theorem up_trail (hx : XInv nodes conn x L) {anc : Id} : ∀ {is : List Id} {cs : List Connection} {l : Id},
    List.Forall₂ (fun i c => ∃ e : ExplainNode, x.find[i]? = some e ∧ e.parent = c ∧ c.next ≠ i) is cs →
    IdPath (fun _ _ _ => True) nodes.length l cs anc →
    ∃ ks, List.Forall₂ (IdxOf L) cs ks ∧ Trail L l ks anc ∧
      List.Forall₂ (fun i k => ∃ e : ExplainNode, x.find[i]? = some e ∧ e.parent.next ≠ i ∧ e.parent.current = i ∧ IdxOf L e.parent k) is ks := by
  intro is cs l h
  induction h generalizing l with
  | nil => intro hp; cases hp; exact ⟨[], .nil, .nil, .nil⟩
  | @cons i c is cs h _ ih =>
    intro hp
    obtain ⟨e, he, rfl, hne⟩ := h
    cases hp with
    | cons hc hp =>
      obtain ⟨ks, h1, h2, h3⟩ := ih hp
      obtain ⟨k, hk, hcur⟩ := exists_idx hx he hne
      refine ⟨k :: ks, .cons hk h1, .cons ?_ h2, .cons ⟨e, he, hne, hcur, hk⟩ h3⟩
      rw [← hc.cur]; exact hk.1

theorem nodup_of_inj {α β : Type} {R : α → β → Prop} {as : List α} {bs : List β} (h : List.Forall₂ R as bs)
    (hinj : ∀ a a' b, R a b → R a' b → a = a') (hn : as.Nodup) : bs.Nodup := by
  induction h with
  | nil => simp
  | @cons a b as bs h1 h2 ih =>
    rw [List.nodup_cons] at hn ⊢
    refine ⟨?_, ih hn.2⟩
    intro hm
    obtain ⟨a', ha', hr⟩ : ∃ a' ∈ as, R a' b := by
      clear ih hn
      induction h2 with
      | nil => simp at hm
      | @cons c d as bs h3 _ ih2 =>
        rcases List.mem_cons.1 hm with rfl | hm
        · exact ⟨c, by simp, h3⟩
        · obtain ⟨a', h4, h5⟩ := ih2 hm; exact ⟨a', by simp [h4], h5⟩
    rw [hinj a a' b h1 hr] at hn
    exact hn.1 ha'

theorem parentEdges (hx : XInv nodes conn x L) : EdgesOK (fun _ _ _ => True) nodes.length { x with shortMemo := [], find := x.find.map (fun e => { e with neighbors := [] }) } := by
  refine ⟨by simp [hx.len], ?_, ?_, by intro l r c nx h; simp [AMap.get?] at h⟩
  · intro i e he hne
    simp only [List.getElem?_map, Option.map_eq_some_iff] at he
    obtain ⟨e0, he0, rfl⟩ := he
    obtain ⟨k, hk, hc⟩ := exists_idx hx he0 hne
    refine ⟨hc, ?_, fun s _ => by split <;> trivial⟩
    obtain ⟨d, hd⟩ := hx.wf
    have := (hd i _ (ptab_get he0)).1
    rw [ptab_length, hx.len] at this
    exact this
  · intro i e c he hc
    simp only [List.getElem?_map, Option.map_eq_some_iff] at he
    obtain ⟨e0, he0, rfl⟩ := he
    simp at hc

theorem idPath_of_chain (hx : XInv nodes conn x L) {f : Nat} {l anc : Id} {cs : List Connection}
    (h : getConnections x f l anc = .ok cs) : IdPath (fun _ _ _ => True) nodes.length l cs anc := by
  have key : ∀ f l, getConnectionsLoop { x with shortMemo := [], find := x.find.map (fun e => { e with neighbors := [] }) } anc f l
      = getConnectionsLoop x anc f l := by
    intro f
    induction f with
    | zero => intro l; rfl
    | succ f ih =>
      intro l
      rw [getConnectionsLoop, getConnectionsLoop]
      simp only [getIdx, List.getElem?_map]
      cases x.find[l]? with
      | none => rfl
      | some e => simp only [Option.map_some, ok_bind, ih]
  refine getConnections_path (x := { x with shortMemo := [], find := x.find.map (fun e => { e with neighbors := [] }) }) (parentEdges hx) (f := f) ?_
  unfold getConnections at h ⊢
  rw [key]; exact h

/-- The unoptimized path between two ids of the same class is a trail of the log. -/
theorem getPathUnoptimized_ok (hx : XInv nodes conn x L) {l r : Id} (hl : l < nodes.length) (hr : r < nodes.length)
    (hc : conn l r) : ∃ f0, ∀ f, f0 ≤ f → ∃ lc rc ks, getPathUnoptimized x f l r = .ok (lc, rc) ∧
      List.Forall₂ (IdxOf L) (lc ++ rc.reverse.map flip) ks ∧ Trail L l ks r ∧ ks.Nodup := by
  have hl' : l < x.find.length := by rw [hx.len]; exact hl
  have hr' : r < x.find.length := by rw [hx.len]; exact hr
  obtain ⟨f0, hf0⟩ := commonAncestor_ok hx.wf hl' hr' ((hx.tree l r hl hr).2 hc)
  obtain ⟨n1, hn1⟩ := iter_root (UF.rootOf_root hx.wf (i := l) (by simpa using hl'))
  obtain ⟨n2, hn2⟩ := iter_root (UF.rootOf_root hx.wf (i := r) (by simpa using hr'))
  -- any common ancestor is reached within `n1`, `n2` steps
  refine ⟨f0 + n1 + n2, fun f hf => ?_⟩
  obtain ⟨anc, a, b, h1, h2, h3, h4⟩ := hf0 f (by omega)
  obtain ⟨a1, ha1, hale⟩ : ∃ a1, (up x)^[a1] l = anc ∧ a1 ≤ n1 ∧ a1 ≤ a := by
    by_cases h : a ≤ n1
    · exact ⟨a, h2, h, le_refl _⟩
    · exact ⟨n1, by rw [← h2, hn1 a (by omega), hn1 n1 (le_refl _)], le_refl _, by omega⟩
  obtain ⟨b1, hb1, hble⟩ : ∃ b1, (up x)^[b1] r = anc ∧ b1 ≤ n2 ∧ b1 ≤ b := by
    by_cases h : b ≤ n2
    · exact ⟨b, h3, h, le_refl _⟩
    · exact ⟨n2, by rw [← h3, hn2 b (by omega), hn2 n2 (le_refl _)], le_refl _, by omega⟩
  obtain ⟨is, lc, l1, l2, l3, l4⟩ := getConnections_ok hx.wf a1 l anc hl' ha1 f (by omega)
  obtain ⟨js, rc, r1, r2, r3, r4⟩ := getConnections_ok hx.wf b1 r anc hr' hb1 f (by omega)
  obtain ⟨ks, k1, k2, k3⟩ := up_trail hx l2 (idPath_of_chain hx l1)
  obtain ⟨ms, m1, m2, m3⟩ := up_trail hx r2 (idPath_of_chain hx r1)
  refine ⟨lc, rc, ks ++ ms.reverse, ?_, ?_, k2.append m2.reverse, ?_⟩
  · unfold getPathUnoptimized
    rw [h1, ok_bind, l1, ok_bind, r1, ok_bind]
    rfl
  · refine List.rel_append k1 ?_
    rw [List.forall₂_map_left_iff]
    have := List.forall₂_reverse_iff.2 m1
    exact this.imp (fun _ _ h => h.flip)
  · have hn : (is ++ js).Nodup := by
      refine List.nodup_append.2 ⟨l3, r3, ?_⟩
      intro i hi j hj e
      subst e
      obtain ⟨a', g1, g2, _⟩ := l4 i hi
      obtain ⟨b', g3, g4, _⟩ := r4 i hj
      exact h4 a' b' (by omega) (by omega) (by rw [g2, g4])
    have := nodup_of_inj (List.rel_append k3 m3) (by
      rintro i j k ⟨e, z1, z2, z3, z4⟩ ⟨e', y1, y2, y3, y4⟩
      exact parent_idx_inj hx z1 y1 z2 y2 z3 y3 z4 y4) hn
    rw [List.nodup_append] at this ⊢
    exact ⟨this.1, List.nodup_reverse.2 this.2.1, fun k hk m hm => this.2.2 k hk m (List.mem_reverse.1 hm)⟩

end Explain
end Egg
