import Verif.Lemmas.CongrNb
/-
The search for short paths.
-/
namespace Egg
variable {Op : Type} [DecidableEq Op]

namespace Explain
variable {x : Explain Op} {nodes : List (ENode Op)} {conn : Id → Id → Prop} {L : Log} {cn : List (List Id)}

/-- A connection that the search may use, and its cost. -/
def GC (x : Explain Op) (nodes : List (ENode Op)) (L : Log) (cn : List (List Id)) (c : Connection) (w : Nat) : Prop :=
  (c.justification.isRule = true ∧ w = 1 ∧ ∃ e : ExplainNode, x.find[c.current]? = some e ∧ c ∈ e.neighbors) ∨
  (c.justification = .congruence ∧ w = kd nodes L c.current c.next ∧ Has cn c.current c.next)

/-- A path of such connections. -/
inductive GPath (x : Explain Op) (nodes : List (ENode Op)) (L : Log) (cn : List (List Id)) : Id → Id → Nat → Prop where
  | nil {u} : GPath x nodes L cn u u 0
  | cons {u v c w k} : c.current = u → GC x nodes L cn c w → GPath x nodes L cn c.next v k → GPath x nodes L cn u v (w + k)

theorem GPath.trans {u v t : Id} {k k' : Nat} (h : GPath x nodes L cn u v k) (h' : GPath x nodes L cn v t k') : GPath x nodes L cn u t (k + k') := by
  induction h with
  | nil => simpa using h'
  | cons h1 h2 _ ih =>
    rw [Nat.add_assoc]
    exact .cons h1 h2 (ih h')

theorem GPath.single {c : Connection} {w : Nat} (h : GC x nodes L cn c w) : GPath x nodes L cn c.current c.next w := by
  have := GPath.cons rfl h (GPath.nil (x := x) (nodes := nodes) (L := L) (cn := cn) (u := c.next))
  simpa using this

theorem CnOK.has (hc : CnOK x nodes L cn) {u v : Id} (h : Has cn u v) : CongrIds nodes L u v := by
  obtain ⟨l, h1, h2⟩ := h
  exact hc.sound u l h1 v h2

theorem CongrIds.lt {u v : Id} (h : CongrIds nodes L u v) : u < nodes.length ∧ v < nodes.length := by
  obtain ⟨na, nb, h1, h2, _⟩ := h
  exact ⟨getElem?_lt h1, getElem?_lt h2⟩

theorem GC.lt (h : Fo nodes conn L x) (hc : CnOK x nodes L cn) {c : Connection} {w : Nat} (hg : GC x nodes L cn c w) :
    c.current < nodes.length ∧ c.next < nodes.length := by
  rcases hg with ⟨_, _, e, h1, h2⟩ | ⟨_, _, h1⟩
  · exact ⟨by rw [← h.len]; exact getElem?_lt h1, (h.nb _ e h1 c h2).2.1⟩
  · exact CongrIds.lt (hc.has h1)

theorem kd_eq {u v : Id} {na nb : ENode Op} (h1 : nodes[u]? = some na) (h2 : nodes[v]? = some nb) : kd nodes L u v = childD nodes L na nb := by
  simp [kd, cw, h1, h2]

theorem kd_symm (hf : Fresh L) {u v : Id} (h : CongrIds nodes L u v) : kd nodes L u v = kd nodes L v u := by
  obtain ⟨na, nb, h1, h2, _, h4⟩ := h
  rw [kd_eq h1 h2, kd_eq h2 h1, childD_symm hf h4]

/-- The edge to the parent can be used in both directions. -/
theorem up_edge (h : Fo nodes conn L x) (hc : CnOK x nodes L cn) {i : Id} (hi : i < nodes.length) (hne : up x i ≠ i) :
    (∃ c : Connection, c.current = i ∧ c.next = up x i ∧ GC x nodes L cn c (W x nodes L i)) ∧
    ∃ c : Connection, c.current = up x i ∧ c.next = i ∧ GC x nodes L cn c (W x nodes L i) := by
  have hil : i < x.find.length := by rw [h.len]; exact hi
  have he := List.getElem?_eq_getElem hil
  have hup := up_of_get he
  have hcur := h.inv.cur i _ he
  have hW : W x nodes L i = cw nodes L x.find[i].parent := by
    rw [W, he]
    simp only
    rw [if_neg (by rw [← hup]; exact hne)]
  obtain ⟨⟨c, h1, h2, h3⟩, e', h4, c', h5, h6, h7⟩ := h.up_nb he hne
  cases hj : x.find[i].parent.justification with
  | rule s =>
    rw [hj] at h3 h7
    have hW1 : W x nodes L i = 1 := by rw [hW, cw, hj]
    have g1 := (h.nb i _ he c h1).1
    have g2 := (h.nb _ _ h4 c' h5).1
    exact ⟨⟨c, g1, h2, .inl ⟨by rw [h3]; rfl, hW1, _, by rw [g1]; exact he, h1⟩⟩,
      ⟨c', g2, h6, .inl ⟨by rw [h7]; rfl, hW1, _, by rw [g2]; exact h4, h5⟩⟩⟩
  | congruence =>
    obtain ⟨k1, k2⟩ := hc.up i _ he hj
    have hW1 : W x nodes L i = kd nodes L i (up x i) := by
      rw [hW, cw, kd, cw, hj, hcur, hup]
    have k3 : CongrIds nodes L i (up x i) := hc.has k1
    refine ⟨⟨⟨up x i, i, .congruence, true⟩, rfl, rfl, .inr ⟨rfl, hW1, k1⟩⟩,
      ⟨⟨i, up x i, .congruence, true⟩, rfl, rfl, .inr ⟨rfl, ?_, k2⟩⟩⟩
    rw [hW1]
    exact kd_symm h.inv.logFresh k3

theorem up_gpath (h : Fo nodes conn L x) (hc : CnOK x nodes L cn) : ∀ (n : Nat) (i : Id), i < nodes.length → n ≤ dep x i →
    GPath x nodes L cn i ((up x)^[n] i) (S x nodes L i n) ∧ GPath x nodes L cn ((up x)^[n] i) i (S x nodes L i n) := by
  intro n
  induction n with
  | zero => intro i _ _; exact ⟨.nil, .nil⟩
  | succ n ih =>
    intro i hi hn
    have hil : i < x.find.length := by rw [h.len]; exact hi
    have hne : up x i ≠ i := by intro e; have := (dep_zero h.wf hil).2 e; omega
    have := dep_up h.wf hil hne
    obtain ⟨h1, h2⟩ := ih (up x i) (h.up_lt hi) (by omega)
    obtain ⟨⟨c, g1, g2, g3⟩, c', g4, g5, g6⟩ := up_edge h hc hi hne
    rw [Function.iterate_succ_apply, S]
    refine ⟨.cons g1 g3 (by rw [g2]; exact h1), ?_⟩
    have := GPath.single g6
    rw [g4, g5] at this
    rw [Nat.add_comm]
    exact h2.trans this

theorem exists_lca (hx : XInv nodes conn x L) {l r : Id} (hl : l < nodes.length) (hr : r < nodes.length) (hlr : Conn L l r) :
    ∃ anc a b, Lca x l r anc a b := by
  have hroot : UF.root (ptab x.find) l = UF.root (ptab x.find) r := (hx.tree l r hl hr).2 ((hx.logConn l r hl hr).1 hlr)
  rw [← hx.len] at hl hr
  obtain ⟨f0, hf0⟩ := commonAncestor_ok hx.wf hl hr hroot
  obtain ⟨anc, a, b, g1, g2, g3, g4⟩ := hf0 f0 (le_refl _)
  exact ⟨anc, lca_of hx.wf hl hr g2 g3 g4⟩

/-- The path through the forest. -/
theorem tree_gpath (h : Fo nodes conn L x) (hc : CnOK x nodes L cn) {l r : Id} (hl : l < nodes.length) (hr : r < nodes.length) (hlr : Conn L l r) :
    GPath x nodes L cn l r (D nodes L l r) := by
  have hll : l < x.find.length := by rw [h.len]; exact hl
  have hrl : r < x.find.length := by rw [h.len]; exact hr
  obtain ⟨anc, a, b, hlca⟩ := exists_lca h.inv hl hr hlr
  have hD := (hlca.trail h.inv hll hrl).1
  obtain ⟨ha, hb, h1, h2, _⟩ := hlca
  have g1 := (up_gpath h hc a l hl ha).1
  have g2 := (up_gpath h hc b r hr hb).2
  rw [h1] at g1
  rw [h2] at g2
  rw [hD]
  exact g1.trans g2

/-- The path that the table `last` stores for `v`. -/
inductive BP (x : Explain Op) (nodes : List (ENode Op)) (L : Log) (cn : List (List Id)) (last : AMap Id Connection) (start : Id) :
    Id → List Connection → Nat → Prop where
  | nil : BP x nodes L cn last start start [] 0
  | snoc {v c p k w} : c.next = v → BP x nodes L cn last start c.current p k → v ≠ start → last.get? v = some c → GC x nodes L cn c w →
      BP x nodes L cn last start v (p ++ [c]) (k + w)

theorem BP.insert {last : AMap Id Connection} {start v cur : Id} {p : List Connection} {k : Nat} {c : Connection}
    (h : BP x nodes L cn last start v p k) (hn : last.get? cur = none) : BP x nodes L cn (last.insert cur c) start v p k := by
  induction h with
  | nil => exact .nil
  | snoc h1 _ h3 h4 h5 ih =>
    refine .snoc h1 ih h3 ?_ h5
    rw [AMap.get?_insert, if_neg]
    · exact h4
    · rintro rfl; rw [hn] at h4; cases h4

theorem BP.unique {last : AMap Id Connection} {start v : Id} {p p' : List Connection} {k k' : Nat}
    (h : BP x nodes L cn last start v p k) (h' : BP x nodes L cn last start v p' k') : p = p' := by
  induction h generalizing p' k' with
  | nil =>
    cases h' with
    | nil => rfl
    | snoc _ _ h3 => exact absurd rfl h3
  | snoc h1 _ h3 h4 h5 ih =>
    cases h' with
    | nil => exact absurd rfl h3
    | snoc g1 g2 g3 g4 g5 =>
      rw [h4] at g4
      cases g4
      rw [ih g2]

/-- State of the search. -/
structure DJ (x : Explain Op) (nodes : List (ENode Op)) (L : Log) (cn : List (List Id)) (start endId : Id) (todo : List (Nat × Connection))
    (last : AMap Id Connection) (pc : AMap Id Nat) : Prop where
  dom : ∀ v, last.get? v = none ↔ pc.get? v = none
  src : ∀ t ∈ todo, (t.1 = 0 ∧ t.2.next = start) ∨ ∃ k w, pc.get? t.2.current = some k ∧ GC x nodes L cn t.2 w ∧ t.1 = k + w
  bp : ∀ v k, pc.get? v = some k → v < nodes.length ∧ ∃ p, BP x nodes L cn last start v p k
  first : pc.get? start = some 0 ∨ ((∃ c, (0, c) ∈ todo ∧ c.next = start) ∧ ∀ v, pc.get? v = none)
  mono : ∀ v k, pc.get? v = some k → ∀ t ∈ todo, k ≤ t.1
  out : ∀ c w k, GC x nodes L cn c w → pc.get? c.current = some k → (∃ k', pc.get? c.next = some k' ∧ k' ≤ k + w) ∨
    ∃ t ∈ todo, t.1 = k + w ∧ t.2.next = c.next
  fin : pc.get? endId = none

variable {start endId : Id} {todo : List (Nat × Connection)} {last : AMap Id Connection} {pc : AMap Id Nat}

theorem DJ.escape (h : DJ x nodes L cn start endId todo last pc) {u v : Id} {k : Nat} (hp : GPath x nodes L cn u v k) : ∀ {ku : Nat},
    pc.get? u = some ku → pc.get? v = none → ∃ t ∈ todo, t.1 ≤ ku + k := by
  induction hp with
  | nil => intro ku h1 h2; rw [h1] at h2; cases h2
  | @cons u v c w k hu hc _ ih =>
    intro ku h1 h2
    subst hu
    rcases h.out c w ku hc h1 with ⟨k', h3, h4⟩ | ⟨t, h3, h4, _⟩
    · obtain ⟨t, h5, h6⟩ := ih h3 h2
      exact ⟨t, h5, by omega⟩
    · exact ⟨t, h3, by omega⟩

/-- What the cheapest element of the heap says about its target. -/
theorem DJ.settle (hf : Fo nodes conn L x) (hc : CnOK x nodes L cn) (hs : start < nodes.length) (h : DJ x nodes L cn start endId todo last pc)
    {t : Nat × Connection} (ht : t ∈ todo) (hmin : ∀ b ∈ todo, t.1 ≤ b.1) (hn : pc.get? t.2.next = none) :
    t.2.next < nodes.length ∧ (∃ p, BP x nodes L cn (last.insert t.2.next t.2) start t.2.next p t.1) ∧
    ∀ k', GPath x nodes L cn start t.2.next k' → t.1 ≤ k' := by
  have hln := (h.dom t.2.next).2 hn
  refine ⟨?_, ?_, ?_⟩
  · rcases h.src t ht with ⟨_, h2⟩ | ⟨k, w, _, h2, _⟩
    · rw [h2]; exact hs
    · exact (h2.lt hf hc).2
  · rcases h.src t ht with ⟨h1, h2⟩ | ⟨k, w, h1, h2, h3⟩
    · rw [h1, h2]; exact ⟨[], .nil⟩
    · obtain ⟨_, p, hp⟩ := h.bp _ _ h1
      have hne : t.2.next ≠ start := by
        intro e
        rcases h.first with h4 | ⟨_, h4⟩
        · rw [← e, hn] at h4; cases h4
        · rw [h4] at h1; cases h1
      rw [h3]
      exact ⟨p ++ [t.2], .snoc rfl (hp.insert hln) hne (by rw [AMap.get?_insert, if_pos rfl]) h2⟩
  · intro k' hk
    rcases h.first with h4 | ⟨⟨c, h4, _⟩, _⟩
    · obtain ⟨b, hb1, hb2⟩ := h.escape hk h4 hn
      have := hmin b hb1
      omega
    · have := hmin _ h4
      simp only at this
      omega

/-- Number of connections that leave `i`. -/
def outdeg (x : Explain Op) (cn : List (List Id)) (i : Id) : Nat := deg x i + (match cn[i]? with
  | some l => l.length
  | none => 0)

/-- The elements of the heap that come from `cur`. -/
noncomputable def outs (x : Explain Op) (nodes : List (ENode Op)) (L : Log) (cur : Id) (cost : Nat) (e : ExplainNode) (others : List Id) : List (Nat × Connection) :=
  (e.neighbors.filter (·.justification.isRule)).map (fun nb => (cost + 1, nb)) ++
    others.map (fun next => (cost + kd nodes L cur next, (⟨next, cur, .congruence, true⟩ : Connection)))

theorem mem_outs (hf : Fo nodes conn L x) {cur : Id} {cost : Nat} {e : ExplainNode} {others : List Id} (he : x.find[cur]? = some e) (ho : cn[cur]? = some others)
    {t : Nat × Connection} (ht : t ∈ outs x nodes L cur cost e others) : t.2.current = cur ∧ ∃ w, GC x nodes L cn t.2 w ∧ t.1 = cost + w := by
  rcases List.mem_append.1 ht with ht | ht
  · obtain ⟨nb, h1, rfl⟩ := List.mem_map.1 ht
    obtain ⟨h1, h2⟩ := List.mem_filter.1 h1
    have hcur := (hf.nb cur e he nb h1).1
    exact ⟨hcur, 1, .inl ⟨h2, rfl, e, by rw [hcur]; exact he, h1⟩, rfl⟩
  · obtain ⟨nx, h1, rfl⟩ := List.mem_map.1 ht
    exact ⟨rfl, _, .inr ⟨rfl, rfl, others, ho, h1⟩, rfl⟩

theorem outs_all {cur : Id} {cost : Nat} {e : ExplainNode} {others : List Id} (he : x.find[cur]? = some e) (ho : cn[cur]? = some others)
    {c : Connection} {w : Nat} (hc : GC x nodes L cn c w) (hcur : c.current = cur) :
    ∃ t ∈ outs x nodes L cur cost e others, t.1 = cost + w ∧ t.2.next = c.next := by
  rcases hc with ⟨h1, h2, e', h3, h4⟩ | ⟨h1, h2, l, h3, h4⟩
  · rw [hcur, he] at h3; cases h3
    exact ⟨(cost + 1, c), List.mem_append_left _ (List.mem_map.2 ⟨c, List.mem_filter.2 ⟨h4, h1⟩, rfl⟩), by rw [h2], rfl⟩
  · rw [hcur, ho] at h3; cases h3
    exact ⟨_, List.mem_append_right _ (List.mem_map.2 ⟨c.next, h4, rfl⟩), by rw [h2, hcur], rfl⟩

theorem length_outs {cur : Id} {cost : Nat} {e : ExplainNode} {others : List Id} (he : x.find[cur]? = some e) (ho : cn[cur]? = some others) :
    (outs x nodes L cur cost e others).length ≤ outdeg x cn cur := by
  unfold outs outdeg deg
  simp only [he, ho, List.length_append, List.length_map]
  have := List.length_filter_le (fun c : Connection => c.justification.isRule) e.neighbors
  omega

theorem DJ.skip (h : DJ x nodes L cn start endId todo last pc) {t : Nat × Connection} {rest : List (Nat × Connection)}
    (hp : todo.Perm (t :: rest)) {k : Nat} (hk : pc.get? t.2.next = some k) : DJ x nodes L cn start endId rest last pc := by
  have hr : ∀ b ∈ rest, b ∈ todo := fun b hb => hp.mem_iff.2 (by simp [hb])
  refine ⟨h.dom, fun b hb => h.src b (hr b hb), h.bp, ?_, fun v k hv b hb => h.mono v k hv b (hr b hb), ?_, h.fin⟩
  · rcases h.first with h1 | ⟨_, h1⟩
    · exact .inl h1
    · rw [h1] at hk; cases hk
  · intro c w k' hc hk'
    rcases h.out c w k' hc hk' with h1 | ⟨b, h1, h2, h3⟩
    · exact .inl h1
    · rcases List.mem_cons.1 (hp.mem_iff.1 h1) with rfl | h1
      · refine .inl ⟨k, by rw [← h3]; exact hk, ?_⟩
        have := h.mono _ _ hk b (hp.mem_iff.2 (by simp))
        omega
      · exact .inr ⟨b, h1, h2, h3⟩

theorem DJ.step (hf : Fo nodes conn L x) (hc : CnOK x nodes L cn) (hs : start < nodes.length) (h : DJ x nodes L cn start endId todo last pc) {t : Nat × Connection} {rest : List (Nat × Connection)}
    (hp : todo.Perm (t :: rest)) (hmin : ∀ b ∈ todo, t.1 ≤ b.1) (hn : pc.get? t.2.next = none) (hne : t.2.next ≠ endId)
    {e : ExplainNode} {others : List Id} (he : x.find[t.2.next]? = some e) (ho : cn[t.2.next]? = some others) :
    DJ x nodes L cn start endId (rest ++ outs x nodes L t.2.next t.1 e others) (last.insert t.2.next t.2) (pc.insert t.2.next t.1) := by
  have htm : t ∈ todo := hp.mem_iff.2 (by simp)
  obtain ⟨s1, s2, _⟩ := h.settle hf hc hs htm hmin hn
  have hln := (h.dom t.2.next).2 hn
  have hr : ∀ b ∈ rest, b ∈ todo := fun b hb => hp.mem_iff.2 (by simp [hb])
  have hold : ∀ v k, pc.get? v = some k → (pc.insert t.2.next t.1).get? v = some k := by
    intro v k hv
    rw [AMap.get?_insert, if_neg]
    · exact hv
    · rintro rfl; rw [hn] at hv; cases hv
  refine ⟨?_, ?_, ?_, ?_, ?_, ?_, ?_⟩
  · intro v
    rw [AMap.get?_insert, AMap.get?_insert]
    split
    · simp
    · exact h.dom v
  · intro b hb
    rcases List.mem_append.1 hb with hb | hb
    · rcases h.src b (hr b hb) with h1 | ⟨k, w, h1, h2⟩
      · exact .inl h1
      · exact .inr ⟨k, w, hold _ _ h1, h2⟩
    · obtain ⟨h1, w, h2, h3⟩ := mem_outs hf he ho hb
      exact .inr ⟨t.1, w, by rw [h1, AMap.get?_insert, if_pos rfl], h2, h3⟩
  · intro v k hv
    rw [AMap.get?_insert] at hv
    split at hv
    · rename_i e; subst e; cases hv
      exact ⟨s1, s2⟩
    · obtain ⟨h1, p, h2⟩ := h.bp v k hv
      exact ⟨h1, p, h2.insert hln⟩
  · rcases h.first with h1 | ⟨⟨c, h1, h2⟩, h3⟩
    · exact .inl (hold _ _ h1)
    · rcases h.src t htm with ⟨h4, h5⟩ | ⟨k, w, h4, _⟩
      · exact .inl (by rw [h5, AMap.get?_insert, if_pos rfl, h4])
      · rw [h3] at h4; cases h4
  · intro v k hv b hb
    have hkt : k ≤ t.1 := by
      rw [AMap.get?_insert] at hv
      split at hv
      · cases hv; exact le_refl _
      · exact h.mono v k hv t htm
    rcases List.mem_append.1 hb with hb | hb
    · have := hmin b (hr b hb); omega
    · obtain ⟨_, w, _, h3⟩ := mem_outs hf he ho hb
      omega
  · intro c w k hcw hk
    by_cases hcur : c.current = t.2.next
    · rw [hcur, AMap.get?_insert, if_pos rfl] at hk
      cases hk
      obtain ⟨b, h1, h2, h3⟩ := outs_all (nodes := nodes) (L := L) (cost := t.1) he ho hcw hcur
      exact .inr ⟨b, List.mem_append_right _ h1, h2, h3⟩
    · rw [AMap.get?_insert, if_neg (fun e => hcur e.symm)] at hk
      rcases h.out c w k hcw hk with ⟨k', h1, h2⟩ | ⟨b, h1, h2, h3⟩
      · exact .inl ⟨k', hold _ _ h1, h2⟩
      · rcases List.mem_cons.1 (hp.mem_iff.1 h1) with rfl | h1
        · exact .inl ⟨b.1, by rw [← h3, AMap.get?_insert, if_pos rfl], by omega⟩
        · exact .inr ⟨b, List.mem_append_left _ h1, h2, h3⟩
  · rw [AMap.get?_insert, if_neg hne]
    exact h.fin

/-- What the search returns. -/
def Found (x : Explain Op) (nodes : List (ENode Op)) (L : Log) (cn : List (List Id)) (start endId : Id)
    (q : AMap Id Connection × AMap Id Nat × DistanceMemo) : Prop := ∃ k p, q.2.1.get? endId = some k ∧ BP x nodes L cn q.1 start endId p k ∧
  (∀ k', GPath x nodes L cn start endId k' → k ≤ k') ∧ ∃ n, DmAt x nodes L q.2.2 n

theorem dijkstra_ok (hf : Fo nodes conn L x) (hc : CnOK x nodes L cn) (ch : Choices) (hs : start < nodes.length) {k0 : Nat}
    (hreach : GPath x nodes L cn start endId k0) : ∀ (m : Nat) (todo : List (Nat × Connection)) (last : AMap Id Connection) (pc : AMap Id Nat) (dm : DistanceMemo)
    (n : Id → Nat), todo.length + ((List.range nodes.length).map (fun i => if (pc.get? i).isSome then 0 else outdeg x cn i)).sum = m →
    DJ x nodes L cn start endId todo last pc → DmAt x nodes L dm n →
    Returns (fun p : Nat × Nat => dijkstra x ch nodes cn p.1 endId p.2 todo last pc dm) (Found x nodes L cn start endId) := by
  intro m
  induction m using Nat.strongRecOn with
  | ind m ih =>
    intro todo last pc dm n hm h hdm
    refine Returns.succ2' ?_
    simp only [dijkstra]
    cases hpop : ch.pop todo with
    | none =>
      exfalso
      have := ch.popNone todo hpop
      subst this
      rcases h.first with h1 | ⟨⟨c, h1, _⟩, _⟩
      · obtain ⟨t, ht, _⟩ := h.escape hreach h1 h.fin
        simp at ht
      · simp at h1
    | some v =>
      obtain ⟨⟨cost, c⟩, rest⟩ := v
      obtain ⟨hp, hmin⟩ := ch.popSome todo _ _ hpop
      have hlen : todo.length = rest.length + 1 := by rw [hp.length_eq]; rfl
      simp only
      cases hg : pc.get? c.next with
      | some k =>
        have hl : (last.get? c.next).isSome = true := by
          cases hl : last.get? c.next with
          | none => rw [(h.dom _).1 hl] at hg; cases hg
          | some _ => rfl
        simp only [hl, if_true]
        exact ih _ (by omega) rest last pc dm n rfl (h.skip hp hg) hdm
      | none =>
        have hl := (h.dom _).2 hg
        simp only [hl, Option.isSome_none, Bool.false_eq_true, if_false]
        have htm : (cost, c) ∈ todo := hp.mem_iff.2 (by simp)
        obtain ⟨s1, ⟨p, s2⟩, s3⟩ := h.settle hf hc hs htm hmin hg
        simp only at s1 s2 s3
        by_cases hend : c.next = endId
        · simp only [hend, if_true]
          rw [hend] at s2 s3
          exact Returns.ret ⟨cost, p, by rw [AMap.get?_insert, if_pos rfl], s2, s3, n, hdm⟩
        · simp only [hend, if_false]
          have hel : c.next < x.find.length := by rw [hf.len]; exact s1
          have he := List.getElem?_eq_getElem hel
          have hol : c.next < cn.length := by rw [hc.len]; exact s1
          have ho := List.getElem?_eq_getElem hol
          simp only [getIdx_eq_ok.2 he, getIdx_eq_ok.2 ho, ok_bind]
          refine Returns.bind (P := fun acc : List (Nat × Connection) × DistanceMemo =>
            acc.1 = rest ++ outs x nodes L c.next cost x.find[c.next] cn[c.next] ∧ ∃ n', DmAt x nodes L acc.2 n') ?_ ?_
          · refine (Returns.foldlM (I := fun (l : List Id) (acc : List (Nat × Connection) × DistanceMemo) =>
              acc.1 = rest ++ outs x nodes L c.next cost x.find[c.next] l ∧ ∃ n', DmAt x nodes L acc.2 n') cn[c.next] [] _ ?_ ?_).mono (fun _ h => h)
            · exact ⟨by simp [outs], n, hdm⟩
            · rintro pre nx post ⟨td, dm'⟩ e ⟨h1, n', h2⟩
              have hcong : CongrIds nodes L c.next nx := hc.has ⟨_, ho, by rw [show cn[c.next] = pre ++ nx :: post from e]; simp⟩
              refine Returns.bind (congruenceDistance_ok hf.dag hf.inv hcong h2).lift ?_
              rintro ⟨d, dm2⟩ ⟨h3, h4⟩
              simp only at h3 h1
              refine Returns.ret ⟨?_, h4⟩
              simp only [h1, h3, outs, List.map_append, List.map_cons, List.map_nil, List.append_assoc]
          · rintro ⟨td, dm'⟩ ⟨h1, n', h2⟩
            simp only at h1
            subst h1
            refine ih _ ?_ _ _ _ dm' n' rfl (h.step hf hc hs hp hmin hg hend he ho) h2
            have hsum := sum_change (List.nodup_range (n := nodes.length)) (c := c.next) (List.mem_range.2 s1)
              (g := fun i => if (pc.get? i).isSome then 0 else outdeg x cn i) (g' := fun i => if ((pc.insert c.next cost).get? i).isSome then 0 else outdeg x cn i)
              (by
                intro i _ hi
                simp only [AMap.get?_insert, if_neg (fun e : c.next = i => hi e.symm)])
            simp only [hg, AMap.get?_insert, if_true, Option.isSome_some, Option.isSome_none, Bool.false_eq_true, if_false] at hsum
            have hlo := length_outs (nodes := nodes) (L := L) (cost := cost) he ho
            simp only [List.length_append, AMap.get?_insert]
            omega

theorem walkBack_ok {v : Id} {p : List Connection} {k : Nat} (h : BP x nodes L cn last start v p k) : ∀ acc : List Connection,
    Returns (fun f => walkBack last start f v acc) (fun q => q = p ++ acc) := by
  induction h with
  | nil =>
    intro acc
    refine Returns.succ' ?_
    simp only [walkBack, if_true]
    exact Returns.ret rfl
  | snoc h1 _ h3 h4 _ ih =>
    intro acc
    refine Returns.succ' ?_
    simp only [walkBack, if_neg h3, h4]
    refine (ih _).mono ?_
    rintro _ rfl
    simp

end Explain
end Egg
