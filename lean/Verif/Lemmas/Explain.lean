import Verif.Lemmas.UnionFind
import Verif.Lemmas.Basic
import Mathlib.Logic.Relation
/-
The proof forest maintained while explanations are enabled.
-/
namespace Egg

theorem getElem?_lt {α : Type} {l : List α} {i : Nat} {a : α} (h : l[i]? = some a) :
    i < l.length := (List.getElem?_eq_some_iff.1 h).1

/-- Undirected connectivity through the edges of a log of unions. -/
def Conn (L : List (Id × Id × Justification)) : Id → Id → Prop :=
  Relation.EqvGen (fun a b => ∃ j, (a, b, j) ∈ L)

theorem Conn.refl {L} (i) : Conn L i i := Relation.EqvGen.refl _
theorem Conn.symm {L i j} (h : Conn L i j) : Conn L j i := Relation.EqvGen.symm _ _ h
theorem Conn.trans {L i j k} (h : Conn L i j) (h' : Conn L j k) : Conn L i k := Relation.EqvGen.trans _ _ _ h h'

theorem Conn.mono {L L' : List (Id × Id × Justification)} (hs : ∀ x ∈ L, x ∈ L') {i j}
    (h : Conn L i j) : Conn L' i j := by
  induction h with
  | rel a b h => obtain ⟨k, hk⟩ := h; exact Relation.EqvGen.rel _ _ ⟨k, hs _ hk⟩
  | refl => exact Conn.refl _
  | symm _ _ _ ih => exact Conn.symm ih
  | trans _ _ _ _ _ ih1 ih2 => exact Conn.trans ih1 ih2

theorem conn_append {L : List (Id × Id × Justification)} {a b : Id} {j : Justification} {i k : Id} :
    Conn (L ++ [(a, b, j)]) i k ↔
      Conn L i k ∨ (Conn L i a ∧ Conn L b k) ∨ (Conn L i b ∧ Conn L a k) := by
  constructor
  · intro h
    induction h with
    | rel x y h =>
      obtain ⟨j', hj⟩ := h
      simp only [List.mem_append, List.mem_singleton, Prod.mk.injEq] at hj
      rcases hj with hj | ⟨rfl, rfl, rfl⟩
      · exact Or.inl (.rel _ _ ⟨j', hj⟩)
      · exact Or.inr (Or.inl ⟨.refl _, .refl _⟩)
    | refl => exact Or.inl (.refl _)
    | symm _ _ _ ih =>
      rcases ih with h | ⟨h1, h2⟩ | ⟨h1, h2⟩
      · exact Or.inl h.symm
      · exact Or.inr (Or.inr ⟨h2.symm, h1.symm⟩)
      · exact Or.inr (Or.inl ⟨h2.symm, h1.symm⟩)
    | trans x y z _ _ ih1 ih2 =>
      rcases ih1 with h | ⟨h1, h2⟩ | ⟨h1, h2⟩ <;> rcases ih2 with g | ⟨g1, g2⟩ | ⟨g1, g2⟩
      · exact Or.inl (h.trans g)
      · exact Or.inr (Or.inl ⟨h.trans g1, g2⟩)
      · exact Or.inr (Or.inr ⟨h.trans g1, g2⟩)
      · exact Or.inr (Or.inl ⟨h1, h2.trans g⟩)
      · exact Or.inr (Or.inl ⟨h1, g2⟩)
      · exact Or.inl (h1.trans g2)
      · exact Or.inr (Or.inr ⟨h1, h2.trans g⟩)
      · exact Or.inl (h1.trans g2)
      · exact Or.inr (Or.inr ⟨h1, g2⟩)
  · have hm : ∀ {x y}, Conn L x y → Conn (L ++ [(a, b, j)]) x y :=
      fun h => h.mono (fun x hx => by simp [hx])
    have hab : Conn (L ++ [(a, b, j)]) a b := .rel _ _ ⟨j, by simp⟩
    rintro (h | ⟨h1, h2⟩ | ⟨h1, h2⟩)
    · exact hm h
    · exact (hm h1).trans (hab.trans (hm h2))
    · exact (hm h1).trans (hab.symm.trans (hm h2))

/-- The parent table of the proof forest. -/
def ptab (f : List ExplainNode) : UF := f.map (fun e => e.parent.next)

@[simp] theorem ptab_length (f : List ExplainNode) : (ptab f).length = f.length := by simp [ptab]

theorem ptab_get {f : List ExplainNode} {i : Id} {e : ExplainNode} (h : f[i]? = some e) :
    (ptab f)[i]? = some e.parent.next := by simp [ptab, h]

theorem ptab_get_iff {f : List ExplainNode} {i p : Id} :
    (ptab f)[i]? = some p ↔ ∃ e, f[i]? = some e ∧ e.parent.next = p := by
  simp [ptab]

/-- The connection stored at `i` is the `k`-th logged union, read in the stored
direction. -/
def EdgeOf (L : List (Id × Id × Justification)) (i : Id) (c : Connection) : Prop :=
  ∃ (k : Nat) (a b : Id), L[k]? = some (a, b, c.justification) ∧ c.current = i ∧
    ((c.isRewriteForward = true ∧ i = a ∧ c.next = b) ∨
     (c.isRewriteForward = false ∧ i = b ∧ c.next = a))

theorem EdgeOf.append {L : List (Id × Id × Justification)} {i : Id} {c : Connection} {x}
    (h : EdgeOf L i c) : EdgeOf (L ++ [x]) i c := by
  obtain ⟨k, a, b, h1, h2⟩ := h
  exact ⟨k, a, b, by rw [List.getElem?_append_left (getElem?_lt h1), h1], h2⟩

/-- The reversed connection, as built by `make_leader`. -/
def Connection.rev (c : Connection) : Connection :=
  { justification := c.justification, isRewriteForward := !c.isRewriteForward,
    next := c.current, current := c.next }

theorem EdgeOf.rev {L : List (Id × Id × Justification)} {i : Id} {c : Connection}
    (h : EdgeOf L i c) : EdgeOf L c.next c.rev := by
  obtain ⟨k, a, b, h1, h2, h3⟩ := h
  refine ⟨k, a, b, h1, rfl, ?_⟩
  rcases h3 with ⟨h3, h4, h5⟩ | ⟨h3, h4, h5⟩
  · right; simp [Connection.rev, h3, h5, h2, h4]
  · left; simp [Connection.rev, h3, h5, h2, h4]

/-- Invariant of the explanation data.  `conn` is the equality of the e-graph;
`L` the log of the unions that built the forest. -/
structure XInv {Op : Type} [DecidableEq Op] (nodes : List (ENode Op)) (conn : Id → Id → Prop)
    (x : Explain Op) (L : List (Id × Id × Justification)) : Prop where
  len : x.find.length = nodes.length
  wf : UF.WF (ptab x.find)
  tree : ∀ i j, i < nodes.length → j < nodes.length →
    (UF.root (ptab x.find) i = UF.root (ptab x.find) j ↔ conn i j)
  edge : ∀ (i : Id) (e : ExplainNode), x.find[i]? = some e → e.parent.next ≠ i → EdgeOf L i e.parent
  logConn : ∀ i j, i < nodes.length → j < nodes.length → (Conn L i j ↔ conn i j)
  logLt : ∀ a b j, (a, b, j) ∈ L → a < nodes.length ∧ b < nodes.length
  logFresh : ∀ (k : Nat) a b j, L[k]? = some (a, b, j) → ¬ Conn (L.take k) a b
  logCongr : ∀ (k : Nat) (a b : Id), L[k]? = some (a, b, .congruence) → ∃ na nb,
    nodes[a]? = some na ∧ nodes[b]? = some nb ∧ na.op = nb.op ∧
      List.Forall₂ (Conn (L.take k)) na.children nb.children
  unSound : ∀ n (i : Id), x.uncanonMemo.get? n = some i → nodes[i]? = some n
  unComplete : ∀ (i : Id) n, nodes[i]? = some n → ∃ j, x.uncanonMemo.get? n = some j
  cur : ∀ (i : Id) (e : ExplainNode), x.find[i]? = some e → e.parent.current = i

theorem set_getElem? {α : Type} {l : List α} {i j : Nat} {a : α} (hi : i < l.length) :
    (l.set i a)[j]? = if i = j then some a else l[j]? := by
  rw [List.getElem?_set]
  split
  · rename_i h; subst h; simp [hi]
  · rfl

theorem ptab_set {f : List ExplainNode} {i : Id} {e : ExplainNode} :
    ptab (f.set i e) = (ptab f).set i e.parent.next := by
  simp [ptab, List.map_set]

namespace Explain

theorem makeLeader_ok {d : Id → Nat} :
    ∀ (k : Nat) (f : List ExplainNode) (node : Id),
      (∀ (i p : Id), (ptab f)[i]? = some p → p < (ptab f).length ∧ (p ≠ i → d p < d i)) →
      node < f.length → d node < k →
      ∃ f', makeLeader k f node = .ok f' ∧ f'.length = f.length ∧
        (∀ i : Id, d node ≤ d i → f'[i]? = f[i]?) ∧
        (∀ (i : Id) (e' : ExplainNode), f'[i]? = some e' → ∃ e : ExplainNode, f[i]? = some e ∧ e'.neighbors = e.neighbors ∧
          (e'.parent = e.parent ∨ ∃ (c : Id) (ec : ExplainNode), f[c]? = some ec ∧ ec.parent.next = i ∧ c ≠ i ∧
            e'.parent = ⟨c, i, ec.parent.justification, !ec.parent.isRewriteForward⟩)) ∧
        UF.WF ((ptab f').set node node) ∧
        (∀ i, i < f.length → UF.root ((ptab f').set node node) i =
          if UF.root (ptab f) i = UF.root (ptab f) node then node else UF.root (ptab f) i) := by
  intro k
  induction k with
  | zero => intro f node _ _ h; omega
  | succ k ih =>
    intro f node hd hn hk
    have hwf : UF.WF (ptab f) := ⟨d, hd⟩
    have he : f[node]? = some f[node] := List.getElem?_eq_getElem hn
    simp only [makeLeader, getIdx_lt hn, ok_bind]
    by_cases hnext : f[node].parent.next = node
    · -- already the leader
      simp only [hnext, ne_eq, not_true_eq_false, if_false, pure_eq_ok]
      have hp : (ptab f)[node]? = some node := by rw [ptab_get he, hnext]
      have hset : (ptab f).set node node = ptab f := by
        apply List.ext_getElem?
        intro i
        rw [set_getElem? (by simpa using hn)]
        split
        · rename_i e; subst e; rw [hp]
        · rfl
      have hroot : UF.root (ptab f) node = node := (UF.RootOf.base hp).root_eq hwf
      refine ⟨f, rfl, rfl, fun _ _ => rfl, fun i e' h => ⟨e', h, rfl, Or.inl rfl⟩, ?_, ?_⟩
      · rw [hset]; exact hwf
      · intro i hi
        rw [hset, hroot]
        split
        · assumption
        · rfl
    · simp only [ne_eq, hnext, not_false_eq_true, if_true]
      have hpn : (ptab f)[node]? = some f[node].parent.next := ptab_get he
      obtain ⟨hlt, hdec⟩ := hd _ _ hpn
      have hdec := hdec hnext
      generalize hnx : f[node].parent.next = nx at *
      obtain ⟨f1, h1, hlen, hA, hB, hW, hR⟩ := ih f nx hd (by simpa using hlt) (by omega)
      have hn1 : node < f1.length := by omega
      have hnx1 : nx < f1.length := by rw [hlen]; simpa using hlt
      have hf1n : f1[node]? = some f[node] := by rw [hA node (by omega), he]
      have hf1n' : f1[node] = f[node] := by
        rw [List.getElem?_eq_getElem hn1] at hf1n; injection hf1n
      simp only [h1, ok_bind, getIdx_lt hn1, setParent, List.getElem?_eq_getElem hnx1, hf1n']
      refine ⟨_, rfl, by simp [hlen], ?_, ?_, ?_⟩
      · intro i hi
        rw [set_getElem? hnx1, if_neg]
        · exact hA i (by omega)
        · intro e; subst e; omega
      · intro i e' hi
        rw [set_getElem? hnx1] at hi
        split at hi
        · rename_i e; subst e
          cases hi
          obtain ⟨e0, h0, h0n, _⟩ := hB nx f1[nx] (List.getElem?_eq_getElem hnx1)
          refine ⟨e0, h0, h0n, Or.inr ⟨node, f[node], he, hnx, ?_, rfl⟩⟩
          exact fun e => hnext e.symm
        · exact hB i e' hi
      · -- re-rooting
        have hnode1 : ((ptab f1).set nx nx)[node]? = some nx := by
          rw [set_getElem? (by simpa using hnx1), if_neg hnext, ptab_get hf1n, hnx]
        have hlen1 : ((ptab f1).set nx nx).length = f.length := by simp [hlen]
        obtain ⟨hcw, hcs, hcr⟩ := UF.cut_spec hW (v := node) (by rw [hlen1]; exact hn)
        have hrootnn : UF.root (ptab f) nx = UF.root (ptab f) node :=
          ((UF.RootOf.step hpn hnext (UF.rootOf_root hwf hlt)).root_eq hwf).symm
        have hgnx : UF.root ((ptab f1).set nx nx) nx = nx := by
          rw [hR nx (by simpa using hlt), if_pos rfl]
        have hgnode : UF.root ((ptab f1).set nx nx) node = nx := by
          rw [hR node hn, if_pos hrootnn.symm]
        have hcutnx : UF.root (((ptab f1).set nx nx).set node node) nx = nx := by
          apply UF.RootOf.root_eq hcw
          apply UF.RootOf.base
          rw [set_getElem? (by rw [hlen1]; exact hn), if_neg (Ne.symm hnext),
            set_getElem? (by simpa using hnx1), if_pos rfl]
        obtain ⟨hlw, hlr⟩ := UF.link_spec hcw (a := node) (b := nx)
          (by simp [hlen]; omega) (by simp; omega) hcutnx (by rw [hcs]; exact Ne.symm hnext)
        have heq : (((ptab f1).set nx nx).set node node).set nx node
            = (ptab (f1.set nx { f1[nx] with parent :=
                ⟨node, nx, f[node].parent.justification, !f[node].parent.isRewriteForward⟩ })).set
                node node := by
          rw [ptab_set]
          apply List.ext_getElem?
          intro i
          simp only [List.getElem?_set, List.length_set, ptab_length, hnx1, hn1, if_true]
          by_cases h1 : nx = i
          · subst h1
            have : ¬ node = nx := fun e => hnext e.symm
            simp [this]
          · by_cases h2 : node = i
            · subst h2; simp [hnext]
            · simp [h1, h2]
        rw [heq] at hlw hlr
        refine ⟨hlw, ?_⟩
        intro i hi
        rw [hlr i (by simp [hlen]; omega), hcs]
        have hRi := hR i hi
        rw [hrootnn] at hRi
        by_cases hri : UF.root (ptab f) i = UF.root (ptab f) node
        · rw [if_pos hri] at hRi ⊢
          rcases hcr i (by rw [hlen1]; exact hi) with h | ⟨h, _⟩
          · rw [if_pos]; rw [h, hRi]
          · rw [h]; split <;> rfl
        · rw [if_neg hri] at hRi ⊢
          have hne : UF.root ((ptab f1).set nx nx) i ≠ nx := by
            intro e
            rw [hRi] at e
            -- `root f i = nx` forces `nx` to be a root, so equal to the root of `node`
            have := UF.root_root hwf (i := i) (by simpa using hi)
            rw [e] at this
            exact hri (by rw [e, ← this, hrootnn])
          rcases hcr i (by rw [hlen1]; exact hi) with h | ⟨_, h⟩
          · rw [h, if_neg hne, hRi]
          · exact absurd (h.trans hgnode) hne

variable {Op : Type} [DecidableEq Op]

/-- What `Explain::union` does to the forest. -/
theorem union_ok {nodes : List (ENode Op)} {conn conn' : Id → Id → Prop} {x : Explain Op}
    {L : List (Id × Id × Justification)} (h : XInv nodes conn x L) {a b : Id} {j : Justification}
    (ha : a < nodes.length) (hb : b < nodes.length) (hab : ¬ conn a b)
    (hcongr : j = .congruence → ∃ na nb, nodes[a]? = some na ∧ nodes[b]? = some nb ∧
      na.op = nb.op ∧ List.Forall₂ conn na.children nb.children)
    (hdag : Dag nodes)
    (hconn' : ∀ i k, i < nodes.length → k < nodes.length →
      (conn' i k ↔ conn i k ∨ (conn i a ∧ conn b k) ∨ (conn i b ∧ conn a k))) :
    ∃ x', x.union a b j = .ok x' ∧ XInv nodes conn' x' (L ++ [(a, b, j)]) ∧
      x'.uncanonMemo = x.uncanonMemo ∧ x'.optimize = x.optimize ∧
      (∀ s, j = .rule s → x'.shortMemo = (x.shortMemo.insert (a, b) (1, b)).insert (b, a) (1, a)) ∧
      (j = .congruence → x'.shortMemo = x.shortMemo) ∧
      (∀ (i : Id) (e' : ExplainNode), x'.find[i]? = some e' → ∃ e : ExplainNode, x.find[i]? = some e ∧
        e'.neighbors = e.neighbors ++ (if i = a then [⟨b, a, j, true⟩] else [])
          ++ (if i = b then [⟨a, b, j, false⟩] else [])) := by
  obtain ⟨d, hd⟩ := h.wf.bounded
  have haf : a < x.find.length := by rw [h.len]; exact ha
  have hbf : b < x.find.length := by rw [h.len]; exact hb
  have hpa : (ptab x.find)[a]? = some (x.find[a].parent.next) :=
    ptab_get (List.getElem?_eq_getElem haf)
  have hda := (hd a _ hpa).2.1
  obtain ⟨f1, h1, hlen, hA, hB, hW, hR⟩ := makeLeader_ok (d := d) (x.find.length + 1) x.find a
    (fun i p hp => ⟨(hd i p hp).1, (hd i p hp).2.2⟩) haf (by simp at hda; omega)
  have hne : a ≠ b := by
    intro e; subst e
    exact hab ((h.tree a a ha ha).1 rfl)
  have ha1 : a < f1.length := by omega
  have hb1 : b < f1.length := by omega
  -- the final forest
  let p : Connection := ⟨b, a, j, true⟩
  let o : Connection := ⟨a, b, j, false⟩
  let f2 := (f1.set a { neighbors := f1[a].neighbors ++ [p], parent := p }).set b
    { neighbors := f1[b].neighbors ++ [o], parent := f1[b].parent }
  have hf2len : f2.length = nodes.length := by simp [f2, hlen, h.len]
  have hf2 : ∀ i, f2[i]? = if b = i then some { neighbors := f1[b].neighbors ++ [o], parent := f1[b].parent }
      else if a = i then some { neighbors := f1[a].neighbors ++ [p], parent := p } else f1[i]? := by
    intro i
    simp only [f2]
    rw [set_getElem? (by simp; exact hb1), set_getElem? ha1]
  refine ⟨{ x with find := f2, shortMemo := match j with
    | .rule _ => (x.shortMemo.insert (a, b) (1, b)).insert (b, a) (1, a)
    | .congruence => x.shortMemo }, ?_, ?_, rfl, rfl, ?_, ?_, ?_⟩
  · -- the computation
    unfold Explain.union
    simp only [h1, ok_bind, getIdx_lt ha1]
    have e1 : setParent f1 a { f1[a].parent with next := b } =
        .ok (f1.set a { f1[a] with parent := { f1[a].parent with next := b } }) := by
      simp [setParent, List.getElem?_eq_getElem ha1]
    rw [e1, ok_bind]
    have e2 : ∀ c, pushNeighbor (f1.set a { f1[a] with parent := { f1[a].parent with next := b } }) a c =
        .ok (f1.set a { neighbors := f1[a].neighbors ++ [c], parent := { f1[a].parent with next := b } }) := by
      intro c
      simp [pushNeighbor, List.getElem?_set, ha1]
    rw [e2, ok_bind]
    have e3 : ∀ c c', pushNeighbor (f1.set a { neighbors := f1[a].neighbors ++ [c], parent := { f1[a].parent with next := b } }) b c' =
        .ok ((f1.set a { neighbors := f1[a].neighbors ++ [c], parent := { f1[a].parent with next := b } }).set b
          { neighbors := f1[b].neighbors ++ [c'], parent := f1[b].parent }) := by
      intro c c'
      simp [pushNeighbor, List.getElem?_set, hne, List.getElem?_eq_getElem hb1]
    rw [e3, ok_bind]
    have e4 : ∀ c c' q, setParent ((f1.set a { neighbors := f1[a].neighbors ++ [c], parent := { f1[a].parent with next := b } }).set b
          { neighbors := f1[b].neighbors ++ [c'], parent := f1[b].parent }) a q =
        .ok ((f1.set a { neighbors := f1[a].neighbors ++ [c], parent := q }).set b
          { neighbors := f1[b].neighbors ++ [c'], parent := f1[b].parent }) := by
      intro c c' q
      unfold setParent
      rw [set_getElem? (by simp; exact hb1), if_neg (Ne.symm hne), set_getElem? ha1, if_pos rfl]
      simp only
      rw [List.set_comm _ _ (Ne.symm hne), List.set_set]
    rw [e4, ok_bind]
    cases j <;> rfl
  · -- the invariant
    have hpt : ptab f2 = ((ptab f1).set a a).set a b := by
      apply List.ext_getElem?
      intro i
      rw [List.set_set, set_getElem? (by simpa using ha1)]
      by_cases hia : a = i
      · subst hia
        rw [if_pos rfl]
        rw [ptab_get (e := { neighbors := f1[a].neighbors ++ [p], parent := p })]
        rw [hf2, if_neg (Ne.symm hne), if_pos rfl]
      · rw [if_neg hia]
        by_cases hib : b = i
        · subst hib
          rw [ptab_get (e := { neighbors := f1[b].neighbors ++ [o], parent := f1[b].parent })
            (by rw [hf2, if_pos rfl]), ptab_get (List.getElem?_eq_getElem hb1)]
        · simp only [ptab, List.getElem?_map, hf2, if_neg hia, if_neg hib]
    have hRa : UF.root ((ptab f1).set a a) a = a := by rw [hR a haf, if_pos rfl]
    have htab : UF.root (ptab x.find) b ≠ UF.root (ptab x.find) a := by
      intro e
      exact hab ((h.tree a b ha hb).1 e.symm)
    have hRb : UF.root ((ptab f1).set a a) b = UF.root (ptab x.find) b := by
      rw [hR b hbf, if_neg htab]
    have hrbne : UF.root (ptab x.find) b ≠ a := by
      intro e
      have := UF.root_root h.wf (i := b) (by simpa using hbf)
      rw [e] at this
      exact htab (by rw [e, this])
    obtain ⟨hlw, hlr⟩ := UF.link_spec hW (a := b) (b := a) (by simp; omega) (by simp; omega) hRa
      (by rw [hRb]; exact hrbne)
    rw [← hpt] at hlw hlr
    have hroot : ∀ i, i < nodes.length → UF.root (ptab f2) i =
        if UF.root (ptab x.find) i = UF.root (ptab x.find) a then UF.root (ptab x.find) b
        else UF.root (ptab x.find) i := by
      intro i hi
      have hi' : i < x.find.length := by rw [h.len]; exact hi
      rw [hlr i (by simp; omega), hRb, hR i hi']
      by_cases e : UF.root (ptab x.find) i = UF.root (ptab x.find) a
      · simp [e]
      · rw [if_neg e, if_neg e, if_neg]
        intro e2
        have := UF.root_root h.wf (i := i) (by simpa using hi')
        rw [e2] at this
        exact e (by rw [e2, this])
    have hlog : ∀ i k, i < nodes.length → k < nodes.length →
        (Conn (L ++ [(a, b, j)]) i k ↔ conn' i k) := by
      intro i k hi hk
      rw [conn_append, hconn' i k hi hk, h.logConn i k hi hk, h.logConn i a hi ha,
        h.logConn b k hb hk, h.logConn i b hi hb, h.logConn a k ha hk]
    refine ⟨hf2len, hlw, ?_, ?_, hlog, ?_, ?_, ?_, h.unSound, h.unComplete, ?_⟩
    · intro i k hi hk
      show UF.root (ptab f2) i = UF.root (ptab f2) k ↔ _
      rw [hconn' i k hi hk, ← h.tree i k hi hk, ← h.tree i a hi ha, ← h.tree b k hb hk,
        ← h.tree i b hi hb, ← h.tree a k ha hk, hroot i hi, hroot k hk]
      by_cases e1 : UF.root (ptab x.find) i = UF.root (ptab x.find) a <;>
      by_cases e2 : UF.root (ptab x.find) k = UF.root (ptab x.find) a
      · simp [e1, e2]
      · rw [if_pos e1, if_neg e2]
        constructor
        · intro e; exact Or.inr (Or.inl ⟨e1, e⟩)
        · rintro (e | ⟨_, e⟩ | ⟨_, e⟩)
          · exact absurd (e.symm.trans e1) e2
          · exact e
          · exact absurd e.symm e2
      · rw [if_neg e1, if_pos e2]
        constructor
        · intro e; exact Or.inr (Or.inr ⟨e, e2.symm⟩)
        · rintro (e | ⟨e, _⟩ | ⟨e, _⟩)
          · exact absurd (e.trans e2) e1
          · exact absurd e e1
          · exact e
      · rw [if_neg e1, if_neg e2]
        constructor
        · intro e; exact Or.inl e
        · rintro (e | ⟨e, _⟩ | ⟨_, e⟩)
          · exact e
          · exact absurd e e1
          · exact absurd e.symm e2
    · intro i e' hi hnext
      have hi' : f2[i]? = some e' := hi
      rw [hf2] at hi'
      have step : ∀ e1, f1[i]? = some e1 → i ≠ a → e1.parent.next ≠ i →
          EdgeOf (L ++ [(a, b, j)]) i e1.parent := by
        intro e1 h1i hia hnx
        obtain ⟨e0, h0, _, h3⟩ := hB i e1 h1i
        rcases h3 with h3 | ⟨c, ec, hc, hcn, hci, h3⟩
        · rw [h3] at hnx ⊢
          exact (h.edge i e0 h0 hnx).append
        · have hedge := (h.edge c ec hc (by rw [hcn]; exact Ne.symm hci))
          have hcur : ec.parent.current = c := by
            obtain ⟨_, _, _, _, hcur, _⟩ := hedge; exact hcur
          have := hedge.rev.append (x := (a, b, j))
          rw [hcn] at this
          have e : ec.parent.rev = e1.parent := by
            rw [h3]; simp [Connection.rev, hcn, hcur]
          rw [e] at this
          exact this
      split at hi'
      · rename_i e; subst e
        cases hi'
        exact step f1[b] (List.getElem?_eq_getElem hb1) (Ne.symm hne) hnext
      · split at hi'
        · rename_i e; subst e
          cases hi'
          exact ⟨L.length, a, b, by simp [p], rfl, Or.inl ⟨rfl, rfl, rfl⟩⟩
        · rename_i _ hia
          exact step e' hi' (Ne.symm hia) hnext
    · intro a' b' j' hm
      simp only [List.mem_append, List.mem_singleton, Prod.mk.injEq] at hm
      rcases hm with hm | ⟨rfl, rfl, rfl⟩
      · exact h.logLt _ _ _ hm
      · exact ⟨ha, hb⟩
    · intro k a' b' j' hk
      rw [List.getElem?_append] at hk
      split at hk
      · rename_i hkl
        rw [List.take_append_of_le_length (by omega)]
        exact h.logFresh k a' b' j' hk
      · rename_i hkl
        rw [List.getElem?_singleton] at hk
        split at hk
        · have : k = L.length := by omega
          subst this
          simp only [Option.some.injEq, Prod.mk.injEq] at hk
          obtain ⟨rfl, rfl, rfl⟩ := hk
          rw [List.take_left']
          · rw [h.logConn _ _ ha hb]; exact hab
          · rfl
        · simp at hk
    · intro k a' b' hk
      rw [List.getElem?_append] at hk
      split at hk
      · rename_i hkl
        rw [List.take_append_of_le_length (by omega)]
        exact h.logCongr k a' b' hk
      · rename_i hkl
        rw [List.getElem?_singleton] at hk
        split at hk
        · have : k = L.length := by omega
          subst this
          simp only [Option.some.injEq, Prod.mk.injEq] at hk
          obtain ⟨rfl, rfl, rfl⟩ := hk
          obtain ⟨na, nb, h1, h2, h3, h4⟩ := hcongr rfl
          refine ⟨na, nb, h1, h2, h3, ?_⟩
          rw [List.take_left' rfl]
          apply forall₂_mono_mem h4
          intro u hu v hv huv
          rw [h.logConn]
          · exact huv
          · exact lt_trans (hdag _ _ h1 u hu) ha
          · exact lt_trans (hdag _ _ h2 v hv) hb
        · simp at hk
    · intro i e' hi
      have hi' : f2[i]? = some e' := hi
      rw [hf2] at hi'
      have step : ∀ e1, f1[i]? = some e1 → e1.parent.current = i := by
        intro e1 h1i
        obtain ⟨e0, h0, _, h3⟩ := hB i e1 h1i
        rcases h3 with h3 | ⟨c, ec, hc, hcn, hci, h3⟩
        · rw [h3]; exact h.cur i e0 h0
        · rw [h3]
      split at hi'
      · rename_i e; subst e
        cases hi'
        exact step f1[b] (List.getElem?_eq_getElem hb1)
      · split at hi'
        · rename_i e; subst e
          cases hi'
          rfl
        · exact step e' hi'
  · intro s hs; subst hs; rfl
  · intro hs; subst hs; rfl
  · intro i e' hi
    have hi' : f2[i]? = some e' := hi
    rw [hf2] at hi'
    split at hi'
    · rename_i e; subst e
      cases hi'
      obtain ⟨e0, h0, h1, _⟩ := hB b f1[b] (List.getElem?_eq_getElem hb1)
      exact ⟨e0, h0, by simp [h1, Ne.symm hne, o]⟩
    · rename_i hib
      split at hi'
      · rename_i e; subst e
        cases hi'
        obtain ⟨e0, h0, h1, _⟩ := hB a f1[a] (List.getElem?_eq_getElem ha1)
        exact ⟨e0, h0, by simp [h1, hne, p]⟩
      · rename_i hia
        obtain ⟨e0, h0, h1, _⟩ := hB i e' hi'
        exact ⟨e0, h0, by simp [h1, Ne.symm hia, Ne.symm hib]⟩

theorem _root_.Egg.Conn.lt {L : List (Id × Id × Justification)} {n : Nat}
    (hL : ∀ a b j, (a, b, j) ∈ L → a < n ∧ b < n) {i k : Id} (h : Conn L i k) :
    i = k ∨ (i < n ∧ k < n) := by
  induction h with
  | rel x y h => obtain ⟨j, hj⟩ := h; exact Or.inr (hL _ _ _ hj)
  | refl => exact Or.inl rfl
  | symm _ _ _ ih => rcases ih with h | h
                     · exact Or.inl h.symm
                     · exact Or.inr ⟨h.2, h.1⟩
  | trans _ _ _ _ _ ih1 ih2 =>
    rcases ih1 with rfl | h1
    · exact ih2
    · rcases ih2 with rfl | h2
      · exact Or.inr h1
      · exact Or.inr ⟨h1.1, h2.2⟩

/-- `Explain::add` for the next id. -/
theorem add_ok {nodes : List (ENode Op)} {conn conn' : Id → Id → Prop} {x : Explain Op}
    {L : List (Id × Id × Justification)} (h : XInv nodes conn x L) (n : ENode Op)
    (hold : ∀ i k, i < nodes.length → k < nodes.length → (conn' i k ↔ conn i k))
    (hself : conn' nodes.length nodes.length)
    (hl : ∀ i, i < nodes.length → ¬ conn' i nodes.length)
    (hr : ∀ i, i < nodes.length → ¬ conn' nodes.length i) :
    ∃ x', x.add n nodes.length = .ok x' ∧ XInv (nodes ++ [n]) conn' x' L ∧
      x'.optimize = x.optimize ∧ x'.shortMemo = x.shortMemo ∧
      (∀ m, x'.uncanonMemo.get? m = if n = m then some nodes.length else x.uncanonMemo.get? m) ∧
      (∀ (i : Id) (e' : ExplainNode), x'.find[i]? = some e' →
        x.find[i]? = some e' ∨ (i = nodes.length ∧ e'.neighbors = [])) ∧
      (∀ (i : Id) (e : ExplainNode), x.find[i]? = some e → x'.find[i]? = some e) := by
  have hne : ∀ {i : Id} {e' : ExplainNode} {c : Connection}, (x.find ++ [⟨[], c⟩])[i]? = some e' →
      x.find[i]? = some e' ∨ (i = nodes.length ∧ e' = ⟨[], c⟩) := by
    intro i e' c hi
    rw [List.getElem?_append] at hi
    split at hi
    · exact Or.inl hi
    · rw [List.getElem?_singleton] at hi
      split at hi
      · right
        have := h.len
        exact ⟨by omega, by simpa using hi.symm⟩
      · simp at hi
  have hget : ∀ {i : Id} {e : ExplainNode} {c : Connection}, x.find[i]? = some e →
      (x.find ++ [⟨[], c⟩])[i]? = some e := by
    intro i e c hi
    rw [List.getElem?_append_left (getElem?_lt hi), hi]
  have hlen : (nodes ++ [n]).length = nodes.length + 1 := by simp
  have hadd : x.add n nodes.length = .ok { x with
      uncanonMemo := x.uncanonMemo.insert n nodes.length
      find := x.find ++ [⟨[], ⟨nodes.length, nodes.length, .congruence, false⟩⟩] } := by
    unfold Explain.add; rw [if_pos h.len]
  refine ⟨_, hadd, ?_, rfl, rfl, ?_, ?_, ?_⟩
  · have hpt : ∀ c, ptab (x.find ++ [⟨[], ⟨nodes.length, nodes.length, c, false⟩⟩]) =
        ptab x.find ++ [(ptab x.find).length] := by
      intro c; simp [ptab, h.len]
    have hroot : ∀ i, i < nodes.length → UF.root (ptab x.find ++ [(ptab x.find).length]) i =
        UF.root (ptab x.find) i := fun i hi => UF.root_makeSet h.wf (by simpa [h.len] using hi)
    have hroot' : UF.root (ptab x.find ++ [(ptab x.find).length]) nodes.length = nodes.length := by
      have := UF.root_makeSet_new h.wf
      simpa [h.len] using this
    have hrl : ∀ i, i < nodes.length → UF.root (ptab x.find) i < nodes.length := by
      intro i hi
      have := UF.root_lt h.wf (i := i) (by simpa [h.len] using hi)
      simpa [h.len] using this
    refine ⟨by simp [h.len], ?_, ?_, ?_, ?_, ?_, h.logFresh, ?_, ?_, ?_, fun i e hi => by
      rcases hne hi with hi | ⟨ei, ee⟩
      · exact h.cur i e hi
      · subst ei ee; rfl⟩
    · show UF.WF (ptab _)
      rw [hpt]; exact UF.wf_makeSet h.wf
    · intro i k hi hk
      show UF.root (ptab _) i = UF.root (ptab _) k ↔ _
      rw [hpt]
      rw [hlen] at hi hk
      by_cases ei : i = nodes.length
      · subst ei
        by_cases ek : k = nodes.length
        · subst ek; simp [hself]
        · rw [hroot', hroot k (by omega)]
          have := hrl k (by omega)
          have := hr k (by omega)
          constructor
          · intro e; omega
          · intro e; contradiction
      · by_cases ek : k = nodes.length
        · subst ek
          rw [hroot', hroot i (by omega)]
          have := hrl i (by omega)
          have := hl i (by omega)
          constructor
          · intro e; omega
          · intro e; contradiction
        · rw [hroot i (by omega), hroot k (by omega), h.tree i k (by omega) (by omega),
            hold i k (by omega) (by omega)]
    · intro i e hi hnx
      rcases hne hi with hi | ⟨ei, ee⟩
      · exact h.edge i e hi hnx
      · subst ei ee; exact absurd rfl hnx
    · intro i k hi hk
      rw [hlen] at hi hk
      have hbase : ∀ i k, i < nodes.length → k < nodes.length → (Conn L i k ↔ conn' i k) :=
        fun i k hi hk => by rw [h.logConn i k hi hk, hold i k hi hk]
      by_cases ei : i = nodes.length
      · subst ei
        by_cases ek : k = nodes.length
        · subst ek; exact ⟨fun _ => hself, fun _ => Conn.refl _⟩
        · constructor
          · intro hc
            rcases hc.lt h.logLt with e | e <;> omega
          · intro hc; exact absurd hc (hr k (by omega))
      · by_cases ek : k = nodes.length
        · subst ek
          constructor
          · intro hc
            rcases hc.lt h.logLt with e | e <;> omega
          · intro hc; exact absurd hc (hl i (by omega))
        · exact hbase i k (by omega) (by omega)
    · intro a b j hm
      have := h.logLt a b j hm
      rw [hlen]; omega
    · intro k a b hk
      obtain ⟨na, nb, h1, h2, h3⟩ := h.logCongr k a b hk
      exact ⟨na, nb, by rw [List.getElem?_append_left (getElem?_lt h1), h1],
        by rw [List.getElem?_append_left (getElem?_lt h2), h2], h3⟩
    · intro m i hi
      simp only [AMap.get?_insert] at hi
      split at hi
      · rename_i e; subst e; cases hi; simp
      · have := h.unSound m i hi
        rw [List.getElem?_append_left (getElem?_lt this), this]
    · intro i m hm
      simp only [AMap.get?_insert]
      by_cases e : n = m
      · exact ⟨_, by rw [if_pos e]⟩
      · rw [if_neg e]
        rw [List.getElem?_append] at hm
        split at hm
        · exact h.unComplete i m hm
        · rw [List.getElem?_singleton] at hm
          split at hm
          · simp at hm; exact absurd hm e
          · simp at hm
  · intro m; simp only [AMap.get?_insert]
  · intro i e' hi
    rcases hne hi with hi | ⟨ei, ee⟩
    · exact Or.inl hi
    · exact Or.inr ⟨ei, by rw [ee]⟩
  · intro i e hi
    exact hget hi

theorem pushNeighbor_ok {f : List ExplainNode} {i : Id} (hi : i < f.length) (c : Connection) :
    ∃ f', pushNeighbor f i c = .ok f' ∧ f'.length = f.length ∧ ptab f' = ptab f ∧
      ∀ (k : Id) (e : ExplainNode), f[k]? = some e →
        f'[k]? = some { e with neighbors := e.neighbors ++ (if k = i then [c] else []) } := by
  have hp : pushNeighbor f i c = .ok (f.set i { f[i] with neighbors := f[i].neighbors ++ [c] }) := by
    unfold pushNeighbor; rw [List.getElem?_eq_getElem hi]
  refine ⟨_, hp, by simp, ?_, ?_⟩
  · rw [ptab_set]
    apply List.ext_getElem?
    intro k
    rw [set_getElem? (by simpa using hi)]
    split
    · rename_i e; subst e
      rw [ptab_get (List.getElem?_eq_getElem hi)]
    · rfl
  · intro k e he
    rw [set_getElem? hi]
    split
    · rename_i e'; subst e'
      rw [List.getElem?_eq_getElem hi] at he
      cases he
      simp
    · rename_i e'
      rw [he]; simp [Ne.symm e']

/-- `alternate_rewrite` only adds neighbours. -/
theorem alternateRewrite_ok {nodes : List (ENode Op)} {conn : Id → Id → Prop} {x : Explain Op}
    {L : List (Id × Id × Justification)} (h : XInv nodes conn x L) {a b : Id} (j : Justification)
    (ha : a < nodes.length) (hb : b < nodes.length) :
    ∃ x', x.alternateRewrite a b j = .ok x' ∧ XInv nodes conn x' L ∧
      x'.uncanonMemo = x.uncanonMemo ∧ x'.optimize = x.optimize ∧
      (x' = x ∨ (a ≠ b ∧ x'.shortMemo = (x.shortMemo.insert (a, b) (1, b)).insert (b, a) (1, a) ∧
        ∀ (i : Id) (e : ExplainNode), x.find[i]? = some e → x'.find[i]? = some { e with
          neighbors := e.neighbors ++ (if i = a then [⟨b, a, j, true⟩] else [])
            ++ (if i = b then [⟨a, b, j, false⟩] else []) })) := by
  unfold alternateRewrite
  by_cases hab : a = b
  · rw [if_pos hab]; exact ⟨x, rfl, h, rfl, rfl, Or.inl rfl⟩
  rw [if_neg hab]
  refine if hc : _ then ⟨x, by rw [if_pos hc], h, rfl, rfl, Or.inl rfl⟩ else ?_
  rw [if_neg hc]
  obtain ⟨f1, h1, hl1, hp1, hg1⟩ := pushNeighbor_ok (f := x.find) (i := a)
    (by rw [h.len]; exact ha) ⟨b, a, j, true⟩
  obtain ⟨f2, h2, hl2, hp2, hg2⟩ := pushNeighbor_ok (f := f1) (i := b)
    (by rw [hl1, h.len]; exact hb) ⟨a, b, j, false⟩
  have hg : ∀ (i : Id) (e : ExplainNode), x.find[i]? = some e → f2[i]? = some { e with
          neighbors := e.neighbors ++ (if i = a then [⟨b, a, j, true⟩] else [])
            ++ (if i = b then [⟨a, b, j, false⟩] else []) } := by
    intro i e he
    rw [hg2 i _ (hg1 i e he)]
  have hp : ptab f2 = ptab x.find := hp2.trans hp1
  rw [h1, ok_bind, h2, ok_bind]
  refine ⟨_, rfl, ?_, rfl, rfl, Or.inr ⟨hab, rfl, hg⟩⟩
  refine { h with len := by rw [hl2, hl1, h.len], wf := ?_, tree := ?_, edge := ?_, cur := ?_ }
  · show UF.WF (ptab f2); rw [hp]; exact h.wf
  · intro i k hi hk
    show UF.root (ptab f2) i = UF.root (ptab f2) k ↔ _
    rw [hp]; exact h.tree i k hi hk
  · intro i e' hi hnx
    have hil : i < x.find.length := by
      have := getElem?_lt hi
      have e : f2.length = x.find.length := by rw [hl2, hl1]
      simp only at this
      omega
    have := hg i _ (List.getElem?_eq_getElem hil)
    have hi' : f2[i]? = some e' := hi
    rw [hi'] at this
    cases this
    exact h.edge i x.find[i] (List.getElem?_eq_getElem hil) hnx
  · intro i e' hi
    have hil : i < x.find.length := by
      have := getElem?_lt hi
      have e : f2.length = x.find.length := by rw [hl2, hl1]
      simp only at this
      omega
    have := hg i _ (List.getElem?_eq_getElem hil)
    have hi' : f2[i]? = some e' := hi
    rw [hi'] at this
    cases this
    exact h.cur i x.find[i] (List.getElem?_eq_getElem hil)

theorem _root_.Egg.XInv.congrConn {nodes : List (ENode Op)} {conn conn' : Id → Id → Prop} {x : Explain Op}
    {L : List (Id × Id × Justification)} (h : XInv nodes conn x L)
    (hc : ∀ i k, i < nodes.length → k < nodes.length → (conn' i k ↔ conn i k)) :
    XInv nodes conn' x L :=
  { h with
    tree := fun i k hi hk => (h.tree i k hi hk).trans (hc i k hi hk).symm
    logConn := fun i k hi hk => (h.logConn i k hi hk).trans (hc i k hi hk).symm }

end Explain
end Egg
