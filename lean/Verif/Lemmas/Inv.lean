import Verif.Lemmas.Core
import Verif.Spec.Assumptions
/-
The invariant of the e-graph and its preservation by `add` and `union`.
-/
namespace Egg

/-! ### Outcomes -/

/-- `Post E x P`: if `x` returns normally the value satisfies `P`, and only
errors allowed by `E` can occur. -/
def Post {α : Type} (E : Err → Prop) (x : Res α) (P : α → Prop) : Prop :=
  match x with
  | .ok a => P a
  | .error e => E e

namespace Post
variable {α β : Type} {E : Err → Prop}

@[simp] theorem ok_iff {a : α} {P : α → Prop} : Post E (.ok a) P ↔ P a := Iff.rfl
@[simp] theorem error_iff {e : Err} {P : α → Prop} : Post E (.error e : Res α) P ↔ E e := Iff.rfl

theorem bind {x : Res α} {f : α → Res β} {P : α → Prop} {Q : β → Prop} (hx : Post E x P)
    (hf : ∀ a, P a → Post E (f a) Q) : Post E (x >>= f) Q := by
  cases x with
  | ok a => exact hf a hx
  | error e => exact hx

theorem mono {x : Res α} {P Q : α → Prop} (hx : Post E x P) (h : ∀ a, P a → Q a) : Post E x Q := by
  cases x with
  | ok a => exact h a hx
  | error e => exact hx

theorem of_eq {x : Res α} {a : α} {P : α → Prop} (h : x = .ok a) (hP : P a) : Post E x P := by
  rw [h]; exact hP

theorem elim {x : Res α} {a : α} {P : α → Prop} (hx : Post E x P) (h : x = .ok a) : P a := by
  rw [h] at hx; exact hx

/-- With no error allowed the result is a value. -/
theorem exists_ok {x : Res α} {P : α → Prop} (hx : Post (fun _ => False) x P) :
    ∃ a, x = .ok a ∧ P a := by
  cases x with
  | ok a => exact ⟨a, rfl, hx⟩
  | error e => exact False.elim hx

end Post

variable {Op D : Type} [DecidableEq Op] [Lang Op]

/-! ### Soundness of an equality on ids -/

def SoundRt (R : Term Op → Term Op → Prop) (rt : Id → Id) (nodes : List (ENode Op)) : Prop :=
  ∀ i j s t, rt i = rt j → TermOf nodes i s → TermOf nodes j t → R s t

omit [Lang Op] [DecidableEq Op] in
theorem SoundRt.cong {R : Term Op → Term Op → Prop} (hc : IsCongruence R) {rt : Id → Id}
    {nodes : List (ENode Op)} (h : SoundRt R rt nodes) {n m : ENode Op} {ss ts : List (Term Op)}
    (hnm : n.op = m.op) (hch : n.children.map rt = m.children.map rt)
    (hs : List.Forall₂ (TermOf nodes) n.children ss) (ht : List.Forall₂ (TermOf nodes) m.children ts) :
    R (.node n.op ss) (.node m.op ts) := by
  rw [hnm]
  apply hc.congr
  have h1 := forall₂_flip hs
  have h2 := forall₂_map_eq.2 hch
  have h3 := forall₂_comp (T := fun s c => ∃ d, TermOf nodes d s ∧ rt d = rt c) h1 h2
    (fun a b c _ _ _ hab hbc => ⟨b, hab, hbc⟩)
  exact forall₂_comp h3 ht (fun a b c _ _ _ ⟨d, hd, e⟩ hbc => h d b a c e hd hbc)

/-! ### Explanation data -/

structure XOk (opt : Prop) (J : Symbol → Id → Id → Prop) (nodes : List (ENode Op)) (conn : Id → Id → Prop)
    (x : Explain Op) (L : List (Id × Id × Justification)) : Prop where
  inv : XInv nodes conn x L
  nb : ∀ (i : Id) (e : ExplainNode), x.find[i]? = some e → ∀ c ∈ e.neighbors,
    c.current = i ∧ c.next < nodes.length ∧ conn i c.next ∧
    ∀ s, c.justification = .rule s → if c.isRewriteForward then J s i c.next else J s c.next i
  short : ∀ l r c nx, x.shortMemo.get? (l, r) = some (c, nx) → nx < nodes.length ∧ (¬ opt → nx = r ∧ ∃ (e : ExplainNode) (nb : Connection),
    x.find[l]? = some e ∧ nb ∈ e.neighbors ∧ nb.next = r ∧ ∃ s, nb.justification = .rule s)
  logJ : ∀ a b s, (a, b, Justification.rule s) ∈ L → J s a b
  logNb : ∀ a b j, (a, b, j) ∈ L → (∃ e : ExplainNode, x.find[a]? = some e ∧ (⟨b, a, j, true⟩ : Connection) ∈ e.neighbors) ∧
    ∃ e : ExplainNode, x.find[b]? = some e ∧ (⟨a, b, j, false⟩ : Connection) ∈ e.neighbors

omit [Lang Op] in
theorem XOk.addNew {opt : Prop} {J : Symbol → Id → Id → Prop} {nodes : List (ENode Op)} {conn conn' : Id → Id → Prop}
    {x : Explain Op} {L : List (Id × Id × Justification)} (h : XOk opt J nodes conn x L) (n : ENode Op)
    (hold : ∀ i k, i < nodes.length → k < nodes.length → (conn' i k ↔ conn i k))
    (hself : conn' nodes.length nodes.length)
    (hl : ∀ i, i < nodes.length → ¬ conn' i nodes.length)
    (hr : ∀ i, i < nodes.length → ¬ conn' nodes.length i) :
    ∃ x', x.add n nodes.length = .ok x' ∧ XOk opt J (nodes ++ [n]) conn' x' L ∧
      (∀ m, x'.uncanonMemo.get? m = if n = m then some nodes.length else x.uncanonMemo.get? m) := by
  obtain ⟨x', h1, h2, h3, h4, h5, h6, h7⟩ := Explain.add_ok h.inv n hold hself hl hr
  refine ⟨x', h1, ⟨h2, ?_, ?_, h.logJ, fun a b s hs => ?_⟩, h5⟩
  · intro i e he c hc
    rcases h6 i e he with he | ⟨_, he⟩
    · obtain ⟨g1, g2, g3, g4⟩ := h.nb i e he c hc
      have hi : i < nodes.length := by rw [← h.inv.len]; exact getElem?_lt he
      exact ⟨g1, by simp; omega, (hold i c.next hi g2).2 g3, g4⟩
    · rw [he] at hc; simp at hc
  · intro l r c nx hm
    rw [h4] at hm
    refine ⟨by have := (h.short l r c nx hm).1; simp; omega, fun ho => ?_⟩
    obtain ⟨g1, e, nb, g2, g3⟩ := (h.short l r c nx hm).2 ho
    exact ⟨g1, e, nb, h7 l e g2, g3⟩
  · obtain ⟨⟨e, g1, g2⟩, e', g3, g4⟩ := h.logNb a b s hs
    exact ⟨⟨e, h7 a e g1, g2⟩, e', h7 b e' g3, g4⟩

omit [Lang Op] in
theorem XOk.alternate {opt : Prop} {J : Symbol → Id → Id → Prop} {nodes : List (ENode Op)} {conn : Id → Id → Prop}
    {x : Explain Op} {L : List (Id × Id × Justification)} (h : XOk opt J nodes conn x L) {a b : Id} {s : Symbol}
    (ha : a < nodes.length) (hb : b < nodes.length) (hab : conn a b) (hba : conn b a) (hJ : J s a b) :
    ∃ x', x.alternateRewrite a b (.rule s) = .ok x' ∧ XOk opt J nodes conn x' L ∧
      x'.uncanonMemo = x.uncanonMemo := by
  obtain ⟨x', h1, h2, h3, h4, h5⟩ := Explain.alternateRewrite_ok h.inv (.rule s) ha hb
  refine ⟨x', h1, ?_, h3⟩
  rcases h5 with rfl | ⟨hne, hsm, hf⟩
  · exact h
  refine ⟨h2, ?_, ?_, h.logJ, ?_⟩
  · intro i e' he c hc
    have hi : i < x.find.length := by
      rw [h.inv.len, ← h2.len]; exact getElem?_lt he
    have := hf i _ (List.getElem?_eq_getElem hi)
    rw [he] at this
    cases this
    simp only [List.mem_append] at hc
    rcases hc with (hc | hc) | hc
    · exact h.nb i _ (List.getElem?_eq_getElem hi) c hc
    · split at hc
      · rename_i e; subst e
        simp only [List.mem_singleton] at hc
        subst hc
        exact ⟨rfl, hb, hab, by intro s' hs'; cases hs'; simpa using hJ⟩
      · simp at hc
    · split at hc
      · rename_i e; subst e
        simp only [List.mem_singleton] at hc
        subst hc
        exact ⟨rfl, ha, hba, by intro s' hs'; cases hs'; simpa using hJ⟩
      · simp at hc
  · intro l r c nx hm
    rw [hsm] at hm
    simp only [AMap.get?_insert] at hm
    have hla : a < x.find.length := by rw [h.inv.len]; exact ha
    have hlb : b < x.find.length := by rw [h.inv.len]; exact hb
    split at hm
    · rename_i e
      simp only [Prod.mk.injEq] at e
      obtain ⟨rfl, rfl⟩ := e
      cases hm
      exact ⟨ha, fun _ => ⟨rfl, _, ⟨a, b, .rule s, false⟩, hf b _ (List.getElem?_eq_getElem hlb), by simp, rfl, s, rfl⟩⟩
    · split at hm
      · rename_i e
        simp only [Prod.mk.injEq] at e
        obtain ⟨rfl, rfl⟩ := e
        cases hm
        exact ⟨hb, fun _ => ⟨rfl, _, ⟨b, a, .rule s, true⟩, hf a _ (List.getElem?_eq_getElem hla), by simp, rfl, s, rfl⟩⟩
      · refine ⟨(h.short l r c nx hm).1, fun ho => ?_⟩
        obtain ⟨g1, e, nb, g2, g3, g4⟩ := (h.short l r c nx hm).2 ho
        exact ⟨g1, _, nb, hf l e g2, by simp [g3], g4⟩
  · intro a' b' s' hs
    obtain ⟨⟨e, g1, g2⟩, e', g3, g4⟩ := h.logNb a' b' s' hs
    exact ⟨⟨_, hf a' e g1, by simp [g2]⟩, _, hf b' e' g3, by simp [g4]⟩

omit [Lang Op] in
theorem XOk.union {opt : Prop} {J : Symbol → Id → Id → Prop} {nodes : List (ENode Op)} {conn conn' : Id → Id → Prop}
    {x : Explain Op} {L : List (Id × Id × Justification)} (h : XOk opt J nodes conn x L) {a b : Id}
    {j : Justification}
    (ha : a < nodes.length) (hb : b < nodes.length) (hab : ¬ conn a b)
    (hrefl : ∀ i, conn i i) (hsymm : ∀ i k, conn i k → conn k i)
    (hcongr : j = .congruence → ∃ na nb, nodes[a]? = some na ∧ nodes[b]? = some nb ∧
      na.op = nb.op ∧ List.Forall₂ conn na.children nb.children)
    (hJ : ∀ s, j = .rule s → J s a b)
    (hdag : Dag nodes)
    (hconn' : ∀ i k, i < nodes.length → k < nodes.length →
      (conn' i k ↔ conn i k ∨ (conn i a ∧ conn b k) ∨ (conn i b ∧ conn a k))) :
    ∃ x', x.union a b j = .ok x' ∧ XOk opt J nodes conn' x' (L ++ [(a, b, j)]) ∧
      x'.uncanonMemo = x.uncanonMemo := by
  obtain ⟨x', h1, h2, h3, h4, h5, h6, h7⟩ := Explain.union_ok h.inv ha hb hab hcongr hdag hconn'
  have hla : a < x.find.length := by rw [h.inv.len]; exact ha
  have hlb : b < x.find.length := by rw [h.inv.len]; exact hb
  have hnew : ∀ {i : Id} {e : ExplainNode}, x.find[i]? = some e → ∃ e', x'.find[i]? = some e' ∧
      e'.neighbors = e.neighbors ++ (if i = a then [⟨b, a, j, true⟩] else [])
          ++ (if i = b then [⟨a, b, j, false⟩] else []) := by
    intro i e he
    have hi : i < x'.find.length := by rw [h2.len, ← h.inv.len]; exact getElem?_lt he
    obtain ⟨e0, g1, g2⟩ := h7 i _ (List.getElem?_eq_getElem hi)
    rw [he] at g1; cases g1
    exact ⟨_, List.getElem?_eq_getElem hi, g2⟩
  refine ⟨x', h1, ⟨h2, ?_, ?_, ?_, ?_⟩, h3⟩
  · intro i e' he c hc
    have hi : i < nodes.length := by rw [← h2.len]; exact getElem?_lt he
    obtain ⟨e, g1, g2⟩ := h7 i e' he
    rw [g2] at hc
    simp only [List.mem_append] at hc
    rcases hc with (hc | hc) | hc
    · obtain ⟨k1, k2, k3, k4⟩ := h.nb i e g1 c hc
      exact ⟨k1, k2, (hconn' i c.next hi k2).2 (Or.inl k3), k4⟩
    · split at hc
      · rename_i e; subst e
        simp only [List.mem_singleton] at hc
        subst hc
        exact ⟨rfl, hb, (hconn' i b ha hb).2 (Or.inr (Or.inl ⟨hrefl _, hrefl _⟩)), by
          intro s' hs'; simpa using hJ s' hs'⟩
      · simp at hc
    · split at hc
      · rename_i e; subst e
        simp only [List.mem_singleton] at hc
        subst hc
        exact ⟨rfl, ha, (hconn' i a hb ha).2 (Or.inr (Or.inr ⟨hrefl _, hrefl _⟩)), by
          intro s' hs'; simpa using hJ s' hs'⟩
      · simp at hc
  · intro l r c nx hm
    have hold : x.shortMemo.get? (l, r) = some (c, nx) → nx < nodes.length ∧ (¬ opt → nx = r ∧ ∃ (e : ExplainNode) (nb : Connection),
        x'.find[l]? = some e ∧ nb ∈ e.neighbors ∧ nb.next = r ∧ ∃ s, nb.justification = .rule s) := by
      intro hm
      refine ⟨(h.short l r c nx hm).1, fun ho => ?_⟩
      obtain ⟨g1, e, nb, g2, g3, g4⟩ := (h.short l r c nx hm).2 ho
      obtain ⟨e', g5, g6⟩ := hnew g2
      exact ⟨g1, e', nb, g5, by rw [g6]; simp [g3], g4⟩
    cases j with
    | congruence => rw [h6 rfl] at hm; exact hold hm
    | rule s =>
      rw [h5 s rfl] at hm
      simp only [AMap.get?_insert] at hm
      split at hm
      · rename_i e
        simp only [Prod.mk.injEq] at e
        obtain ⟨rfl, rfl⟩ := e
        cases hm
        obtain ⟨e', g5, g6⟩ := hnew (List.getElem?_eq_getElem hlb)
        exact ⟨ha, fun _ => ⟨rfl, e', ⟨a, b, .rule s, false⟩, g5, by rw [g6]; simp, rfl, s, rfl⟩⟩
      · split at hm
        · rename_i e
          simp only [Prod.mk.injEq] at e
          obtain ⟨rfl, rfl⟩ := e
          cases hm
          obtain ⟨e', g5, g6⟩ := hnew (List.getElem?_eq_getElem hla)
          exact ⟨hb, fun _ => ⟨rfl, e', ⟨b, a, .rule s, true⟩, g5, by rw [g6]; simp, rfl, s, rfl⟩⟩
        · exact hold hm
  · intro a' b' s hm
    simp only [List.mem_append, List.mem_singleton, Prod.mk.injEq] at hm
    rcases hm with hm | ⟨rfl, rfl, rfl⟩
    · exact h.logJ _ _ _ hm
    · exact hJ s rfl
  · intro a' b' s hm
    simp only [List.mem_append, List.mem_singleton, Prod.mk.injEq] at hm
    rcases hm with hm | ⟨rfl, rfl, rfl⟩
    · obtain ⟨⟨e, g1, g2⟩, e0, g3, g4⟩ := h.logNb _ _ _ hm
      obtain ⟨e', g5, g6⟩ := hnew g1
      obtain ⟨e0', g7, g8⟩ := hnew g3
      exact ⟨⟨e', g5, by rw [g6]; simp [g2]⟩, e0', g7, by rw [g8]; simp [g4]⟩
    · obtain ⟨e', g5, g6⟩ := hnew (List.getElem?_eq_getElem hla)
      obtain ⟨e0', g7, g8⟩ := hnew (List.getElem?_eq_getElem hlb)
      exact ⟨⟨e', g5, by rw [g6]; simp⟩, e0', g7, by rw [g8]; simp⟩

omit [Lang Op] in
theorem XOk.congrConn {opt : Prop} {J : Symbol → Id → Id → Prop} {nodes : List (ENode Op)} {conn conn' : Id → Id → Prop}
    {x : Explain Op} {L : List (Id × Id × Justification)} (h : XOk opt J nodes conn x L)
    (hc : ∀ i k, i < nodes.length → k < nodes.length → (conn' i k ↔ conn i k)) :
    XOk opt J nodes conn' x L := by
  refine ⟨h.inv.congrConn hc, ?_, h.short, h.logJ, h.logNb⟩
  intro i e he c hcm
  obtain ⟨g1, g2, g3, g4⟩ := h.nb i e he c hcm
  have hi : i < nodes.length := by rw [← h.inv.len]; exact getElem?_lt he
  exact ⟨g1, g2, (hc i c.next hi g2).2 g3, g4⟩

namespace EGraph

/-! ### The invariant -/

/-- Canonical id of `i` (`find` on valid ids). -/
def rt (eg : EGraph Op D) (i : Id) : Id := UF.root eg.uf i
def mem (eg : EGraph Op D) (m : ENode Op) : Option Id := eg.memo.get? m
def sk (eg : EGraph Op D) (c : Id) : Option (Skel Op) :=
  (eg.classes.get? c).map fun k => ⟨k.id, k.nodes, k.parents⟩

structure InvW (W : Id → Id → Prop) (C : Cfg Op D) (eg : EGraph Op D) : Prop where
  wf : UF.WF eg.uf
  len : eg.nodes.length = eg.uf.length
  memoNodup : (AMap.keys eg.memo).Nodup ∧ (eg.memo = [] → eg.nodes = [])
  clsNodup : (AMap.keys eg.classes).Nodup
  core : Core W eg.rt eg.nodes eg.mem eg.pending eg.apending.queue eg.sk
  apq : eg.apending.Inv
  sound : SoundRt C.R eg.rt eg.nodes
  expl : ∀ x, eg.explain = some x → ∃ L, XOk C.optimized C.J eg.nodes (fun i j => eg.rt i = eg.rt j) x L

abbrev Inv (C : Cfg Op D) (eg : EGraph Op D) : Prop := InvW Eq C eg

/-- `eg'` extends `eg`: the node table grows at the end and no equality is lost; an id that is not canonical
does not become so again, and there is no new canonical id without a new memo entry. -/
structure Ext (eg eg' : EGraph Op D) : Prop where
  nodes : ∃ l, eg'.nodes = eg.nodes ++ l
  rt : ∀ i j, i < eg.nodes.length → j < eg.nodes.length → eg.rt i = eg.rt j → eg'.rt i = eg'.rt j
  expl : eg'.explain.isSome = eg.explain.isSome
  mem : ∀ n, eg.mem n ≠ none → eg'.mem n ≠ none
  root : ∀ i, i < eg.nodes.length → eg'.rt i = i → eg.rt i = i
  fresh : (∀ n, eg'.mem n ≠ none → eg.mem n ≠ none) → ∀ i, eg.nodes.length ≤ i → i < eg'.nodes.length → eg'.rt i ≠ i

/-- If neither the node table nor the union-find changed. -/
theorem Ext.same {eg eg' : EGraph Op D} (h1 : eg'.nodes = eg.nodes) (h2 : ∀ i, eg'.rt i = eg.rt i)
    (h3 : eg'.explain.isSome = eg.explain.isSome) (h4 : ∀ n, eg.mem n ≠ none → eg'.mem n ≠ none) : Ext eg eg' :=
  ⟨⟨[], by simp [h1]⟩, fun i j _ _ e => by rw [h2, h2, e], h3, h4, fun i _ e => by rw [← h2, e],
    fun _ i h5 h6 => by rw [h1] at h6; omega⟩

theorem Ext.refl (eg : EGraph Op D) : Ext eg eg := .same rfl (fun _ => rfl) rfl fun _ h => h

theorem Ext.len {eg eg' : EGraph Op D} (h : Ext eg eg') : eg.nodes.length ≤ eg'.nodes.length := by
  obtain ⟨l, hl⟩ := h.nodes; rw [hl]; simp

theorem Ext.get {eg eg' : EGraph Op D} (h : Ext eg eg') {i : Id} {n : ENode Op}
    (hn : eg.nodes[i]? = some n) : eg'.nodes[i]? = some n := by
  obtain ⟨l, hl⟩ := h.nodes
  rw [hl, List.getElem?_append_left (getElem?_lt hn), hn]

theorem Ext.trans {a b c : EGraph Op D} (h : Ext a b) (h' : Ext b c) : Ext a c := by
  obtain ⟨l, hl⟩ := h.nodes
  obtain ⟨l', hl'⟩ := h'.nodes
  have := h.len
  refine ⟨⟨l ++ l', by rw [hl', hl, List.append_assoc]⟩, ?_, h'.expl.trans h.expl, fun n hn => h'.mem n (h.mem n hn),
    fun i hi e => h.root i hi (h'.root i (by omega) e), fun hm i h1 h2 e => ?_⟩
  · intro i j hi hj e
    exact h'.rt i j (by omega) (by omega) (h.rt i j hi hj e)
  · by_cases hi : i < b.nodes.length
    · exact h.fresh (fun n hn => hm n (h'.mem n hn)) i h1 hi (h'.root i hi e)
    · exact h'.fresh (fun n hn => h.mem n (hm n hn)) i (by omega) h2 e

theorem Ext.cong {eg eg' : EGraph Op D} (h : Ext eg eg') {n m : ENode Op}
    (hn : ∀ c ∈ n.children, c < eg.nodes.length) (hm : ∀ c ∈ m.children, c < eg.nodes.length)
    (hc : Cong eg.rt n m) : Cong eg'.rt n m := by
  refine ⟨hc.1, ?_⟩
  rw [← forall₂_map_eq]
  have := forall₂_map_eq.2 hc.2
  exact forall₂_mono_mem this (fun a ha b hb e => h.rt a b (hn a ha) (hm b hb) e)

variable {W : Id → Id → Prop} {C : Cfg Op D} {eg : EGraph Op D}

theorem InvW.find (h : InvW W C eg) {i : Id} (hi : i < eg.nodes.length) :
    eg.find i = .ok (eg.rt i) := UF.find_eq_ok h.wf (by rw [← h.len]; exact hi)

theorem InvW.find_iff (h : InvW W C eg) {i r : Id} :
    eg.find i = .ok r ↔ i < eg.nodes.length ∧ eg.rt i = r := by
  rw [h.len]; exact UF.find_ok_iff h.wf

theorem InvW.canon (h : InvW W C eg) {n : ENode Op} (hn : ∀ c ∈ n.children, c < eg.nodes.length) :
    eg.canon n = .ok (n.mapChildren eg.rt) :=
  mapChildrenM_ok (fun c hc => h.find (hn c hc))

theorem InvW.findMut (h : InvW W C eg) {i : Id} (hi : i < eg.nodes.length) :
    ∃ uf, UF.findMut eg.uf i = .ok (uf, eg.rt i) ∧ UF.Same eg.uf uf :=
  UF.findMut_ok h.wf (by rw [← h.len]; exact hi)

theorem sk_eq {c : Id} {k : EClass Op D} (h : eg.classes.get? c = some k) :
    eg.sk c = some ⟨k.id, k.nodes, k.parents⟩ := by simp [sk, h]

theorem cls_of_sk {c : Id} {s : Skel Op} (h : eg.sk c = some s) :
    ∃ k, eg.classes.get? c = some k ∧ s = ⟨k.id, k.nodes, k.parents⟩ := by
  unfold sk at h
  cases hk : eg.classes.get? c with
  | none => rw [hk] at h; simp at h
  | some k => rw [hk] at h; exact ⟨k, rfl, by simpa using h.symm⟩

theorem InvW.exists_cls (h : InvW W C eg) {i : Id} (hi : i < eg.nodes.length) :
    ∃ k, eg.classes.get? (eg.rt i) = some k := by
  obtain ⟨s, hs⟩ := h.core.exists_cls hi
  obtain ⟨k, hk, _⟩ := cls_of_sk hs
  exact ⟨k, hk⟩

theorem InvW.index (h : InvW W C eg) {i : Id} (hi : i < eg.nodes.length) :
    ∃ k, eg.index i = .ok k ∧ eg.classes.get? (eg.rt i) = some k := by
  obtain ⟨k, hk⟩ := h.exists_cls hi
  exact ⟨k, by simp [EGraph.index, h.find hi, hk, unwrap], hk⟩

/-- Path compression does not matter. -/
theorem InvW.same (h : InvW W C eg) {uf : UF} (hs : UF.Same eg.uf uf) :
    InvW W C { eg with uf := uf } := by
  have hrt : ({ eg with uf := uf } : EGraph Op D).rt = eg.rt := by
    funext i; exact hs.root i
  refine ⟨hs.wf, by show eg.nodes.length = uf.length; rw [hs.len, h.len], h.memoNodup, h.clsNodup, ?_, h.apq, ?_, ?_⟩
  · rw [hrt]; exact h.core
  · rw [hrt]; exact h.sound
  · intro x hx; rw [hrt]; exact h.expl x hx

theorem rt_same {uf : UF} (hs : UF.Same eg.uf uf) : ({ eg with uf := uf } : EGraph Op D).rt = eg.rt := by
  funext i; exact hs.root i

theorem InvW.setClean (h : InvW W C eg) (b : Bool) : InvW W C { eg with clean := b } :=
  ⟨h.wf, h.len, h.memoNodup, h.clsNodup, h.core, h.apq, h.sound, h.expl⟩

theorem InvW.monoW (h : InvW W C eg) {W' : Id → Id → Prop} (hW : ∀ x y, W x y → W' x y) :
    InvW W' C eg :=
  ⟨h.wf, h.len, h.memoNodup, h.clsNodup, h.core.monoW hW, h.apq, h.sound, h.expl⟩

theorem inv_new (C : Cfg Op D) : Inv C (EGraph.new : EGraph Op D) := by
  refine ⟨UF.wf_nil, rfl, by simp [EGraph.new, AMap.keys], by simp [EGraph.new, AMap.keys], ?_,
    UniqueQueue.inv_empty, ?_, by intro x hx; cases hx⟩
  · have hrt : ∀ i, (EGraph.new : EGraph Op D).rt i = i := fun i => UF.root_of_ge (by simp [EGraph.new])
    constructor
    · intro i hi; simp [EGraph.new] at hi
    · intro i; rw [hrt, hrt]
    · intro i _; exact hrt i
    · intro i n hn; simp [EGraph.new] at hn
    · intro c; simp [sk, EGraph.new, AMap.get?]
    · intro c s hs; simp [sk, EGraph.new, AMap.get?] at hs
    · intro c s hs; simp [sk, EGraph.new, AMap.get?] at hs
    · intro i n hn; simp [EGraph.new] at hn
    · intro m j hj; simp [mem, EGraph.new, AMap.get?] at hj
    · intro i n hn; simp [EGraph.new] at hn
    · intro c s hs; simp [sk, EGraph.new, AMap.get?] at hs
    · intro p hp; simp [EGraph.new] at hp
    · intro p hp; simp [EGraph.new, UniqueQueue.empty] at hp
    · intro i n hn; simp [EGraph.new] at hn
  · intro i j s t _ hs _
    have := hs.lt
    simp [EGraph.new] at this

/-! ### `perform_union` -/

/-- `x` and `y` are equal or are the two given classes. -/
def WP (a b x y : Id) : Prop := x = y ∨ (x = b ∧ y = a)

/-- The justification passed to `perform_union` is admissible. -/
def JustOK (C : Cfg Op D) (eg : EGraph Op D) (e1 e2 : Id) : Option Justification → Prop
  | some (.rule s) => C.J s e1 e2
  | some .congruence => ∃ n1 n2, eg.nodes[e1]? = some n1 ∧ eg.nodes[e2]? = some n2 ∧ Cong eg.rt n1 n2
  | none => eg.explain = none

/-- The state after the classes `a` and `b` were merged into `a`, before the
`modify` hook. -/
structure Linked (N : Analysis Op D) (eg eg1 : EGraph Op D) (a b : Id) (c1 c2 : EClass Op D) : Prop where
  ne : a ≠ b
  rootA : eg.rt a = a
  rootB : eg.rt b = b
  get1 : eg.classes.get? a = some c1
  get2 : eg.classes.get? b = some c2
  rt : ∀ i, eg1.rt i = if eg.rt i = b then a else eg.rt i
  len : eg1.uf.length = eg.uf.length
  nodes : eg1.nodes = eg.nodes
  memo : eg1.memo = eg.memo
  pending : eg1.pending = c2.parents.reverse ++ eg.pending
  apending : eg1.apending =
    (let ap := if (N.merge c1.data c2.data).2.1 then eg.apending.extend c1.parents else eg.apending
     if (N.merge c1.data c2.data).2.2 then ap.extend c2.parents else ap)
  classes : eg1.classes = (eg.classes.erase b).insert a
      { c1 with
        data := (N.merge c1.data c2.data).1
        nodes := concatVecs c1.nodes c2.nodes
        parents := concatVecs c1.parents c2.parents }
  byOp : eg1.byOp = eg.byOp
  clean : eg1.clean = false
  expl : eg1.explain.isSome = eg.explain.isSome

theorem Linked.ext {N : Analysis Op D} {eg eg1 : EGraph Op D} {a b : Id} {c1 c2 : EClass Op D}
    (h : Linked N eg eg1 a b c1 c2) : Ext eg eg1 :=
  ⟨⟨[], by simp [h.nodes]⟩, fun i j _ _ e => by rw [h.rt, h.rt, e], h.expl, fun n hn => by unfold EGraph.mem at *; rw [h.memo]; exact hn,
    fun i _ e => by
      rw [h.rt] at e
      split at e
      · rw [← e]; exact h.rootA
      · exact e, fun _ i h1 h2 => by rw [h.nodes] at h2; omega⟩

theorem sound_union {R : Term Op → Term Op → Prop} (hc : IsCongruence R) {rt rt' : Id → Id}
    {nodes : List (ENode Op)} (hd : Dag nodes) (h : SoundRt R rt nodes) {e1 e2 : Id}
    (he1 : e1 < nodes.length) (he2 : e2 < nodes.length)
    (hR : ∀ s t, TermOf nodes e1 s → TermOf nodes e2 t → R s t)
    (hrt : ∀ i j, rt' i = rt' j → rt i = rt j ∨ (rt i = rt e1 ∧ rt j = rt e2) ∨
      (rt i = rt e2 ∧ rt j = rt e1)) : SoundRt R rt' nodes := by
  obtain ⟨t1, h1⟩ := hd.exists_term e1 he1
  obtain ⟨t2, h2⟩ := hd.exists_term e2 he2
  intro i j s t e hs ht
  rcases hrt i j e with e | ⟨ea, eb⟩ | ⟨ea, eb⟩
  · exact h i j s t e hs ht
  · exact hc.trans (h _ _ _ _ ea hs h1) (hc.trans (hR _ _ h1 h2) (h _ _ _ _ eb.symm h2 ht))
  · exact hc.trans (h _ _ _ _ ea hs h2) (hc.trans (hc.symm (hR _ _ h1 h2)) (h _ _ _ _ eb.symm h1 ht))

theorem performUnion_cases {N : Analysis Op D} {e1 e2 : Id} {rule : Option Justification}
    (h : InvW (WP (eg.rt e1) (eg.rt e2)) C eg) (he1 : e1 < eg.nodes.length) (he2 : e2 < eg.nodes.length)
    (hR : ∀ s t, TermOf eg.nodes e1 s → TermOf eg.nodes e2 t → C.R s t)
    (hJ : JustOK C eg e1 e2 rule) :
    (eg.rt e1 = eg.rt e2 ∧ ∃ eg', performUnion N eg e1 e2 rule = .ok (eg', false) ∧ Inv C eg' ∧
      (∀ i, eg'.rt i = eg.rt i) ∧ eg'.nodes = eg.nodes ∧ eg'.memo = eg.memo ∧
      eg'.pending = eg.pending ∧ eg'.apending = eg.apending ∧ eg'.classes = eg.classes ∧
      eg'.byOp = eg.byOp ∧ eg'.clean = false ∧ eg'.explain.isSome = eg.explain.isSome) ∨
    (eg.rt e1 ≠ eg.rt e2 ∧ ∃ eg1 a b c1 c2,
      ((a = eg.rt e1 ∧ b = eg.rt e2) ∨ (a = eg.rt e2 ∧ b = eg.rt e1)) ∧
      Linked N eg eg1 a b c1 c2 ∧ Inv C eg1 ∧
      performUnion N eg e1 e2 rule = (N.modify eg1 a >>= fun eg' => .ok (eg', true)) ∧
      (b = eg.rt e1 → c2.parents.length < c1.parents.length)) := by
  obtain ⟨uf1, hf1, hs1⟩ := h.findMut he1
  have h1 := h.same hs1
  obtain ⟨uf2, hf2, hs2⟩ := h1.findMut (i := e2) he2
  rw [rt_same hs1] at hf2
  have hs : UF.Same eg.uf uf2 := hs1.trans hs2
  have h2 := (h.same hs).setClean false
  have hrt2 : ({ eg with uf := uf2, clean := false } : EGraph Op D).rt = eg.rt := by
    funext i; exact hs.root i
  by_cases hid : eg.rt e1 = eg.rt e2
  · left
    refine ⟨hid, ?_⟩
    have h3 : Inv C ({ eg with uf := uf2, clean := false } : EGraph Op D) := by
      apply h2.monoW
      intro x y hxy
      rcases hxy with e | ⟨e, e'⟩
      · exact e
      · rw [e, e', hid]
    unfold performUnion
    simp only [hf1, ok_bind]
    have hf2' : UF.findMut uf1 e2 = .ok (uf2, eg.rt e2) := hf2
    simp only [hf2', ok_bind, hid, if_true]
    cases hx : eg.explain with
    | none =>
      refine ⟨{ eg with uf := uf2, clean := false }, ?_, h3, ?_⟩
      · cases rule with
        | none => simp [hx]
        | some j => cases j <;> simp [hx]
      · exact ⟨fun i => congrFun hrt2 i, rfl, rfl, rfl, rfl, rfl, rfl, rfl, by simp [hx]⟩
    | some x =>
      obtain ⟨L, hX⟩ := h3.expl x hx
      cases rule with
      | none => simp [JustOK, hx] at hJ
      | some j =>
        cases j with
        | congruence =>
          exact ⟨{ eg with uf := uf2, clean := false }, by simp [hx], h3,
            fun i => congrFun hrt2 i, rfl, rfl, rfl, rfl, rfl, rfl, rfl, by simp [hx]⟩
        | rule s =>
          obtain ⟨x', g1, g2, g3⟩ := hX.alternate (a := e1) (b := e2) (s := s) he1 he2
            (by rw [hrt2]; exact hid) (by rw [hrt2]; exact hid.symm) hJ
          refine ⟨{ eg with uf := uf2, clean := false, explain := some x' }, by simp [g1], ?_,
            fun i => congrFun hrt2 i, rfl, rfl, rfl, rfl, rfl, rfl, rfl, by simp⟩
          refine ⟨h3.wf, h3.len, h3.memoNodup, h3.clsNodup, h3.core, h3.apq, h3.sound, ?_⟩
          intro y hy
          cases hy
          exact ⟨L, g2⟩
  · right
    refine ⟨hid, ?_⟩
    obtain ⟨k1, hk1⟩ := h.exists_cls he1
    obtain ⟨k2, hk2⟩ := h.exists_cls he2
    -- the two classes in merge order
    obtain ⟨a, b, c1, c2, hids, hab, hg1, hg2, hord⟩ : ∃ a b c1 c2,
        (if k1.parents.length < k2.parents.length then (eg.rt e2, eg.rt e1) else (eg.rt e1, eg.rt e2)) = (a, b) ∧
        ((a = eg.rt e1 ∧ b = eg.rt e2) ∨ (a = eg.rt e2 ∧ b = eg.rt e1)) ∧
        eg.classes.get? a = some c1 ∧ eg.classes.get? b = some c2 ∧
        (b = eg.rt e1 → c2.parents.length < c1.parents.length) := by
      split
      · rename_i hlt; exact ⟨_, _, k2, k1, rfl, Or.inr ⟨rfl, rfl⟩, hk2, hk1, fun _ => hlt⟩
      · exact ⟨_, _, k1, k2, rfl, Or.inl ⟨rfl, rfl⟩, hk1, hk2, fun e => absurd e.symm hid⟩
    have hne : a ≠ b := by
      rcases hab with ⟨e, e'⟩ | ⟨e, e'⟩
      · rw [e, e']; exact hid
      · rw [e, e']; exact Ne.symm hid
    have hra : eg.rt a = a := by
      rcases hab with ⟨e, _⟩ | ⟨e, _⟩ <;> rw [e, h.core.rtIdem]
    have hrb : eg.rt b = b := by
      rcases hab with ⟨_, e⟩ | ⟨_, e⟩ <;> rw [e, h.core.rtIdem]
    have haL : a < eg.nodes.length := ((h.core.clsKey a).1 (by simp [sk, hg1])).1
    have hbL : b < eg.nodes.length := ((h.core.clsKey b).1 (by simp [sk, hg2])).1
    have haU : a < uf2.length := by rw [hs.len, ← h.len]; exact haL
    have hbU : b < uf2.length := by rw [hs.len, ← h.len]; exact hbL
    obtain ⟨hlw, hlr⟩ := UF.union_spec hs.wf haU hbU (by rw [hs.root]; exact hra)
      (by rw [hs.root]; exact hrb) hne
    have hrt' : ∀ i, UF.root (uf2.set b a) i = if eg.rt i = b then a else eg.rt i := by
      intro i
      by_cases hi : i < uf2.length
      · rw [hlr i hi, hs.root]; rfl
      · rw [UF.root_of_ge (by simpa using hi)]
        have hi' : ¬ i < eg.nodes.length := by rw [h.len, ← hs.len]; exact hi
        rw [h.core.rtOut i (by omega), if_neg (by omega)]
    have hconn : ∀ i j, (UF.root (uf2.set b a) i = UF.root (uf2.set b a) j ↔
        eg.rt i = eg.rt j ∨ (eg.rt i = eg.rt e1 ∧ eg.rt e2 = eg.rt j) ∨
          (eg.rt i = eg.rt e2 ∧ eg.rt e1 = eg.rt j)) := by
      intro i j
      rw [hrt', hrt']
      have key : ((if eg.rt i = b then a else eg.rt i) = (if eg.rt j = b then a else eg.rt j)) ↔
          eg.rt i = eg.rt j ∨ (eg.rt i = a ∧ b = eg.rt j) ∨ (eg.rt i = b ∧ a = eg.rt j) := by
        split_ifs <;> omega
      rw [key]
      rcases hab with ⟨e, e'⟩ | ⟨e, e'⟩
      · rw [e, e']
      · rw [e, e']
        tauto
    -- the explanation
    have hxex : ∃ x', explainUnion eg.explain e1 e2 rule = .ok x' ∧ x'.isSome = eg.explain.isSome ∧
        ∀ y, x' = some y → ∃ L, XOk C.optimized C.J eg.nodes
          (fun i j => UF.root (uf2.set b a) i = UF.root (uf2.set b a) j) y L := by
      cases hx : eg.explain with
      | none => exact ⟨none, rfl, rfl, by intro y hy; cases hy⟩
      | some x =>
        obtain ⟨L, hX⟩ := h.expl x hx
        cases rule with
        | none => simp [JustOK, hx] at hJ
        | some j =>
          obtain ⟨x', g1, g2, _⟩ := hX.union (a := e1) (b := e2) (j := j)
            (conn' := fun i j => UF.root (uf2.set b a) i = UF.root (uf2.set b a) j)
            he1 he2 hid (fun _ => rfl) (fun _ _ e => e.symm)
            (by
              intro hj; subst hj
              obtain ⟨n1, n2, g1, g2, g3, g4⟩ := hJ
              exact ⟨n1, n2, g1, g2, g3, forall₂_map_eq.2 g4⟩)
            (by intro s hj; subst hj; exact hJ) h.core.dag (fun i k _ _ => hconn i k)
          refine ⟨some x', by simp [explainUnion, unwrap, g1], rfl, ?_⟩
          intro y hy; cases hy
          exact ⟨_, g2⟩
    obtain ⟨x', hxeq, hxs, hxok⟩ := hxex
    have hcid : c1.id = a := by
      have := h.core.clsId a _ (sk_eq hg1)
      exact this
    have hge : (eg.classes.erase b).get? a = some c1 := by
      rw [AMap.get?_erase, if_neg (Ne.symm hne), hg1]
    have hcomp : performUnion N eg e1 e2 rule =
        (N.modify (linkClasses N { eg with uf := uf2, clean := false, explain := x' } (uf2.set b a) a b c1 c2) a
          >>= fun eg' => .ok (eg', true)) := by
      unfold performUnion
      have hf2' : UF.findMut uf1 e2 = .ok (uf2, eg.rt e2) := hf2
      simp only [hf1, ok_bind, hf2', hid, if_false, hk1, hk2, unwrap, hids, hxeq]
      simp only [ok_bind, UF.union, haU, hbU, hg2, hge, hcid]
      simp
    refine ⟨linkClasses N { eg with uf := uf2, clean := false, explain := x' } (uf2.set b a) a b c1 c2,
      a, b, c1, c2, hab, ?_, ?_, hcomp, hord⟩
    · exact ⟨hne, hra, hrb, hg1, hg2, hrt', by show (uf2.set b a).length = _; simp [hs.len], rfl, rfl, rfl, rfl, rfl, rfl, rfl, hxs⟩
    · have hrtf : (linkClasses N { eg with uf := uf2, clean := false, explain := x' } (uf2.set b a) a b c1 c2).rt
          = fun i => if eg.rt i = b then a else eg.rt i := by funext i; exact hrt' i
      have hapend : (linkClasses N { eg with uf := uf2, clean := false, explain := x' } (uf2.set b a) a b c1 c2).apending.Inv ∧
          ∀ p ∈ (linkClasses N { eg with uf := uf2, clean := false, explain := x' } (uf2.set b a) a b c1 c2).apending.queue,
            p ∈ eg.apending.queue ∨ p ∈ c1.parents ∨ p ∈ c2.parents := by
        have q1 : ∀ (cnd : Bool) (q : UniqueQueue Id) (ps : List Id), q.Inv →
            (if cnd then q.extend ps else q).Inv ∧
            ∀ p ∈ (if cnd then q.extend ps else q).queue, p ∈ q.queue ∨ p ∈ ps := by
          intro cnd q ps hq
          cases cnd with
          | false => exact ⟨hq, fun p hp => Or.inl hp⟩
          | true => exact ⟨UniqueQueue.inv_extend hq ps, fun p hp => (UniqueQueue.mem_extend hq ps p).1 hp⟩
        have s1 := q1 (N.merge c1.data c2.data).2.1 eg.apending c1.parents h.apq
        have s2 := q1 (N.merge c1.data c2.data).2.2 _ c2.parents s1.1
        refine ⟨s2.1, ?_⟩
        intro p hp
        rcases s2.2 p hp with hp | hp
        · rcases s1.2 p hp with hp | hp
          · exact Or.inl hp
          · exact Or.inr (Or.inl hp)
        · exact Or.inr (Or.inr hp)
      refine ⟨hlw, ?_, h.memoNodup, ?_, ?_, hapend.1, ?_, ?_⟩
      · show eg.nodes.length = (uf2.set b a).length
        simp [hs.len, h.len]
      · exact AMap.nodup_insert (AMap.nodup_erase h.clsNodup b) _ _
      · rw [hrtf]
        refine h.core.union (a := a) (b := b) hra hrb hne (sk_eq hg1) (sk_eq hg2) ?_
          (ns' := concatVecs c1.nodes c2.nodes) (ps' := concatVecs c1.parents c2.parents)
          (fun n => mem_concatVecs) (fun p => mem_concatVecs) ?_ ?_ ?_
        · intro x y hxy
          rcases hxy with e | ⟨e, e'⟩
          · rw [e]
          · rcases hab with ⟨ea, eb⟩ | ⟨ea, eb⟩
            · rw [e, e', ← ea, ← eb]; simp [hne]
            · rw [e, e', ← ea, ← eb]; simp [hne]
        · intro c
          show Option.map _ (AMap.get? ((eg.classes.erase b).insert a _) c) = _
          rw [AMap.get?_insert, AMap.get?_erase]
          by_cases e : c = a
          · subst e; simp [hcid]
          · rw [if_neg (Ne.symm e), if_neg e]
            by_cases e' : c = b
            · subst e'; simp
            · rw [if_neg (Ne.symm e'), if_neg e']; rfl
        · intro p
          show p ∈ c2.parents.reverse ++ eg.pending ↔ _
          simp
        · exact hapend.2
      · rw [hrtf]
        refine sound_union C.isCong h.core.dag h.sound he1 he2 hR ?_
        intro i j e
        have := (hconn i j).1 (by rw [hrt', hrt']; exact e)
        rcases this with e | ⟨e, e'⟩ | ⟨e, e'⟩
        · exact Or.inl e
        · exact Or.inr (Or.inl ⟨e, e'.symm⟩)
        · exact Or.inr (Or.inr ⟨e, e'.symm⟩)
      · intro y hy
        exact hxok y hy

end EGraph
end Egg
