import Verif.Lemmas.ProofSize
import Verif.Lemmas.ExplainPath
/-
The explanation functions with addresses refine those without, and make well-formed trees.
-/
namespace Egg
variable {Op : Type}

/-- Two computations that fail in the same way or return related results. -/
def Sim {α β : Type} (R : α → β → Prop) : Res α → Res β → Prop
  | .ok a, .ok b => R a b
  | .error e, .error e' => e = e'
  | _, _ => False

theorem Sim.ok {α β : Type} {R : α → β → Prop} {a : α} {b : β} (h : R a b) : Sim R (.ok a) (.ok b) := h

theorem Sim.bind {α β γ δ : Type} {R : α → β → Prop} {Q : γ → δ → Prop} {x : Res α} {y : Res β} {f : α → Res γ} {g : β → Res δ}
    (h : Sim R x y) (hf : ∀ a b, R a b → Sim Q (f a) (g b)) : Sim Q (x >>= f) (y >>= g) := by
  cases x <;> cases y
  · exact h
  · exact h.elim
  · exact h.elim
  · exact hf _ _ h

theorem Sim.same {α γ δ : Type} {Q : γ → δ → Prop} {x : Res α} {f : α → Res γ} {g : α → Res δ}
    (hf : ∀ a, Sim Q (f a) (g a)) : Sim Q (x >>= f) (x >>= g) := by
  cases x
  · exact rfl
  · exact hf _

theorem Sim.foldlM {α β γ : Type} {R : α → β → Prop} {f : α → γ → Res α} {g : β → γ → Res β} :
    ∀ (l : List γ) (a : α) (b : β), (∀ c ∈ l, ∀ a b, R a b → Sim R (f a c) (g b c)) → R a b → Sim R (l.foldlM f a) (l.foldlM g b)
  | [], _, _, _, h => h
  | c :: l, a, b, hf, h => by
    rw [List.foldlM_cons, List.foldlM_cons]
    exact Sim.bind (hf c (.head _) a b h) (fun a b h => Sim.foldlM l a b (fun c hc => hf c (.tail _ hc)) h)

theorem Sim.foldlMIdx {α β γ : Type} {R : Nat → α → β → Prop} {f : α → γ → Res α} {g : β → γ → Res β} :
    ∀ (l : List γ) (k : Nat) (a : α) (b : β), (∀ c ∈ l, ∀ k a b, R k a b → Sim (R (k + 1)) (f a c) (g b c)) → R k a b →
      Sim (R (l.length + k)) (l.foldlM f a) (l.foldlM g b)
  | [], k, _, _, _, h => by
    rw [List.length_nil, Nat.zero_add]
    exact h
  | c :: l, k, a, b, hf, h => by
    rw [List.foldlM_cons, List.foldlM_cons, List.length_cons, Nat.add_right_comm, Nat.add_assoc]
    exact Sim.bind (hf c (.head _) k a b h) (fun a b h => Sim.foldlMIdx l (k + 1) a b (fun c hc => hf c (.tail _ hc)) h)

theorem Sim.imp {α β : Type} {R Q : α → β → Prop} {x : Res α} {y : Res β} (h : Sim R x y) (hi : ∀ a b, R a b → Q a b) : Sim Q x y := by
  cases x <;> cases y
  · exact h
  · exact h.elim
  · exact h.elim
  · exact hi _ _ h

namespace RcTree
variable {J : Symbol → Id → Id → Prop} {nodes : List (ENode Op)}

/-- Well made, and the rule relates the two ids of the step in the direction of the annotation. -/
structure Made (J : Symbol → Id → Id → Prop) (nodes : List (ENode Op)) (u : RcTree Op) : Prop where
  ofNode : ∃ n ∈ nodes, u.op = n.op ∧ u.childProofs.length = n.children.length
  well : WellMade u
  fwd : ∀ r, u.fwd = some r → J r u.last u.current
  bwd : ∀ r, u.bwd = some r → J r u.current u.last

/-- A set of trees, closed under parts, with addresses below `k`. -/
structure Pool (J : Symbol → Id → Id → Prop) (nodes : List (ENode Op)) (S : RcTree Op → Prop) (k : Nat) : Prop where
  lt : ∀ u, S u → u.ptr < k
  inj : ∀ u v, S u → S v → u.ptr = v.ptr → u = v
  sub : ∀ u, S u → ∀ q ∈ u.childProofs, ∀ t ∈ q, S t
  made : ∀ u, S u → Made J nodes u

theorem Pool.occurs {S : RcTree Op → Prop} {k : Nat} (h : Pool J nodes S k) {u t : RcTree Op} (hu : Occurs u t) (ht : S t) : S u := by
  induction hu with
  | refl => exact ht
  | child h1 h2 _ ih => exact ih (h.sub _ ht _ h1 _ h2)

theorem Pool.add {S : RcTree Op → Prop} {k : Nat} (h : Pool J nodes S k) {u : RcTree Op} (hp : u.ptr = k)
    (hc : ∀ q ∈ u.childProofs, ∀ t ∈ q, S t) (hm : Made J nodes u) : Pool J nodes (fun v => S v ∨ v = u) (k + 1) where
  lt := by
    rintro v (hv | rfl)
    · have := h.lt v hv; omega
    · omega
  inj := by
    rintro v w (hv | rfl) (hw | rfl) e
    · exact h.inj v w hv hw e
    · have := h.lt v hv; omega
    · have := h.lt w hw; omega
    · rfl
  sub := by
    rintro v (hv | rfl) q hq t ht
    · exact .inl (h.sub v hv q hq t ht)
    · exact .inl (hc q hq t ht)
  made := by
    rintro v (hv | rfl)
    · exact h.made v hv
    · exact hm

theorem Still.bwd {t : RcTree Op} (h : Still t) : t.bwd = none := by cases h; rfl
theorem Still.fwd {t : RcTree Op} (h : Still t) : t.fwd = none := by cases h; rfl
theorem Still.children {t : RcTree Op} (h : Still t) : ∀ q ∈ t.childProofs, ∀ u ∈ q, Still u := by cases h; assumption

end RcTree

namespace Explain
open RcTree
variable [DecidableEq Op] {J : Symbol → Id → Id → Prop} {nodes : List (ENode Op)}

/-- The cache of `node_to_explanation`, with and without addresses. -/
structure NC (J : Symbol → Id → Id → Prop) (nodes : List (ENode Op)) (S : RcTree Op → Prop) (nc : AMap Id (RcTree Op)) (k : Nat) (nc' : AMap Id (TreeTerm Op)) : Prop where
  pool : Pool J nodes S k
  mem : ∀ i t, nc.get? i = some t → S t ∧ RcTree.Still t
  same : ∀ i, (nc.get? i).map tree = nc'.get? i

theorem NC.add {S : RcTree Op → Prop} {nc : AMap Id (RcTree Op)} {k : Nat} {nc' : AMap Id (TreeTerm Op)} (h : NC J nodes S nc k nc')
    {u : RcTree Op} (hp : u.ptr = k) (hc : ∀ q ∈ u.childProofs, ∀ t ∈ q, S t) (hm : Made J nodes u) :
    NC J nodes (fun v => S v ∨ v = u) nc (k + 1) nc' :=
  ⟨h.pool.add hp hc hm, fun i t hi => ⟨.inl (h.mem i t hi).1, (h.mem i t hi).2⟩, h.same⟩

theorem NC.insert {S : RcTree Op → Prop} {nc : AMap Id (RcTree Op)} {k : Nat} {nc' : AMap Id (TreeTerm Op)} (h : NC J nodes S nc k nc')
    {u : RcTree Op} {i : Id} (hu : S u) (hs : RcTree.Still u) : NC J nodes S (nc.insert i u) k (nc'.insert i u.tree) where
  pool := h.pool
  mem := by
    intro j t hj
    rw [AMap.get?_insert] at hj
    split at hj
    · cases hj; exact ⟨hu, hs⟩
    · exact h.mem j t hj
  same := by
    intro j
    rw [AMap.get?_insert, AMap.get?_insert]
    split
    · rfl
    · exact h.same j

/-- What `node_to_explanation` returns. -/
def NodeRel (J : Symbol → Id → Id → Prop) (nodes : List (ENode Op)) (S : RcTree Op → Prop) (r : RcTree Op × AMap Id (RcTree Op) × Nat) (r' : TreeTerm Op × AMap Id (TreeTerm Op)) : Prop :=
  ∃ S' : RcTree Op → Prop, (∀ u, S u → S' u) ∧ NC J nodes S' r.2.1 r.2.2 r'.2 ∧ S' r.1 ∧ RcTree.Still r.1 ∧ r.1.tree = r'.1

theorem nodeToRc_sim (nodes : List (ENode Op)) : ∀ (f : Nat) (i : Id) (nc : AMap Id (RcTree Op)) (k : Nat) (nc' : AMap Id (TreeTerm Op))
    (S : RcTree Op → Prop), NC J nodes S nc k nc' → Sim (NodeRel J nodes S) (nodeToRc nodes f i (nc, k)) (nodeToExplanation nodes f i nc') := by
  intro f
  induction f with
  | zero => intro i nc k nc' S _; exact rfl
  | succ f ih =>
    intro i nc k nc' S h
    rw [nodeToRc, nodeToExplanation]
    have hsame := h.same i
    cases hg : nc.get? i with
    | some t =>
      rw [hg] at hsame
      rw [← hsame]
      exact ⟨S, fun _ h => h, h, (h.mem i t hg).1, (h.mem i t hg).2, rfl⟩
    | none =>
      rw [hg] at hsame
      rw [← hsame]
      simp only [Option.map_none]
      cases hn : getIdx nodes i with
      | error e => exact rfl
      | ok n =>
      simp only [ok_bind]
      refine Sim.bind (R := fun (acc : List (List (RcTree Op)) × AMap Id (RcTree Op) × Nat) (acc' : List (List (TreeTerm Op)) × AMap Id (TreeTerm Op)) =>
        ∃ S' : RcTree Op → Prop, (∀ u, S u → S' u) ∧ NC J nodes S' acc.2.1 acc.2.2 acc'.2 ∧ acc.1.map (List.map tree) = acc'.1 ∧
          (∀ q ∈ acc.1, q ≠ [] ∧ ∀ t ∈ q, S' t ∧ RcTree.Still t) ∧ acc.1.length = n.children.length + 0) ?_ ?_
      · refine Sim.foldlMIdx (R := fun m (acc : List (List (RcTree Op)) × AMap Id (RcTree Op) × Nat) (acc' : List (List (TreeTerm Op)) × AMap Id (TreeTerm Op)) =>
          ∃ S' : RcTree Op → Prop, (∀ u, S u → S' u) ∧ NC J nodes S' acc.2.1 acc.2.2 acc'.2 ∧ acc.1.map (List.map tree) = acc'.1 ∧
          (∀ q ∈ acc.1, q ≠ [] ∧ ∀ t ∈ q, S' t ∧ RcTree.Still t) ∧ acc.1.length = m) _ 0 _ _ ?_ ⟨S, fun _ h => h, h, rfl, by simp, rfl⟩
        rintro c - m ⟨ts, nc, k⟩ ⟨ts', nc'⟩ ⟨S1, hS1, hn1, he1, hq1, hlen⟩
        refine Sim.bind (ih c nc k nc' S1 hn1) ?_
        rintro ⟨t, nc2, k2⟩ ⟨t', nc2'⟩ ⟨S2, hS2, hn2, ht2, hst2, e2⟩
        refine ⟨S2, fun u hu => hS2 u (hS1 u hu), hn2, ?_, ?_, by simpa using hlen⟩
        · simp only at he1 e2 ⊢
          rw [List.map_append, he1, ← e2]
          rfl
        · intro q hq
          rcases List.mem_append.1 hq with hq | hq
          · exact ⟨(hq1 q hq).1, fun t ht => ⟨hS2 t ((hq1 q hq).2 t ht).1, ((hq1 q hq).2 t ht).2⟩⟩
          · rw [List.mem_singleton.1 hq]
            refine ⟨by simp, ?_⟩
            intro u hu
            rw [List.mem_singleton.1 hu]
            exact ⟨ht2, hst2⟩
      · rintro ⟨ts, nc, k⟩ ⟨ts', nc'⟩ ⟨S1, hS1, hn1, he1, hq1, hlen⟩
        simp only at he1 hq1 hn1 hlen
        have hst : RcTree.Still (RcTree.mk k 0 0 n.op none none ts) := .mk (fun q hq t ht => ((hq1 q hq).2 t ht).2)
        have hm : Made J nodes (RcTree.mk k 0 0 n.op none none ts) :=
          ⟨⟨n, List.mem_of_getElem? (getIdx_eq_ok.1 hn), rfl, hlen⟩,
            ⟨.inl rfl, fun hr => by rcases hr with hr | hr <;> exact (hr rfl).elim, fun q hq => (hq1 q hq).1⟩,
            fun r hr => (by cases hr), fun r hr => (by cases hr)⟩
        have hn2 := (hn1.add (u := RcTree.mk k 0 0 n.op none none ts) rfl (fun q hq t ht => ((hq1 q hq).2 t ht).1) hm).insert (i := i) (.inr rfl) hst
        refine ⟨fun v => S1 v ∨ v = RcTree.mk k 0 0 n.op none none ts, fun u hu => .inl (hS1 u hu), ?_, .inr rfl, hst, ?_⟩
        · rw [tree_mk, he1] at hn2
          exact hn2
        · show (RcTree.mk k 0 0 n.op none none ts).tree = _
          rw [tree_mk, he1]
          rfl

/-- Both caches, with and without addresses. -/
structure CC (J : Symbol → Id → Id → Prop) (nodes : List (ENode Op)) (S : RcTree Op → Prop) (cs : RcCaches Op) (cs' : Caches Op) : Prop where
  nc : NC J nodes S cs.2.1 cs.2.2 cs'.2
  mem : ∀ e t, cs.1.get? e = some t → S t
  same : ∀ e, (cs.1.get? e).map tree = cs'.1.get? e

theorem CC.insert {S : RcTree Op → Prop} {c : AMap (Id × Id) (RcTree Op)} {nc : AMap Id (RcTree Op)} {k : Nat}
    {c' : AMap (Id × Id) (TreeTerm Op)} {nc' : AMap Id (TreeTerm Op)} (h : CC J nodes S (c, nc, k) (c', nc'))
    {u : RcTree Op} {e : Id × Id} (hu : S u) : CC J nodes S (c.insert e u, nc, k) (c'.insert e u.tree, nc') where
  nc := h.nc
  mem := by
    intro j t hj
    simp only at hj
    rw [AMap.get?_insert] at hj
    split at hj
    · cases hj; exact hu
    · exact h.mem j t hj
  same := by
    intro j
    simp only
    rw [AMap.get?_insert, AMap.get?_insert]
    split
    · rfl
    · exact h.same j

theorem CC.add {S : RcTree Op → Prop} {c : AMap (Id × Id) (RcTree Op)} {nc : AMap Id (RcTree Op)} {k : Nat}
    {c' : AMap (Id × Id) (TreeTerm Op)} {nc' : AMap Id (TreeTerm Op)} (h : CC J nodes S (c, nc, k) (c', nc'))
    {u : RcTree Op} (hp : u.ptr = k) (hc : ∀ q ∈ u.childProofs, ∀ t ∈ q, S t) (hm : Made J nodes u) :
    CC J nodes (fun v => S v ∨ v = u) (c, nc, k + 1) (c', nc') :=
  ⟨h.nc.add hp hc hm, fun e t ht => .inl (h.mem e t ht), h.same⟩

theorem _root_.Egg.IdPath.conn {len : Nat} {i j : Id} {l : List Connection} (h : IdPath J len i l j) {c : Connection} (hc : c ∈ l) :
    ConnOK J len c.current c := by
  induction h with
  | nil => cases hc
  | cons h1 _ ih =>
    rcases List.mem_cons.1 hc with rfl | hc
    · rw [h1.cur]; exact h1
    · exact ih hc

/-- What `explain_enodes` returns. -/
def ExplRel (J : Symbol → Id → Id → Prop) (nodes : List (ENode Op)) (S : RcTree Op → Prop) (r : List (RcTree Op) × RcCaches Op) (r' : List (TreeTerm Op) × Caches Op) : Prop :=
  ∃ S' : RcTree Op → Prop, (∀ u, S u → S' u) ∧ CC J nodes S' r.2 r'.2 ∧ (∀ t ∈ r.1, S' t) ∧ r.1 ≠ [] ∧ r.1.map tree = r'.1

/-- What `explain_adjacent` returns. -/
def AdjRel (J : Symbol → Id → Id → Prop) (nodes : List (ENode Op)) (S : RcTree Op → Prop) (r : RcTree Op × RcCaches Op) (r' : TreeTerm Op × Caches Op) : Prop :=
  ∃ S' : RcTree Op → Prop, (∀ u, S u → S' u) ∧ CC J nodes S' r.2 r'.2 ∧ S' r.1 ∧ r.1.tree = r'.1

theorem explainRc_sim (x : Explain Op) {nodes : List (ENode Op)} (hd : Dag nodes) (hx : EdgesOK J nodes.length x) : ∀ (f : Nat),
    (∀ (a b : Id) (cs : RcCaches Op) (cs' : Caches Op) (S : RcTree Op → Prop), b < nodes.length → CC J nodes S cs cs' →
      Sim (ExplRel J nodes S) (explainRc x nodes f a b cs) (explainEnodes x nodes f a b cs')) ∧
    (∀ (c : Connection) (cs : RcCaches Op) (cs' : Caches Op) (S : RcTree Op → Prop), ConnOK J nodes.length c.current c → CC J nodes S cs cs' →
      Sim (AdjRel J nodes S) (adjacentRc x nodes f c cs) (explainAdjacent x nodes f c cs')) := by
  intro f
  induction f with
  | zero => exact ⟨fun _ _ _ _ _ _ _ => rfl, fun _ _ _ _ _ _ => rfl⟩
  | succ f ih =>
    constructor
    · rintro a b ⟨c, nc, k⟩ ⟨c', nc'⟩ S hb h
      rw [explainRc, explainEnodes]
      refine Sim.bind (nodeToRc_sim nodes f a nc k nc' S h.nc) ?_
      rintro ⟨t0, nc1, k1⟩ ⟨t0', nc1'⟩ ⟨S1, hS1, hn1, ht1, hst1, e1⟩
      simp only at hn1 ht1 e1
      cases hp : x.getPath f a b with
      | error e => exact rfl
      | ok lr =>
      obtain ⟨l, r⟩ := lr
      have hpath := getPath_path hx hb f a l r hp
      refine Sim.foldlM (R := ExplRel J nodes S) _ _ _ ?_ ?_
      · rintro cn hcn ⟨ts, cs⟩ ⟨ts', cs'⟩ ⟨S2, hS2, hc2, ht2, hne2, e2⟩
        refine Sim.bind (ih.2 cn cs cs' S2 (hpath.conn hcn) hc2) ?_
        rintro ⟨t, cs3⟩ ⟨t', cs3'⟩ ⟨S3, hS3, hc3, ht3, e3⟩
        refine ⟨S3, fun u hu => hS3 u (hS2 u hu), hc3, ?_, by simp, ?_⟩
        · intro u hu
          rcases List.mem_append.1 hu with hu | hu
          · exact hS3 u (ht2 u hu)
          · rw [List.mem_singleton.1 hu]; exact ht3
        · simp only at e2 e3 ⊢
          rw [List.map_append, e2, ← e3]
          rfl
      · refine ⟨S1, hS1, ⟨hn1, fun e t he => hS1 t (h.mem e t he), h.same⟩, ?_, by simp, ?_⟩
        · intro u hu
          rw [List.mem_singleton.1 hu]; exact ht1
        · simp only [List.map_cons, List.map_nil, e1]
    · rintro cn ⟨c, nc, k⟩ ⟨c', nc'⟩ S hcok h
      rw [adjacentRc, explainAdjacent]
      have hsame := h.same (cn.current, cn.next)
      simp only at hsame
      cases hg : c.get? (cn.current, cn.next) with
      | some t =>
        rw [hg] at hsame
        simp only [← hsame, Option.map_some]
        exact ⟨S, fun _ h => h, h, h.mem _ t hg, rfl⟩
      | none =>
        rw [hg] at hsame
        simp only [← hsame, Option.map_none]
        cases hj : cn.justification with
        | rule name =>
          simp only
          refine Sim.bind (nodeToRc_sim nodes f cn.next nc k nc' S h.nc) ?_
          rintro ⟨t, nc1, k1⟩ ⟨t', nc1'⟩ ⟨S1, hS1, hn1, ht1, hst1, e1⟩
          simp only at hn1 ht1 hst1 e1
          have hc1 : CC J nodes S1 (c, nc1, k1) (c', nc1') := ⟨hn1, fun e t he => hS1 t (h.mem e t he), h.same⟩
          obtain ⟨tp, tc, tl, top, tb, tf, tcps⟩ := t
          have hb : tb = none := hst1.bwd
          have hf : tf = none := hst1.fwd
          subst hb hf
          rw [tree_mk] at e1
          subst e1
          have main : ∀ (b f : Option Symbol), (b = none ∨ f = none) → (∀ r, f = some r → J r cn.current cn.next) →
              (∀ r, b = some r → J r cn.next cn.current) → ∀ (u : RcTree Op), u = .mk k1 cn.next cn.current top b f tcps →
              AdjRel J nodes S (u, c.insert (cn.current, cn.next) u, nc1, k1 + 1) (u.tree, c'.insert (cn.current, cn.next) u.tree, nc1') := by
            rintro b f hbf hJf hJb u rfl
            have hm : Made J nodes (RcTree.mk k1 cn.next cn.current top b f tcps) :=
              ⟨(hn1.pool.made _ ht1).ofNode, ⟨hbf, fun _ => hst1.children, (hn1.pool.made _ ht1).well.full⟩, hJf, hJb⟩
            have := (hc1.add (u := RcTree.mk k1 cn.next cn.current top b f tcps) rfl (fun q hq t ht => hn1.pool.sub _ ht1 q hq t ht) hm).insert (e := (cn.current, cn.next)) (.inr rfl)
            exact ⟨_, fun u hu => .inl (hS1 u hu), this, .inr rfl, rfl⟩
          have hr := hcok.rule name hj
          by_cases hfw : cn.isRewriteForward
          · rw [if_pos hfw] at hr
            simp only [hfw, if_true]
            have := main none (some name) (.inl rfl) (fun r h => by cases h; exact hr) (fun r h => by cases h) _ rfl
            rw [tree_mk] at this
            exact this
          · rw [if_neg hfw] at hr
            simp only [hfw, Bool.false_eq_true, if_false]
            have := main (some name) none (.inr rfl) (fun r h => by cases h) (fun r h => by cases h; exact hr) _ rfl
            rw [tree_mk] at this
            exact this
        | congruence =>
          simp only
          cases hcur : getIdx nodes cn.current with
          | error e => exact rfl
          | ok cur =>
          simp only [ok_bind]
          cases hnxt : getIdx nodes cn.next with
          | error e => exact rfl
          | ok nxt =>
          show Sim _ (if cur.matches nxt = true then _ else _) (if cur.matches nxt = true then _ else _)
          split
          · rename_i hmat
            simp only [ENode.matches, Bool.and_eq_true, decide_eq_true_eq, beq_iff_eq] at hmat
            refine Sim.bind (R := fun (acc : List (List (RcTree Op)) × RcCaches Op) (acc' : List (List (TreeTerm Op)) × Caches Op) =>
              ∃ S' : RcTree Op → Prop, (∀ u, S u → S' u) ∧ CC J nodes S' acc.2 acc'.2 ∧ acc.1.map (List.map tree) = acc'.1 ∧
                (∀ q ∈ acc.1, q ≠ [] ∧ ∀ t ∈ q, S' t) ∧ acc.1.length = (cur.children.zip nxt.children).length + 0) ?_ ?_
            · refine Sim.foldlMIdx (R := fun m (acc : List (List (RcTree Op)) × RcCaches Op) (acc' : List (List (TreeTerm Op)) × Caches Op) =>
                ∃ S' : RcTree Op → Prop, (∀ u, S u → S' u) ∧ CC J nodes S' acc.2 acc'.2 ∧ acc.1.map (List.map tree) = acc'.1 ∧
                (∀ q ∈ acc.1, q ≠ [] ∧ ∀ t ∈ q, S' t) ∧ acc.1.length = m) _ 0 _ _ ?_ ⟨S, fun _ h => h, h, rfl, by simp, rfl⟩
              rintro p hp m ⟨ts, cs⟩ ⟨ts', cs'⟩ ⟨S1, hS1, hn1, he1, hq1, hlen⟩
              have hp2 : p.2 < nodes.length := by
                have h1 := hd _ _ (getIdx_eq_ok.1 hnxt) _ (List.of_mem_zip hp).2
                have h2 := hcok.lt
                omega
              refine Sim.bind (ih.1 p.1 p.2 cs cs' S1 hp2 hn1) ?_
              rintro ⟨q2, cs2⟩ ⟨q2', cs2'⟩ ⟨S2, hS2, hn2, ht2, hne2, e2⟩
              refine ⟨S2, fun u hu => hS2 u (hS1 u hu), hn2, ?_, ?_, by simpa using hlen⟩
              · simp only at he1 e2 ⊢
                rw [List.map_append, he1, ← e2]
                rfl
              · intro q hq
                rcases List.mem_append.1 hq with hq | hq
                · exact ⟨(hq1 q hq).1, fun t ht => hS2 t ((hq1 q hq).2 t ht)⟩
                · rw [List.mem_singleton.1 hq]
                  exact ⟨hne2, ht2⟩
            · rintro ⟨ts, c1, nc1, k1⟩ ⟨ts', c1', nc1'⟩ ⟨S1, hS1, hn1, he1, hq1, hlen⟩
              simp only at he1 hq1 hlen
              subst he1
              have hm : Made J nodes (RcTree.mk k1 0 0 cur.op none none ts) :=
                ⟨⟨cur, List.mem_of_getElem? (getIdx_eq_ok.1 hcur), rfl, by
                    simp only [RcTree.childProofs, hlen, List.length_zip]; omega⟩,
                  ⟨.inl rfl, fun hr => by rcases hr with hr | hr <;> exact (hr rfl).elim, fun q hq => (hq1 q hq).1⟩,
                  fun r hr => (by cases hr), fun r hr => (by cases hr)⟩
              have := (hn1.add (u := RcTree.mk k1 0 0 cur.op none none ts) rfl (fun q hq t ht => (hq1 q hq).2 t ht) hm).insert
                (e := (cn.current, cn.next)) (.inr rfl)
              rw [tree_mk] at this
              refine ⟨_, fun u hu => .inl (hS1 u hu), this, .inr rfl, ?_⟩
              show (RcTree.mk k1 0 0 cur.op none none ts).tree = _
              rw [tree_mk]
              rfl
          · exact rfl

/-- The trees with addresses are the trees without, with consistent addresses, and each part is well
made. -/
theorem explainRc_ok {x : Explain Op} {nodes : List (ENode Op)} (hd : Dag nodes) (hx : EdgesOK J nodes.length x)
    {f : Nat} {a b : Id} (hb : b < nodes.length) {ts : List (TreeTerm Op)} {cs : Caches Op} (h : explainEnodes x nodes f a b ([], []) = .ok (ts, cs)) :
    ∃ rts cs', explainRc x nodes f a b ([], [], 0) = .ok (rts, cs') ∧ rts.map tree = ts ∧ Shared rts ∧
      (∀ u : RcTree Op, u.OccursIn rts → Made J nodes u) := by
  have hs := (explainRc_sim x hd hx f).1 a b ([], [], 0) ([], []) (fun _ => False) hb
    ⟨⟨⟨fun _ h => h.elim, fun _ _ h => h.elim, fun _ h => h.elim, fun _ h => h.elim⟩, fun i t h => (by cases h), fun i => rfl⟩,
      fun e t h => (by cases h), fun e => rfl⟩
  rw [h] at hs
  cases hr : explainRc x nodes f a b ([], [], 0) with
  | error e => rw [hr] at hs; exact hs.elim
  | ok r =>
    rw [hr] at hs
    obtain ⟨S, _, hc, hts, _, e⟩ := hs
    obtain ⟨rts, cs'⟩ := r
    refine ⟨rts, cs', rfl, e, ?_, ?_⟩
    · rintro u v ⟨t, ht, hu⟩ ⟨t', ht', hv⟩ he
      exact hc.nc.pool.inj u v (hc.nc.pool.occurs hu (hts t ht)) (hc.nc.pool.occurs hv (hts t' ht')) he
    · rintro u ⟨t, ht, hu⟩
      exact hc.nc.pool.made u (hc.nc.pool.occurs hu (hts t ht))

end Explain

theorem RcTree.full_of_made {t : RcTree Op} (h : ∀ u, Occurs u t → WellMade u) : t.tree.Full := by
  have key : ∀ (n : Nat) (t : RcTree Op), sizeOf t < n → (∀ u, Occurs u t → WellMade u) → t.tree.Full := by
    intro n
    induction n with
    | zero => intro t ht; omega
    | succ n ih =>
      intro t ht h
      obtain ⟨p, c, l, o, b, f, cps⟩ := t
      rw [tree_mk]
      refine .mk ?_ ?_
      · intro q hq
        obtain ⟨q', hq', rfl⟩ := List.mem_map.1 hq
        simpa using (h _ .refl).full q' hq'
      · intro q hq t ht'
        obtain ⟨q', hq', rfl⟩ := List.mem_map.1 hq
        obtain ⟨t', ht'', rfl⟩ := List.mem_map.1 ht'
        have a := List.sizeOf_lt_of_mem hq'
        have b := List.sizeOf_lt_of_mem ht''
        simp only [RcTree.mk.sizeOf_spec] at ht
        exact ih t' (by omega) (fun u hu => h u (.child hq' ht'' hu))
  exact key _ t (Nat.lt_succ_self _) h

end Egg
