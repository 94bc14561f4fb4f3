import Verif.Model.ExplainPath
import Verif.Lemmas.Flatten
import Verif.Lemmas.Explain
/-
Explanations that are returned are valid.
-/
namespace Egg
variable {Op : Type} [DecidableEq Op]

/-- A connection of the proof forest leaving `i`: if it is by a rule, the rule relates the two ids
in the recorded direction. -/
structure ConnOK (J : Symbol → Id → Id → Prop) (len : Nat) (i : Id) (c : Connection) : Prop where
  cur : c.current = i
  lt : c.next < len
  rule : ∀ s, c.justification = .rule s → if c.isRewriteForward then J s i c.next else J s c.next i

/-- All connections of the explanation data are good. -/
structure EdgesOK (J : Symbol → Id → Id → Prop) (len : Nat) (x : Explain Op) : Prop where
  findLen : x.find.length = len
  par : ∀ (i : Id) (e : ExplainNode), x.find[i]? = some e → e.parent.next ≠ i → ConnOK J len i e.parent
  nb : ∀ (i : Id) (e : ExplainNode) (c : Connection), x.find[i]? = some e → c ∈ e.neighbors → ConnOK J len i c
  memo : ∀ l r c nx, x.shortMemo.get? (l, r) = some (c, nx) → nx < len

/-- A path of connections. -/
inductive IdPath (J : Symbol → Id → Id → Prop) (len : Nat) : Id → List Connection → Id → Prop where
  | nil {i} : IdPath J len i [] i
  | cons {i c cs r} : ConnOK J len i c → IdPath J len c.next cs r → IdPath J len i (c :: cs) r

variable {J : Symbol → Id → Id → Prop} {len : Nat}

theorem IdPath.append {i j k : Id} {l l' : List Connection} (h : IdPath J len i l j) (h' : IdPath J len j l' k) :
    IdPath J len i (l ++ l') k := by
  induction h with
  | nil => exact h'
  | cons h1 _ ih => exact .cons h1 (ih h')

theorem ConnOK.flip {i : Id} {c : Connection} (h : ConnOK J len i c) (hi : i < len) : ConnOK J len c.next (Explain.flip c) := by
  refine ⟨rfl, by rw [Explain.flip]; simpa [h.cur] using hi, ?_⟩
  intro s hs
  have := h.rule s hs
  simp only [Explain.flip, h.cur]
  cases hf : c.isRewriteForward <;> simp_all

theorem IdPath.flip {i j : Id} {l : List Connection} (h : IdPath J len i l j) (hi : i < len) :
    IdPath J len j (l.reverse.map Explain.flip) i := by
  induction h with
  | nil => exact .nil
  | @cons i c cs r h1 _ ih =>
    rw [List.reverse_cons, List.map_append]
    refine (ih h1.lt).append ?_
    refine .cons (h1.flip hi) ?_
    have : (Explain.flip c).next = i := h1.cur
    rw [this]; exact .nil

namespace Explain

variable {x : Explain Op}

theorem getConnectionsLoop_path (hx : EdgesOK J len x) {anc : Id} : ∀ (f : Nat) (node : Id) (cs : List Connection),
    getConnectionsLoop x anc f node = .ok cs → node ≠ anc → IdPath J len node cs anc := by
  intro f
  induction f with
  | zero => intro node cs h; simp [getConnectionsLoop] at h
  | succ f ih =>
    intro node cs h hne
    rw [getConnectionsLoop] at h
    obtain ⟨e, he, h⟩ := bind_eq_ok.1 h
    have he := getIdx_eq_ok.1 he
    split at h
    · rename_i h1
      cases h
      exact .cons (hx.par node e he (by rw [h1]; exact fun h => hne h.symm)) (by rw [h1]; exact .nil)
    · rename_i h1
      split at h
      · rename_i h2
        obtain ⟨rest, hr, h⟩ := bind_eq_ok.1 h
        cases h
        exact .cons (hx.par node e he h2) (ih _ _ hr h1)
      · cases h

theorem getConnections_path (hx : EdgesOK J len x) {anc : Id} {f : Nat} {node : Id} {cs : List Connection}
    (h : getConnections x f node anc = .ok cs) : IdPath J len node cs anc := by
  unfold getConnections at h
  split at h
  · rename_i e; cases h; rw [e]; exact .nil
  · rename_i e; exact getConnectionsLoop_path hx f node cs h e

theorem getPathUnoptimized_path (hx : EdgesOK J len x) {f : Nat} {a b : Id} {l r : List Connection} (hb : b < len)
    (h : getPathUnoptimized x f a b = .ok (l, r)) : IdPath J len a (l ++ r.reverse.map flip) b := by
  unfold getPathUnoptimized at h
  obtain ⟨anc, h1, h⟩ := bind_eq_ok.1 h
  obtain ⟨l', h2, h⟩ := bind_eq_ok.1 h
  obtain ⟨r', h3, h⟩ := bind_eq_ok.1 h
  cases h
  exact (getConnections_path hx h2).append ((getConnections_path hx h3).flip hb)

theorem getNeighbor_ok (hx : EdgesOK J len x) {i n : Id} {c : Connection} (hn : n < len) (h : getNeighbor x i n = .ok c) :
    ConnOK J len i c ∧ c.next = n := by
  unfold getNeighbor at h
  obtain ⟨e, he, h⟩ := bind_eq_ok.1 h
  have he := getIdx_eq_ok.1 he
  split at h
  · rename_i c' hc
    cases h
    have := List.find?_some hc
    simp only [Bool.and_eq_true, decide_eq_true_eq] at this
    exact ⟨hx.nb i e _ he (List.mem_of_find?_eq_some hc), this.1⟩
  · cases h
    exact ⟨⟨rfl, hn, by intro s hs; cases hs⟩, rfl⟩

theorem getPath_path (hx : EdgesOK J len x) {b : Id} (hb : b < len) : ∀ (f : Nat) (a : Id) (l r : List Connection),
    getPath x f a b = .ok (l, r) → IdPath J len a (l ++ r.reverse.map flip) b := by
  intro f
  induction f with
  | zero => intro a l r h; simp [getPath] at h
  | succ f ih =>
    intro a l r h
    rw [getPath] at h
    split at h
    · rename_i e; cases h; rw [e]; exact .nil
    · split at h
      · rename_i c nx hm
        obtain ⟨cn, h1, h⟩ := bind_eq_ok.1 h
        obtain ⟨⟨l', r'⟩, h2, h⟩ := bind_eq_ok.1 h
        cases h
        obtain ⟨g1, g2⟩ := getNeighbor_ok hx (hx.memo _ _ _ _ hm) h1
        exact .cons g1 (by rw [g2]; exact ih nx l' r h2)
      · exact getPathUnoptimized_path hx hb h

/-- A tree without any rule, for one term. -/
def Still (Q : Symbol → Term Op → Term Op → Prop) (t : TreeTerm Op) (s : Term Op) : Prop :=
  t.bwd = none ∧ t.fwd = none ∧ TreeFrom Q t s s

theorem Still.valid {Q : Symbol → Term Op → Term Op → Prop} {t : TreeTerm Op} {s : Term Op} (h : Still Q t s) : ValidTree Q s [t] s := by
  obtain ⟨o, b, f, cps⟩ := t
  obtain ⟨h1, h2, h3⟩ := h
  simp only [TreeTerm.bwd, TreeTerm.fwd] at h1 h2
  subst h1; subst h2
  exact .mk h3 .nil

theorem proofsFrom_still {Q : Symbol → Term Op → Term Op → Prop} {ts : List (List (TreeTerm Op))} {ss : List (Term Op)}
    (h : List.Forall₂ (fun p s => ∃ t, p = [t] ∧ Still Q t s) ts ss) : ProofsFrom Q ts ss ss := by
  induction h with
  | nil => exact .nil
  | cons h _ ih => obtain ⟨t, rfl, ht⟩ := h; exact .cons ht.valid ih

/-- The cache of node explanations holds what it should. -/
def NCacheOK (Q : Symbol → Term Op → Term Op → Prop) (nodes : List (ENode Op)) (c : AMap Id (TreeTerm Op)) : Prop :=
  ∀ i t, c.get? i = some t → ∀ s, TermOf nodes i s → Still Q t s

theorem nodeToExplanation_sound {Q : Symbol → Term Op → Term Op → Prop} {nodes : List (ENode Op)} :
    ∀ (f : Nat) (i : Id) (c c' : AMap Id (TreeTerm Op)) (t : TreeTerm Op), nodeToExplanation nodes f i c = .ok (t, c') →
      NCacheOK Q nodes c → NCacheOK Q nodes c' ∧ ∀ s, TermOf nodes i s → Still Q t s := by
  intro f
  induction f with
  | zero => intro i c c' t h; simp [nodeToExplanation] at h
  | succ f ih =>
    intro i c c' t h hc
    rw [nodeToExplanation] at h
    split at h
    · rename_i t' ht
      cases h
      exact ⟨hc, hc i _ ht⟩
    · obtain ⟨n, hn, h⟩ := bind_eq_ok.1 h
      obtain ⟨⟨ts, c1⟩, h1, h⟩ := bind_eq_ok.1 h
      cases h
      have hn := getIdx_eq_ok.1 hn
      have key : ∀ (l : List Id) (acc acc' : List (List (TreeTerm Op)) × AMap Id (TreeTerm Op)),
          l.foldlM (fun (acc : List (List (TreeTerm Op)) × AMap Id (TreeTerm Op)) c => do
            let (t, cache) ← nodeToExplanation nodes f c acc.2
            return (acc.1 ++ [[t]], cache)) acc = .ok acc' → NCacheOK Q nodes acc.2 →
          NCacheOK Q nodes acc'.2 ∧ ∃ new, acc'.1 = acc.1 ++ new ∧ ∀ ss, List.Forall₂ (TermOf nodes) l ss →
            List.Forall₂ (fun p s => ∃ t, p = [t] ∧ Still Q t s) new ss := by
        intro l
        induction l with
        | nil =>
          intro acc acc' h hok
          cases h
          exact ⟨hok, [], by simp, fun ss hs => by cases hs; exact .nil⟩
        | cons a l ihl =>
          intro acc acc' h hok
          rw [List.foldlM_cons] at h
          obtain ⟨acc1, h1, h⟩ := bind_eq_ok.1 h
          obtain ⟨⟨t, c2⟩, h2, h3⟩ := bind_eq_ok.1 h1
          cases h3
          obtain ⟨g1, g2⟩ := ih a acc.2 c2 t h2 hok
          obtain ⟨g3, new, g4, g5⟩ := ihl _ _ h g1
          refine ⟨g3, [t] :: new, by rw [g4]; simp, ?_⟩
          intro ss hs
          cases hs with
          | cons ha hs => exact .cons ⟨t, rfl, g2 _ ha⟩ (g5 _ hs)
      obtain ⟨g1, new, g2, g3⟩ := key _ _ _ h1 hc
      simp only [List.nil_append] at g2
      subst g2
      have hst : ∀ s, TermOf nodes i s → Still Q (TreeTerm.new n.op ts) s := by
        intro s hs
        obtain ⟨o, ss⟩ := s
        obtain ⟨n', e1, e2, e3⟩ := termOf_iff.1 hs
        rw [hn] at e1
        cases e1
        subst e2
        exact ⟨rfl, rfl, .mk (proofsFrom_still (g3 ss e3))⟩
      refine ⟨?_, hst⟩
      intro j t' hj s hs
      rw [AMap.get?_insert] at hj
      split at hj
      · rename_i e; subst e; cases hj; exact hst s hs
      · exact g1 j t' hj s hs

/-- The caches hold valid steps. -/
structure CachesOK (Q : Symbol → Term Op → Term Op → Prop) (nodes : List (ENode Op)) (cs : Caches Op) : Prop where
  adj : ∀ a b t, cs.1.get? (a, b) = some t → ∀ s u, TermOf nodes a s → TermOf nodes b u → TreeStep Q s t u
  node : NCacheOK Q nodes cs.2

theorem treeSteps_snoc {Q : Symbol → Term Op → Term Op → Prop} {s u w : Term Op} {l : List (TreeTerm Op)} {t : TreeTerm Op}
    (h : TreeSteps Q s l u) (h' : TreeStep Q u t w) : TreeSteps Q s (l ++ [t]) w := by
  induction l generalizing s with
  | nil => cases h; exact .cons h' .nil
  | cons a l ih =>
    cases h with
    | cons h1 h2 => exact .cons h1 (ih h2)

theorem validTree_snoc {Q : Symbol → Term Op → Term Op → Prop} {s u w : Term Op} {l : List (TreeTerm Op)} {t : TreeTerm Op}
    (h : ValidTree Q s l u) (h' : TreeStep Q u t w) : ValidTree Q s (l ++ [t]) w := by
  cases h with
  | mk h1 h2 => exact .mk h1 (treeSteps_snoc h2 h')

theorem explain_sound {Q : Symbol → Term Op → Term Op → Prop} {nodes : List (ENode Op)} (hd : Dag nodes)
    (hx : EdgesOK J nodes.length x)
    (hJ : ∀ r a b s t, J r a b → TermOf nodes a s → TermOf nodes b t → Q r s t) : ∀ (f : Nat),
    (∀ (a b : Id) (cs cs' : Caches Op) (p : List (TreeTerm Op)), b < nodes.length → explainEnodes x nodes f a b cs = .ok (p, cs') →
      CachesOK Q nodes cs → CachesOK Q nodes cs' ∧ ∀ s t, TermOf nodes a s → TermOf nodes b t → ValidTree Q s p t) ∧
    (∀ (c : Connection) (cs cs' : Caches Op) (t : TreeTerm Op), ConnOK J nodes.length c.current c →
      explainAdjacent x nodes f c cs = .ok (t, cs') →
      CachesOK Q nodes cs → CachesOK Q nodes cs' ∧ ∀ s u, TermOf nodes c.current s → TermOf nodes c.next u → TreeStep Q s t u) := by
  intro f
  induction f with
  | zero =>
    constructor
    · intro a b cs cs' p _ h; simp [explainEnodes] at h
    · intro c cs cs' t _ h; simp [explainAdjacent] at h
  | succ f ih =>
    obtain ⟨ihe, iha⟩ := ih
    constructor
    · intro a b cs cs' p hb h hc
      rw [explainEnodes] at h
      obtain ⟨⟨t0, nc⟩, h1, h⟩ := bind_eq_ok.1 h
      obtain ⟨⟨l, r⟩, h2, h⟩ := bind_eq_ok.1 h
      obtain ⟨g1, g2⟩ := nodeToExplanation_sound f a cs.2 nc t0 h1 hc.node
      have hp := getPath_path hx hb f a l r h2
      simp only at h
      generalize hl : l ++ r.reverse.map flip = path at h hp
      clear hl h2
      have key : ∀ (path : List Connection) (i j : Id) (acc acc' : List (TreeTerm Op) × Caches Op), IdPath J nodes.length i path j →
          path.foldlM (fun (acc : List (TreeTerm Op) × Caches Op) c => do
            let (t, cs) ← explainAdjacent x nodes f c acc.2
            return (acc.1 ++ [t], cs)) acc = .ok acc' → CachesOK Q nodes acc.2 →
          CachesOK Q nodes acc'.2 ∧ ∀ s u t, TermOf nodes i u → TermOf nodes j t → ValidTree Q s acc.1 u → ValidTree Q s acc'.1 t := by
        intro path
        induction path with
        | nil =>
          intro i j acc acc' hp h hok
          cases h
          cases hp
          exact ⟨hok, fun s u t hu ht hv => by rw [← hu.unique ht]; exact hv⟩
        | cons c path ihp =>
          intro i j acc acc' hp h hok
          cases hp with
          | cons hc1 hp =>
            rw [List.foldlM_cons] at h
            obtain ⟨acc1, h1, h⟩ := bind_eq_ok.1 h
            obtain ⟨⟨t, c2⟩, h2, h3⟩ := bind_eq_ok.1 h1
            cases h3
            have hcur := hc1.cur
            obtain ⟨k1, k2⟩ := iha c acc.2 c2 t (by rw [hcur]; exact hc1) h2 hok
            obtain ⟨k3, k4⟩ := ihp _ _ _ _ hp h k1
            refine ⟨k3, fun s u t' hu ht hv => ?_⟩
            obtain ⟨w, hw⟩ := hd.exists_term c.next hc1.lt
            exact k4 s w t' hw ht (validTree_snoc hv (k2 u w (by rw [hcur]; exact hu) hw))
      obtain ⟨k1, k2⟩ := key path a b _ _ hp h ⟨hc.adj, g1⟩
      exact ⟨k1, fun s t hs ht => k2 s s t hs ht (g2 s hs).valid⟩
    · intro c cs cs' t hcok h hc
      rw [explainAdjacent] at h
      split at h
      · rename_i t' ht'
        cases h
        exact ⟨hc, fun s u hs hu => hc.adj _ _ _ ht' s u hs hu⟩
      · have hins : ∀ (cs : Caches Op) (t : TreeTerm Op), CachesOK Q nodes cs → (∀ s u, TermOf nodes c.current s → TermOf nodes c.next u → TreeStep Q s t u) →
            CachesOK Q nodes (cs.1.insert (c.current, c.next) t, cs.2) := by
          intro cs t h1 h2
          refine ⟨?_, h1.node⟩
          intro a b t' ht s u hs hu
          simp only [AMap.get?_insert] at ht
          split at ht
          · rename_i e; cases e; cases ht; exact h2 s u hs hu
          · exact h1.adj a b t' ht s u hs hu
        split at h
        · rename_i name hjust
          obtain ⟨⟨t1, nc⟩, h1, h⟩ := bind_eq_ok.1 h
          obtain ⟨g1, g2⟩ := nodeToExplanation_sound f c.next cs.2 nc t1 h1 hc.node
          simp only at h
          cases h
          have hr := hcok.rule name hjust
          have hst : ∀ s u, TermOf nodes c.current s → TermOf nodes c.next u → TreeStep Q s
              (if c.isRewriteForward = true then TreeTerm.mk t1.op t1.bwd (some name) t1.childProofs
                else TreeTerm.mk t1.op (some name) t1.fwd t1.childProofs) u := by
            intro s u hs hu
            obtain ⟨e1, e2, e3⟩ := g2 u hu
            obtain ⟨o, b, fw, cps⟩ := t1
            simp only [TreeTerm.bwd, TreeTerm.fwd] at e1 e2
            subst e1; subst e2
            simp only [TreeTerm.op, TreeTerm.bwd, TreeTerm.fwd, TreeTerm.childProofs]
            cases e3 with
            | mk e3 =>
              split at hr
              · rename_i hf
                rw [if_pos hf]
                exact .fwd (hJ _ _ _ _ _ hr hs hu) (.mk e3)
              · rename_i hf
                rw [if_neg hf]
                exact .bwd (hJ _ _ _ _ _ hr hu hs) (.mk e3)
          exact ⟨hins (cs.1, nc) _ ⟨hc.adj, g1⟩ hst, hst⟩
        · obtain ⟨cur, h1, h⟩ := bind_eq_ok.1 h
          obtain ⟨nxt, h2, h⟩ := bind_eq_ok.1 h
          have h1 := getIdx_eq_ok.1 h1
          have h2 := getIdx_eq_ok.1 h2
          split at h
          · rename_i hm
            obtain ⟨⟨sub, cs1⟩, h3, h⟩ := bind_eq_ok.1 h
            cases h
            simp only [ENode.matches, Bool.and_eq_true, decide_eq_true_eq, beq_iff_eq] at hm
            have key : ∀ (l l' : List Id) (acc acc' : List (List (TreeTerm Op)) × Caches Op), l.length = l'.length → (∀ b ∈ l', b < nodes.length) →
                (l.zip l').foldlM (fun (acc : List (List (TreeTerm Op)) × Caches Op) p => do
                  let (q, cs) ← explainEnodes x nodes f p.1 p.2 acc.2
                  return (acc.1 ++ [q], cs)) acc = .ok acc' → CachesOK Q nodes acc.2 →
                CachesOK Q nodes acc'.2 ∧ ∃ new, acc'.1 = acc.1 ++ new ∧ ∀ ss ts, List.Forall₂ (TermOf nodes) l ss →
                  List.Forall₂ (TermOf nodes) l' ts → ProofsFrom Q new ss ts := by
              intro l
              induction l with
              | nil =>
                intro l' acc acc' hlen _ h hok
                cases l' with
                | cons => simp at hlen
                | nil =>
                  cases h
                  exact ⟨hok, [], by simp, fun ss ts h h' => by cases h; cases h'; exact .nil⟩
              | cons a l ihl =>
                intro l' acc acc' hlen hlt h hok
                cases l' with
                | nil => simp at hlen
                | cons a' l' =>
                  rw [List.zip_cons_cons, List.foldlM_cons] at h
                  obtain ⟨acc1, h1, h⟩ := bind_eq_ok.1 h
                  obtain ⟨⟨q, c2⟩, h2, h3⟩ := bind_eq_ok.1 h1
                  cases h3
                  obtain ⟨g1, g2⟩ := ihe a a' acc.2 c2 q (hlt a' (by simp)) h2 hok
                  obtain ⟨g3, new, g4, g5⟩ := ihl l' _ _ (by simpa using hlen) (fun b hb => hlt b (by simp [hb])) h g1
                  refine ⟨g3, q :: new, by rw [g4]; simp, ?_⟩
                  intro ss ts hs ht
                  cases hs with
                  | cons hs1 hs =>
                    cases ht with
                    | cons ht1 ht => exact .cons (g2 _ _ hs1 ht1) (g5 _ _ hs ht)
            obtain ⟨g1, new, g2, g3⟩ := key _ _ _ _ hm.2 (fun b hb => by
              have := hd _ _ h2 b hb
              have := getElem?_lt h2
              omega) h3 hc
            simp only [List.nil_append] at g2
            subst g2
            have hst : ∀ s u, TermOf nodes c.current s → TermOf nodes c.next u → TreeStep Q s (TreeTerm.new cur.op sub) u := by
              intro s u hs hu
              obtain ⟨o, ss⟩ := s
              obtain ⟨o', us⟩ := u
              obtain ⟨n1, e1, e2, e3⟩ := termOf_iff.1 hs
              obtain ⟨n2, e4, e5, e6⟩ := termOf_iff.1 hu
              rw [h1] at e1; cases e1
              rw [h2] at e4; cases e4
              subst e2; subst e5
              rw [← hm.1]
              exact .congr (.mk (g3 ss us e3 e6))
            exact ⟨hins cs1 _ g1 hst, hst⟩
          · cases h

end Explain
end Egg
