import Verif.Lemmas.Explain
import Verif.Spec.Term
/-
Trails through the log of unions, and the distance they define.
-/
namespace Egg

/-- The log of unions. -/
abbrev Log := List (Id × Id × Justification)

/-- Entry `k` of the log joins `i` and `j`. -/
def Joins (L : Log) (k : Nat) (i j : Id) : Prop :=
  ∃ a b q, L[k]? = some (a, b, q) ∧ ((i = a ∧ j = b) ∨ (i = b ∧ j = a))

theorem Joins.symm {L : Log} {k : Nat} {i j : Id} (h : Joins L k i j) : Joins L k j i := by
  obtain ⟨a, b, q, h1, h2⟩ := h
  exact ⟨a, b, q, h1, h2.elim (fun h => .inr ⟨h.2, h.1⟩) (fun h => .inl ⟨h.2, h.1⟩)⟩

theorem Joins.conn {L : Log} {k m : Nat} {i j : Id} (h : Joins L k i j) (hk : k < m) : Conn (L.take m) i j := by
  obtain ⟨a, b, q, h1, h2⟩ := h
  have hm : (a, b, q) ∈ L.take m := by
    refine List.mem_of_getElem? (i := k) ?_
    rw [List.getElem?_take, if_pos hk]
    exact h1
  have : Conn (L.take m) a b := .rel _ _ ⟨q, hm⟩
  rcases h2 with ⟨rfl, rfl⟩ | ⟨rfl, rfl⟩
  · exact this
  · exact this.symm

/-- A walk along log entries. -/
inductive Trail (L : Log) : Id → List Nat → Id → Prop where
  | nil {i} : Trail L i [] i
  | cons {i j r k ks} : Joins L k i j → Trail L j ks r → Trail L i (k :: ks) r

theorem Trail.append {L : Log} {i j r : Id} {ks ks' : List Nat} (h : Trail L i ks j) (h' : Trail L j ks' r) :
    Trail L i (ks ++ ks') r := by
  induction h with
  | nil => exact h'
  | cons h1 _ ih => exact .cons h1 (ih h')

theorem Trail.reverse {L : Log} {i j : Id} {ks : List Nat} (h : Trail L i ks j) : Trail L j ks.reverse i := by
  induction h with
  | nil => exact .nil
  | cons h1 _ ih => rw [List.reverse_cons]; exact ih.append (.cons h1.symm .nil)

theorem Trail.split {L : Log} {i r : Id} {k : Nat} : ∀ {ks ks' : List Nat}, Trail L i (ks ++ k :: ks') r →
    ∃ p q, Trail L i ks p ∧ Joins L k p q ∧ Trail L q ks' r := by
  intro ks
  induction ks generalizing i with
  | nil => intro ks' h; cases h with | cons h1 h2 => exact ⟨_, _, .nil, h1, h2⟩
  | cons a ks ih =>
    intro ks' h
    cases h with
    | cons h1 h2 =>
      obtain ⟨p, q, g1, g2, g3⟩ := ih h2
      exact ⟨p, q, .cons h1 g1, g2, g3⟩

theorem Trail.conn {L : Log} {i j : Id} {ks : List Nat} {m : Nat} (h : Trail L i ks j) (hk : ∀ k ∈ ks, k < m) :
    Conn (L.take m) i j := by
  induction h with
  | nil => exact .refl _
  | cons h1 _ ih => exact (h1.conn (hk _ (by simp))).trans (ih (fun k hk' => hk k (by simp [hk'])))

theorem conn_take_mono {L : Log} {m m' : Nat} (h : m ≤ m') {i j : Id} (hc : Conn (L.take m) i j) : Conn (L.take m') i j := by
  refine hc.mono ?_
  intro x hx
  obtain ⟨k, hk, e⟩ := List.mem_iff_getElem.1 hx
  have hk' : k < m := by simp at hk; omega
  have : L[k]? = some x := by
    rw [List.getElem_take] at e
    rw [← e]; exact List.getElem?_eq_getElem (by simp at hk; omega)
  refine List.mem_of_getElem? (i := k) ?_
  rw [List.getElem?_take, if_pos (by omega)]
  exact this

/-- No log entry joins ids that were connected before. -/
def Fresh (L : Log) : Prop := ∀ (k : Nat) a b j, L[k]? = some (a, b, j) → ¬ Conn (L.take k) a b

theorem Fresh.joins {L : Log} (hf : Fresh L) {k : Nat} {i j : Id} (h : Joins L k i j) : ¬ Conn (L.take k) i j := by
  obtain ⟨a, b, q, h1, h2⟩ := h
  rcases h2 with ⟨rfl, rfl⟩ | ⟨rfl, rfl⟩
  · exact hf _ _ _ _ h1
  · exact fun h => hf _ _ _ _ h1 h.symm

theorem exists_max : ∀ (l : List Nat), l ≠ [] → ∃ m ∈ l, ∀ k ∈ l, k ≤ m := by
  intro l
  induction l with
  | nil => simp
  | cons a l ih =>
    intro _
    by_cases h : l = []
    · subst h; exact ⟨a, by simp, by simp⟩
    · obtain ⟨m, h1, h2⟩ := ih h
      by_cases h3 : a ≤ m
      · exact ⟨m, by simp [h1], by intro k hk; rcases List.mem_cons.1 hk with rfl | hk; exact h3; exact h2 k hk⟩
      · exact ⟨a, by simp, by
          intro k hk
          rcases List.mem_cons.1 hk with rfl | hk
          · exact le_refl _
          · have := h2 k hk; omega⟩

/-- A trail between ids that were connected after `m` entries only uses those entries. -/
theorem Trail.lt {L : Log} (hf : Fresh L) {i r : Id} {ks : List Nat} (h : Trail L i ks r) (hn : ks.Nodup) {m : Nat}
    (hc : Conn (L.take m) i r) : ∀ k ∈ ks, k < m := by
  by_contra hcon
  push Not at hcon
  obtain ⟨k0, hk0, hk0m⟩ := hcon
  obtain ⟨M, hM, hmax⟩ := exists_max ks (by rintro rfl; simp at hk0)
  have hMm : m ≤ M := le_trans hk0m (hmax k0 hk0)
  obtain ⟨k1, k2, rfl⟩ := List.append_of_mem hM
  obtain ⟨p, q, h1, h2, h3⟩ := h.split
  have hn' := List.nodup_append.1 hn
  have hn2 := List.nodup_cons.1 hn'.2.1
  have l1 : ∀ k ∈ k1, k < M := by
    intro k hk
    have h1 := hmax k (by simp [hk])
    have : k ≠ M := hn'.2.2 k hk M (by simp)
    omega
  have l2 : ∀ k ∈ k2, k < M := by
    intro k hk
    have h1 := hmax k (by simp [hk])
    have : k ≠ M := by rintro rfl; exact hn2.1 hk
    omega
  exact hf.joins h2 ((h1.conn l1).symm.trans ((conn_take_mono hMm hc).trans (h3.conn l2).symm))

theorem exists_trail {L : Log} : ∀ (m : Nat) (i j : Id), Conn (L.take m) i j →
    ∃ ks, Trail L i ks j ∧ ks.Nodup ∧ ∀ k ∈ ks, k < m := by
  intro m
  induction m with
  | zero =>
    intro i j h
    have : i = j := by
      rw [List.take_zero] at h
      induction h with
      | rel a b h => obtain ⟨q, hq⟩ := h; simp at hq
      | refl => rfl
      | symm _ _ _ ih => exact ih.symm
      | trans _ _ _ _ _ ih1 ih2 => exact ih1.trans ih2
    subst this
    exact ⟨[], .nil, by simp, by simp⟩
  | succ m ih =>
    intro i j h
    have hle : ∀ {ks : List Nat}, (∀ k ∈ ks, k < m) → ∀ k ∈ ks, k < m + 1 := fun h k hk => by have := h k hk; omega
    cases hL : L[m]? with
    | none =>
      have hlen := List.getElem?_eq_none_iff.1 hL
      rw [List.take_of_length_le (by omega)] at h
      rw [← List.take_of_length_le hlen] at h
      obtain ⟨ks, h1, h2, h3⟩ := ih i j h
      exact ⟨ks, h1, h2, hle h3⟩
    | some e =>
      obtain ⟨a, b, q⟩ := e
      have hlt := getElem?_lt hL
      have e1 : L.take (m + 1) = L.take m ++ [(a, b, q)] := by
        rw [List.take_add_one, hL]; rfl
      rw [e1, conn_append] at h
      have hj : Joins L m a b := ⟨a, b, q, hL, .inl ⟨rfl, rfl⟩⟩
      have two : ∀ {p r : Id}, Joins L m p r → Conn (L.take m) i p → Conn (L.take m) r j →
          (¬ Conn (L.take m) i j) → ∃ ks, Trail L i ks j ∧ ks.Nodup ∧ ∀ k ∈ ks, k < m + 1 := by
        intro p r hj h1 h2 hno
        obtain ⟨k1, g1, g2, g3⟩ := ih _ _ h1
        obtain ⟨k2, g4, g5, g6⟩ := ih _ _ h2
        refine ⟨k1 ++ m :: k2, g1.append (.cons hj g4), ?_, ?_⟩
        · refine List.nodup_append.2 ⟨g2, List.nodup_cons.2 ⟨fun h => by have := g6 m h; omega, g5⟩, ?_⟩
          intro k hk k' hk' e
          subst e
          rcases List.mem_cons.1 hk' with rfl | hk'
          · have := g3 _ hk; omega
          · -- the two halves are in different components
            obtain ⟨x1, x2, rfl⟩ := List.append_of_mem hk
            obtain ⟨y1, y2, rfl⟩ := List.append_of_mem hk'
            obtain ⟨u, v, t1, t2, t3⟩ := g1.split
            obtain ⟨u', v', t4, t5, t6⟩ := g4.split
            have lt : k < m := g3 k hk
            have c1 : Conn (L.take m) i u := t1.conn (fun k hk => g3 k (by simp [hk]))
            have c2 : Conn (L.take m) v' j := t6.conn (fun k hk => g6 k (by simp [hk]))
            have c3 : Conn (L.take m) u v := t2.conn lt
            have c4 : Conn (L.take m) u' v' := t5.conn lt
            have c5 : Conn (L.take m) u v' := by
              obtain ⟨a', b', q', z1, z2⟩ := t2
              obtain ⟨a2, b2, q2, z3, z4⟩ := t5
              rw [z1] at z3
              cases z3
              rcases z2 with ⟨rfl, rfl⟩ | ⟨rfl, rfl⟩ <;> rcases z4 with ⟨rfl, rfl⟩ | ⟨rfl, rfl⟩
              · exact c3
              · exact .refl _
              · exact .refl _
              · exact c3
            exact hno (c1.trans (c5.trans c2))
        · intro k hk
          rcases List.mem_append.1 hk with hk | hk
          · have := g3 k hk; omega
          · rcases List.mem_cons.1 hk with rfl | hk
            · omega
            · have := g6 k hk; omega
      by_cases h0 : Conn (L.take m) i j
      · obtain ⟨ks, h1, h2, h3⟩ := ih i j h0
        exact ⟨ks, h1, h2, hle h3⟩
      · rcases h with h | ⟨h1, h2⟩ | ⟨h1, h2⟩
        · exact absurd h h0
        · exact two hj h1 h2 h0
        · exact two hj.symm h1 h2 h0

variable {Op : Type}

/-- Weight of log entry `k`, given the distances through earlier entries: 1 for a rule, the sum of
the distances of the children for a congruence. -/
def edgeW (nodes : List (ENode Op)) (L : Log) (d : Id → Id → Nat) (k : Nat) : Nat :=
  match L[k]? with
  | none => 0
  | some (_, _, .rule _) => 1
  | some (a, b, .congruence) =>
    match nodes[a]?, nodes[b]? with
    | some na, some nb => ((na.children.zip nb.children).map (fun p => d p.1 p.2)).sum
    | _, _ => 0

open Classical in
/-- Length of the proof of `x = y` through the first `k` log entries. -/
noncomputable def dist (nodes : List (ENode Op)) (L : Log) : Nat → Id → Id → Nat
  | 0, _, _ => 0
  | k + 1, x, y =>
    match L[k]? with
    | none => dist nodes L k x y
    | some (a, b, _) =>
      if Conn (L.take k) x y then dist nodes L k x y
      else if Conn (L.take k) x a then dist nodes L k x a + edgeW nodes L (dist nodes L k) k + dist nodes L k b y
      else dist nodes L k x b + edgeW nodes L (dist nodes L k) k + dist nodes L k a y

/-- Weight of log entry `k`. -/
noncomputable def wt (nodes : List (ENode Op)) (L : Log) (k : Nat) : Nat := edgeW nodes L (dist nodes L k) k

theorem dist_trail {nodes : List (ENode Op)} {L : Log} (hf : Fresh L) : ∀ (m : Nat) (x y : Id) (ks : List Nat),
    Trail L x ks y → ks.Nodup → (∀ k ∈ ks, k < m) → dist nodes L m x y = (ks.map (wt nodes L)).sum := by
  intro m
  induction m with
  | zero =>
    intro x y ks h hn hk
    cases ks with
    | nil => rfl
    | cons k ks => exact absurd (hk k (by simp)) (by omega)
  | succ m ih =>
    intro x y ks h hn hk
    by_cases hm : m ∈ ks
    · obtain ⟨k1, k2, rfl⟩ := List.append_of_mem hm
      obtain ⟨p, q, h1, h2, h3⟩ := h.split
      have hn' := List.nodup_append.1 hn
      have hn2 := List.nodup_cons.1 hn'.2.1
      have l1 : ∀ k ∈ k1, k < m := by
        intro k hk'
        have h1 := hk k (by simp [hk'])
        have : k ≠ m := hn'.2.2 k hk' m (by simp)
        omega
      have l2 : ∀ k ∈ k2, k < m := by
        intro k hk'
        have h1 := hk k (by simp [hk'])
        have : k ≠ m := by rintro rfl; exact hn2.1 hk'
        omega
      have hno : ¬ Conn (L.take m) x y := by
        intro hc
        have := h.lt hf hn hc m (by simp)
        omega
      have i1 := ih _ _ _ h1 hn'.1 l1
      have i2 := ih _ _ _ h3 hn2.2 l2
      obtain ⟨a, b, j, hL, hpq⟩ := h2
      rw [dist, hL]
      simp only
      rw [if_neg hno]
      rcases hpq with ⟨rfl, rfl⟩ | ⟨rfl, rfl⟩
      · rw [if_pos (h1.conn l1), i1, i2]
        simp [wt]; omega
      · rw [if_neg, i1, i2]
        · simp [wt]; omega
        · intro hc
          exact hf _ _ _ _ hL (hc.symm.trans (h1.conn l1))
    · have hlt : ∀ k ∈ ks, k < m := by
        intro k hk'
        have := hk k hk'
        have : k ≠ m := by rintro rfl; exact hm hk'
        omega
      rw [dist]
      cases hL : L[m]? with
      | none => exact ih _ _ _ h hn hlt
      | some e =>
        obtain ⟨a, b, j⟩ := e
        simp only
        rw [if_pos (h.conn hlt)]
        exact ih _ _ _ h hn hlt

/-- The distance through the whole log. -/
noncomputable def D (nodes : List (ENode Op)) (L : Log) (x y : Id) : Nat := dist nodes L L.length x y

theorem Trail.lt_length {L : Log} {x y : Id} {ks : List Nat} (h : Trail L x ks y) : ∀ k ∈ ks, k < L.length := by
  induction h with
  | nil => simp
  | cons h1 _ ih =>
    intro k hk
    rcases List.mem_cons.1 hk with rfl | hk
    · obtain ⟨a, b, q, h, _⟩ := h1
      exact getElem?_lt h
    · exact ih k hk

theorem D_trail {nodes : List (ENode Op)} {L : Log} (hf : Fresh L) {x y : Id} {ks : List Nat} (h : Trail L x ks y) (hn : ks.Nodup) :
    D nodes L x y = (ks.map (wt nodes L)).sum := dist_trail hf _ _ _ _ h hn h.lt_length

theorem dist_eq_D {nodes : List (ENode Op)} {L : Log} (hf : Fresh L) {m : Nat} {x y : Id} (hc : Conn (L.take m) x y) :
    dist nodes L m x y = D nodes L x y := by
  obtain ⟨ks, h1, h2, h3⟩ := exists_trail m x y hc
  rw [dist_trail hf m x y ks h1 h2 h3, D_trail hf h1 h2]

theorem exists_trail' {L : Log} {x y : Id} (hc : Conn L x y) : ∃ ks, Trail L x ks y ∧ ks.Nodup := by
  obtain ⟨ks, h1, h2, _⟩ := exists_trail L.length x y (by rw [List.take_length]; exact hc)
  exact ⟨ks, h1, h2⟩

theorem D_self {nodes : List (ENode Op)} {L : Log} (hf : Fresh L) (x : Id) : D nodes L x x = 0 := by
  rw [D_trail hf (Trail.nil (i := x)) (by simp)]; rfl

theorem D_symm {nodes : List (ENode Op)} {L : Log} (hf : Fresh L) {x y : Id} (hc : Conn L x y) : D nodes L x y = D nodes L y x := by
  obtain ⟨ks, h1, h2⟩ := exists_trail' hc
  rw [D_trail hf h1 h2, D_trail hf h1.reverse (List.nodup_reverse.2 h2), List.map_reverse, List.sum_reverse]

/-- Congruence entries of the log relate nodes with the same operator and children connected
before. -/
def LogCongr (nodes : List (ENode Op)) (L : Log) : Prop := ∀ (k : Nat) (a b : Id), L[k]? = some (a, b, .congruence) → ∃ na nb,
    nodes[a]? = some na ∧ nodes[b]? = some nb ∧ na.op = nb.op ∧ List.Forall₂ (Conn (L.take k)) na.children nb.children

/-- Distance of a congruence step. -/
noncomputable def childD (nodes : List (ENode Op)) (L : Log) (na nb : ENode Op) : Nat :=
  ((na.children.zip nb.children).map (fun p => D nodes L p.1 p.2)).sum

theorem conn_of_take {L : Log} {k : Nat} {i j : Id} (h : Conn (L.take k) i j) : Conn L i j :=
  h.mono (fun _ hx => List.mem_of_mem_take hx)

theorem wt_congr {nodes : List (ENode Op)} {L : Log} (hf : Fresh L) (hl : LogCongr nodes L) {k : Nat} {a b : Id} {na nb : ENode Op}
    (h : L[k]? = some (a, b, .congruence)) (ha : nodes[a]? = some na) (hb : nodes[b]? = some nb) :
    wt nodes L k = childD nodes L na nb := by
  obtain ⟨na', nb', h1, h2, _, h4⟩ := hl k a b h
  rw [ha] at h1; rw [hb] at h2
  cases h1; cases h2
  simp only [wt, edgeW, h, ha, hb, childD]
  congr 1
  refine List.map_congr_left ?_
  rintro ⟨p, q⟩ hpq
  have : Conn (L.take k) p q := (List.forall₂_iff_zip.1 h4).2 hpq
  exact dist_eq_D hf this

theorem wt_rule {nodes : List (ENode Op)} {L : Log} {k : Nat} {a b : Id} {s : Symbol}
    (h : L[k]? = some (a, b, .rule s)) : wt nodes L k = 1 := by
  simp only [wt, edgeW, h]

theorem childD_symm {nodes : List (ENode Op)} {L : Log} (hf : Fresh L) {na nb : ENode Op}
    (h : List.Forall₂ (Conn L) na.children nb.children) : childD nodes L na nb = childD nodes L nb na := by
  unfold childD
  generalize na.children = xs at h
  generalize nb.children = ys at h
  induction h with
  | nil => rfl
  | cons h1 _ ih => simp only [List.zip_cons_cons, List.map_cons, List.sum_cons]; rw [D_symm hf h1, ih]

theorem le_sum_of_mem {x : Nat} : ∀ {l : List Nat}, x ∈ l → x ≤ l.sum := by
  intro l
  induction l with
  | nil => simp
  | cons a l ih =>
    intro h
    rw [List.sum_cons]
    rcases List.mem_cons.1 h with rfl | h
    · omega
    · have := ih h; omega

/-- Ids at distance 0 stand for the same term. -/
theorem zero_term [DecidableEq Op] {nodes : List (ENode Op)} {L : Log} (hd : Dag nodes) (hf : Fresh L) (hl : LogCongr nodes L) : ∀ (m : Nat) (x y : Id), Conn (L.take m) x y →
    D nodes L x y = 0 → ∀ s t, TermOf nodes x s → TermOf nodes y t → s = t := by
  intro m
  induction m using Nat.strongRecOn with
  | ind m ihm =>
    intro x y hc h0 s t hs ht
    obtain ⟨ks, h1, h2, h3⟩ := exists_trail m x y hc
    rw [D_trail hf h1 h2] at h0
    clear h2 hc
    induction h1 generalizing s with
    | nil => exact hs.unique ht
    | @cons i j r k ks hj htr ih =>
      simp only [List.map_cons, List.sum_cons, Nat.add_eq_zero_iff] at h0
      have hkm : k < m := h3 k (by simp)
      obtain ⟨a, b, q, hL, hij⟩ := hj
      cases q with
      | rule sy => rw [wt_rule hL] at h0; omega
      | congruence =>
        obtain ⟨na, nb, g1, g2, g3, g4⟩ := hl k a b hL
        have hw := wt_congr hf hl hL g1 g2
        rw [hw] at h0
        have hpair : ∀ p q, (p, q) ∈ na.children.zip nb.children → D nodes L p q = 0 := by
          intro p q hpq
          have := le_sum_of_mem (List.mem_map.2 ⟨(p, q), hpq, rfl⟩ : D nodes L p q ∈ (na.children.zip nb.children).map (fun p => D nodes L p.1 p.2))
          have h00 := h0.1
          unfold childD at h00
          omega
        -- the two endpoints have the same term
        have hsame : ∀ s' t', TermOf nodes a s' → TermOf nodes b t' → s' = t' := by
          intro s' t' hs' ht'
          obtain ⟨o, ss⟩ := s'
          obtain ⟨o', ts⟩ := t'
          obtain ⟨n1, e1, e2, e3⟩ := termOf_iff.1 hs'
          obtain ⟨n2, e4, e5, e6⟩ := termOf_iff.1 ht'
          rw [g1] at e1; cases e1
          rw [g2] at e4; cases e4
          have : ss = ts := by
            have key : ∀ (xs ys : List Id) (ss ts : List (Term Op)), List.Forall₂ (Conn (L.take k)) xs ys →
                (∀ p q, (p, q) ∈ xs.zip ys → D nodes L p q = 0) →
                List.Forall₂ (TermOf nodes) xs ss → List.Forall₂ (TermOf nodes) ys ts → ss = ts := by
              intro xs ys ss ts hxy
              induction hxy generalizing ss ts with
              | nil => intro _ h h'; cases h; cases h'; rfl
              | cons hc _ ihc =>
                intro hz h h'
                cases h with
                | cons hh h =>
                  cases h' with
                  | cons hh' h' =>
                    rw [ihm k hkm _ _ hc (hz _ _ (by simp)) _ _ hh hh', ihc _ _ (fun p q hpq => hz p q (by simp [hpq])) h h']
            exact key _ _ _ _ g4 hpair e3 e6
          rw [← e2, ← e5, g3, this]
        -- step over the edge
        have hstep : TermOf nodes j s := by
          rcases hij with ⟨rfl, rfl⟩ | ⟨rfl, rfl⟩
          · obtain ⟨u, hu⟩ := hd.exists_term j (getElem?_lt g2)
            rw [hsame s u hs hu]; exact hu
          · obtain ⟨u, hu⟩ := hd.exists_term j (getElem?_lt g1)
            rw [← hsame u s hu hs]; exact hu
        exact ih s hstep ht h0.2 (fun k hk => h3 k (by simp [hk]))

end Egg
