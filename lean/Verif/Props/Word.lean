import Verif.Spec.Word
import Verif.Lemmas.Word
import Verif.Lemmas.Hist
import Verif.Lemmas.Calls
import Verif.Lemmas.Pattern
import Verif.Examples
import Mathlib.Tactic.NormNum
/-
C93: ids are 32-bit words.
-/
namespace Egg
variable {Op D : Type} [DecidableEq Op] [Lang Op]
variable {U : UserAnalysis Op D} {depth W : Nat}

/-- **C93.**  Take any program of calls on a new e-graph, with any analysis; the calls and the hooks may depend on everything
that was read before.  If with unbounded ids it ends with at most `W` e-nodes, then with ids that are words (the code:
`W = 2^32`) it ends with the same e-graph. -/
theorem c93_same {p : Session Op D} {eg : EGraph Op D} (h : p.run (U.at depth) EGraph.new = .ok eg) (hW : eg.nodes.length ≤ W) :
    p.runW W (U.atW W depth) EGraph.new = .ok eg := by
  have c := Session.run_carries (W := W) (U.agree depth) p EGraph.new
  exact c.eq eg h (by show eg.uf.length ≤ W; rw [show eg.uf.length = eg.nodes.length from c.bal rfl eg h]; exact hW)

theorem step_carries {allow : Caller Op D} {V : List (UnionRec Op)} {eg eg' : EGraph Op D} (h : Step (U.at depth) allow eg V eg') :
    eg.uf.length ≤ eg'.uf.length ∧ (eg.uf.length = eg.nodes.length → eg'.uf.length = eg'.nodes.length) ∧
      (eg'.uf.length ≤ W → StepW W (U.atW W depth) allow eg V eg') := by
  have hU := U.agree (W := W) depth
  cases h with
  | explain h =>
    have c := EGraph.withExplanationsEnabled_carries (W := W) eg
    exact ⟨c.len _ h, fun hb => c.bal hb _ h, fun _ => .explain h⟩
  | noOptimize h =>
    refine ⟨?_, ?_, fun _ => .noOptimize h⟩ <;>
    · unfold EGraph.withoutExplanationLengthOptimization at h
      split at h
      · cases h; simp
      · cases h
  | optimize h =>
    refine ⟨?_, ?_, fun _ => .optimize h⟩ <;>
    · unfold EGraph.withExplanationLengthOptimization at h
      split at h
      · cases h; simp
      · cases h
  | query h1 h =>
    refine ⟨?_, ?_, fun _ => .query h1 h⟩ <;>
    · unfold EGraph.explainIdEquivalence at h
      obtain ⟨_, -, h⟩ := Except.bind_ok' h
      obtain ⟨_, -, h⟩ := Except.bind_ok' h
      split at h
      · cases h
      · split at h
        · cases h
        · obtain ⟨⟨p, x⟩, h2, h3⟩ := Except.bind_ok' h
          cases h3; simp
  | @add _ n i h =>
    have c := EGraph.addUncanonical_carries hU eg n
    exact ⟨c.len _ h, fun hb => c.bal hb _ h, fun hw => .add (c.eq _ h hw)⟩
  | @union _ a b caller r s t h1 h2 h =>
    have c := EGraph.union_carries hU eg a b caller
    exact ⟨c.len _ h, fun hb => c.bal hb _ h, fun hw => .union h1 h2 (c.eq _ h hw)⟩
  | @unionTrusted _ a b reason r s t h1 h2 h =>
    have c := EGraph.performUnion_carries hU eg a b (some (.rule reason))
    exact ⟨c.len _ h, fun hb => c.bal hb _ h, fun hw => .unionTrusted h1 h2 (c.eq _ h hw)⟩
  | @setData _ i d h1 h =>
    have c := EGraph.setAnalysisData_carries hU eg i d
    exact ⟨c.len _ h, fun hb => c.bal hb _ h, fun hw => .setData h1 (c.eq _ h hw)⟩
  | @rebuild _ fuel n h =>
    have c := EGraph.rebuild_carries hU fuel eg
    exact ⟨c.len _ h, fun hb => c.bal hb _ h, fun hw => .rebuild (c.eq _ h hw)⟩
  | restore => exact ⟨Nat.le_refl _, fun hb => hb, fun _ => .restore⟩
  | disable h => exact ⟨Nat.le_refl _, fun hb => hb, fun _ => .disable h⟩

/-- **C93.**  Every history of calls with unbounded ids (so also every run of a runner, C25 and C57) that ends with at most `W`
e-nodes is a history of calls with words: all that is proved about histories holds of the program with 32-bit ids as long as
the e-graph has at most `2^32` e-nodes. -/
theorem c93_history {allow : Caller Op D} {V : List (UnionRec Op)} {eg : EGraph Op D} (h : Hist (U.at depth) allow V eg)
    (hW : eg.nodes.length ≤ W) : StepsW W (U.atW W depth) allow EGraph.new V eg := by
  have key : ∀ {eg0 eg : EGraph Op D} {V}, Steps (U.at depth) allow eg0 V eg → eg0.uf.length = eg0.nodes.length →
      eg.uf.length = eg.nodes.length ∧ (eg.uf.length ≤ W → StepsW W (U.atW W depth) allow eg0 V eg) := by
    intro eg0 eg V h
    induction h with
    | refl => exact fun hb => ⟨hb, fun _ => .refl⟩
    | tail _ s ih =>
      intro hb
      obtain ⟨b1, w1⟩ := ih hb
      obtain ⟨l, b2, w2⟩ := step_carries (W := W) s
      exact ⟨b2 b1, fun hw => .tail (w1 (Nat.le_trans l hw)) (w2 hw)⟩
  obtain ⟨b, w⟩ := key h rfl
  exact w (b ▸ hW)

/-- **C93.**  In an e-graph with at most `W` e-nodes every valid id is a word, and two valid ids that are the same word are the same. -/
theorem c93_ids {allow : Caller Op D} {V : List (UnionRec Op)} {eg : EGraph Op D} (h : Hist (U.at depth) allow V eg)
    (hW : eg.nodes.length ≤ W) {i j : Id} (hi : Valid eg i) (hj : Valid eg j) :
    Word.ofUsize W i = i ∧ (Word.ofUsize W i = Word.ofUsize W j → i = j) := by
  have hg := hist_good h
  have lt : ∀ {k : Id}, Valid eg k → k < W := fun {k} hk => Nat.lt_of_lt_of_le ((valid_iff hg.inv).1 hk) hW
  unfold Word.ofUsize
  rw [Nat.mod_eq_of_lt (lt hi), Nat.mod_eq_of_lt (lt hj)]
  exact ⟨rfl, fun e => e⟩

theorem canon_of_lookup {eg : EGraph Op D} {n : ENode Op} (h : eg.lookup n = .ok none) :
    ∃ c, eg.canon n = .ok c ∧ eg.memo.get? c = none := by
  unfold EGraph.lookup EGraph.lookupInternal at h
  obtain ⟨o, h1, h2⟩ := Except.bind_ok' h
  obtain ⟨c, h3, h4⟩ := Except.bind_ok' h1
  cases h4
  refine ⟨c, h3, ?_⟩
  cases h5 : eg.memo.get? c with
  | none => rfl
  | some i =>
    rw [h5] at h2
    obtain ⟨_, _, h6⟩ := Except.bind_ok' h2
    cases h6

theorem full_zero {N : Analysis Op D} {allow : Caller Op D} {V : List (UnionRec Op)} {eg eg' : EGraph Op D} {n : ENode Op} {i : Id}
    (h : Hist (U.at depth) allow V eg) (hW : eg.nodes.length = W) (hnew : eg.lookup n = .ok none)
    (ha : EGraph.addUncanonicalW W N eg n = .ok (eg', i)) : i = 0 ∧ (0 < W → eg.explain = none) := by
  have hg := hist_good h
  obtain ⟨c, hc, hm⟩ := canon_of_lookup hnew
  unfold EGraph.addUncanonicalW at ha
  rw [hc] at ha
  obtain ⟨c', h1, ha⟩ := Except.bind_ok' ha
  cases h1
  rw [hm] at ha
  obtain ⟨⟨e1, j⟩, h1, ha⟩ := Except.bind_ok' ha
  obtain ⟨x2, h2, ha⟩ := Except.bind_ok' ha
  obtain ⟨e3, h6, ha⟩ := Except.bind_ok' ha
  cases ha
  unfold EGraph.makeNewEClassW at h1
  dsimp only [UF.makeSetW, Word.ofUsize] at h1
  obtain ⟨d, -, h1⟩ := Except.bind_ok' h1
  obtain ⟨e2, h3, h1⟩ := Except.bind_ok' h1
  split at h1
  · cases h1
  · cases h1
    obtain ⟨-, -, h4⟩ := EGraph.pushParents_length h3
    have hz : eg.uf.length % W = 0 := by rw [← hg.inv.len, hW, Nat.mod_self]
    refine ⟨hz, fun hpos => ?_⟩
    cases hx : eg.explain with
    | none => rfl
    | some x =>
      obtain ⟨L, hL⟩ := hg.inv.expl x hx
      dsimp only at h2 h4
      rw [h4, hx] at h2
      unfold EGraph.explainAdd Explain.add at h2
      dsimp only at h2
      rw [hz, if_neg (by rw [hL.inv.len, hW]; omega)] at h2
      cases h2

/-- **C93 (where the bound is reached).**  Adding a term that is not represented, to an e-graph that has `W` e-nodes already,
returns the id `0`, i.e. that of the first e-node ever added. -/
theorem c93_full {N : Analysis Op D} {allow : Caller Op D} {V : List (UnionRec Op)} {eg eg' : EGraph Op D} {n : ENode Op} {i : Id}
    (h : Hist (U.at depth) allow V eg) (hW : eg.nodes.length = W) (hnew : eg.lookup n = .ok none)
    (ha : EGraph.addUncanonicalW W N eg n = .ok (eg', i)) : i = 0 := (full_zero h hW hnew ha).1

/-- **C93 (where the bound is reached).**  With explanations enabled the same call does not return (it panics, unless the user's
`make` did so before). -/
theorem c93_full_explained {N : Analysis Op D} {allow : Caller Op D} {V : List (UnionRec Op)} {eg : EGraph Op D} {n : ENode Op}
    (h : Hist (U.at depth) allow V eg) (hW : eg.nodes.length = W) (hpos : 0 < W) (hnew : eg.lookup n = .ok none)
    (hx : eg.explain.isSome) (r : EGraph Op D × Id) : EGraph.addUncanonicalW W N eg n ≠ .ok r := by
  intro ha
  rw [(full_zero h hW hnew ha).2 hpos] at hx
  cases hx

/-! ### Past the bound: a program that gets a wrong answer -/

/-- Infinitely many constants. -/
structure Atom where
  num : Nat
deriving DecidableEq

theorem Atom.key_inj {n m : ENode Atom} (h : n.op.num :: n.children = m.op.num :: m.children) : n = m := by
  obtain ⟨⟨a⟩, as⟩ := n
  obtain ⟨⟨b⟩, bs⟩ := m
  simp only [List.cons.injEq] at h
  rw [h.1, h.2]

instance : Lang Atom where
  Disc := Atom
  decDisc := inferInstance
  disc := id
  le := fun n m => Ex.lexLe (n.op.num :: n.children) (m.op.num :: m.children)
  le_total := fun _ _ => Ex.lexLe_total _ _
  le_trans := fun _ _ _ => Ex.lexLe_trans _ _ _
  le_antisymm := fun _ _ h1 h2 => Atom.key_inj (Ex.lexLe_antisymm _ _ h1 h2)

/-- The trivial analysis, `impl Analysis for ()`. -/
def Atom.unit : UserAnalysis Atom Unit where
  make := fun _ _ _ => .ok ()
  remake := fun _ _ _ => .ok ()
  merge := fun _ _ => ((), false, false)
  modify := fun _ => .done

def Atom.leaf (k : Nat) : ENode Atom := ⟨⟨k⟩, []⟩

/-- The e-graph after adding the leaves `0`, …, `k - 1`. -/
def leafGraph (k : Nat) : EGraph Atom Unit where
  explain := none
  uf := List.range k
  nodes := (List.range k).map Atom.leaf
  memo := (List.range k).map fun i => (Atom.leaf i, i)
  pending := (List.range k).reverse
  apending := UniqueQueue.empty
  classes := (List.range k).map fun i => (i, ⟨i, [Atom.leaf i], (), []⟩)
  byOp := []
  clean := false

/-- The e-graph after adding one more leaf, with the id `j`. -/
def leafNext (k j : Nat) : EGraph Atom Unit where
  explain := none
  uf := List.range k ++ [j]
  nodes := (List.range k).map Atom.leaf ++ [Atom.leaf k]
  memo := (List.range k).map (fun i => (Atom.leaf i, i)) ++ [(Atom.leaf k, j)]
  pending := j :: (List.range k).reverse
  apending := UniqueQueue.empty
  classes := AMap.insert ((List.range k).map fun i => (i, ⟨i, [Atom.leaf i], (), []⟩)) j ⟨j, [Atom.leaf k], (), []⟩
  byOp := []
  clean := false

theorem AMap.get?_leaves_none {K X Y : Type} [DecidableEq K] (f : X → K) (g : X → Y) (k : K) : ∀ l : List X, (∀ x ∈ l, f x ≠ k) →
    AMap.get? (l.map fun x => (f x, g x)) k = none
  | [], _ => rfl
  | x :: l, h => by
    simp only [List.map_cons, AMap.get?]
    rw [if_neg (h x (by simp)), AMap.get?_leaves_none f g k l fun y hy => h y (by simp [hy])]

theorem AMap.insert_leaves {K X Y : Type} [DecidableEq K] (f : X → K) (g : X → Y) (k : K) (v : Y) : ∀ l : List X, (∀ x ∈ l, f x ≠ k) →
    AMap.insert (l.map fun x => (f x, g x)) k v = (l.map fun x => (f x, g x)) ++ [(k, v)]
  | [], _ => rfl
  | x :: l, h => by
    simp only [List.map_cons, AMap.insert]
    rw [if_neg (h x (by simp)), AMap.insert_leaves f g k v l fun y hy => h y (by simp [hy])]
    rfl

theorem leaf_ne {i k : Nat} (h : i ∈ List.range k) : Atom.leaf i ≠ Atom.leaf k := by
  intro e
  have : i = k := by simpa [Atom.leaf] using e
  have := List.mem_range.1 h
  omega

theorem leafNext_eq (k : Nat) : leafNext k k = leafGraph (k + 1) := by
  have h : ∀ x ∈ List.range k, (fun x : Nat => x) x ≠ k := fun x hx e => by
    have := List.mem_range.1 hx
    exact absurd e (by dsimp only; omega)
  unfold leafNext leafGraph
  rw [AMap.insert_leaves (fun x : Nat => x) (fun i => (⟨i, [Atom.leaf i], (), []⟩ : EClass Atom Unit)) k _ _ h]
  simp [List.range_succ]

theorem leaf_addUncanonical (W k : Nat) : EGraph.addUncanonicalW W (Atom.unit.atW W 1) (leafGraph k) (Atom.leaf k) =
    .ok (leafNext k (k % W), k % W) := by
  have h1 : (leafGraph k).memo.get? (Atom.leaf k) = none := AMap.get?_leaves_none _ _ _ _ fun x hx => leaf_ne hx
  have h2 : (leafGraph k).memo.insert (Atom.leaf k) (k % W) = (leafNext k (k % W)).memo :=
    AMap.insert_leaves _ _ _ _ _ fun x hx => leaf_ne hx
  have hc : (leafGraph k).canon (Atom.leaf k) = .ok (Atom.leaf k) := rfl
  unfold EGraph.addUncanonicalW
  rw [hc]
  show (match (leafGraph k).memo.get? (Atom.leaf k) with | some _ => _ | none => _) = _
  rw [h1]
  have h3 : EGraph.makeNewEClassW W (Atom.unit.atW W 1) (leafGraph k) (Atom.leaf k) (Atom.leaf k) = .ok (leafNext k (k % W), k % W) := by
    unfold EGraph.makeNewEClassW
    show (if ((leafGraph k).memo.get? (Atom.leaf k)).isSome then _ else _) = _
    rw [h1, if_neg (by simp)]
    show Except.ok ({ leafNext k ((List.range k).length % W) with memo := (leafGraph k).memo.insert (Atom.leaf k) ((List.range k).length % W) },
      (List.range k).length % W) = _
    rw [List.length_range, h2]
  show (EGraph.makeNewEClassW W (Atom.unit.atW W 1) (leafGraph k) (Atom.leaf k) (Atom.leaf k) >>= _) = _
  rw [h3]
  rfl

theorem UF.find_self {ps : UF} {i : Id} (h : ps[i]? = some i) : UF.find ps i = .ok i := by
  unfold UF.find UF.findLoop
  rw [h]
  simp

theorem leaf_addW {W k : Nat} (hk : k < W) : EGraph.addW W (Atom.unit.atW W 1) (leafGraph k) (Atom.leaf k) = .ok (leafGraph (k + 1), k) := by
  unfold EGraph.addW
  rw [leaf_addUncanonical, Nat.mod_eq_of_lt hk, leafNext_eq]
  show (UF.find (List.range (k + 1)) k >>= _) = _
  rw [UF.find_self (by simp)]
  rfl

theorem leaf_addW_full {W : Nat} (hW : 0 < W) : EGraph.addW W (Atom.unit.atW W 1) (leafGraph W) (Atom.leaf W) = .ok (leafNext W 0, 0) := by
  unfold EGraph.addW
  rw [leaf_addUncanonical, Nat.mod_self]
  show (UF.find (List.range W ++ [0]) 0 >>= _) = _
  rw [UF.find_self (by rw [List.getElem?_append_left (by simpa using hW)]; simp [hW])]
  rfl

theorem leaves_runW {W : Nat} (hW : 0 < W) : ∀ m k, k + m = W →
    (Session.leaves ((List.range' k (m + 1)).map Atom.mk)).runW W (Atom.unit.atW W 1) (leafGraph k) = .ok (leafNext W 0) := by
  intro m
  induction m with
  | zero =>
    intro k hk
    have : k = W := by omega
    subst this
    show (EGraph.addW k (Atom.unit.atW k 1) (leafGraph k) (Atom.leaf k) >>= _) = _
    rw [leaf_addW_full hW]
    rfl
  | succ m ih =>
    intro k hk
    rw [List.range'_succ]
    show (EGraph.addW W (Atom.unit.atW W 1) (leafGraph k) (Atom.leaf k) >>= _) = _
    rw [leaf_addW (by omega)]
    exact ih (k + 1) (by omega)

theorem leaf_add1 (k : Nat) : EGraph.addUncanonical (Atom.unit.at 1) (leafGraph k) (Atom.leaf k) = .ok (leafGraph (k + 1), k) := by
  have h1 : (leafGraph k).memo.get? (Atom.leaf k) = none := AMap.get?_leaves_none _ _ _ _ fun x hx => leaf_ne hx
  have h2 : (leafGraph k).memo.insert (Atom.leaf k) k = (leafNext k k).memo :=
    AMap.insert_leaves _ _ _ _ _ fun x hx => leaf_ne hx
  have h3 : EGraph.makeNewEClass (Atom.unit.at 1) (leafGraph k) (Atom.leaf k) (Atom.leaf k) = .ok (leafNext k k, k) := by
    unfold EGraph.makeNewEClass
    show (if ((leafGraph k).memo.get? (Atom.leaf k)).isSome then _ else _) = _
    rw [h1, if_neg (by simp)]
    show Except.ok ({ leafNext k (List.range k).length with memo := (leafGraph k).memo.insert (Atom.leaf k) (List.range k).length },
      (List.range k).length) = _
    rw [List.length_range, h2]
  have hc : (leafGraph k).canon (Atom.leaf k) = .ok (Atom.leaf k) := rfl
  unfold EGraph.addUncanonical
  rw [hc]
  show (match (leafGraph k).memo.get? (Atom.leaf k) with | some _ => _ | none => _) = _
  rw [h1]
  show (EGraph.makeNewEClass (Atom.unit.at 1) (leafGraph k) (Atom.leaf k) (Atom.leaf k) >>= _) = _
  rw [h3, ← leafNext_eq]
  rfl

theorem leaf_add (k : Nat) : EGraph.add (Atom.unit.at 1) (leafGraph k) (Atom.leaf k) = .ok (leafGraph (k + 1), k) := by
  unfold EGraph.add
  rw [leaf_add1]
  show (UF.find (List.range (k + 1)) k >>= _) = _
  rw [UF.find_self (by simp)]
  rfl

theorem leaf_hist (allow : Caller Atom Unit) : ∀ k, Hist (Atom.unit.at 1) allow [] (leafGraph k)
  | 0 => .refl
  | k + 1 => .tail (V := []) (leaf_hist allow k) (.add (leaf_add1 k))

theorem leaves_run : ∀ m k,
    (Session.leaves ((List.range' k m).map Atom.mk)).run (Atom.unit.at 1) (leafGraph k) = .ok (leafGraph (k + m)) := by
  intro m
  induction m with
  | zero => intro k; rfl
  | succ m ih =>
    intro k
    rw [List.range'_succ]
    show (EGraph.add (Atom.unit.at 1) (leafGraph k) (Atom.leaf k) >>= _) = _
    rw [leaf_add]
    refine (ih (k + 1)).trans ?_
    rw [show k + 1 + m = k + (m + 1) by omega]

theorem AMap.get?_leaves {Y : Type} (g : Nat → Y) {k i : Nat} (h : i < k) :
    AMap.get? ((List.range k).map fun x => (Atom.leaf x, g x)) (Atom.leaf i) = some (g i) := by
  induction k with
  | zero => omega
  | succ k ih =>
    have ap : ∀ (l : AMap (ENode Atom) Y) (a b : ENode Atom) (y : Y), AMap.get? (l ++ [(a, y)]) b =
        (AMap.get? l b).or (if a = b then some y else none) := by
      intro l a b y
      induction l with
      | nil => simp [AMap.get?]
      | cons p l ih => by_cases hp : p.1 = b <;> simp [AMap.get?, hp, ih]
    rw [List.range_succ, List.map_append, List.map_cons, List.map_nil, ap]
    by_cases hi : i < k
    · rw [ih hi]; rfl
    · have : i = k := by omega
      subst this
      rw [AMap.get?_leaves_none _ _ _ _ fun x hx => leaf_ne hx]
      simp

theorem leaf_lookup {eg : EGraph Atom Unit} {i j : Nat} (h1 : eg.memo.get? (Atom.leaf i) = some j) (h2 : eg.uf[j]? = some j) :
    eg.lookup (Atom.leaf i) = .ok (some j) := by
  unfold EGraph.lookup EGraph.lookupInternal
  have hc : eg.canon (Atom.leaf i) = .ok (Atom.leaf i) := rfl
  rw [hc]
  show (match eg.memo.get? (Atom.leaf i) with | none => _ | some _ => _) = _
  rw [h1]
  show (UF.find eg.uf j >>= _) = _
  rw [UF.find_self h2]
  rfl

/-- **C93 (past the bound).**  For every size `W` of a word (so for `2^32` too): the program that adds `W + 1` different constants
to a new e-graph, and does nothing else, ends with an e-graph in which the first and the last constant are in one class, although no
union was requested.  With unbounded ids they are in different classes. -/
theorem c93_past_counterexample (hW : 0 < W) :
    ∃ eg eg', (Session.leaves ((List.range (W + 1)).map Atom.mk)).runW W (Atom.unit.atW W 1) EGraph.new = .ok eg ∧
      eg.lookup ⟨⟨0⟩, []⟩ = .ok (some 0) ∧ eg.lookup ⟨⟨W⟩, []⟩ = .ok (some 0) ∧
      (Session.leaves ((List.range (W + 1)).map Atom.mk)).run (Atom.unit.at 1) EGraph.new = .ok eg' ∧
      eg'.lookup ⟨⟨0⟩, []⟩ = .ok (some 0) ∧ eg'.lookup ⟨⟨W⟩, []⟩ = .ok (some W) := by
  have h0 : (leafGraph 0 : EGraph Atom Unit) = EGraph.new := rfl
  have get : ∀ (l : AMap (ENode Atom) Id) (a b : ENode Atom) (y : Id), AMap.get? (l ++ [(a, y)]) b =
      (AMap.get? l b).or (if a = b then some y else none) := by
    intro l a b y
    induction l with
    | nil => simp [AMap.get?]
    | cons p l ih => by_cases hp : p.1 = b <;> simp [AMap.get?, hp, ih]
  have hz : (leafNext W 0).uf[0]? = some 0 := by
    show (List.range W ++ [0])[0]? = some 0
    rw [List.getElem?_append_left (by simpa using hW)]; simp [hW]
  refine ⟨leafNext W 0, leafGraph (W + 1), ?_, ?_, ?_, ?_, ?_, ?_⟩
  · rw [List.range_eq_range', ← h0]; exact leaves_runW hW W 0 (by omega)
  · refine leaf_lookup (i := 0) ?_ hz
    show AMap.get? (_ ++ [_]) _ = _
    rw [get, AMap.get?_leaves (fun i => i) hW]; rfl
  · refine leaf_lookup (i := W) ?_ hz
    show AMap.get? (_ ++ [_]) _ = _
    rw [get, AMap.get?_leaves_none _ _ _ _ fun x hx => leaf_ne hx]; simp
  · rw [List.range_eq_range', ← h0, leaves_run, Nat.zero_add]
  · exact leaf_lookup (i := 0) (AMap.get?_leaves (fun i => i) (by omega)) (by simp [leafGraph])
  · exact leaf_lookup (i := W) (AMap.get?_leaves (fun i => i) (by omega)) (by simp [leafGraph])

/-! ### The hypotheses are met -/

theorem leaf_lookup_none (k : Nat) : (leafGraph k).lookup (Atom.leaf k) = .ok none := by
  unfold EGraph.lookup EGraph.lookupInternal
  have hc : (leafGraph k).canon (Atom.leaf k) = .ok (Atom.leaf k) := rfl
  rw [hc]
  show (match (leafGraph k).memo.get? (Atom.leaf k) with | none => _ | some _ => _) = _
  rw [show (leafGraph k).memo.get? (Atom.leaf k) = none from AMap.get?_leaves_none _ _ _ _ fun x hx => leaf_ne hx]
  rfl

/-- The premises of `c93_full` for every word size (so also for 32 bits): the e-graph with the constants `0`, …, `W - 1`. -/
example (W : Nat) : ∃ eg i, EGraph.addUncanonicalW W (Atom.unit.atW W 1) (leafGraph W) (Atom.leaf W) = .ok (eg, i) ∧ i = 0 :=
  ⟨_, _, leaf_addUncanonical _ _, c93_full (leaf_hist .all _) (by simp [leafGraph]) (leaf_lookup_none W) (leaf_addUncanonical _ _)⟩

namespace Ex

/-- Add `f(a)` and `f(b)`, merge `a` with `b` (if the e-graph has more than three e-nodes), rebuild. -/
def sessionAB : Session Ex.S Unit :=
  .explanations <| .addExpr [⟨.a, []⟩, ⟨.f, [0]⟩] fun _ => .addExpr [⟨.b, []⟩, ⟨.f, [0]⟩] fun _ =>
    .read fun eg => if 3 < eg.nodes.length then .union 0 2 7 fun _ => .rebuild 20 fun _ => .done else .done

def sessionEnd : Ex.G := match sessionAB.run N0 EGraph.new with | .ok e => e | .error _ => EGraph.new

theorem session_run : sessionAB.run N0 EGraph.new = .ok sessionEnd := by
  have h : (match sessionAB.run N0 EGraph.new with | .ok _ => true | .error _ => false) = true := by decide +kernel
  unfold sessionEnd
  cases h1 : sessionAB.run N0 EGraph.new with
  | ok e => rfl
  | error e => rw [h1] at h; cases h

/-- `c93_same` with 32-bit ids: afterwards `f(a)` and `f(b)` are in one class. -/
example : sessionAB.runW (2 ^ 32) (U0.atW (2 ^ 32) 1) EGraph.new = .ok sessionEnd ∧ sessionEnd.find 1 = sessionEnd.find 3 :=
  ⟨c93_same session_run (Nat.le_trans (show sessionEnd.nodes.length ≤ 4 from by decide +kernel) (by norm_num)), by decide +kernel⟩

theorem e6_small : e6.nodes.length ≤ 2 ^ 32 := Nat.le_trans (show e6.nodes.length ≤ 4 from by decide) (by norm_num)

/-- `c93_history` and `c93_ids` for an e-graph with unions. -/
example (allow) : StepsW (2 ^ 32) (U0.atW (2 ^ 32) 1) allow EGraph.new [un] e6 ∧ Word.ofUsize (2 ^ 32) 3 = 3 :=
  ⟨c93_history (hist6 allow) e6_small, (c93_ids (hist6 allow) e6_small ⟨_, rfl⟩ (⟨_, rfl⟩ : Valid e6 0)).1⟩

/-- `c93_full_explained`: words of two bits, four e-nodes, explanations enabled. -/
example (r : Ex.G × Nat) : EGraph.addUncanonicalW 4 (U0.atW 4 1) x4 ⟨.c, []⟩ ≠ .ok r :=
  c93_full_explained (histx4 .all) rfl (by decide) rfl rfl r

end Ex

end Egg
