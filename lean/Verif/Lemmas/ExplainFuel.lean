import Verif.Model.ShortPath
/-
The functions of the model of explanations depend on their fuel only by running out of it.
-/
namespace Egg

/-- Either out of fuel, or the same. -/
def Le {α : Type} (x y : Res α) : Prop := x = .error .fuel ∨ x = y

theorem Le.same {α : Type} {x : Res α} : Le x x := .inr rfl

theorem Le.low {α : Type} {y : Res α} : Le (.error .fuel) y := .inl rfl

theorem Le.trans {α : Type} {x y z : Res α} (h1 : Le x y) (h2 : Le y z) : Le x z := by
  rcases h1 with h | rfl
  · exact .inl h
  · exact h2

theorem Le.bnd {α β : Type} {x y : Res α} {f g : α → Res β} (h : Le x y) (hf : ∀ a, Le (f a) (g a)) : Le (x >>= f) (y >>= g) := by
  rcases h with rfl | rfl
  · exact .inl rfl
  · cases x with
    | error e => exact .inr rfl
    | ok a => exact hf a

theorem Le.fold {α σ : Type} {f g : σ → α → Res σ} (h : ∀ s a, Le (f s a) (g s a)) : ∀ (l : List α) (s : σ), Le (l.foldlM f s) (l.foldlM g s)
  | [], _ => .same
  | a :: l, s => by
    rw [List.foldlM_cons, List.foldlM_cons]
    exact Le.bnd (h s a) (fun s' => Le.fold h l s')

theorem Le.ite {α : Type} {c : Prop} [Decidable c] {a b a' b' : Res α} (h1 : Le a a') (h2 : Le b b') :
    Le (if c then a else b) (if c then a' else b') := by
  split
  · exact h1
  · exact h2

/-- More fuel gives the same result. -/
def FuelMono {α : Type} (F : Nat → Res α) : Prop := ∀ f, Le (F f) (F (f + 1))

theorem FuelMono.le {α : Type} {F : Nat → Res α} (h : FuelMono F) {f g : Nat} (hfg : f ≤ g) : Le (F f) (F g) := by
  induction g with
  | zero => cases Nat.le_zero.1 hfg; exact .same
  | succ g ih =>
    rcases Nat.lt_or_ge f (g + 1) with hlt | hge
    · exact (ih (by omega)).trans (h g)
    · obtain rfl : f = g + 1 := by omega
      exact .same

theorem FuelMono.eq_or {α : Type} {F : Nat → Res α} (h : FuelMono F) {k : Nat} {v : α} (hk : F k = .ok v) (f : Nat) :
    F f = .error .fuel ∨ F f = .ok v := by
  rcases Nat.le_total f k with hl | hl
  · rcases h.le hl with h1 | h1
    · exact .inl h1
    · exact .inr (h1.trans hk)
  · rcases h.le hl with h1 | h1
    · rw [hk] at h1; cases h1
    · exact .inr (by rw [← h1, hk])

variable {Op : Type} [DecidableEq Op]

syntax "le_step" : tactic
macro_rules | `(tactic| le_step) => `(tactic| first
  | exact Le.same
  | exact Le.low
  | apply_assumption
  | refine Le.bnd ?_ (fun _ => ?_)
  | refine Le.fold (fun _ _ => ?_) _ _
  | refine Le.ite ?_ ?_
  | split)

namespace Explain

theorem findAllEnodesLoop_mono (x : Explain Op) (f : Nat) : ∀ todo acc, Le (x.findAllEnodesLoop f todo acc) (x.findAllEnodesLoop (f + 1) todo acc) := by
  induction f with
  | zero => intros; exact .low
  | succ f ih =>
    intro todo acc
    cases todo with
    | nil => exact .same
    | cons c todo =>
      rw [findAllEnodesLoop, findAllEnodesLoop]
      repeat le_step

theorem findAllEnodes_mono (x : Explain Op) (i : Id) (f : Nat) : Le (x.findAllEnodes f i) (x.findAllEnodes (f + 1) i) :=
  findAllEnodesLoop_mono x f _ _

theorem addTreeDepths_mono (x : Explain Op) (f : Nat) : ∀ i m, Le (x.addTreeDepths f i m) (x.addTreeDepths (f + 1) i m) := by
  induction f with
  | zero => intros; exact .low
  | succ f ih =>
    intro i m
    rw [addTreeDepths, addTreeDepths]
    repeat le_step

theorem calculateTreeDepths_mono (x : Explain Op) (f : Nat) : Le (x.calculateTreeDepths f) (x.calculateTreeDepths (f + 1)) := by
  unfold calculateTreeDepths
  exact Le.fold (fun _ _ => Le.bnd (addTreeDepths_mono x f _ _) (fun _ => .same)) _ _

theorem commonAncestorLoop_mono (x : Explain Op) (f : Nat) : ∀ l r sl sr,
    Le (x.commonAncestorLoop f l r sl sr) (x.commonAncestorLoop (f + 1) l r sl sr) := by
  induction f with
  | zero => intros; exact .low
  | succ f ih =>
    intro l r sl sr
    rw [commonAncestorLoop, commonAncestorLoop]
    repeat le_step

theorem commonAncestor_mono (x : Explain Op) (f : Nat) (l r : Id) : Le (x.commonAncestor f l r) (x.commonAncestor (f + 1) l r) :=
  commonAncestorLoop_mono x f _ _ _ _

theorem getConnectionsLoop_mono (x : Explain Op) (a : Id) (f : Nat) : ∀ i,
    Le (x.getConnectionsLoop a f i) (x.getConnectionsLoop a (f + 1) i) := by
  induction f with
  | zero => intros; exact .low
  | succ f ih =>
    intro i
    rw [getConnectionsLoop, getConnectionsLoop]
    repeat le_step

theorem getConnections_mono (x : Explain Op) (f : Nat) (i a : Id) : Le (x.getConnections f i a) (x.getConnections (f + 1) i a) := by
  unfold getConnections
  exact Le.ite .same (getConnectionsLoop_mono x a f i)

theorem getPathUnoptimized_mono (x : Explain Op) (f : Nat) (l r : Id) :
    Le (x.getPathUnoptimized f l r) (x.getPathUnoptimized (f + 1) l r) := by
  unfold getPathUnoptimized
  exact Le.bnd (commonAncestor_mono x f l r) fun _ => Le.bnd (getConnections_mono x f _ _) fun _ =>
    Le.bnd (getConnections_mono x f _ _) fun _ => .same

theorem getPath_mono (x : Explain Op) (f : Nat) : ∀ l r, Le (x.getPath f l r) (x.getPath (f + 1) l r) := by
  have hu := getPathUnoptimized_mono x
  induction f with
  | zero => intros; exact .low
  | succ f ih =>
    intro l r
    rw [getPath, getPath]
    repeat le_step

theorem nodeToExplanation_mono (nodes : List (ENode Op)) (f : Nat) : ∀ i c,
    Le (nodeToExplanation nodes f i c) (nodeToExplanation nodes (f + 1) i c) := by
  induction f with
  | zero => intros; exact .low
  | succ f ih =>
    intro i c
    rw [nodeToExplanation, nodeToExplanation]
    repeat le_step

theorem explain_mono (x : Explain Op) (nodes : List (ENode Op)) (f : Nat) :
    (∀ l r cs, Le (explainEnodes x nodes f l r cs) (explainEnodes x nodes (f + 1) l r cs)) ∧
    (∀ c cs, Le (explainAdjacent x nodes f c cs) (explainAdjacent x nodes (f + 1) c cs)) := by
  have hp := getPath_mono x
  have hn := nodeToExplanation_mono nodes
  induction f with
  | zero => exact ⟨by intros; rw [explainEnodes]; exact .low, by intros; rw [explainAdjacent]; exact .low⟩
  | succ f ih =>
    obtain ⟨ih1, ih2⟩ := ih
    constructor
    · intro l r cs
      rw [explainEnodes, explainEnodes]
      repeat le_step
    · intro c cs
      rw [explainAdjacent, explainAdjacent]
      repeat le_step

theorem distance_mono (x : Explain Op) (nodes : List (ENode Op)) (f : Nat) :
    (∀ l r dm, Le (distanceBetween x nodes f l r dm) (distanceBetween x nodes (f + 1) l r dm)) ∧
    (∀ a b dm, Le (congruenceDistance x nodes f a b dm) (congruenceDistance x nodes (f + 1) a b dm)) ∧
    (∀ i a dm, Le (calculateParentDistance x nodes f i a dm) (calculateParentDistance x nodes (f + 1) i a dm)) := by
  have hc := commonAncestor_mono x
  induction f with
  | zero =>
    exact ⟨by intros; rw [distanceBetween]; exact .low, by intros; rw [congruenceDistance]; exact .low,
      by intros; rw [calculateParentDistance]; exact .low⟩
  | succ f ih =>
    obtain ⟨ih1, ih2, ih3⟩ := ih
    refine ⟨?_, ?_, ?_⟩
    · intro l r dm
      rw [distanceBetween, distanceBetween]
      repeat le_step
    · intro a b dm
      rw [congruenceDistance, congruenceDistance]
      repeat le_step
    · intro i a dm
      rw [calculateParentDistance, calculateParentDistance]
      repeat le_step

theorem connectionDistance_mono (x : Explain Op) (nodes : List (ENode Op)) (f : Nat) (c : Connection) (dm : DistanceMemo) :
    Le (connectionDistance x nodes f c dm) (connectionDistance x nodes (f + 1) c dm) := by
  unfold connectionDistance
  split
  · exact (distance_mono x nodes f).2.1 _ _ _
  · exact .same

theorem populatePathLength_mono (x : Explain Op) (nodes : List (ENode Op)) (f : Nat) (r : Id) (l : List Connection) (dm : DistanceMemo) :
    Le (x.populatePathLength nodes f r l dm) (x.populatePathLength nodes (f + 1) r l dm) := by
  have h := fun x : Explain Op => connectionDistance_mono x nodes f
  unfold populatePathLength
  repeat le_step

theorem congrClassesLoop_mono (x : Explain Op) (ch : Choices) (nodes : List (ENode Op)) (uf : UF) (f : Nat) : ∀ cl n cn,
    Le (x.congrClassesLoop ch nodes uf f cl n cn) (x.congrClassesLoop ch nodes uf (f + 1) cl n cn) := by
  have h := findAllEnodes_mono x
  intro cl
  induction cl with
  | nil => intros; exact .same
  | cons c cl ih =>
    intro n cn
    rw [congrClassesLoop, congrClassesLoop]
    repeat le_step

theorem findCongruenceNeighbors_mono (x : Explain Op) (ch : Choices) (nodes : List (ENode Op)) (uf : UF) (cl : List Id) (f : Nat) :
    Le (x.findCongruenceNeighbors ch nodes uf cl f) (x.findCongruenceNeighbors ch nodes uf cl (f + 1)) := by
  have h := congrClassesLoop_mono x ch nodes uf f
  unfold findCongruenceNeighbors
  repeat le_step

theorem dijkstra_mono (x : Explain Op) (ch : Choices) (nodes : List (ENode Op)) (cn : List (List Id)) (k : Nat) (e : Id) (f : Nat) :
    ∀ todo last pc dm, Le (x.dijkstra ch nodes cn k e f todo last pc dm) (x.dijkstra ch nodes cn (k + 1) e (f + 1) todo last pc dm) := by
  have h := (distance_mono x nodes k).2.1
  induction f with
  | zero => intros; exact .low
  | succ f ih =>
    intro todo last pc dm
    rw [dijkstra, dijkstra]
    repeat le_step

theorem walkBack_mono (last : AMap Id Connection) (s : Id) (f : Nat) : ∀ i acc, Le (walkBack last s f i acc) (walkBack last s (f + 1) i acc) := by
  induction f with
  | zero => intros; exact .low
  | succ f ih =>
    intro i acc
    rw [walkBack, walkBack]
    repeat le_step

theorem shortestPath_mono (x : Explain Op) (ch : Choices) (nodes : List (ENode Op)) (cn : List (List Id)) (f : Nat) (a b : Id) (dm : DistanceMemo) :
    Le (x.shortestPath ch nodes cn f a b dm) (x.shortestPath ch nodes cn (f + 1) a b dm) := by
  have h1 := dijkstra_mono x ch nodes cn f b f
  have h2 := (distance_mono x nodes f).1
  have h3 := getPathUnoptimized_mono x f
  have h4 := fun last => walkBack_mono last a f
  have h5 := populatePathLength_mono x nodes f
  unfold shortestPath
  repeat le_step

theorem greedyLoop_mono (ch : Choices) (nodes : List (ENode Op)) (cn : List (List Id)) (k : Nat) (f : Nat) : ∀ todo n x dm,
    Le (greedyLoop ch nodes cn k f todo n x dm) (greedyLoop ch nodes cn (k + 1) (f + 1) todo n x dm) := by
  have h1 := fun x : Explain Op => findAllEnodes_mono x
  have h2 := fun x : Explain Op => shortestPath_mono x ch nodes cn k
  induction f with
  | zero => intros; exact .low
  | succ f ih =>
    intro todo n x dm
    cases todo with
    | nil => exact .same
    | cons p todo =>
      obtain ⟨a, b⟩ := p
      rw [greedyLoop, greedyLoop]
      repeat le_step

theorem tarjanOcla_mono (ch q : AMap Id (List Id)) (f : Nat) : ∀ i s, Le (tarjanOcla ch q f i s) (tarjanOcla ch q (f + 1) i s) := by
  induction f with
  | zero => intros; exact .low
  | succ f ih =>
    intro i s
    rw [tarjanOcla, tarjanOcla]
    repeat le_step

theorem rootLoop_mono (x : Explain Op) (f : Nat) : ∀ i, Le (x.rootLoop f i) (x.rootLoop (f + 1) i) := by
  induction f with
  | zero => intros; exact .low
  | succ f ih =>
    intro i
    rw [rootLoop, rootLoop]
    repeat le_step

theorem calculateCommonAncestor_mono (x : Explain Op) (ch : Choices) (nodes : List (ENode Op)) (cl : List Id) (cn : List (List Id)) (f : Nat) :
    Le (x.calculateCommonAncestor ch nodes cl cn f) (x.calculateCommonAncestor ch nodes cl cn (f + 1)) := by
  have h1 := fun x : Explain Op => findAllEnodes_mono x
  have h2 := rootLoop_mono x f
  have h3 := fun ch q => tarjanOcla_mono ch q f
  unfold calculateCommonAncestor
  repeat le_step

theorem calculateShortestExplanations_mono (x : Explain Op) (ch : Choices) (nodes : List (ENode Op)) (uf : UF) (cl : List Id) (f : Nat) (a b : Id) :
    Le (x.calculateShortestExplanations ch nodes uf cl f a b) (x.calculateShortestExplanations ch nodes uf cl (f + 1) a b) := by
  have h1 := findCongruenceNeighbors_mono x ch nodes uf cl f
  have h2 := fun cn => calculateCommonAncestor_mono x ch nodes cl cn f
  have h3 := calculateTreeDepths_mono x f
  have h4 := fun cn => greedyLoop_mono ch nodes cn f f
  unfold calculateShortestExplanations
  repeat le_step

theorem explainEquivalence_mono (x : Explain Op) (ch : Choices) (nodes : List (ENode Op)) (uf : UF) (cl : List Id) (a b : Id) :
    FuelMono (fun f => x.explainEquivalence ch nodes uf cl f a b) := by
  intro f
  have h1 := calculateShortestExplanations_mono x ch nodes uf cl f a b
  have h2 := fun x : Explain Op => (explain_mono x nodes f).1
  dsimp only
  unfold explainEquivalence
  repeat le_step

end Explain

variable {Dat : Type} [Lang Op]

/-- The fuel of a request for an explanation only decides if it runs out. -/
theorem EGraph.explainIdEquivalence_mono (eg : EGraph Op Dat) (ch : Explain.Choices) (a b : Id) :
    FuelMono (fun f => eg.explainIdEquivalence ch f a b) := by
  intro f
  have h1 := fun x : Explain Op => Explain.explainEquivalence_mono x ch eg.nodes eg.uf eg.classes.keys a b f
  dsimp only at h1 ⊢
  unfold EGraph.explainIdEquivalence
  repeat le_step

end Egg
