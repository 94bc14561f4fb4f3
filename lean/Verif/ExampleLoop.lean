import Verif.ExampleExplain
import Verif.Lemmas.ExplainFuel
import Verif.Lemmas.Hist
import Verif.Lemmas.AddExpr
/-
An e-graph on which asking for explanations repeatedly does not return.
-/
namespace Egg
namespace Loop

/-- Function symbols: numbers. -/
inductive O where
  | op (n : Nat)
deriving DecidableEq

def O.num : O → Nat | .op n => n

/-- The order of the language: operator first, then children. -/
def key (n : ENode O) : List Nat := n.op.num :: n.children

instance : Lang O where
  Disc := O
  decDisc := inferInstance
  disc := id
  le := fun n m => Ex.lexLe (key n) (key m)
  le_total := fun _ _ => Ex.lexLe_total _ _
  le_trans := fun _ _ _ => Ex.lexLe_trans _ _ _
  le_antisymm := fun a b h1 h2 => by
    have := Ex.lexLe_antisymm _ _ h1 h2
    obtain ⟨⟨o⟩, c⟩ := a
    obtain ⟨⟨o'⟩, c'⟩ := b
    simpa [key, O.num] using this

/-- No analysis. -/
def U0 : UserAnalysis O Unit where
  make := fun _ _ _ => .ok ()
  remake := fun _ _ _ => .ok ()
  merge := fun _ _ => ((), false, false)
  modify := fun _ => .done
  allowCycles := false

abbrev N0 : Analysis O Unit := U0.at 1

inductive Cmd where
  | add (n : ENode O)
  | union (a b : Nat) (r : Nat)
  | rebuild
  | query (ch : Explain.Choices) (a b : Nat)

def step (eg : EGraph O Unit) : Cmd → Res (EGraph O Unit)
  | .add n => do let (eg, _) ← EGraph.addUncanonical N0 eg n; return eg
  | .union a b r => do let (eg, _) ← EGraph.unionTrusted N0 eg a b r; return eg
  | .rebuild => do let (eg, _) ← EGraph.rebuild N0 100 eg; return eg
  | .query ch a b => do let (_, eg) ← eg.explainIdEquivalence ch 400 a b; return eg

def k (n : Nat) : Cmd := .add ⟨.op n, []⟩
def f (n : Nat) : Cmd := .add ⟨.op 100, [n]⟩
def g (n : Nat) : Cmd := .add ⟨.op 101, [n]⟩
def h (n : Nat) : Cmd := .add ⟨.op 102, [n]⟩

def cmds1 : List Cmd := [k 0, k 1, k 2, k 3, g 3, f 0, g 5, k 7, k 8, k 9, k 10, f 4, g 11,
  .union 0 1 1, .union 1 2 2, .union 2 4 3, .rebuild,
  .union 6 7 4, .union 7 8 5, .union 8 9 6, .union 9 10 7, .union 10 4 8, .rebuild,
  .union 3 5 9, .rebuild, .union 0 6 10, .union 12 4 11, .rebuild]

def cmds2 : List Cmd := [k 13, h 13, .union 13 14 12, .rebuild, h 14, h 15, h 16, h 17, h 18, h 19, h 20, h 21, h 22, h 23, h 24]

def start : EGraph O Unit := { (EGraph.new : EGraph O Unit) with explain := some Explain.new }

/-- Hash sets are iterated in the reverse order of the list. -/
def chr : Explain.Choices := { Ex.ch0 with order := List.reverse, orderPerm := fun l => List.reverse_perm l }

def all : List Cmd := cmds1 ++ [Cmd.query Ex.ch0 0 4] ++ cmds2

def run (cs : List Cmd) (eg : EGraph O Unit) : Res (EGraph O Unit) := cs.foldlM step eg

/-- The value, if there is one. -/
def val {α : Type} (d : α) : Res α → α
  | .ok a => a
  | .error _ => d

theorem val_ok {α : Type} {d : α} {r : Res α} (h : isOk r = true) : r = .ok (val d r) := by
  cases r with
  | ok a => rfl
  | error e => cases h

/-- The e-graph after all the calls. -/
def eg : EGraph O Unit := val EGraph.new (run all start)

/-- The proof forest, and what the second request makes of it. -/
def x0 : Explain O := eg.explain.getD Explain.new
def x1 : Explain O := val Explain.new (x0.calculateShortestExplanations chr eg.nodes eg.uf eg.classes.keys 400 6 4)

def okEq {α : Type} [DecidableEq α] (r : Res α) (v : α) : Bool :=
  match r with
  | .ok a => decide (a = v)
  | .error _ => false

theorem okEq_iff {α : Type} [DecidableEq α] {r : Res α} {v : α} (h : okEq r v = true) : r = .ok v := by
  cases r with
  | ok a => simp only [okEq, decide_eq_true_eq] at h; rw [h]
  | error e => cases h

def c1 : Connection := ⟨12, 6, .congruence, true⟩
def c2 : Connection := ⟨4, 12, .rule 11, true⟩
def c3 : Connection := ⟨6, 0, .rule 10, true⟩
def path (r : Res (List Connection × List Connection)) : Res (List Connection) := do
  let (l, r) ← r
  return l ++ r.reverse.map Explain.flip

def checkPaths : Bool :=
  okEq (path (x1.getPath 30 6 4)) [c1, c2] && okEq (path (x1.getPath 30 0 4)) [c3, c1, c2] &&
  okEq (path (x1.getPath 30 5 11)) [⟨11, 5, .congruence, true⟩] &&
  decide (eg.nodes[0]? = some ⟨.op 0, []⟩ ∧ eg.nodes[5]? = some ⟨.op 100, [0]⟩ ∧ eg.nodes[6]? = some ⟨.op 101, [5]⟩ ∧
    eg.nodes[11]? = some ⟨.op 100, [4]⟩ ∧ eg.nodes[12]? = some ⟨.op 101, [11]⟩) &&
  decide (eg.rt 6 = eg.rt 4 ∧ eg.nodes.length = 26) && eg.explain.isSome && x0.optimize

theorem run_ok : run all start = .ok eg := val_ok (by decide +kernel)

theorem opt_ok : x0.calculateShortestExplanations chr eg.nodes eg.uf eg.classes.keys 400 6 4 = .ok x1 := val_ok (by decide +kernel)

theorem paths_ok : checkPaths = true := by decide +kernel

theorem path_or {a b : Id} {l : List Connection} (h : path (x1.getPath 30 a b) = .ok l) (f : Nat) :
    x1.getPath f a b = .error .fuel ∨ ∃ p, x1.getPath f a b = .ok p ∧ p.1 ++ p.2.reverse.map Explain.flip = l := by
  unfold path at h
  obtain ⟨p, hp, h⟩ := bind_eq_ok.1 h
  have hm : FuelMono (fun f => x1.getPath f a b) := fun f => Explain.getPath_mono x1 f a b
  rcases hm.eq_or hp f with h1 | h1
  · exact .inl h1
  · exact .inr ⟨p, h1, by cases h; rfl⟩

theorem facts : path (x1.getPath 30 6 4) = .ok [c1, c2] ∧ path (x1.getPath 30 0 4) = .ok [c3, c1, c2] ∧
    path (x1.getPath 30 5 11) = .ok [⟨11, 5, .congruence, true⟩] ∧
    (eg.nodes[0]? = some ⟨.op 0, []⟩ ∧ eg.nodes[5]? = some ⟨.op 100, [0]⟩ ∧ eg.nodes[6]? = some ⟨.op 101, [5]⟩ ∧
    eg.nodes[11]? = some ⟨.op 100, [4]⟩ ∧ eg.nodes[12]? = some ⟨.op 101, [11]⟩) ∧ (eg.rt 6 = eg.rt 4 ∧ eg.nodes.length = 26) ∧
    eg.explain.isSome = true ∧ x0.optimize = true := by
  have h := paths_ok
  simp only [checkPaths, Bool.and_eq_true, decide_eq_true_eq] at h
  obtain ⟨⟨⟨⟨⟨⟨h1, h2⟩, h3⟩, h4⟩, h5⟩, h6⟩, h7⟩ := h
  exact ⟨okEq_iff h1, okEq_iff h2, okEq_iff h3, h4, h5, h6, h7⟩

abbrev t0 : TreeTerm O := .new (.op 0) []
abbrev t5 : TreeTerm O := .new (.op 100) [[t0]]
abbrev t6 : TreeTerm O := .new (.op 101) [[t5]]
abbrev nc : AMap Id (TreeTerm O) := [(0, t0), (5, t5), (6, t6)]
abbrev cs1 : Explain.Caches O := ([], nc)
abbrev cs2 : Explain.Caches O := ([((0, 6), .mk (.op 101) none (some 10) [[t5]])], nc)

theorem cached {f : Nat} {i : Id} {t : TreeTerm O} (h : nc.get? i = some t) :
    Explain.nodeToExplanation eg.nodes f i nc = .error .fuel ∨ Explain.nodeToExplanation eg.nodes f i nc = .ok (t, nc) := by
  cases f with
  | zero => exact .inl rfl
  | succ f => right; rw [Explain.nodeToExplanation, h]

theorem adj {f : Nat} {cs : Explain.Caches O} {c : Connection} (hj : c.justification = .congruence)
    (hc : cs.1.get? (c.current, c.next) = none) {o : O} {a b : Id} (h1 : eg.nodes[c.current]? = some ⟨o, [a]⟩) (h2 : eg.nodes[c.next]? = some ⟨o, [b]⟩)
    (h : ∀ g, g < f → Explain.explainEnodes x1 eg.nodes g a b cs = .error .fuel) :
    Explain.explainAdjacent x1 eg.nodes f c cs = .error .fuel := by
  cases f with
  | zero => rw [Explain.explainAdjacent]
  | succ f =>
    rw [Explain.explainAdjacent, hc, hj]
    simp only [getIdx, h1, h2, ok_bind]
    have : (⟨o, [a]⟩ : ENode O).matches ⟨o, [b]⟩ = true := by
      simp [ENode.matches]
    rw [if_pos this]
    simp only [List.zip_cons_cons, List.zip_nil_right, List.foldlM_cons, h f (by omega)]
    rfl

/-- The cycle. -/
theorem loops : ∀ f, Explain.explainEnodes x1 eg.nodes f 5 11 cs2 = .error .fuel := by
  obtain ⟨_, p2, p3, ⟨n0, n5, n6, n11, n12⟩, _, _⟩ := facts
  intro f
  induction f using Nat.strong_induction_on with
  | _ f ih =>
    cases f with
    | zero => rw [Explain.explainEnodes]
    | succ f =>
      rw [Explain.explainEnodes]
      rcases cached (f := f) (i := 5) (t := t5) rfl with hn | hn
      · rw [hn]; rfl
      rw [hn]
      simp only [ok_bind]
      rcases path_or p3 f with hp | ⟨⟨l, r⟩, hp, hl⟩
      · rw [hp]; rfl
      rw [hp]
      simp only [ok_bind] at hl ⊢
      rw [hl, List.foldlM_cons]
      rw [adj (o := .op 100) (a := 0) (b := 4) rfl rfl n5 n11]
      · rfl
      · intro g hg
        cases g with
        | zero => rw [Explain.explainEnodes]
        | succ g =>
          rw [Explain.explainEnodes]
          rcases cached (f := g) (i := 0) (t := t0) rfl with hn | hn
          · rw [hn]; rfl
          rw [hn]
          simp only [ok_bind]
          rcases path_or p2 g with hp | ⟨⟨l, r⟩, hp, hl⟩
          · rw [hp]; rfl
          rw [hp]
          simp only [ok_bind] at hl ⊢
          rw [hl, List.foldlM_cons]
          cases g with
          | zero => rw [Explain.explainAdjacent]; rfl
          | succ g =>
            have : Explain.explainAdjacent x1 eg.nodes (g + 1) c3 cs2 = .ok (.mk (.op 101) none (some 10) [[t5]], cs2) := by
              rw [Explain.explainAdjacent]; rfl
            rw [this]
            simp only [ok_bind]
            rw [pure_bind, List.foldlM_cons]
            rw [adj (o := .op 101) (a := 5) (b := 11) rfl rfl n6 n12]
            · rfl
            · intro k hk
              exact ih k (by omega)

/-- The same before the rule step is in the cache. -/
theorem loops1 (f : Nat) : Explain.explainEnodes x1 eg.nodes f 5 11 cs1 = .error .fuel := by
  obtain ⟨_, p2, p3, ⟨n0, n5, n6, n11, n12⟩, _, _⟩ := facts
  cases f with
  | zero => rw [Explain.explainEnodes]
  | succ f =>
    rw [Explain.explainEnodes]
    rcases cached (f := f) (i := 5) (t := t5) rfl with hn | hn
    · rw [hn]; rfl
    rw [hn]
    simp only [ok_bind]
    rcases path_or p3 f with hp | ⟨⟨l, r⟩, hp, hl⟩
    · rw [hp]; rfl
    rw [hp]
    simp only [ok_bind] at hl ⊢
    rw [hl, List.foldlM_cons]
    rw [adj (o := .op 100) (a := 0) (b := 4) rfl rfl n5 n11]
    · rfl
    · intro g hg
      cases g with
      | zero => rw [Explain.explainEnodes]
      | succ g =>
        rw [Explain.explainEnodes]
        rcases cached (f := g) (i := 0) (t := t0) rfl with hn | hn
        · rw [hn]; rfl
        rw [hn]
        simp only [ok_bind]
        rcases path_or p2 g with hp | ⟨⟨l, r⟩, hp, hl⟩
        · rw [hp]; rfl
        rw [hp]
        simp only [ok_bind] at hl ⊢
        rw [hl, List.foldlM_cons]
        cases g with
        | zero => rw [Explain.explainAdjacent]; rfl
        | succ g =>
          rcases cached (f := g) (i := 6) (t := t6) rfl with hn | hn
          · have : Explain.explainAdjacent x1 eg.nodes (g + 1) c3 cs1 = .error .fuel := by
              rw [Explain.explainAdjacent]
              show (Explain.nodeToExplanation eg.nodes g 6 nc >>= _) = _
              rw [hn]; rfl
            rw [this]; rfl
          have : Explain.explainAdjacent x1 eg.nodes (g + 1) c3 cs1 = .ok (.mk (.op 101) none (some 10) [[t5]], cs2) := by
            rw [Explain.explainAdjacent]
            show (Explain.nodeToExplanation eg.nodes g 6 nc >>= _) = _
            rw [hn]; rfl
          rw [this]
          simp only [ok_bind]
          rw [pure_bind, List.foldlM_cons]
          rw [adj (o := .op 101) (a := 5) (b := 11) rfl rfl n6 n12]
          · rfl
          · intro k _
            exact loops k

theorem first_node (f : Nat) :
    Explain.nodeToExplanation eg.nodes f 6 [] = .error .fuel ∨ Explain.nodeToExplanation eg.nodes f 6 [] = .ok (t6, nc) := by
  obtain ⟨_, p2, p3, ⟨n0, n5, n6, n11, n12⟩, _, _⟩ := facts
  have hm : FuelMono (fun f => Explain.nodeToExplanation eg.nodes f 6 []) := fun f => Explain.nodeToExplanation_mono eg.nodes f 6 []
  refine hm.eq_or (k := 3) ?_ f
  have h0 : Explain.nodeToExplanation eg.nodes 1 0 [] = .ok (t0, [(0, t0)]) := by
    rw [Explain.nodeToExplanation]
    simp only [getIdx, n0]
    rfl
  have h5 : Explain.nodeToExplanation eg.nodes 2 5 [] = .ok (t5, [(0, t0), (5, t5)]) := by
    rw [Explain.nodeToExplanation]
    simp only [getIdx, n5, AMap.get?, List.find?_nil, Option.map_none, ok_bind, List.foldlM_cons, h0]
    rfl
  rw [Explain.nodeToExplanation]
  simp only [getIdx, n6, AMap.get?, List.find?_nil, Option.map_none, ok_bind, List.foldlM_cons, h5]
  rfl

theorem never (f : Nat) : Explain.explainEnodes x1 eg.nodes f 6 4 ([], []) = .error .fuel := by
  obtain ⟨p1, _, _, ⟨n0, n5, n6, n11, n12⟩, _, _⟩ := facts
  cases f with
  | zero => rw [Explain.explainEnodes]
  | succ f =>
    rw [Explain.explainEnodes]
    rcases first_node f with hn | hn
    · rw [hn]; rfl
    rw [hn]
    simp only [ok_bind]
    rcases path_or p1 f with hp | ⟨⟨l, r⟩, hp, hl⟩
    · rw [hp]; rfl
    rw [hp]
    simp only [ok_bind] at hl ⊢
    rw [hl, List.foldlM_cons]
    rw [adj (o := .op 101) (a := 5) (b := 11) rfl rfl n6 n12]
    · rfl
    · intro k _
      exact loops1 k

end Loop
end Egg
