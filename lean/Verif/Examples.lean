import Verif.Lemmas.AddExpr
/-
A small language and a concrete e-graph used by the examples that accompany the
theorems (to show that their hypotheses are met by non-trivial states).
-/
namespace Egg.Ex

/-- Constants `a b c`, function symbols `f g`. -/
inductive S where
  | a | b | c | f | g
deriving DecidableEq, Repr

def S.code : S → Nat
  | .a => 0 | .b => 1 | .c => 2 | .f => 3 | .g => 4

theorem S.code_inj : ∀ {x y : S}, x.code = y.code → x = y := by
  intro x y; cases x <;> cases y <;> simp [S.code]

/-- Lexicographic order on lists of numbers. -/
def lexLe : List Nat → List Nat → Bool
  | [], _ => true
  | _ :: _, [] => false
  | x :: xs, y :: ys => if x < y then true else if y < x then false else lexLe xs ys

theorem lexLe_total : ∀ a b, lexLe a b = true ∨ lexLe b a = true
  | [], _ => by simp [lexLe]
  | _ :: _, [] => by simp [lexLe]
  | x :: xs, y :: ys => by
    have := lexLe_total xs ys
    simp only [lexLe]
    rcases Nat.lt_trichotomy x y with h | h | h
    · simp [h]
    · subst h; simpa using this
    · simp [h]

theorem lexLe_trans : ∀ a b c, lexLe a b = true → lexLe b c = true → lexLe a c = true
  | [], _, _ => by simp [lexLe]
  | _ :: _, [], _ => by simp [lexLe]
  | _ :: _, _ :: _, [] => by simp [lexLe]
  | x :: xs, y :: ys, z :: zs => by
    have := lexLe_trans xs ys zs
    simp only [lexLe]
    split_ifs <;> first | omega | simp_all

theorem lexLe_antisymm : ∀ a b, lexLe a b = true → lexLe b a = true → a = b
  | [], [] => by simp
  | [], _ :: _ => by simp [lexLe]
  | _ :: _, [] => by simp [lexLe]
  | x :: xs, y :: ys => by
    have := lexLe_antisymm xs ys
    simp only [lexLe]
    split_ifs with h1 h2
    · omega
    · simp
    · simp
    · intro h3 h4
      have hxy : x = y := by omega
      rw [hxy, this h3 h4]

/-- The order of the example language: operator first, then children. -/
def key (n : ENode S) : List Nat := n.op.code :: n.children

theorem key_inj {n m : ENode S} (h : key n = key m) : n = m := by
  cases n; cases m
  simp only [key, List.cons.injEq] at h
  rw [S.code_inj h.1, h.2]

instance : Lang S where
  Disc := S
  decDisc := inferInstance
  disc := id
  le := fun n m => lexLe (key n) (key m)
  le_total := fun _ _ => lexLe_total _ _
  le_trans := fun _ _ _ => lexLe_trans _ _ _
  le_antisymm := fun _ _ h1 h2 => key_inj (lexLe_antisymm _ _ h1 h2)

/-- The trivial analysis. -/
def U0 : UserAnalysis S Unit where
  make := fun _ _ _ => .ok ()
  remake := fun _ _ _ => .ok ()
  merge := fun _ _ => ((), false, false)
  modify := fun _ => .done

abbrev G := EGraph S Unit
abbrev N0 : Analysis S Unit := U0.at 1

def leaf (s : S) : ENode S := ⟨s, []⟩
def app (s : S) (is : List Nat) : ENode S := ⟨s, is⟩
abbrev T (s : S) (ts : List (Term S)) : Term S := .node s ts
def ta : Term S := T .a []
def tb : Term S := T .b []
def tfa : Term S := T .f [ta]
def tfb : Term S := T .f [tb]

/-! ### A history: add `a`, `b`, `f a`, `f b`, then `union a b`. -/

/-- The state part of a successful result (only used on runs that succeed). -/
def st {D α : Type} (r : Res (EGraph S D × α)) : EGraph S D :=
  match r with
  | .ok (e, _) => e
  | .error _ => EGraph.new

def e1 : G := st (EGraph.addUncanonical N0 EGraph.new (leaf .a))
def e2 : G := st (EGraph.addUncanonical N0 e1 (leaf .b))
def e3 : G := st (EGraph.addUncanonical N0 e2 (app .f [0]))
def e4 : G := st (EGraph.addUncanonical N0 e3 (app .f [1]))
def e5 : G := st (EGraph.union N0 e4 0 1 7)
def e6 : G := st (EGraph.rebuild N0 20 e5)

theorem rep_leaf {D : Type} {eg : EGraph S D} {c r : Id} {k : EClass S D} {s : S} (h1 : eg.find c = .ok r)
    (h2 : eg.classes.get? r = some k) (h3 : leaf s ∈ k.nodes) : Rep eg c (T s []) :=
  .mk (n := leaf s) h1 h2 h3 rfl (by intro i d t h; simp [leaf] at h)

theorem rep_app1 {D : Type} {eg : EGraph S D} {c r i : Id} {k : EClass S D} {s : S} {t : Term S} (h1 : eg.find c = .ok r)
    (h2 : eg.classes.get? r = some k) (h3 : app s [i] ∈ k.nodes) (h4 : Rep eg i t) : Rep eg c (T s [t]) :=
  .mk (n := app s [i]) h1 h2 h3 rfl (by
    intro j d t' hd ht
    match j with
    | 0 => simp [app] at hd ht; subst hd; subst ht; exact h4
    | j + 1 => simp [app] at hd)

theorem rep_e4_a : Rep e4 0 ta := rep_leaf rfl rfl (by decide)
theorem rep_e4_b : Rep e4 1 tb := rep_leaf rfl rfl (by decide)

/-- The recorded union. -/
def un : UnionRec S := ⟨7, 0, 1, ta, tb⟩

theorem hist4 (allow) : Hist N0 allow [] e4 :=
  .tail (V := []) (.tail (V := []) (.tail (V := []) (.tail (V := []) .refl
    (.add (n := leaf .a) (i := 0) rfl)) (.add (n := leaf .b) (i := 1) rfl))
    (.add (n := app .f [0]) (i := 2) rfl)) (.add (n := app .f [1]) (i := 3) rfl)

theorem hist5 (allow) : Hist N0 allow [un] e5 :=
  .tail (V := [un]) (hist4 allow) (.union (r := true) rep_e4_a rep_e4_b rfl)

theorem reb6 : EGraph.rebuild N0 20 e5 = .ok (e6, 1) := rfl

theorem hist6 (allow) : Hist N0 allow [un] e6 := .tail (V := []) (hist5 allow) (.rebuild reb6)

theorem rep_e6_a : Rep e6 0 ta := rep_leaf rfl rfl (by decide)
theorem rep_e6_b : Rep e6 1 tb := rep_leaf rfl rfl (by decide)
theorem rep_e6_fa : Rep e6 2 tfa := rep_app1 rfl rfl (by decide) rep_e6_a
theorem rep_e6_fb : Rep e6 3 tfb := rep_app1 (i := 0) rfl rfl (by decide) (rep_leaf rfl rfl (by decide))

/-! ### The same history with explanations enabled -/

def x0 : G := { (EGraph.new : G) with explain := some Explain.new }
def x1 : G := st (EGraph.addUncanonical N0 x0 (leaf .a))
def x2 : G := st (EGraph.addUncanonical N0 x1 (leaf .b))
def x3 : G := st (EGraph.addUncanonical N0 x2 (app .f [0]))
def x4 : G := st (EGraph.addUncanonical N0 x3 (app .f [1]))
def x5 : G := st (EGraph.union N0 x4 0 1 7)
def x6 : G := st (EGraph.rebuild N0 20 x5)

theorem histx0 (allow) : Hist N0 allow [] x0 := .tail (V := []) .refl (.explain rfl)

theorem histx4 (allow) : Hist N0 allow [] x4 :=
  .tail (V := []) (.tail (V := []) (.tail (V := []) (.tail (V := []) (histx0 allow)
    (.add (n := leaf .a) (i := 0) rfl)) (.add (n := leaf .b) (i := 1) rfl))
    (.add (n := app .f [0]) (i := 2) rfl)) (.add (n := app .f [1]) (i := 3) rfl)

theorem rep_x4_a : Rep x4 0 ta := rep_leaf rfl rfl (by decide)
theorem rep_x4_b : Rep x4 1 tb := rep_leaf rfl rfl (by decide)

theorem histx5 (allow) : Hist N0 allow [un] x5 :=
  .tail (V := [un]) (histx4 allow) (.union (r := true) rep_x4_a rep_x4_b rfl)

theorem histx6 (allow) : Hist N0 allow [un] x6 :=
  .tail (V := []) (histx5 allow) (.rebuild (fuel := 20) (n := 1) rfl)

/-! ### An analysis with data: does some term of the class contain `a`? -/

def containsA (op : S) (ds : List Bool) : Bool := decide (op = .a) || ds.any id

/-- Data of the children. -/
def kids {D : Type} (eg : EGraph S D) (n : ENode S) : Res (List D) :=
  n.children.mapM (fun c => do return (← eg.index c).data)

def UA : UserAnalysis S Bool where
  make := fun eg n _ => do return containsA n.op (← kids eg n)
  remake := fun eg n _ => do return containsA n.op (← kids eg n)
  merge := fun a b => (a || b, !a && b, !b && a)
  modify := fun _ => .done

abbrev NA : Analysis S Bool := UA.at 1
def a1 : EGraph S Bool := st (EGraph.addUncanonical NA EGraph.new (leaf .b))
def a2 : EGraph S Bool := st (EGraph.addUncanonical NA a1 (app .f [0]))
def a3 : EGraph S Bool := st (EGraph.addUncanonical NA a2 (leaf .a))
def a4 : EGraph S Bool := st (EGraph.union NA a3 0 2 7)
def a5 : EGraph S Bool := st (EGraph.rebuild NA 20 a4)

def una : UnionRec S := ⟨7, 0, 2, tb, ta⟩

theorem hista4 (allow) : Hist NA allow [una] a4 :=
  .tail (V := [una]) (.tail (V := []) (.tail (V := []) (.tail (V := []) .refl
    (.add (n := leaf .b) (i := 0) rfl)) (.add (n := app .f [0]) (i := 1) rfl))
    (.add (n := leaf .a) (i := 2) rfl))
    (.union (r := true) (rep_leaf rfl rfl (by decide)) (rep_leaf rfl rfl (by decide)) rfl)

theorem reba5 : EGraph.rebuild NA 20 a4 = .ok (a5, 0) := rfl

end Egg.Ex
