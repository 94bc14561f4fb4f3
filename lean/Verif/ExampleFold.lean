import Verif.Examples
/-
Constant folding: the analysis of `tests/math.rs` and `tests/simple.rs` in miniature.
-/
namespace Egg
namespace Fold

/-- Numbers, variables, addition. -/
inductive O where
  | num (n : Nat)
  | var (n : Nat)
  | plus
deriving DecidableEq

def O.code : O → List Nat
  | .num n => [0, n]
  | .var n => [1, n]
  | .plus => [2, 0]

def key (n : ENode O) : List Nat := n.op.code ++ n.children

instance : Lang O where
  Disc := O
  decDisc := inferInstance
  disc := id
  le := fun n m => Ex.lexLe (key n) (key m)
  le_total := fun _ _ => Ex.lexLe_total _ _
  le_trans := fun _ _ _ => Ex.lexLe_trans _ _ _
  le_antisymm := fun a b h1 h2 => by
    have := Ex.lexLe_antisymm _ _ h1 h2
    obtain ⟨o, c⟩ := a
    obtain ⟨o', c'⟩ := b
    cases o <;> cases o' <;> simp_all [key, O.code]

/-- The value of an e-node, if the values of its children are known. -/
def eval (eg : EGraph O (Option Nat)) (n : ENode O) : Res (Option Nat) :=
  match n.op, n.children with
  | .num k, _ => .ok (some k)
  | .plus, [a, b] => do
    let x ← eg.index a
    let y ← eg.index b
    return (do return (← x.data) + (← y.data))
  | _, _ => .ok none

/-- Constant folding: the datum is the value of the class if it is known; `modify` adds the literal
to the class. -/
def U : UserAnalysis O (Option Nat) where
  make := fun eg n _ => eval eg n
  remake := fun eg n _ => eval eg n
  merge := fun a b =>
    match a, b with
    | some x, some y => (some x, false, decide (x ≠ y))
    | some x, none => (some x, false, true)
    | none, some y => (some y, true, false)
    | none, none => (none, false, false)
  modify := fun i => .read fun eg =>
    match eg.index i with
    | .error _ => .panic
    | .ok k =>
      match k.data with
      | none => .done
      | some v => .add ⟨.num v, []⟩ fun j => .union i j 0 fun _ => .done

abbrev N : Analysis O (Option Nat) := U.at 3

def lit (n : Nat) : Term O := .node (.num n) []

end Fold
end Egg
