import Verif.Model.Base
import Mathlib.Order.Defs.LinearOrder
/-
Model of the helpers for implementing `Analysis::merge`, `src/language.rs:700-940`.
A function `merge(&mut self, to: &mut T, from: T) -> DidMerge` is modelled by
`to → from → (new to, DidMerge.0, DidMerge.1)`, as in `Analysis.merge`.
-/
namespace Egg
variable {T : Type}

/-- `src/language.rs:710-718` `impl BitOr for DidMerge`. -/
def didMergeOr (a b : Bool × Bool) : Bool × Bool := (a.1 || b.1, a.2 || b.2)

/-- `src/language.rs:894-904` `merge_max`; `Ord::cmp` of the type is the `compare` of a
linear order. -/
def mergeMax [LinearOrder T] (to frm : T) : T × Bool × Bool :=
  match compare to frm with
  | .lt => (frm, true, false)
  | .eq => (to, false, false)
  | .gt => (to, false, true)

/-- `src/language.rs:909-919` `merge_min`. -/
def mergeMin [LinearOrder T] (to frm : T) : T × Bool × Bool :=
  match compare to frm with
  | .lt => (to, false, true)
  | .eq => (to, false, false)
  | .gt => (frm, true, false)

/-- `src/language.rs:926-940` `merge_option`. -/
def mergeOption (mergeFn : T → T → T × Bool × Bool) (to frm : Option T) : Option T × Bool × Bool :=
  match to, frm with
  | none, none => (none, false, false)
  | none, some b => (some b, true, false)
  | some a, none => (some a, false, true)
  | some a, some b => match mergeFn a b with
    | (r, f) => (some r, f)

end Egg
