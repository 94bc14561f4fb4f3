import Verif.Model.Base
/-
Model of the methods of `Language` that traverse the children of an e-node, `src/language.rs:57-121`.

The function that the caller passes is an `FnMut`: it may have a state of its own, so it is a function
`σ → Id → β × σ`, and the methods return the final state beside their value.  The arguments of Rust closures
that the methods build themselves (`|len, _| len + 1` and so on) are written out.
-/
namespace Egg

variable {Op σ T E : Type}

namespace ENode

/-- `for_each`, `src/language.rs:57-59`. -/
def forEach (n : ENode Op) (f : σ → Id → Unit × σ) (s : σ) : σ :=
  let rec go : List Id → σ → σ
    | [], s => s
    | id :: ids, s => go ids (f s id).2
  go n.children s

/-- `for_each_mut`, `src/language.rs:62-64`: `f` may replace the id (`&mut Id`), so it returns the new id. -/
def forEachMut (n : ENode Op) (f : σ → Id → Id × σ) (s : σ) : ENode Op × σ :=
  let rec go : List Id → σ → List Id × σ
    | [], s => ([], s)
    | id :: ids, s =>
      let (id', s) := f s id
      let (ids', s) := go ids s
      (id' :: ids', s)
  let (ids, s) := go n.children s
  ({ n with children := ids }, s)

/-- `fold`, `src/language.rs:100-109`. -/
def fold (n : ENode Op) (init : T) (f : σ → T → Id → T × σ) (s : σ) : T × σ :=
  let rec go : List Id → T → σ → T × σ
    | [], acc, s => (acc, s)
    | id :: ids, acc, s =>
      let (acc, s) := f s acc id
      go ids acc s
  go n.children init s

/-- `try_for_each`, `src/language.rs:68-73`: `res.and_then(|_| f(id))` calls `f` only if `res` is `Ok`. -/
def tryForEach (n : ENode Op) (f : σ → Id → Except E Unit × σ) (s : σ) : Except E Unit × σ :=
  n.fold (.ok ()) (fun s res id => match res with
    | .ok _ => f s id
    | .error e => (.error e, s)) s

/-- `len`, `src/language.rs:79-81`. -/
def len (n : ENode Op) : Nat := (n.fold 0 (fun (s : Unit) len _ => (len + 1, s)) ()).1

/-- `all`, `src/language.rs:113-115`: `acc && f(id)` calls `f` only if `acc` is true. -/
def all (n : ENode Op) (f : σ → Id → Bool × σ) (s : σ) : Bool × σ :=
  n.fold true (fun s acc id => if acc then f s id else (false, s)) s

/-- `any`, `src/language.rs:119-121`: `acc || f(id)` calls `f` only if `acc` is false. -/
def any (n : ENode Op) (f : σ → Id → Bool × σ) (s : σ) : Bool × σ :=
  n.fold false (fun s acc id => if acc then (true, s) else f s id) s

/-- `is_leaf`, `src/language.rs:84-86`. -/
def isLeafDefault (n : ENode Op) : Bool := (n.all (fun (s : Unit) _ => (false, s)) ()).1

/-- `update_children`, `src/language.rs:89-91`: `*id = f(*id)`. -/
def updateChildren (n : ENode Op) (f : σ → Id → Id × σ) (s : σ) : ENode Op × σ := n.forEachMut f s

/-- `map_children`, `src/language.rs:94-97`, for a function with a state. -/
def mapChildrenS (n : ENode Op) (f : σ → Id → Id × σ) (s : σ) : ENode Op × σ := n.updateChildren f s

end ENode

end Egg
