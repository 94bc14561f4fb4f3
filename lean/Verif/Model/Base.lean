/-
Basic vocabulary of the model: ids, e-nodes, outcomes, finite maps, work queue.
-/
namespace Egg

/-- Outcome of a modelled function that does not return normally.
`panic` models a Rust panic (index out of range, `unwrap` on `None`, failed
`assert!`).  `fuel` means that the iteration bound handed to a loop was used
up; it has no counterpart in Rust (there the loop keeps running). -/
inductive Err where
  | panic
  | fuel
deriving DecidableEq, Repr

/-- Result type of every modelled function that may panic or loop. -/
abbrev Res := Except Err

/-- `src/lib.rs:94` `pub struct Id(u32)`.  Simplification: unbounded naturals
instead of 32 bit indices (faithful while fewer than 2^32 ids exist).
(`Id` is a pure synonym, expanded while parsing.) -/
macro "Id" : term => `(Nat)

/-- A value of a type implementing `Language` (`src/language.rs:35-66`): an
operator together with its children.  `matches` (`src/language.rs:45-48`,
"should only consider the operator and the arity") is equality of operator and
number of children, see `ENode.matches`. -/
structure ENode (Op : Type) where
  op : Op
  children : List Id
deriving DecidableEq, Repr

namespace ENode
variable {Op : Type}

/-- `Language::matches`, `src/language.rs:45-48`. -/
def «matches» [DecidableEq Op] (a b : ENode Op) : Bool :=
  decide (a.op = b.op) && a.children.length == b.children.length

/-- `Language::map_children`, `src/language.rs:94-97` (pure closure). -/
def mapChildren (f : Id → Id) (n : ENode Op) : ENode Op :=
  { n with children := n.children.map f }

/-- `Language::is_leaf`, `src/language.rs:84-86`. -/
def isLeaf (n : ENode Op) : Bool := n.children.isEmpty

/-- `Language::map_children` with a closure that may panic. -/
def mapChildrenM (f : Id → Res Id) (n : ENode Op) : Res (ENode Op) := do
  let cs ← n.children.mapM f
  return { n with children := cs }

end ENode

/-- Read an element of a `Vec`; out of range is a panic (`vec[i]`). -/
def getIdx {α : Type} (l : List α) (i : Nat) : Res α :=
  match l[i]? with
  | some a => .ok a
  | none => .error .panic

/-- `Option::unwrap`. -/
def unwrap {α : Type} : Option α → Res α
  | some a => .ok a
  | none => .error .panic

/-! ### Finite maps

`HashMap` (`src/util.rs:53-63`) is modelled by an association list with unique
keys.  The order of the list is not meaningful; definitions whose result
depends on the iteration order of the real map take that order as an argument. -/

abbrev AMap (K V : Type) := List (K × V)

namespace AMap
variable {K V : Type} [DecidableEq K]

/-- `HashMap::get`. -/
def get? : AMap K V → K → Option V
  | [], _ => none
  | (k', v) :: m, k => if k' = k then some v else get? m k

/-- `HashMap::insert` (the old value is `get?` before the call). -/
def insert : AMap K V → K → V → AMap K V
  | [], k, v => [(k, v)]
  | (k', v') :: m, k, v => if k' = k then (k, v) :: m else (k', v') :: insert m k v

/-- `HashMap::remove`. -/
def erase : AMap K V → K → AMap K V
  | [], _ => []
  | (k', v') :: m, k => if k' = k then erase m k else (k', v') :: erase m k

def keys (m : AMap K V) : List K := m.map Prod.fst

end AMap

/-- `HashSet::insert` on a duplicate-free list. -/
def setInsert {α : Type} [DecidableEq α] (s : List α) (a : α) : List α :=
  if a ∈ s then s else s ++ [a]

/-! ### `UniqueQueue` -/

/-- `src/util.rs:159-165`. -/
structure UniqueQueue (α : Type) where
  set : List α
  queue : List α
deriving DecidableEq, Repr

namespace UniqueQueue
variable {α : Type} [DecidableEq α]

/-- `src/util.rs:167-177`. -/
def empty : UniqueQueue α := ⟨[], []⟩

/-- `src/util.rs:183-187`: push to the back of the queue unless in the set. -/
def insert (q : UniqueQueue α) (t : α) : UniqueQueue α :=
  if t ∈ q.set then q else ⟨q.set ++ [t], q.queue ++ [t]⟩

/-- `src/util.rs:189-196`. -/
def extend (q : UniqueQueue α) (ts : List α) : UniqueQueue α :=
  ts.foldl insert q

/-- `src/util.rs:198-202`. -/
def pop (q : UniqueQueue α) : Option (α × UniqueQueue α) :=
  match q.queue with
  | [] => none
  | t :: rest => some (t, ⟨q.set.filter (fun x => decide (x ≠ t)), rest⟩)

/-- `src/util.rs:204-208` (the result; the `debug_assert_eq!` is theorem
`UniqueQueue.isEmpty_set`). -/
def isEmpty (q : UniqueQueue α) : Bool := q.queue.isEmpty

end UniqueQueue

/-- `concat_vecs`, `src/util.rs:105-110`. -/
def concatVecs {α : Type} (to frm : List α) : List α :=
  if to.length < frm.length then frm ++ to else to ++ frm

end Egg
