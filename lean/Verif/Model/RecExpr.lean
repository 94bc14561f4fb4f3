import Verif.Model.EGraph
/-
Model of the `RecExpr` operations of `src/language.rs`.  A `RecExpr` is its list
of nodes (`src/language.rs:380-382`).
-/
namespace Egg
variable {Op : Type}

/-- `IndexSet::insert_full` (index part and new set): position of the element,
which is appended when absent. -/
def insertFull {α : Type} [DecidableEq α] (s : List α) (a : α) : List α × Nat :=
  match s.findIdx? (fun b => decide (b = a)) with
  | some i => (s, i)
  | none => (s ++ [a], s.length)

namespace RecExpr

/-- `src/language.rs:515-517` `root`: panics when empty. -/
def root (e : List (ENode Op)) : Res Id := if e.isEmpty then .error .panic else .ok (e.length - 1)

/-- `src/language.rs:464-473` `add`.  The `debug_assert!` is not modelled. -/
def add (e : List (ENode Op)) (n : ENode Op) : List (ENode Op) × Id := (e ++ [n], e.length)

/-- `src/language.rs:510-512` `is_dag`. -/
def isDagFrom : Nat → List (ENode Op) → Bool
  | _, [] => true
  | i, n :: rest => n.children.all (fun c => decide (c < i)) && isDagFrom (i + 1) rest

/-- `src/language.rs:510-512` `is_dag`. -/
def isDag (e : List (ENode Op)) : Bool := isDagFrom 0 e

/-- The loop of `compact`, `src/language.rs:478-482`; `ids` holds the new id of
every node already seen (the `HashMap` has the keys `0..i`, so it is a list). -/
def compactGo [DecidableEq Op] : List (ENode Op) → List (ENode Op) → List Id → Res (List (ENode Op))
  | [], set, _ => .ok set
  | n :: rest, set, ids => do
    let n ← n.mapChildrenM (getIdx ids)
    let (set, i) := insertFull set n
    compactGo rest set (ids ++ [i])

/-- `src/language.rs:475-485` `compact`. -/
def compact [DecidableEq Op] (e : List (ENode Op)) : Res (List (ENode Op)) := compactGo e [] []

/-- State of the loop of `try_build_recexpr`: `set`, `ids` and `todo` of
`src/language.rs:190-192`.  The head of `todo` is the last element of the vector. -/
structure Build (Op : Type) where
  set : List (ENode Op)
  ids : AMap Id Id
  todo : List Id

/-- One iteration of the loop of `try_build_recexpr`, `src/language.rs:194-218`,
for the last element `id` of `todo`. -/
def buildStep [DecidableEq Op] (getNode : Id → Res (ENode Op)) (b : Build Op) (id : Id) (rest : List Id) :
    Res (Build Op) :=
  if (b.ids.get? id).isSome then .ok { b with todo := rest }
  else do
    let node ← getNode id
    let missing := node.children.filter (fun c => (b.ids.get? c).isNone)
    if missing.isEmpty then do
      let node ← node.mapChildrenM (fun c => unwrap (b.ids.get? c))
      let si := insertFull b.set node
      return { set := si.1, ids := b.ids.insert id si.2, todo := rest }
    else return { b with todo := missing.reverse ++ id :: rest }

/-- The loop of `try_build_recexpr`, `src/language.rs:194-218`. -/
def buildLoop [DecidableEq Op] (getNode : Id → Res (ENode Op)) : Nat → Build Op → Res (Build Op)
  | 0, _ => .error .fuel
  | f + 1, b =>
    match b.todo with
    | [] => .ok b
    | id :: rest => do
      let b ← buildStep getNode b id rest
      buildLoop getNode f b

/-- `src/language.rs:177-224` `build_recexpr` / `try_build_recexpr`: the node
`self`, closed off with the nodes given by `getNode` (whose errors abort). -/
def build [DecidableEq Op] (getNode : Id → Res (ENode Op)) (fuel : Nat) (self : ENode Op) :
    Res (List (ENode Op)) := do
  let b ← buildLoop getNode fuel { set := [], ids := [], todo := self.children.reverse }
  let last ← self.mapChildrenM (fun c => unwrap (b.ids.get? c))
  return b.set ++ [last]

/-- `src/language.rs:487-489` `extract`. -/
def extract [DecidableEq Op] (fuel : Nat) (e : List (ENode Op)) (newRoot : Id) : Res (List (ENode Op)) := do
  let n ← getIdx e newRoot
  build (getIdx e) fuel n

end RecExpr
end Egg
