import Verif.Model.EGraph
/-
The self-checks of debug builds: `check_memo` and the assertion at the end of `rebuild_classes`.
-/
namespace Egg
variable {Op D : Type} [DecidableEq Op] [Lang Op]
namespace EGraph

/-- `assert_eq!`: panics when the comparison fails. -/
def assertThat (b : Bool) : Res Unit := if b then .ok () else .error .panic

/-- `if let Some(old) = … { assert_eq!(self.find(old), self.find(id)) }`, `src/egraph.rs:1319-1328`. -/
def checkOld (eg : EGraph Op D) (id : Id) : Option Id → Res Unit
  | none => .ok ()
  | some old => do
    let a ← eg.find old
    let b ← eg.find id
    assertThat (a == b)

/-- `assert_eq!(Some(e), self.memo.get(n).map(|id| self.find(*id)))`, `src/egraph.rs:1334-1340`. -/
def checkEntry (eg : EGraph Op D) (e : Id) : Option Id → Res Unit
  | none => .error .panic
  | some i => do
    let j ← eg.find i
    assertThat (j == e)

/-- The inner loop of the first part of `check_memo`, `src/egraph.rs:1318-1329`: insert every e-node
of the class into `test_memo`; an earlier entry must be of an equal class.  (The message of the
assertion is not modelled.) -/
def checkMemoNodes (eg : EGraph Op D) (id : Id) : List (ENode Op) → AMap (ENode Op) Id → Res (AMap (ENode Op) Id)
  | [], tm => .ok tm
  | n :: ns, tm => do
    checkOld eg id (tm.get? n)
    checkMemoNodes eg id ns (tm.insert n id)

/-- The first loop of `check_memo`, `src/egraph.rs:1316-1330`, over the classes in the given order. -/
def checkMemoClasses (eg : EGraph Op D) : List (Id × EClass Op D) → AMap (ENode Op) Id → Res (AMap (ENode Op) Id)
  | [], tm => .ok tm
  | (id, k) :: rest, tm => do
    assertThat (k.id == id)
    let tm ← checkMemoNodes eg id k.nodes tm
    checkMemoClasses eg rest tm

/-- The second loop of `check_memo`, `src/egraph.rs:1332-1341`. -/
def checkMemoEntries (eg : EGraph Op D) : List (ENode Op × Id) → Res Unit
  | [] => .ok ()
  | (n, e) :: rest => do
    let r ← eg.find e
    assertThat (e == r)
    checkEntry eg e (eg.memo.get? n)
    checkMemoEntries eg rest

/-- `src/egraph.rs:1312-1344` `check_memo`, run by `rebuild` in debug builds (`src/egraph.rs:1443`).
`order` is the order in which the `HashMap` lists the classes, `order2` reorders the entries of
`test_memo` for the second loop. -/
def checkMemo (eg : EGraph Op D) (order : List (Id × EClass Op D))
    (order2 : List (ENode Op × Id) → List (ENode Op × Id)) : Res Unit := do
  let tm ← checkMemoClasses eg order []
  checkMemoEntries eg (order2 tm)

/-- The assertion at the end of `rebuild_classes`, `src/egraph.rs:1300-1304`: no class is listed twice
under an operator (for each key of the map, its value). -/
def checkIndex (eg : EGraph Op D) : Res Unit :=
  assertThat ((AMap.keys eg.byOp).all (fun d => (eg.classesForOp d).all (fun l => decide l.Nodup)))

end EGraph
end Egg
