import Verif.Model.Rewrite
import Verif.Model.IdToExpr
/-
Model of the operations on whole e-graphs: `copy_without_unions`, `egraph_union`,
`egraph_intersect`, `src/egraph.rs:234-357`.
-/
namespace Egg
namespace EGraph
variable {Op D : Type} [DecidableEq Op] [Lang Op]

/-- The loop of `copy_without_unions`, `src/egraph.rs:242-244`. -/
def addNodes (N : Analysis Op D) : EGraph Op D → List (ENode Op) → Res (EGraph Op D)
  | eg, [] => .ok eg
  | eg, n :: rest => do
    let (eg, _) ← eg.add N n
    addNodes N eg rest

/-- `src/egraph.rs:235-246` `copy_without_unions`. -/
def copyWithoutUnions (N : Analysis Op D) (eg : EGraph Op D) : Res (EGraph Op D) :=
  match eg.explain with
  | none => .error .panic
  | some _ => addNodes N EGraph.new eg.nodes

/-- The loop of `egraph_union`, `src/egraph.rs:251-258`; `varOf`, `ord` and `cfuel` are the
parameters of `idToPattern`. -/
def egraphUnionGo (N : Analysis Op D) (varOf : Id → Var) (ord : Compiler Op → List (Id × Nat)) (cfuel : Nat)
    {D2 : Type} (other : EGraph Op D2) : EGraph Op D → List (Id × Id × Symbol) → Res (EGraph Op D)
  | eg, [] => .ok eg
  | eg, (left, right, why) :: rest => do
    let (p1, _) ← other.idToPattern varOf ord cfuel left []
    let (p2, _) ← other.idToPattern varOf ord cfuel right []
    let (eg, _, _) ← eg.unionInstantiations N p1.ast p2.ast [] why
    egraphUnionGo N varOf ord cfuel other eg rest

/-- `src/egraph.rs:249-260` `egraph_union`.  (More general than the code: the analysis of the
other e-graph may have data of another type.) -/
def egraphUnion (N : Analysis Op D) (varOf : Id → Var) (ord : Compiler Op → List (Id × Nat)) (cfuel fuel : Nat)
    {D2 : Type} (eg : EGraph Op D) (other : EGraph Op D2) : Res (EGraph Op D) := do
  let unions ← other.getUnionEqualities
  let eg ← egraphUnionGo N varOf ord cfuel other eg unions
  let (eg, _) ← eg.rebuild N fuel
  return eg

/-! ### Intersection -/

/-- `src/egraph.rs:317-325` `get_product_id`. -/
def getProductId (pm : AMap (Id × Id) Id) (c1 c2 : Id) : AMap (Id × Id) Id × Id :=
  match pm.get? (c1, c2) with
  | some i => (pm, i)
  | none => (pm.insert (c1, c2) pm.length, pm.length)

/-- The loop over `children1.iter().zip(children2.iter())`, `src/egraph.rs:343-351`; returns the
new ids of the children. -/
def productChildren {D2 : Type} (g1 : EGraph Op D) (g2 : EGraph Op D2) :
    AMap (Id × Id) Id → List (Id × Id) → Res (AMap (Id × Id) Id × List Id)
  | pm, [] => .ok (pm, [])
  | pm, (a, b) :: rest => do
    let r1 ← g1.find a
    let r2 ← g2.find b
    let (pm, p) := getProductId pm r1 r2
    let (pm, ps) ← productChildren g1 g2 pm rest
    return (pm, p :: ps)

/-- State of the intersection: `product_map` and `enodes`. -/
abbrev Product (Op : Type) := AMap (Id × Id) Id × List (ENode Op × Id)

/-- Body of the loops of `intersect_classes`, `src/egraph.rs:338-354`. -/
def intersectNodes {D2 : Type} (g1 : EGraph Op D) (g2 : EGraph Op D2) (resId : Id) (n1 : ENode Op)
    (st : Product Op) (n2 : ENode Op) : Res (Product Op) :=
  if n1.matches n2 then do
    let (pm, ps) ← productChildren g1 g2 st.1 (n1.children.zip n2.children)
    return (pm, st.2 ++ [({ n1 with children := ps ++ n1.children.drop ps.length }, resId)])
  else .ok st

/-- `src/egraph.rs:327-357` `intersect_classes`. -/
def intersectClasses {D2 : Type} (g1 : EGraph Op D) (g2 : EGraph Op D2) (c1 : Id) (st : Product Op) (c2 : Id) :
    Res (Product Op) := do
  let (pm, resId) := getProductId st.1 c1 c2
  let k1 ← unwrap (g1.classes.get? c1)
  k1.nodes.foldlM (fun st n1 => do
    let k2 ← unwrap (g2.classes.get? c2)
    k2.nodes.foldlM (intersectNodes g1 g2 resId n1) st) (pm, st.2)

/-- State of `from_enodes`: `egraph`, `ids`. -/
abbrev FromEnodes (Op D : Type) [DecidableEq Op] [Lang Op] := EGraph Op D × AMap Id Id

/-- Body of the inner loop of `from_enodes`, `src/egraph.rs:269-287`; the Boolean of the state is
`did_something`.  `lookup` canonicalises the e-node in place. -/
def fromEnodesStep (N : Analysis Op D) (st : FromEnodes Op D × Bool) (x : ENode Op × Id) :
    Res (FromEnodes Op D × Bool) :=
  let (eg, ids) := st.1
  if x.1.children.all (fun c => (ids.get? c).isSome) then do
    let n ← x.1.mapChildrenM (fun c => unwrap (ids.get? c))
    match ← eg.lookup n with
    | some _ => return st
    | none => do
      let n ← eg.canon n
      let (eg, added) ← eg.add N n
      match ids.get? x.2 with
      | some existing => do
        let (eg, _) ← eg.union N existing added
        return ((eg, ids), true)
      | none => return ((eg, ids.insert x.2 added), true)
  else .ok st

/-- The outer loop of `from_enodes`, `src/egraph.rs:266-294`. -/
def fromEnodesLoop (N : Analysis Op D) (enodes : List (ENode Op × Id)) : Nat → FromEnodes Op D → Res (EGraph Op D)
  | 0, _ => .error .fuel
  | f + 1, st => do
    let (st, did) ← enodes.foldlM (fromEnodesStep N) (st, false)
    if did then fromEnodesLoop N enodes f st else return st.1

/-- `src/egraph.rs:262-297` `from_enodes`. -/
def fromEnodes (N : Analysis Op D) (fuel : Nat) (enodes : List (ENode Op × Id)) : Res (EGraph Op D) :=
  fromEnodesLoop N enodes fuel (EGraph.new, [])

/-- `src/egraph.rs:304-315` `egraph_intersect`; `cs1` and `cs2` are the ids of the classes of the
two e-graphs in iteration order.  (More general than the code: the three e-graphs may have
different analyses.) -/
def egraphIntersect {D1 D2 : Type} (N : Analysis Op D) (fuel : Nat) (g1 : EGraph Op D1) (g2 : EGraph Op D2)
    (cs1 cs2 : List Id) : Res (EGraph Op D) := do
  let (_, enodes) ← cs1.foldlM (fun st c1 => cs2.foldlM (intersectClasses g1 g2 c1) st) (([], []) : Product Op)
  fromEnodes N fuel enodes

end EGraph
end Egg
