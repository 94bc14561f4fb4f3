import Verif.Model.Explain
/-
Model of the e-graph data structure: `src/egraph.rs`, `src/eclass.rs`.
-/
namespace Egg

/-- The parts of `trait Language` (`src/language.rs:35-51`) beyond operator and
children: the discriminant and the total order (`Ord` supertrait) used to sort
the e-nodes of a class.  The order laws are those `Ord` requires. -/
class Lang (Op : Type) [DecidableEq Op] where
  Disc : Type
  decDisc : DecidableEq Disc
  disc : Op → Disc
  le : ENode Op → ENode Op → Bool
  le_total : ∀ a b, le a b = true ∨ le b a = true
  le_trans : ∀ a b c, le a b = true → le b c = true → le a c = true
  le_antisymm : ∀ a b, le a b = true → le b a = true → a = b

instance {Op : Type} [DecidableEq Op] [Lang Op] : DecidableEq (Lang.Disc Op) := Lang.decDisc

/-- `src/eclass.rs:11-23` `EClass { id, nodes, data, parents }`. -/
structure EClass (Op D : Type) where
  id : Id
  nodes : List (ENode Op)
  data : D
  parents : List Id

/-- `src/egraph.rs:54-89` `EGraph`.  The `analysis` value is passed to the
functions separately (`Analysis` below).  `pending` is the `Vec` read as a
stack: the head of the list is the last element of the vector. -/
structure EGraph (Op : Type) [DecidableEq Op] [Lang Op] (D : Type) where
  explain : Option (Explain Op)
  uf : UF
  nodes : List (ENode Op)
  memo : AMap (ENode Op) Id
  pending : List Id
  apending : UniqueQueue Id
  classes : AMap Id (EClass Op D)
  byOp : AMap (Lang.Disc Op) (List Id)
  clean : Bool

variable {Op D : Type} [DecidableEq Op] [Lang Op]

/-- `src/language.rs:797-880` `trait Analysis`.  `merge` returns the new first
datum and the two components of `DidMerge`.  Simplifications: the analysis value
itself is immutable, `make`/`remake` only read the e-graph, `pre_union` (which
can only read) is dropped. -/
structure Analysis (Op : Type) [DecidableEq Op] [Lang Op] (D : Type) where
  make : EGraph Op D → ENode Op → Id → Res D
  remake : EGraph Op D → ENode Op → Id → Res D
  merge : D → D → D × Bool × Bool
  modify : EGraph Op D → Id → Res (EGraph Op D)
  allowCycles : Bool

/-- `impl Analysis for ()`, `src/language.rs:883-890`, with the default methods. -/
def Analysis.unit : Analysis Op Unit where
  make := fun _ _ _ => .ok ()
  remake := fun _ _ _ => .ok ()
  merge := fun _ _ => ((), false, false)
  modify := fun eg _ => .ok eg
  allowCycles := true

namespace EGraph

/-- `src/egraph.rs:114-127` `EGraph::new`. -/
def new : EGraph Op D where
  explain := none
  uf := []
  nodes := []
  memo := []
  pending := []
  apending := UniqueQueue.empty
  classes := []
  byOp := []
  clean := false

/-- `src/egraph.rs:184-186` `total_size`. -/
def totalSize (eg : EGraph Op D) : Nat := eg.memo.length

/-- `src/egraph.rs:189-191` `total_number_of_nodes`. -/
def totalNumberOfNodes (eg : EGraph Op D) : Nat :=
  (eg.classes.map (fun kc => kc.2.nodes.length)).sum

/-- `src/egraph.rs:194-196` `number_of_classes`. -/
def numberOfClasses (eg : EGraph Op D) : Nat := eg.classes.length

/-- `src/egraph.rs:164-166` `is_empty`. -/
def isEmpty (eg : EGraph Op D) : Bool := eg.memo.isEmpty

/-- `src/egraph.rs:201-210` `with_explanations_enabled`. -/
def withExplanationsEnabled (eg : EGraph Op D) : Res (EGraph Op D) :=
  match eg.explain with
  | some _ => .ok eg
  | none => if eg.totalSize > 0 then .error .panic else .ok { eg with explain := some Explain.new }

/-- `src/egraph.rs:214-221` `without_explanation_length_optimization`. -/
def withoutExplanationLengthOptimization (eg : EGraph Op D) : Res (EGraph Op D) :=
  match eg.explain with
  | some x => .ok { eg with explain := some { x with optimize := false } }
  | none => .error .panic

/-- `src/egraph.rs:225-232` `with_explanation_length_optimization`. -/
def withExplanationLengthOptimization (eg : EGraph Op D) : Res (EGraph Op D) :=
  match eg.explain with
  | some x => .ok { eg with explain := some { x with optimize := true } }
  | none => .error .panic

/-- `src/egraph.rs:443-446` `with_explanations_disabled`. -/
def withExplanationsDisabled (eg : EGraph Op D) : EGraph Op D := { eg with explain := none }

/-- `src/egraph.rs:449-451` `are_explanations_enabled`. -/
def areExplanationsEnabled (eg : EGraph Op D) : Bool := eg.explain.isSome

/-- What is left of an e-graph after writing it with `serde` and reading it back, `src/egraph.rs:52-94`,
`src/explain.rs:49-72`: the fields marked `serde(skip)` get their default values.  (The derived code is
assumed to return all other fields as they were; hash maps may then have another iteration order, which
the model does not fix.) -/
def restored (eg : EGraph Op D) : EGraph Op D :=
  { eg with explain := eg.explain.map (fun x => { x with shortMemo := [] }), byOp := [], clean := false }

/-- `src/egraph.rs:570-572` `find`. -/
def find (eg : EGraph Op D) (i : Id) : Res Id := UF.find eg.uf i

/-- `src/egraph.rs:797-806` `egraph[id]`. -/
def index (eg : EGraph Op D) (i : Id) : Res (EClass Op D) := do
  let r ← eg.find i
  unwrap (eg.classes.get? r)

/-- `src/egraph.rs:140-145` `classes_for_op`. -/
def classesForOp (eg : EGraph Op D) (d : Lang.Disc Op) : Option (List Id) := eg.byOp.get? d

/-- `src/egraph.rs:390-392` `id_to_node`. -/
def idToNode (eg : EGraph Op D) (i : Id) : Res (ENode Op) := getIdx eg.nodes i

/-- Canonicalise the children of an e-node with `find`:
`enode.update_children(|id| self.find(id))`, `src/egraph.rs:935`. -/
def canon (eg : EGraph Op D) (n : ENode Op) : Res (ENode Op) := n.mapChildrenM eg.find

/-- `src/egraph.rs:930-937` `lookup_internal`. -/
def lookupInternal (eg : EGraph Op D) (n : ENode Op) : Res (Option Id) := do
  let n ← eg.canon n
  return eg.memo.get? n

/-- `src/egraph.rs:923-928` `lookup`. -/
def lookup (eg : EGraph Op D) (n : ENode Op) : Res (Option Id) := do
  match ← eg.lookupInternal n with
  | none => return none
  | some i => return some (← eg.find i)

/-- The loop of `lookup_expr_ids`, `src/egraph.rs:948-956`; `ids` are the ids of
the nodes already seen. -/
def lookupExprIdsGo (eg : EGraph Op D) : List (ENode Op) → List Id → Res (Option (List Id))
  | [], ids => .ok (some ids)
  | n :: rest, ids => do
    let n ← n.mapChildrenM (getIdx ids)
    match ← eg.lookup n with
    | none => return none
    | some i => lookupExprIdsGo eg rest (ids ++ [i])

/-- `src/egraph.rs:948-956` `lookup_expr_ids`. -/
def lookupExprIds (eg : EGraph Op D) (e : List (ENode Op)) : Res (Option (List Id)) :=
  eg.lookupExprIdsGo e []

/-- `src/egraph.rs:942-945` `lookup_expr`. -/
def lookupExpr (eg : EGraph Op D) (e : List (ENode Op)) : Res (Option Id) := do
  match ← eg.lookupExprIds e with
  | none => return none
  | some ids => return ids.getLast?

/-- `enode.for_each(|child| self[child].parents.push(id))`,
`src/egraph.rs:1062-1064`, using `index_mut` (`src/egraph.rs:808-818`). -/
def pushParents : EGraph Op D → List Id → Id → Res (EGraph Op D)
  | eg, [], _ => .ok eg
  | eg, c :: cs, id => do
    let (uf, r) ← UF.findMut eg.uf c
    let k ← unwrap (eg.classes.get? r)
    pushParents { eg with
      uf := uf
      classes := eg.classes.insert r { k with parents := k.parents ++ [id] } } cs id

/-- `src/egraph.rs:1048-1073` `make_new_eclass`. -/
def makeNewEClass (N : Analysis Op D) (eg : EGraph Op D) (enode original : ENode Op) :
    Res (EGraph Op D × Id) := do
  let (uf, id) := UF.makeSet eg.uf
  let eg := { eg with uf := uf }
  let data ← N.make eg original id
  let cls : EClass Op D := { id := id, nodes := [enode], data := data, parents := [] }
  let eg := { eg with nodes := eg.nodes ++ [original] }
  let eg ← eg.pushParents enode.children id
  let eg := { eg with
    pending := id :: eg.pending
    classes := eg.classes.insert id cls }
  if (eg.memo.get? enode).isSome then .error .panic
  else return ({ eg with memo := eg.memo.insert enode id }, id)

/-- `if let Some(explain) = self.explain.as_mut() { explain.add(original, id) }`,
`src/egraph.rs:1036-1038`. -/
def explainAdd (x : Option (Explain Op)) (n : ENode Op) (id : Id) : Res (Option (Explain Op)) :=
  match x with
  | none => .ok none
  | some x => do
    let x ← x.add n id
    return some x

/-- `src/egraph.rs:1014-1045` `add_uncanonical`. -/
def addUncanonical (N : Analysis Op D) (eg : EGraph Op D) (original : ENode Op) :
    Res (EGraph Op D × Id) := do
  let enode ← eg.canon original
  match eg.memo.get? enode with
  | some existing => do
    let id ← eg.find existing
    match eg.explain with
    | none => return (eg, existing)
    | some x =>
      match x.uncanonMemo.get? original with
      | some i => return (eg, i)
      | none => do
        let (uf, newId) := UF.makeSet eg.uf
        let x ← x.add original newId
        let uf ← UF.union uf id newId
        let x ← x.union existing newId .congruence
        return ({ eg with uf := uf, nodes := eg.nodes ++ [original], explain := some x }, newId)
  | none => do
    let (eg, id) ← makeNewEClass N eg enode original
    let x ← explainAdd eg.explain original id
    let eg := { eg with explain := x }
    let eg ← N.modify eg id
    return ({ eg with clean := false }, id)

/-- `src/egraph.rs:970-973` `add`. -/
def add (N : Analysis Op D) (eg : EGraph Op D) (n : ENode Op) : Res (EGraph Op D × Id) := do
  let (eg, i) ← addUncanonical N eg n
  return (eg, ← eg.find i)

/-- The loop of `add_expr_uncanonical`, `src/egraph.rs:841-856`. -/
def addExprGo (N : Analysis Op D) : EGraph Op D → List (ENode Op) → List Id →
    Res (EGraph Op D × List Id)
  | eg, [], ids => .ok (eg, ids)
  | eg, n :: rest, ids => do
    let n ← n.mapChildrenM (getIdx ids)
    let (eg, i) ← addUncanonical N eg n
    addExprGo N eg rest (ids ++ [i])

/-- `src/egraph.rs:841-856` `add_expr_uncanonical`. -/
def addExprUncanonical (N : Analysis Op D) (eg : EGraph Op D) (e : List (ENode Op)) :
    Res (EGraph Op D × Id) := do
  let (eg, ids) ← addExprGo N eg e []
  return (eg, ← unwrap ids.getLast?)

/-- `src/egraph.rs:833-836` `add_expr`. -/
def addExpr (N : Analysis Op D) (eg : EGraph Op D) (e : List (ENode Op)) :
    Res (EGraph Op D × Id) := do
  let (eg, i) ← addExprUncanonical N eg e
  return (eg, ← eg.find i)

/-- The state change of `perform_union` once both classes have been fetched,
`src/egraph.rs:1181-1200`, without the explanation and the `modify` hook:
`class2` (key `id2`) is merged into `class1` (key `id1`). -/
def linkClasses (N : Analysis Op D) (eg : EGraph Op D) (uf : UF) (id1 id2 : Id)
    (class1 class2 : EClass Op D) : EGraph Op D :=
  let m := N.merge class1.data class2.data
  let ap := if m.2.1 then eg.apending.extend class1.parents else eg.apending
  let ap := if m.2.2 then ap.extend class2.parents else ap
  { eg with
    uf := uf
    pending := class2.parents.reverse ++ eg.pending
    apending := ap
    classes := (eg.classes.erase id2).insert id1
      { class1 with
        data := m.1
        nodes := concatVecs class1.nodes class2.nodes
        parents := concatVecs class1.parents class2.parents } }

/-- `if let Some(explain) = &mut self.explain { explain.union(enode_id1, enode_id2,
rule.unwrap()) }`, `src/egraph.rs:1177-1179`. -/
def explainUnion (x : Option (Explain Op)) (e1 e2 : Id) (rule : Option Justification) :
    Res (Option (Explain Op)) :=
  match x with
  | none => .ok none
  | some x => do
    let j ← unwrap rule
    let x ← x.union e1 e2 j
    return some x

/-- `src/egraph.rs:1156-1204` `perform_union`. -/
def performUnion (N : Analysis Op D) (eg : EGraph Op D) (e1 e2 : Id)
    (rule : Option Justification) : Res (EGraph Op D × Bool) := do
  let eg := { eg with clean := false }
  let (uf, id1) ← UF.findMut eg.uf e1
  let (uf, id2) ← UF.findMut uf e2
  let eg := { eg with uf := uf }
  if id1 = id2 then
    match rule, eg.explain with
    | some (.rule s), some x => do
      let x ← x.alternateRewrite e1 e2 (.rule s)
      return ({ eg with explain := some x }, false)
    | _, _ => return (eg, false)
  else do
    let c1 ← unwrap (eg.classes.get? id1)
    let c2 ← unwrap (eg.classes.get? id2)
    let ids := if c1.parents.length < c2.parents.length then (id2, id1) else (id1, id2)
    let x ← explainUnion eg.explain e1 e2 rule
    let eg := { eg with explain := x }
    let uf ← UF.union eg.uf ids.1 ids.2
    let class2 ← unwrap (eg.classes.get? ids.2)
    let class1 ← unwrap ((eg.classes.erase ids.2).get? ids.1)
    if class1.id ≠ ids.1 then .error .panic
    else do
      let eg ← N.modify (linkClasses N eg uf ids.1 ids.2 class1 class2) ids.1
      return (eg, true)

/-- `src/egraph.rs:1128-1130` `union_trusted`. -/
def unionTrusted (N : Analysis Op D) (eg : EGraph Op D) (a b : Id) (reason : Symbol) :
    Res (EGraph Op D × Bool) :=
  performUnion N eg a b (some (.rule reason))

/-- `src/egraph.rs:1147-1154` `union`; `caller` stands for the interned call
site used as the reason when explanations are enabled. -/
def union (N : Analysis Op D) (eg : EGraph Op D) (a b : Id) (caller : Symbol := 0) :
    Res (EGraph Op D × Bool) :=
  if eg.explain.isSome then unionTrusted N eg a b caller else performUnion N eg a b none

/-- `src/egraph.rs:1211-1217` `set_analysis_data`. -/
def setAnalysisData (N : Analysis Op D) (eg : EGraph Op D) (i : Id) (d : D) :
    Res (EGraph Op D) := do
  let (uf, id) ← UF.findMut eg.uf i
  let k ← unwrap (eg.classes.get? id)
  N.modify { eg with
    uf := uf
    classes := eg.classes.insert id { k with data := d }
    apending := eg.apending.extend k.parents } id

/-! ### Rebuilding -/

/-- One iteration of the congruence loop, `src/egraph.rs:1350-1359`, after
`class` was popped. -/
def pendingStep (N : Analysis Op D) (eg : EGraph Op D) (cls : Id) : Res (EGraph Op D × Bool) := do
  let node ← getIdx eg.nodes cls
  let (uf, cs) ← UF.findMutList eg.uf node.children
  let node := { node with children := cs }
  let old := eg.memo.get? node
  let eg := { eg with uf := uf, memo := eg.memo.insert node cls }
  match old with
  | none => return (eg, false)
  | some memoClass => performUnion N eg memoClass cls (some .congruence)

/-- The inner loop over `pending`, `src/egraph.rs:1350-1359`. -/
def pendingLoop (N : Analysis Op D) : Nat → EGraph Op D → Nat → Res (EGraph Op D × Nat)
  | 0, _, _ => .error .fuel
  | f + 1, eg, k =>
    match eg.pending with
    | [] => .ok (eg, k)
    | cls :: rest => do
      let (eg, b) ← pendingStep N { eg with pending := rest } cls
      pendingLoop N f eg (if b then k + 1 else k)

/-- One iteration of the analysis loop, `src/egraph.rs:1361-1372`, after
`classId` was popped. -/
def analysisStep (N : Analysis Op D) (eg : EGraph Op D) (classId : Id) : Res (EGraph Op D) := do
  let node ← getIdx eg.nodes classId
  let (uf, r) ← UF.findMut eg.uf classId
  let eg := { eg with uf := uf }
  let d ← N.remake eg node r
  let k ← unwrap (eg.classes.get? r)
  let m := N.merge k.data d
  let eg := { eg with classes := eg.classes.insert r { k with data := m.1 } }
  if m.2.1 then N.modify { eg with apending := eg.apending.extend k.parents } r
  else return eg

/-- The inner loop over `analysis_pending`, `src/egraph.rs:1361-1372`. -/
def analysisLoop (N : Analysis Op D) : Nat → EGraph Op D → Res (EGraph Op D)
  | 0, _ => .error .fuel
  | f + 1, eg =>
    match eg.apending.pop with
    | none => .ok eg
    | some (classId, q) => do
      let eg ← analysisStep N { eg with apending := q } classId
      analysisLoop N f eg

/-- `src/egraph.rs:1346-1378` `process_unions`; returns the number of unions. -/
def processUnions (N : Analysis Op D) : Nat → EGraph Op D → Nat → Res (EGraph Op D × Nat)
  | 0, _, _ => .error .fuel
  | f + 1, eg, k =>
    if eg.pending.isEmpty && eg.apending.isEmpty then .ok (eg, k)
    else do
      let (eg, k) ← pendingLoop N f eg k
      let eg ← analysisLoop N f eg
      processUnions N f eg k

/-- Insertion into a sorted list; `sort_unstable` (`src/egraph.rs:1277`) is
modelled by insertion sort: for a total order every sort gives this list. -/
def insertSorted {α : Type} (le : α → α → Bool) (a : α) : List α → List α
  | [] => [a]
  | b :: l => if le a b then a :: b :: l else b :: insertSorted le a l

def sortBy {α : Type} (le : α → α → Bool) : List α → List α
  | [] => []
  | a :: l => insertSorted le a (sortBy le l)

/-- `Vec::dedup`: drop an element equal to its predecessor. -/
def dedupAdj {α : Type} [DecidableEq α] : List α → List α
  | [] => []
  | [a] => [a]
  | a :: b :: l => if a = b then dedupAdj (b :: l) else a :: dedupAdj (b :: l)

/-- Canonicalise a list of e-nodes with path compression,
`src/egraph.rs:1273-1276`. -/
def canonNodes : UF → List (ENode Op) → Res (UF × List (ENode Op))
  | uf, [] => .ok (uf, [])
  | uf, n :: ns => do
    let (uf, cs) ← UF.findMutList uf n.children
    let (uf, ns) ← canonNodes uf ns
    return (uf, { n with children := cs } :: ns)

/-- The closure `add` of `rebuild_classes`, `src/egraph.rs:1282-1287`. -/
def addByOp (byOp : AMap (Lang.Disc Op) (List Id)) (n : ENode Op) (id : Id) :
    AMap (Lang.Disc Op) (List Id) :=
  let d := Lang.disc n.op
  byOp.insert d (setInsert ((byOp.get? d).getD []) id)

/-- The loop of `rebuild_classes` over the remaining nodes of a class,
`src/egraph.rs:1292-1298`. -/
def indexRest (id : Id) : AMap (Lang.Disc Op) (List Id) → ENode Op → List (ENode Op) →
    AMap (Lang.Disc Op) (List Id)
  | byOp, _, [] => byOp
  | byOp, prev, n :: ns =>
    if prev.matches n then indexRest id byOp prev ns
    else indexRest id (addByOp byOp n id) n ns

/-- `src/egraph.rs:1291-1299`. -/
def indexClass (id : Id) (byOp : AMap (Lang.Disc Op) (List Id)) (ns : List (ENode Op)) :
    AMap (Lang.Disc Op) (List Id) :=
  match ns with
  | [] => byOp
  | n :: ns => indexRest id (addByOp byOp n id) n ns

/-- The loop over `classes.values_mut()` of `rebuild_classes`,
`src/egraph.rs:1269-1300`. -/
def rebuildClassesGo : UF → AMap (Lang.Disc Op) (List Id) → AMap Id (EClass Op D) → Nat →
    Res (UF × AMap (Lang.Disc Op) (List Id) × AMap Id (EClass Op D) × Nat)
  | uf, byOp, [], t => .ok (uf, byOp, [], t)
  | uf, byOp, (key, c) :: rest, t => do
    let (uf, ns) ← canonNodes uf c.nodes
    let ns := dedupAdj (sortBy Lang.le ns)
    let t := t + (c.nodes.length - ns.length)
    let byOp := indexClass c.id byOp ns
    let (uf, byOp, rest, t) ← rebuildClassesGo uf byOp rest t
    return (uf, byOp, (key, { c with nodes := ns }) :: rest, t)

/-- `src/egraph.rs:1262-1309` `rebuild_classes`; the index entries are cleared
but their keys are kept. -/
def rebuildClasses (eg : EGraph Op D) : Res (EGraph Op D × Nat) := do
  let byOp := eg.byOp.map (fun kv => (kv.1, []))
  let (uf, byOp, classes, t) ← rebuildClassesGo eg.uf byOp eg.classes 0
  return ({ eg with uf := uf, byOp := byOp, classes := classes }, t)

/-- `src/egraph.rs:1416-1446` `rebuild`; returns the number of unions. -/
def rebuild (N : Analysis Op D) (fuel : Nat) (eg : EGraph Op D) : Res (EGraph Op D × Nat) := do
  let (eg, n) ← processUnions N fuel eg 0
  let (eg, _) ← rebuildClasses eg
  return ({ eg with clean := true }, n)

/-- `src/egraph.rs:432-440` `get_union_equalities`. -/
def getUnionEqualities (eg : EGraph Op D) : Res (List (Id × Id × Symbol)) :=
  match eg.explain with
  | some x => .ok x.unionEqualities
  | none => .error .panic

end EGraph
end Egg
