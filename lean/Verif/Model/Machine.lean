import Verif.Model.RecExpr
/-
Model of e-matching: variables and substitutions (`src/subst.rs`), patterns
(`src/pattern.rs`), the pattern compiler and the abstract machine
(`src/machine.rs`), `EClass::for_each_matching_node` (`src/eclass.rs:69-114`).
-/
namespace Egg

/-- `src/subst.rs:16-48` `Var`: a symbol (given by its text, which starts with
`?`; interning is injective) or a number. -/
inductive Var where
  | sym (s : List Char)
  | num (n : Nat)
deriving DecidableEq, Repr

/-- `src/subst.rs:107-110` `Subst`. -/
abbrev Subst := List (Var × Id)

namespace Subst

/-- `src/subst.rs:121-129` `insert`: the new substitution and the old value. -/
def insert : Subst → Var → Id → Subst × Option Id
  | [], v, i => ([(v, i)], none)
  | (w, j) :: s, v, i =>
    if w = v then ((w, i) :: s, some j)
    else let r := insert s v i; ((w, j) :: r.1, r.2)

/-- `src/subst.rs:133-137` `get`. -/
def get : Subst → Var → Option Id
  | [], _ => none
  | (w, j) :: s, v => if w = v then some j else get s v

/-- `src/subst.rs:140-149` indexing: panics when absent. -/
def index (s : Subst) (v : Var) : Res Id := unwrap (s.get v)

end Subst

/-- Operators of pattern nodes.  `src/pattern.rs:135-141` `ENodeOrVar<L>` is modelled
by `ENode (PatOp Op)`: `ENode(n)` is `⟨.op n.op, n.children⟩`, `Var(v)` is
`⟨.var v, []⟩`.  (A variable node with children has no counterpart; `PatWF`
excludes it.) -/
inductive PatOp (Op : Type) where
  | op (o : Op)
  | var (v : Var)
deriving DecidableEq, Repr

/-- `src/pattern.rs:74` `PatternAst<L> = RecExpr<ENodeOrVar<L>>`. -/
abbrev PatternAst (Op : Type) := List (ENode (PatOp Op))

/-- `ENodeOrReg<L>`, `src/machine.rs:31-35`. -/
inductive ENodeOrReg (Op : Type) where
  | enode (n : ENode Op)
  | reg (r : Nat)
deriving DecidableEq, Repr

/-- `Instruction<L>`, `src/machine.rs:23-29`.  Registers are numbers. -/
inductive Instr (Op : Type) where
  | bind (node : ENode Op) (i out : Nat)
  | compare (i j : Nat)
  | lookup (term : List (ENodeOrReg Op)) (i : Nat)
  | scan (out : Nat)
deriving DecidableEq, Repr

/-- `Program<L>`, `src/machine.rs:17-21`. -/
structure Program (Op : Type) where
  instrs : List (Instr Op)
  subst : List (Var × Nat)
deriving DecidableEq, Repr

variable {Op D : Type} [DecidableEq Op] [Lang Op]

/-! ### The machine -/

/-- `slice::binary_search(node).unwrap_or_else(|i| i)` on a strictly sorted slice:
the number of elements smaller than `node` (any correct binary search returns
this). -/
def searchStart (nodes : List (ENode Op)) (node : ENode Op) : Nat :=
  (nodes.takeWhile (fun n => Lang.le n node && decide (n ≠ node))).length

/-- The loop `src/eclass.rs:88-94`: walk back while the preceding e-node has the
discriminant `d`. -/
def walkBack (nodes : List (ENode Op)) (d : Lang.Disc Op) : Nat → Nat
  | 0 => 0
  | start + 1 =>
    match nodes[start]? with
    | some n => if Lang.disc n.op = d then walkBack nodes d start else start + 1
    | none => start + 1

/-- The e-nodes on which `for_each_matching_node` calls its closure, in order,
`src/eclass.rs:69-114`. -/
def matchingNodes (nodes : List (ENode Op)) (node : ENode Op) : List (ENode Op) :=
  if nodes.length < 50 then nodes.filter (fun n => node.matches n)
  else
    let d := Lang.disc node.op
    let start := walkBack nodes d (searchStart nodes node)
    ((nodes.drop start).takeWhile (fun n => decide (Lang.disc n.op = d))).filter (fun n => node.matches n)

/-- The mutable state during a run: registers of the machine, matches found so
far and remaining limit (the last two belong to the closure
`src/machine.rs:321-338`). -/
structure MState where
  reg : List Id
  found : List Subst
  limit : Nat
deriving DecidableEq, Repr

/-- `Iterator::try_for_each` over a list, with state; the `Bool` is `true` for
`Ok(())` and `false` for `Err(())`. -/
def tryForEach {α σ : Type} (f : α → σ → Res (σ × Bool)) : List α → σ → Res (σ × Bool)
  | [], s => .ok (s, true)
  | a :: l, s => do
    let (s, b) ← f a s
    if b then tryForEach f l s else return (s, false)

/-- The `for node in term` loop of a `Lookup`, `src/machine.rs:82-95`; `none`
means that a node was not found. -/
def lookupTerm (eg : EGraph Op D) (reg : List Id) : List (ENodeOrReg Op) → List Id → Res (Option (List Id))
  | [], buf => .ok (some buf)
  | .enode n :: rest, buf => do
    let n ← n.mapChildrenM (getIdx buf)
    match ← eg.lookup n with
    | some i => lookupTerm eg reg rest (buf ++ [i])
    | none => return none
  | .reg r :: rest, buf => do
    let x ← getIdx reg r
    let i ← eg.find x
    lookupTerm eg reg rest (buf ++ [i])

/-- A `Lookup` instruction succeeds, `src/machine.rs:80-101`. -/
def lookupOk (eg : EGraph Op D) (reg : List Id) (term : List (ENodeOrReg Op)) (i : Nat) : Res Bool := do
  match ← lookupTerm eg reg term [] with
  | none => return false
  | some buf => do
    let x ← getIdx reg i
    let id ← eg.find x
    return decide (buf.getLast? = some id)

/-- `Machine::run`, `src/machine.rs:43-107`.  `order` are the ids of
`egraph.classes()` in iteration order; `yield` is the closure `yield_fn`. -/
def Machine.run (eg : EGraph Op D) (order : List Id) (yield : MState → Res (MState × Bool)) :
    List (Instr Op) → MState → Res (MState × Bool)
  | [], s => yield s
  | .bind node i out :: rest, s => do
    let x ← getIdx s.reg i
    let cls ← eg.index x
    tryForEach (fun m s => Machine.run eg order yield rest { s with reg := s.reg.take out ++ m.children })
      (matchingNodes cls.nodes node) s
  | .scan out :: rest, s =>
    tryForEach (fun c s => Machine.run eg order yield rest { s with reg := s.reg.take out ++ [c] }) order s
  | .compare i j :: rest, s => do
    let x ← getIdx s.reg i
    let y ← getIdx s.reg j
    let x ← eg.find x
    let y ← eg.find y
    if x ≠ y then return (s, true) else Machine.run eg order yield rest s
  | .lookup term i :: rest, s => do
    let b ← lookupOk eg s.reg term i
    if b then Machine.run eg order yield rest s else return (s, true)

/-- The substitution read off the registers, `src/machine.rs:329-334`. -/
def readSubst (subst : List (Var × Nat)) (reg : List Id) : Res Subst :=
  subst.mapM (fun vr => do return (vr.1, ← getIdx reg vr.2))

/-- The root class occurs among the other registers, `src/machine.rs:322-325`. -/
def rootAgain (reg : List Id) : Bool :=
  match reg with
  | [] => false
  | first :: rest => decide (first ∈ rest)

/-- The closure of `run_with_limit`, `src/machine.rs:321-338`. -/
def yieldFn (allowCycles : Bool) (subst : List (Var × Nat)) (s : MState) : Res (MState × Bool) :=
  if !allowCycles && rootAgain s.reg then .ok (s, true)
  else do
    let σ ← readSubst subst s.reg
    let s := { s with found := s.found ++ [σ], limit := s.limit - 1 }
    return (s, decide (s.limit ≠ 0))

/-- `Program::run_with_limit`, `src/machine.rs:296-344`. -/
def Program.runWithLimit (N : Analysis Op D) (eg : EGraph Op D) (order : List Id) (p : Program Op)
    (eclass : Id) (limit : Nat) : Res (List Subst) :=
  if !eg.clean then .error .panic
  else if limit = 0 then .ok []
  else do
    let (s, _) ← Machine.run eg order (yieldFn N.allowCycles p.subst) p.instrs
      { reg := [eclass], found := [], limit := limit }
    return s.found

/-! ### The compiler -/

/-- `Compiler<L>`, `src/machine.rs:109-116`. -/
structure Compiler (Op : Type) where
  v2r : AMap Var Nat
  freeVars : List (List Var)
  subtreeSize : List Nat
  todo : AMap (Id × Nat) (ENode Op)
  instrs : List (Instr Op)
  nextReg : Nat

namespace Compiler
omit [Lang Op]

/-- `src/machine.rs:119-128`. -/
def new : Compiler Op := ⟨[], [], [], [], [], 0⟩

/-- `add_todo`, `src/machine.rs:130-143`. -/
def addTodo (c : Compiler Op) (pattern : PatternAst Op) (id : Id) (reg : Nat) : Res (Compiler Op) := do
  let n ← getIdx pattern id
  match n.op with
  | .var v =>
    match c.v2r.get? v with
    | some j => return { c with instrs := c.instrs ++ [.compare reg j] }
    | none => return { c with v2r := c.v2r.insert v reg }
  | .op o => return { c with todo := c.todo.insert (id, reg) ⟨o, n.children⟩ }

/-- The loop of `load_pattern`, `src/machine.rs:150-167`.  Sets of variables are
lists without repetition. -/
def loadGo : List (ENode (PatOp Op)) → List (List Var) → List Nat → Res (List (List Var) × List Nat)
  | [], free, size => .ok (free, size)
  | n :: rest, free, size =>
    match n.op with
    | .var v => loadGo rest (free ++ [[v]]) (size ++ [0])
    | .op _ => do
      let fs ← n.children.mapM (getIdx free)
      let ss ← n.children.mapM (getIdx size)
      loadGo rest (free ++ [fs.flatten.foldl setInsert []]) (size ++ [1 + ss.sum])

/-- `load_pattern`, `src/machine.rs:145-168`. -/
def loadPattern (c : Compiler Op) (pattern : PatternAst Op) : Res (Compiler Op) := do
  let (free, size) ← loadGo pattern [] []
  return { c with freeVars := free, subtreeSize := size }

/-- The key of `next`, `src/machine.rs:175-184`. -/
def key (c : Compiler Op) (k : Id × Nat) : Res (Bool × Nat × Int) := do
  let fv ← getIdx c.freeVars k.1
  let nBound := (fv.filter (fun v => (c.v2r.get? v).isSome)).length
  let nFree := fv.length - nBound
  let size ← getIdx c.subtreeSize k.1
  return (decide (nFree = 0), nFree, -(size : Int))

/-- The order of the keys: lexicographic, `false < true`. -/
def keyLe (a b : Bool × Nat × Int) : Bool :=
  if a.1 ≠ b.1 then b.1
  else if a.2.1 ≠ b.2.1 then decide (a.2.1 < b.2.1)
  else decide (a.2.2 ≤ b.2.2)

/-- `Iterator::max_by_key`: the last of the maximal elements. -/
def maxByKey (c : Compiler Op) : List (Id × Nat) → Res (Option (Id × Nat × (Bool × Nat × Int)))
  | [] => .ok none
  | k :: l => do
    let m ← maxByKey c l
    let kk ← c.key k
    match m with
    | none => return some (k.1, k.2, kk)
    | some (i, r, mkey) => return if keyLe kk mkey then some (i, r, mkey) else some (k.1, k.2, kk)

/-- `next`, `src/machine.rs:170-191`.  `ord` is the iteration order of the hash map
`todo_nodes`, which is arbitrary (it may depend on everything done so far). -/
def next (ord : Compiler Op → List (Id × Nat)) (c : Compiler Op) :
    Res (Option ((Id × Nat) × ENode Op × Compiler Op)) := do
  match ← maxByKey c (ord c) with
  | none => return none
  | some (i, r, _) => do
    let n ← unwrap (c.todo.get? (i, r))
    return some ((i, r), n, { c with todo := c.todo.erase (i, r) })

/-- `is_ground_now`, `src/machine.rs:195-199`. -/
def isGroundNow (c : Compiler Op) (id : Id) : Res Bool := do
  let fv ← getIdx c.freeVars id
  return fv.all (fun v => (c.v2r.get? v).isSome)

/-- `self.v2r[v]` for the variables of an extracted term, `src/machine.rs:239-245`. -/
def toReg (v2r : AMap Var Nat) (n : ENode (PatOp Op)) : Res (ENodeOrReg Op) :=
  match n.op with
  | .op o => .ok (.enode ⟨o, n.children⟩)
  | .var v => do return .reg (← unwrap (v2r.get? v))

/-- The children loop `src/machine.rs:259-261`: child number `i` goes to register
`out + i`. -/
def addTodos (pattern : PatternAst Op) : Compiler Op → List Id → Nat → Res (Compiler Op)
  | c, [], _ => .ok c
  | c, ch :: chs, out => do
    let c ← c.addTodo pattern ch out
    addTodos pattern c chs (out + 1)

/-- The body of the loop of `compile`, `src/machine.rs:234-263`, for the chosen
todo entry `((id, reg), node)`; returns the new `next_out`. -/
def step (pattern : PatternAst Op) (fuel : Nat) (c : Compiler Op) (nextOut : Nat) (id : Id) (reg : Nat)
    (node : ENode Op) : Res (Compiler Op × Nat) := do
  let ground ← c.isGroundNow id
  if ground && !node.isLeaf then do
    let extracted ← RecExpr.extract fuel pattern id
    let term ← extracted.mapM (toReg c.v2r)
    return ({ c with instrs := c.instrs ++ [.lookup term reg] }, nextOut)
  else do
    let op := node.mapChildren (fun _ => 0)
    let c := { c with instrs := c.instrs ++ [.bind op reg nextOut] }
    let c ← addTodos pattern c node.children nextOut
    return (c, nextOut + node.children.length)

/-- The loop of `compile`, `src/machine.rs:234-263`. -/
def loop (ord : Compiler Op → List (Id × Nat)) (pattern : PatternAst Op) :
    Nat → Compiler Op → Nat → Res (Compiler Op × Nat)
  | 0, _, _ => .error .fuel
  | f + 1, c, nextOut => do
    match ← c.next ord with
    | none => return (c, nextOut)
    | some ((id, reg), node, c) => do
      let (c, nextOut) ← step pattern f c nextOut id reg node
      loop ord pattern f c nextOut

/-- The closure `add_new_pattern`, `src/machine.rs:209-216`. -/
def addNewPattern (c : Compiler Op) (pattern : PatternAst Op) (root : Id) : Res (Compiler Op) :=
  addTodo (if c.instrs.isEmpty then c else { c with instrs := c.instrs ++ [.scan c.nextReg] })
    pattern root c.nextReg

/-- The part of `compile` before the loop, `src/machine.rs:205-232`; also returns
`next_out`. -/
def start (c : Compiler Op) (binder : Option Var) (pattern : PatternAst Op) (root : Id) :
    Res (Compiler Op × Nat) :=
  match binder with
  | some v =>
    match c.v2r.get? v with
    | some i => do
      let c ← c.addTodo pattern root i
      return (c, c.nextReg)
    | none => do
      let c ← c.addNewPattern pattern root
      return ({ c with v2r := c.v2r.insert v c.nextReg }, c.nextReg + 1)
  | none => do
    let c ← c.addNewPattern pattern root
    return (c, c.nextReg + 1)

/-- `compile`, `src/machine.rs:201-265`. -/
def compile (ord : Compiler Op → List (Id × Nat)) (fuel : Nat) (c : Compiler Op) (binder : Option Var)
    (pattern : PatternAst Op) : Res (Compiler Op) := do
  let c ← c.loadPattern pattern
  let root ← RecExpr.root pattern
  let (c, nextOut) ← c.start binder pattern root
  let (c, nextOut) ← loop ord pattern fuel c nextOut
  return { c with nextReg := nextOut }

/-- `extract`, `src/machine.rs:267-276`.  (`v2r` has unique keys, so inserting one
by one into an empty `Subst` gives the same list.) -/
def extract (c : Compiler Op) : Program Op :=
  { instrs := c.instrs, subst := c.v2r.foldl (fun s vr => (Subst.insert s vr.1 vr.2).1) [] }

/-- The loop of `compile_from_multi_pat`, `src/machine.rs:290-292`. -/
def compileAll (ord : Compiler Op → List (Id × Nat)) (fuel : Nat) :
    Compiler Op → List (Var × PatternAst Op) → Res (Compiler Op)
  | c, [] => .ok c
  | c, (v, p) :: rest => do
    let c ← c.compile ord fuel (some v) p
    compileAll ord fuel c rest

end Compiler

omit [Lang Op] in
/-- `compile_from_pat`, `src/machine.rs:280-286`. -/
def Program.compileFromPat (ord : Compiler Op → List (Id × Nat)) (fuel : Nat) (pattern : PatternAst Op) :
    Res (Program Op) := do
  let c ← Compiler.new.compile ord fuel none pattern
  return c.extract

omit [Lang Op] in
/-- `compile_from_multi_pat`, `src/machine.rs:288-294`. -/
def Program.compileFromMultiPat (ord : Compiler Op → List (Id × Nat)) (fuel : Nat)
    (ps : List (Var × PatternAst Op)) : Res (Program Op) := do
  let c ← Compiler.compileAll ord fuel Compiler.new ps
  return c.extract

/-! ### Patterns as searchers -/

/-- `Pattern<L>`, `src/pattern.rs:65-70`. -/
structure Pattern (Op : Type) where
  ast : PatternAst Op
  program : Program Op

omit [Lang Op] in
/-- `Pattern::new`, `src/pattern.rs:106-110`. -/
def Pattern.new (ord : Compiler Op → List (Id × Nat)) (fuel : Nat) (ast : PatternAst Op) : Res (Pattern Op) := do
  let ast ← RecExpr.compact ast
  let program ← Program.compileFromPat ord fuel ast
  return { ast := ast, program := program }

/-- The variables of a list of pattern nodes, first occurrences, `src/pattern.rs:115-121`. -/
def patVars : List (ENode (PatOp Op)) → List Var → List Var
  | [], vars => vars
  | n :: rest, vars =>
    match n.op with
    | .var v => patVars rest (if v ∈ vars then vars else vars ++ [v])
    | .op _ => patVars rest vars

/-- `Pattern::vars`, `src/pattern.rs:113-123`. -/
def Pattern.vars (p : Pattern Op) : List Var := patVars p.ast []

/-- `SearchMatches`, `src/pattern.rs:286-293`. -/
structure SearchMatches (Op : Type) where
  eclass : Id
  substs : List Subst
  ast : Option (PatternAst Op)

/-- Iteration orders of the hash tables read by a search: `egraph.classes()` and
the sets of `classes_for_op`. -/
structure IterOrd where
  classes : List Id
  byOp : List Id → List Id

/-- `search_eclasses_with_limit`, `src/rewrite.rs:140-168`. -/
def searchEclassesWithLimit (search : Id → Nat → Res (Option (SearchMatches Op))) :
    List Id → Nat → Res (List (SearchMatches Op))
  | [], _ => .ok []
  | c :: cs, limit =>
    if limit = 0 then .ok []
    else do
      match ← search c limit with
      | none => searchEclassesWithLimit search cs limit
      | some m =>
        if m.substs.length ≤ limit then do
          let ms ← searchEclassesWithLimit search cs (limit - m.substs.length)
          return m :: ms
        else .error .panic

/-- `Pattern::search_eclass_with_limit`, `src/pattern.rs:318-335`. -/
def Pattern.searchEclassWithLimit (N : Analysis Op D) (eg : EGraph Op D) (ord : IterOrd) (p : Pattern Op)
    (eclass : Id) (limit : Nat) : Res (Option (SearchMatches Op)) := do
  let substs ← p.program.runWithLimit N eg ord.classes eclass limit
  if substs.isEmpty then return none
  else return some { eclass := eclass, substs := substs, ast := some p.ast }

/-- `Pattern::search_with_limit`, `src/pattern.rs:300-316`. -/
def Pattern.searchWithLimit (N : Analysis Op D) (eg : EGraph Op D) (ord : IterOrd) (p : Pattern Op)
    (limit : Nat) : Res (List (SearchMatches Op)) := do
  let n ← unwrap p.ast.getLast?
  match n.op with
  | .op o =>
    match eg.classesForOp (Lang.disc o) with
    | none => return []
    | some ids => searchEclassesWithLimit (p.searchEclassWithLimit N eg ord) (ord.byOp ids) limit
  | .var _ => searchEclassesWithLimit (p.searchEclassWithLimit N eg ord) ord.classes limit

end Egg
