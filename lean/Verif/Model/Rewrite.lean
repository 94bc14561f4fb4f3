import Verif.Model.Machine
/-
Model of rewrites: instantiation of patterns (`src/egraph.rs:860-896`,
`src/pattern.rs:345-431`), rewrites, searchers, appliers and conditions
(`src/rewrite.rs`), multi-patterns (`src/multipattern.rs`).
-/
namespace Egg
variable {Op D : Type} [DecidableEq Op] [Lang Op]

/-! ### Instantiating patterns -/

/-- The loop of `add_instantiation_noncanonical`, `src/egraph.rs:871-896`. -/
def EGraph.addInstGo (N : Analysis Op D) (subst : Subst) : EGraph Op D → List (ENode (PatOp Op)) → List Id →
    Res (EGraph Op D × List Id)
  | eg, [], ids => .ok (eg, ids)
  | eg, n :: rest, ids =>
    match n.op with
    | .var v => do
      let x ← subst.index v
      let x ← eg.find x
      addInstGo N subst eg rest (ids ++ [x])
    | .op o => do
      let m ← ENode.mapChildrenM (getIdx ids) { op := o, children := n.children }
      let (eg, i) ← eg.addUncanonical N m
      addInstGo N subst eg rest (ids ++ [i])

/-- `add_instantiation_noncanonical`, `src/egraph.rs:871-896`. -/
def EGraph.addInstantiationNoncanonical (N : Analysis Op D) (eg : EGraph Op D) (pat : PatternAst Op) (subst : Subst) :
    Res (EGraph Op D × Id) := do
  let (eg, ids) ← eg.addInstGo N subst pat []
  return (eg, ← unwrap ids.getLast?)

/-- `add_instantiation`, `src/egraph.rs:860-863`. -/
def EGraph.addInstantiation (N : Analysis Op D) (eg : EGraph Op D) (pat : PatternAst Op) (subst : Subst) :
    Res (EGraph Op D × Id) := do
  let (eg, i) ← eg.addInstantiationNoncanonical N pat subst
  return (eg, ← eg.find i)

/-- `union_instantiations`, `src/egraph.rs:1109-1121`. -/
def EGraph.unionInstantiations (N : Analysis Op D) (eg : EGraph Op D) (fromPat toPat : PatternAst Op) (subst : Subst)
    (ruleName : Symbol) : Res (EGraph Op D × Id × Bool) := do
  let (eg, id1) ← eg.addInstantiationNoncanonical N fromPat subst
  let (eg, id2) ← eg.addInstantiationNoncanonical N toPat subst
  let (eg, did) ← eg.performUnion N id1 id2 (some (.rule ruleName))
  return (eg, ← eg.find id1, did)

/-- The loop of `apply_pat`, `src/pattern.rs:418-428`: node number `i` of the
pattern is next, `ids` is the whole buffer. -/
def applyPatGo (N : Analysis Op D) (subst : Subst) : EGraph Op D → List (ENode (PatOp Op)) → Nat → List Id →
    Res (EGraph Op D × List Id)
  | eg, [], _, ids => .ok (eg, ids)
  | eg, n :: rest, i, ids =>
    match n.op with
    | .var v => do
      let x ← subst.index v
      applyPatGo N subst eg rest (i + 1) (ids.set i x)
    | .op o => do
      let m ← ENode.mapChildrenM (getIdx ids) { op := o, children := n.children }
      let (eg, x) ← eg.add N m
      applyPatGo N subst eg rest (i + 1) (ids.set i x)

/-- `apply_pat`, `src/pattern.rs:409-431`; returns the e-graph, the buffer and the
id of the root.  The buffer has the length of the pattern (`debug_assert_eq!`, line
415). -/
def applyPat (N : Analysis Op D) (ids : List Id) (pat : PatternAst Op) (eg : EGraph Op D) (subst : Subst) :
    Res (EGraph Op D × List Id × Id) := do
  let (eg, ids) ← applyPatGo N subst eg pat 0 ids
  return (eg, ids, ← unwrap ids.getLast?)

/-! ### Searchers and appliers -/

/-- `trait Searcher`, `src/rewrite.rs:176-227`, as a record of its methods
(`search_eclass` and `search` pass the limit `usize::MAX`). -/
structure Searcher (Op : Type) [DecidableEq Op] [Lang Op] (D : Type) where
  searchEclass : Analysis Op D → EGraph Op D → IterOrd → Id → Nat → Res (Option (SearchMatches Op))
  search : Analysis Op D → EGraph Op D → IterOrd → Nat → Res (List (SearchMatches Op))
  vars : List Var

/-- `trait Applier`, `src/rewrite.rs:333-403`, as a record of its methods. -/
structure Applier (Op : Type) [DecidableEq Op] [Lang Op] (D : Type) where
  applyMatches : Analysis Op D → EGraph Op D → List (SearchMatches Op) → Symbol → Res (EGraph Op D × List Id)
  applyOne : Analysis Op D → EGraph Op D → Id → Subst → Option (PatternAst Op) → Symbol → Res (EGraph Op D × List Id)
  vars : List Var

/-- `impl Searcher for Pattern`, `src/pattern.rs:295-340`. -/
def Pattern.searcher (p : Pattern Op) : Searcher Op D where
  searchEclass := fun N eg ord c limit => p.searchEclassWithLimit N eg ord c limit
  search := fun N eg ord limit => p.searchWithLimit N eg ord limit
  vars := p.vars

/-- Loop over the substitutions of one match in `Pattern::apply_matches`,
`src/pattern.rs:360-376`.  The call site that `union` records is only used when
explanations are enabled, in which case `union` is not called. -/
def Pattern.applySubsts (N : Analysis Op D) (p : Pattern Op) (sast : Option (PatternAst Op)) (eclass : Id) (rule : Symbol) :
    EGraph Op D → List Subst → List Id → List Id → Res (EGraph Op D × List Id × List Id)
  | eg, [], buf, added => .ok (eg, buf, added)
  | eg, s :: rest, buf, added =>
    if eg.explain.isSome then do
      let ast ← unwrap sast
      let (eg, i, did) ← eg.unionInstantiations N ast p.ast s rule
      applySubsts N p sast eclass rule eg rest buf (if did then added ++ [i] else added)
    else do
      let (eg, buf, i) ← applyPat N buf p.ast eg s
      let (eg, did) ← eg.union N i eclass
      applySubsts N p sast eclass rule eg rest buf (if did then added ++ [i] else added)

/-- Loop over the matches in `Pattern::apply_matches`, `src/pattern.rs:358-378`. -/
def Pattern.applyMatchesGo (N : Analysis Op D) (p : Pattern Op) (rule : Symbol) :
    EGraph Op D → List (SearchMatches Op) → List Id → List Id → Res (EGraph Op D × List Id)
  | eg, [], _, added => .ok (eg, added)
  | eg, m :: rest, buf, added => do
    let (eg, buf, added) ← p.applySubsts N m.ast m.eclass rule eg m.substs buf added
    applyMatchesGo N p rule eg rest buf added

/-- `Pattern::apply_matches`, `src/pattern.rs:351-380`. -/
def Pattern.applyMatches (N : Analysis Op D) (p : Pattern Op) (eg : EGraph Op D) (ms : List (SearchMatches Op))
    (rule : Symbol) : Res (EGraph Op D × List Id) :=
  p.applyMatchesGo N rule eg ms (List.replicate p.ast.length 0) []

/-- `Pattern::apply_one`, `src/pattern.rs:382-402`. -/
def Pattern.applyOne (N : Analysis Op D) (p : Pattern Op) (eg : EGraph Op D) (eclass : Id) (s : Subst)
    (searcherAst : Option (PatternAst Op)) (rule : Symbol) : Res (EGraph Op D × List Id) := do
  let (eg, _, i) ← applyPat N (List.replicate p.ast.length 0) p.ast eg s
  match searcherAst with
  | some ast => do
    let (eg, from', did) ← eg.unionInstantiations N ast p.ast s rule
    return (eg, if did then [from'] else [])
  | none => do
    let (eg, did) ← eg.union N eclass i
    return (eg, if did then [eclass] else [])

/-- `impl Applier for Pattern`, `src/pattern.rs:342-407`. -/
def Pattern.applier (p : Pattern Op) : Applier Op D where
  applyMatches := fun N eg ms rule => p.applyMatches N eg ms rule
  applyOne := fun N eg c s ast rule => p.applyOne N eg c s ast rule
  vars := p.vars

/-- Loop over the substitutions of one match in the default `apply_matches`,
`src/rewrite.rs:360-363`. -/
def applyEach (f : EGraph Op D → Subst → Res (EGraph Op D × List Id)) :
    EGraph Op D → List Subst → List Id → Res (EGraph Op D × List Id)
  | eg, [], added => .ok (eg, added)
  | eg, s :: rest, added => do
    let (eg, ids) ← f eg s
    applyEach f eg rest (added ++ ids)

/-- Default `Applier::apply_matches`, `src/rewrite.rs:347-366`. -/
def defaultApplyMatches (one : EGraph Op D → Id → Subst → Option (PatternAst Op) → Symbol → Res (EGraph Op D × List Id))
    (rule : Symbol) : EGraph Op D → List (SearchMatches Op) → List Id → Res (EGraph Op D × List Id)
  | eg, [], added => .ok (eg, added)
  | eg, m :: rest, added => do
    let ast := if eg.explain.isSome then m.ast else none
    let (eg, added) ← applyEach (fun eg s => one eg m.eclass s ast rule) eg m.substs added
    defaultApplyMatches one rule eg rest added

/-- `trait Condition`, `src/rewrite.rs:471-506`. -/
structure Condition (Op : Type) [DecidableEq Op] [Lang Op] (D : Type) where
  check : Analysis Op D → EGraph Op D → Id → Subst → Res (EGraph Op D × Bool)
  vars : List Var

/-- `ConditionalApplier::apply_one`, `src/rewrite.rs:439-453`. -/
def conditionalOne (c : Condition Op D) (a : Applier Op D) (N : Analysis Op D) (eg : EGraph Op D) (eclass : Id) (s : Subst)
    (ast : Option (PatternAst Op)) (rule : Symbol) : Res (EGraph Op D × List Id) := do
  let (eg, b) ← c.check N eg eclass s
  if b then a.applyOne N eg eclass s ast rule else return (eg, [])

/-- `impl Applier for ConditionalApplier`, `src/rewrite.rs:428-460` (with the default
`apply_matches`). -/
def Applier.conditional (c : Condition Op D) (a : Applier Op D) : Applier Op D where
  applyMatches := fun N eg ms rule =>
    defaultApplyMatches (fun eg i s ast rule => conditionalOne c a N eg i s ast rule) rule eg ms []
  applyOne := fun N eg i s ast rule => conditionalOne c a N eg i s ast rule
  vars := a.vars ++ c.vars

/-- `impl Condition for ConditionEqual`, `src/rewrite.rs:535-555`. -/
def Condition.equal (p1 p2 : Pattern Op) : Condition Op D where
  check := fun N eg _ s => do
    let (eg, _, a1) ← applyPat N (List.replicate p1.ast.length 0) p1.ast eg s
    let (eg, _, a2) ← applyPat N (List.replicate p2.ast.length 0) p2.ast eg s
    return (eg, decide (a1 = a2))
  vars := p1.vars ++ p2.vars

/-- `Rewrite`, `src/rewrite.rs:22-30`. -/
structure Rewrite (Op : Type) [DecidableEq Op] [Lang Op] (D : Type) where
  name : Symbol
  searcher : Searcher Op D
  applier : Applier Op D

/-- `Rewrite::new`, `src/rewrite.rs:67-88`; the error carries the unbound variable. -/
def Rewrite.new (name : Symbol) (searcher : Searcher Op D) (applier : Applier Op D) : Except Var (Rewrite Op D) :=
  match applier.vars.find? (fun v => decide (v ∉ searcher.vars)) with
  | some v => .error v
  | none => .ok { name := name, searcher := searcher, applier := applier }

/-! ### Multi-patterns -/

/-- `MultiPattern`, `src/multipattern.rs:26-29`. -/
structure MultiPattern (Op : Type) where
  asts : List (Var × PatternAst Op)
  program : Program Op

omit [Lang Op] in
/-- `MultiPattern::new`, `src/multipattern.rs:55-58`. -/
def MultiPattern.new (ord : Compiler Op → List (Id × Nat)) (fuel : Nat) (asts : List (Var × PatternAst Op)) :
    Res (MultiPattern Op) := do
  let program ← Program.compileFromMultiPat ord fuel asts
  return { asts := asts, program := program }

omit [DecidableEq Op] [Lang Op] in
/-- The pattern is the slice `[Var(_)]`, `src/multipattern.rs:115`. -/
def isBareVar (p : PatternAst Op) : Bool :=
  match p with
  | [n] => match n.op with
    | .var _ => true
    | .op _ => false
  | _ => false

/-- `MultiPattern::search_eclass_with_limit`, `src/multipattern.rs:105-132`. -/
def MultiPattern.searchEclassWithLimit (N : Analysis Op D) (eg : EGraph Op D) (ord : IterOrd) (p : MultiPattern Op)
    (eclass : Id) (limit : Nat) : Res (Option (SearchMatches Op)) :=
  match p.asts with
  | [] => .error .panic
  | (_, pat) :: _ =>
    if isBareVar pat then .error .panic
    else do
      let substs ← p.program.runWithLimit N eg ord.classes eclass limit
      if substs.isEmpty then return none
      else return some { eclass := eclass, substs := substs, ast := none }

omit [DecidableEq Op] [Lang Op] in
/-- The variables of a list of pattern nodes. -/
def nodeVars (p : PatternAst Op) : List Var :=
  p.filterMap (fun n => match n.op with
    | .var v => some v
    | .op _ => none)

omit [DecidableEq Op] [Lang Op] in
/-- `MultiPattern::vars` (searcher), `src/multipattern.rs:134-147`.  Simplification: the
list is not sorted and deduplicated; it is only ever read as a set. -/
def MultiPattern.searchVars (p : MultiPattern Op) : List Var :=
  p.asts.flatMap (fun vp => vp.1 :: nodeVars vp.2)

/-- `impl Searcher for MultiPattern`, `src/multipattern.rs:104-148`, with the default
`search_with_limit`, `src/rewrite.rs:211-213`. -/
def MultiPattern.searcher (p : MultiPattern Op) : Searcher Op D where
  searchEclass := fun N eg ord c limit => p.searchEclassWithLimit N eg ord c limit
  search := fun N eg ord limit => searchEclassesWithLimit (p.searchEclassWithLimit N eg ord) ord.classes limit
  vars := p.searchVars

/-- `Vec::resize(n, 0)`. -/
def resize (ids : List Id) (n : Nat) : List Id := ids.take n ++ List.replicate (n - ids.length) 0

/-- The loop over the patterns in `MultiPattern::apply_matches`,
`src/multipattern.rs:173-183`; `i` is the index of the next pattern. -/
def MultiPattern.applyAsts (N : Analysis Op D) : EGraph Op D → List (Var × PatternAst Op) → Nat → Subst → List Id → List Id →
    Res (EGraph Op D × List Id)
  | eg, [], _, _, _, added => .ok (eg, added)
  | eg, (v, p) :: rest, i, s, buf, added => do
    let (eg, buf, id1) ← applyPat N (resize buf p.length) p eg s
    let (s, old) := s.insert v id1
    match old with
    | some id2 => do
      let (eg, _) ← eg.union N id1 id2
      applyAsts N eg rest (i + 1) s buf (if i = 0 then added ++ [id1] else added)
    | none => applyAsts N eg rest (i + 1) s buf (if i = 0 then added ++ [id1] else added)

/-- The loop over the substitutions of one match, `src/multipattern.rs:170-184`. -/
def MultiPattern.applySubsts (N : Analysis Op D) (asts : List (Var × PatternAst Op)) :
    EGraph Op D → List Subst → List Id → Res (EGraph Op D × List Id)
  | eg, [], added => .ok (eg, added)
  | eg, s :: rest, added => do
    let (eg, added) ← applyAsts N eg asts 0 s [] added
    applySubsts N asts eg rest added

/-- `MultiPattern::apply_matches`, `src/multipattern.rs:162-188`. -/
def MultiPattern.applyMatchesGo (N : Analysis Op D) (asts : List (Var × PatternAst Op)) :
    EGraph Op D → List (SearchMatches Op) → List Id → Res (EGraph Op D × List Id)
  | eg, [], added => .ok (eg, added)
  | eg, m :: rest, added => do
    let (eg, added) ← applySubsts N asts eg m.substs added
    applyMatchesGo N asts eg rest added

omit [DecidableEq Op] [Lang Op] in
/-- `MultiPattern::vars` (applier), `src/multipattern.rs:190-207`; `bound` are the
binders seen so far.  (Not sorted or deduplicated, see `searchVars`.) -/
def applierVars : List (Var × PatternAst Op) → List Var → List Var
  | [], _ => []
  | (v, p) :: rest, bound => (nodeVars p).filter (fun w => decide (w ∉ bound)) ++ applierVars rest (v :: bound)

/-- `impl Applier for MultiPattern`, `src/multipattern.rs:150-208`. -/
def MultiPattern.applier (p : MultiPattern Op) : Applier Op D where
  applyMatches := fun N eg ms _ => MultiPattern.applyMatchesGo N p.asts eg ms []
  applyOne := fun _ _ _ _ _ _ => .error .panic
  vars := applierVars p.asts []

end Egg
