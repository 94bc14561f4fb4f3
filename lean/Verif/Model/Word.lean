import Verif.Model.Hooks
import Verif.Model.ShortPath
/-
Ids as machine words.  `Id` is a `u32` (`src/lib.rs:94`), and `Id::from` keeps the low 32 bits of a `usize`
(`src/lib.rs:96-100`).  Elsewhere in the model ids are unbounded; here are the functions that make new ids once
more, with ids taken modulo `W` (the code: `W = 2^32`).  All functions that make no ids are the same in both.
-/
namespace Egg
variable {Op D : Type} [DecidableEq Op] [Lang Op]

/-- `impl From<usize> for Id`, `src/lib.rs:96-100`: `n as u32`. -/
def Word.ofUsize (W n : Nat) : Id := n % W

/-- `UnionFind::make_set`, `src/unionfind.rs:12-16`. -/
def UF.makeSetW (W : Nat) (ps : UF) : UF × Id := (ps ++ [Word.ofUsize W ps.length], Word.ofUsize W ps.length)

namespace EGraph

/-- `make_new_eclass`, `src/egraph.rs:1048-1073`.  (The assertion in line 1058, active in debug builds only, compares
`Id::from(self.nodes.len())` with `id`: both are truncated, so it holds whenever the lengths agree.) -/
def makeNewEClassW (W : Nat) (N : Analysis Op D) (eg : EGraph Op D) (enode original : ENode Op) :
    Res (EGraph Op D × Id) := do
  let (uf, id) := UF.makeSetW W eg.uf
  let eg := { eg with uf := uf }
  let data ← N.make eg original id
  let cls : EClass Op D := { id := id, nodes := [enode], data := data, parents := [] }
  let eg := { eg with nodes := eg.nodes ++ [original] }
  let eg ← eg.pushParents enode.children id
  let eg := { eg with
    pending := id :: eg.pending
    classes := eg.classes.insert id cls }
  if (eg.memo.get? enode).isSome then .error .panic
  else return ({ eg with memo := eg.memo.insert enode id }, id)

/-- `add_uncanonical`, `src/egraph.rs:1014-1045`. -/
def addUncanonicalW (W : Nat) (N : Analysis Op D) (eg : EGraph Op D) (original : ENode Op) :
    Res (EGraph Op D × Id) := do
  let enode ← eg.canon original
  match eg.memo.get? enode with
  | some existing => do
    let id ← eg.find existing
    match eg.explain with
    | none => return (eg, existing)
    | some x =>
      match x.uncanonMemo.get? original with
      | some i => return (eg, i)
      | none => do
        let (uf, newId) := UF.makeSetW W eg.uf
        let x ← x.add original newId
        let uf ← UF.union uf id newId
        let x ← x.union existing newId .congruence
        return ({ eg with uf := uf, nodes := eg.nodes ++ [original], explain := some x }, newId)
  | none => do
    let (eg, id) ← makeNewEClassW W N eg enode original
    let x ← explainAdd eg.explain original id
    let eg := { eg with explain := x }
    let eg ← N.modify eg id
    return ({ eg with clean := false }, id)

/-- `add`, `src/egraph.rs:970-973`. -/
def addW (W : Nat) (N : Analysis Op D) (eg : EGraph Op D) (n : ENode Op) : Res (EGraph Op D × Id) := do
  let (eg, i) ← addUncanonicalW W N eg n
  return (eg, ← eg.find i)

/-- The loop of `add_expr_uncanonical`, `src/egraph.rs:841-856`. -/
def addExprGoW (W : Nat) (N : Analysis Op D) : EGraph Op D → List (ENode Op) → List Id → Res (EGraph Op D × List Id)
  | eg, [], ids => .ok (eg, ids)
  | eg, n :: rest, ids => do
    let n ← n.mapChildrenM (getIdx ids)
    let (eg, i) ← addUncanonicalW W N eg n
    addExprGoW W N eg rest (ids ++ [i])

/-- `add_expr_uncanonical`, `src/egraph.rs:841-856`. -/
def addExprUncanonicalW (W : Nat) (N : Analysis Op D) (eg : EGraph Op D) (e : List (ENode Op)) :
    Res (EGraph Op D × Id) := do
  let (eg, ids) ← addExprGoW W N eg e []
  return (eg, ← unwrap ids.getLast?)

/-- `add_expr`, `src/egraph.rs:833-836`. -/
def addExprW (W : Nat) (N : Analysis Op D) (eg : EGraph Op D) (e : List (ENode Op)) : Res (EGraph Op D × Id) := do
  let (eg, i) ← addExprUncanonicalW W N eg e
  return (eg, ← eg.find i)

end EGraph

/-- A program in a `modify` hook, cf. `Prog.run`; `add` is `src/egraph.rs:970-973`. -/
def Prog.runW (W : Nat) (N : Analysis Op D) : Prog Op D → EGraph Op D → Res (EGraph Op D)
  | .done, eg => .ok eg
  | .panic, _ => .error .panic
  | .read k, eg => (k eg).runW W N eg
  | .add n k, eg => do
    let (eg, i) ← EGraph.addW W N eg n
    (k i).runW W N eg
  | .union a b caller k, eg => do
    let (eg, r) ← EGraph.union N eg a b caller
    (k r).runW W N eg
  | .setData i d k, eg => do
    let eg ← EGraph.setAnalysisData N eg i d
    k.runW W N eg

/-- The user's analysis (`src/language.rs:797-881`) with hooks nested at most `depth` times, cf. `UserAnalysis.at`. -/
def UserAnalysis.atW (W : Nat) (U : UserAnalysis Op D) : Nat → Analysis Op D
  | 0 => ⟨U.make, U.remake, U.merge, fun _ _ => .error .fuel, U.allowCycles⟩
  | depth + 1 => ⟨U.make, U.remake, U.merge, fun eg i => (U.modify i).runW W (U.atW W depth) eg, U.allowCycles⟩

/-- A user's program: any sequence of calls, each of which may depend on all that can be read from the e-graph (searching,
extracting, counting, ..) and on the answers so far.  `with_explanations_enabled` `src/egraph.rs:201-210`,
`add` 970-973, `add_uncanonical` 1014-1045, `add_expr` 833-836, `union` 1147-1154, `union_trusted` 1128-1130,
`set_analysis_data` 1211-1217, `rebuild` 1416-1446. -/
inductive Session (Op : Type) [DecidableEq Op] [Lang Op] (D : Type) where
  | done
  | read (k : EGraph Op D → Session Op D)
  | explanations (k : Session Op D)
  | add (n : ENode Op) (k : Id → Session Op D)
  | addUncanonical (n : ENode Op) (k : Id → Session Op D)
  | addExpr (e : List (ENode Op)) (k : Id → Session Op D)
  | union (a b : Id) (caller : Symbol) (k : Bool → Session Op D)
  | unionTrusted (a b : Id) (reason : Symbol) (k : Bool → Session Op D)
  | setData (i : Id) (d : D) (k : Session Op D)
  | rebuild (fuel : Nat) (k : Nat → Session Op D)

/-- The program with unbounded ids. -/
def Session.run (N : Analysis Op D) : Session Op D → EGraph Op D → Res (EGraph Op D)
  | .done, eg => .ok eg
  | .read k, eg => (k eg).run N eg
  | .explanations k, eg => do
    let eg ← eg.withExplanationsEnabled
    k.run N eg
  | .add n k, eg => do
    let (eg, i) ← EGraph.add N eg n
    (k i).run N eg
  | .addUncanonical n k, eg => do
    let (eg, i) ← EGraph.addUncanonical N eg n
    (k i).run N eg
  | .addExpr e k, eg => do
    let (eg, i) ← EGraph.addExpr N eg e
    (k i).run N eg
  | .union a b caller k, eg => do
    let (eg, r) ← EGraph.union N eg a b caller
    (k r).run N eg
  | .unionTrusted a b reason k, eg => do
    let (eg, r) ← EGraph.unionTrusted N eg a b reason
    (k r).run N eg
  | .setData i d k, eg => do
    let eg ← EGraph.setAnalysisData N eg i d
    k.run N eg
  | .rebuild fuel k, eg => do
    let (eg, n) ← EGraph.rebuild N fuel eg
    (k n).run N eg

/-- The program with ids that are words, `src/lib.rs:94-100`. -/
def Session.runW (W : Nat) (N : Analysis Op D) : Session Op D → EGraph Op D → Res (EGraph Op D)
  | .done, eg => .ok eg
  | .read k, eg => (k eg).runW W N eg
  | .explanations k, eg => do
    let eg ← eg.withExplanationsEnabled
    k.runW W N eg
  | .add n k, eg => do
    let (eg, i) ← EGraph.addW W N eg n
    (k i).runW W N eg
  | .addUncanonical n k, eg => do
    let (eg, i) ← EGraph.addUncanonicalW W N eg n
    (k i).runW W N eg
  | .addExpr e k, eg => do
    let (eg, i) ← EGraph.addExprW W N eg e
    (k i).runW W N eg
  | .union a b caller k, eg => do
    let (eg, r) ← EGraph.union N eg a b caller
    (k r).runW W N eg
  | .unionTrusted a b reason k, eg => do
    let (eg, r) ← EGraph.unionTrusted N eg a b reason
    (k r).runW W N eg
  | .setData i d k, eg => do
    let eg ← EGraph.setAnalysisData N eg i d
    k.runW W N eg
  | .rebuild fuel k, eg => do
    let (eg, n) ← EGraph.rebuild N fuel eg
    (k n).runW W N eg

end Egg
