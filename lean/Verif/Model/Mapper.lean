import Verif.Model.EGraph
/-
Model of the translation of e-graphs between languages: `src/egraph.rs:590-664`.
-/
namespace Egg

/-- `HashMap: FromIterator`: insert the pairs one by one (a later pair with an equal key
replaces the earlier one). -/
def AMap.ofList {K V : Type} [DecidableEq K] (l : List (K × V)) : AMap K V :=
  l.foldl (fun m kv => m.insert kv.1 kv.2) []

/-- `src/egraph.rs:593-617` `trait LanguageMapper`: the translations of operators,
discriminants and analysis data.  Simplifications: `map_node` translates the operator and keeps
the children (a translation has no other ids at hand); the analysis value is not part of the
modelled e-graph, so `map_analysis` is dropped. -/
structure LanguageMapper (Op Op2 D D2 : Type) [DecidableEq Op] [Lang Op] [DecidableEq Op2] [Lang Op2] where
  mapOp : Op → Op2
  mapDisc : Lang.Disc Op → Lang.Disc Op2
  mapData : D → D2

namespace LanguageMapper
variable {Op Op2 D D2 : Type} [DecidableEq Op] [Lang Op] [DecidableEq Op2] [Lang Op2]

/-- `src/egraph.rs:604-605` `map_node`. -/
def mapNode (m : LanguageMapper Op Op2 D D2) (n : ENode Op) : ENode Op2 := ⟨m.mapOp n.op, n.children⟩

/-- `src/egraph.rs:618-632` `map_eclass`. -/
def mapEClass (m : LanguageMapper Op Op2 D D2) (k : EClass Op D) : EClass Op2 D2 where
  id := k.id
  nodes := k.nodes.map m.mapNode
  data := m.mapData k.data
  parents := k.parents

/-- `src/egraph.rs:635-662` `map_egraph`.  Simplification: the hash maps are traversed from
the end of the lists (the real order is arbitrary; it matters only if two keys become equal). -/
def mapEGraph (m : LanguageMapper Op Op2 D D2) (eg : EGraph Op D) : EGraph Op2 D2 where
  explain := none
  uf := eg.uf
  memo := AMap.ofList (eg.memo.reverse.map fun kv => (m.mapNode kv.1, kv.2))
  pending := eg.pending
  nodes := eg.nodes.map m.mapNode
  apending := eg.apending
  classes := AMap.ofList (eg.classes.reverse.map fun kv => (kv.1, m.mapEClass kv.2))
  byOp := AMap.ofList (eg.byOp.reverse.map fun kv => (m.mapDisc kv.1, kv.2))
  clean := eg.clean

end LanguageMapper
end Egg
