import Verif.Model.Builder
/-
What a chain of builder calls asks for.
-/
namespace Egg
variable {Op D S H : Type} [DecidableEq Op] [Lang Op]

/-- The last value that is set, or the default `d`. -/
def lastSet {α : Type} (d : α) (l : List α) : α := l.getLast?.getD d

namespace Setting

def iterLimit? : Setting Op D S H → Option Nat
  | .iterLimit n => some n
  | _ => none

def nodeLimit? : Setting Op D S H → Option Nat
  | .nodeLimit n => some n
  | _ => none

def timeLimit? : Setting Op D S H → Option Nat
  | .timeLimit n => some n
  | _ => none

def scheduler? : Setting Op D S H → Option S
  | .scheduler s => some s
  | _ => none

def hook? : Setting Op D S H → Option (Hook Op D H)
  | .hook h => some h
  | _ => none

def expr? : Setting Op D S H → Option (List (ENode Op))
  | .expr e => some e
  | _ => none

/-- The call concerns the e-graph. -/
def onGraph : Setting Op D S H → Bool
  | .expr _ | .egraph _ | .explanations | .noOptimize | .optimize | .noExplanations => true
  | _ => false

end Setting

/-- The expressions given to the runner, in order. -/
def exprsOf (cs : List (Setting Op D S H)) : List (List (ENode Op)) := cs.filterMap Setting.expr?

end Egg
