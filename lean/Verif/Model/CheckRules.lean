import Verif.Model.Run
/-
The check of rule names at the start of a run.
-/
namespace Egg
variable {Op D : Type} [DecidableEq Op] [Lang Op]

/-- `*name_counts.entry(name).or_default() += 1`, `src/run.rs:650`. -/
def bumpName (m : AMap Symbol Nat) (name : Symbol) : AMap Symbol Nat :=
  match m.get? name with
  | some k => m.insert name (k + 1)
  | none => m.insert name 1

/-- `src/run.rs:648-651`: how often each name occurs. -/
def nameCounts (rules : List (Rewrite Op D)) : AMap Symbol Nat :=
  rules.foldl (fun m rw => bumpName m rw.name) []

/-- `check_rules`, `src/run.rs:647-665`: the names, with their numbers, in the lines that it prints.  It prints the warning if there is such a
line, and does nothing else.  (The assertion on line 659 holds by the filter.) -/
def checkRules (rules : List (Rewrite Op D)) : List (Symbol × Nat) :=
  (nameCounts rules).filter fun p => decide (1 < p.2)

end Egg
