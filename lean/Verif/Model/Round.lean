import Verif.Model.Rewrite
/-
The methods of `Rewrite` with which users (and the crate's tests) run rules by hand.
-/
namespace Egg
variable {Op D : Type} [DecidableEq Op] [Lang Op]

/-- `Rewrite::search_with_limit`, `src/rewrite.rs:100-106`. -/
def Rewrite.searchWithLimit (N : Analysis Op D) (rw : Rewrite Op D) (eg : EGraph Op D) (ord : IterOrd) (limit : Nat) :
    Res (List (SearchMatches Op)) :=
  rw.searcher.search N eg ord limit

/-- `Rewrite::search`, `src/rewrite.rs:93-95`, which calls `Searcher::search`, i.e. `search_with_limit` with
`usize::MAX` (`src/rewrite.rs:204-206`); `max` is `usize::MAX`. -/
def Rewrite.search (N : Analysis Op D) (rw : Rewrite Op D) (eg : EGraph Op D) (ord : IterOrd) (max : Nat) :
    Res (List (SearchMatches Op)) :=
  rw.searcher.search N eg ord max

/-- `Rewrite::apply`, `src/rewrite.rs:111-113`. -/
def Rewrite.apply (N : Analysis Op D) (rw : Rewrite Op D) (eg : EGraph Op D) (ms : List (SearchMatches Op)) :
    Res (EGraph Op D × List Id) :=
  rw.applier.applyMatches N eg ms rw.name

/-- `Rewrite::run`, `src/rewrite.rs:118-136` (used by the crate's own tests only).  Logging and the clock are left out. -/
def Rewrite.run (N : Analysis Op D) (rw : Rewrite Op D) (ord : EGraph Op D → IterOrd) (max fuel : Nat) (eg : EGraph Op D) :
    Res (EGraph Op D × List Id) := do
  let ms ← rw.search N eg (ord eg) max
  let (eg, ids) ← rw.apply N eg ms
  let (eg, _) ← eg.rebuild N fuel
  return (eg, ids)

end Egg
