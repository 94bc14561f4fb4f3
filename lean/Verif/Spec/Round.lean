import Verif.Model.Round
import Verif.Spec.Eager
/-
Specification vocabulary for one round of rewriting, and for what `k` rewrite steps reach.
-/
namespace Egg
variable {Op D S H : Type} [DecidableEq Op] [Lang Op]

/-- The rules are applied one after the other, each to the matches paired with it. -/
inductive AppliedAll (N : Analysis Op D) : List (Rewrite Op D × List (SearchMatches Op)) → EGraph Op D → EGraph Op D → Prop
  | nil {eg} : AppliedAll N [] eg eg
  | cons {rw ms l eg eg1 eg2 ids} : rw.apply N eg ms = .ok (eg1, ids) → AppliedAll N l eg1 eg2 → AppliedAll N ((rw, ms) :: l) eg eg2

/-- A round of rewriting by hand: first all rules are searched in `eg` (each with its own iteration order of the hash maps), then
all are applied, each to its matches, and at the end there is one `rebuild`.  `max` is `usize::MAX`. -/
def Round (N : Analysis Op D) (max fuel : Nat) (rules : List (Rewrite Op D)) (eg eg' : EGraph Op D) : Prop :=
  ∃ mss eg1 n, List.Forall₂ (fun rw ms => ∃ ord, IterOrd.OK ord eg ∧ rw.search N eg ord max = .ok ms) rules mss ∧
    AppliedAll N (rules.zip mss) eg eg1 ∧ eg1.rebuild N fuel = .ok (eg', n)

/-- The searches of the rules in `eg` all find fewer than `usize::MAX` matches (always true on a real machine). -/
def AllFit (N : Analysis Op D) (max : Nat) (rules : List (Rewrite Op D)) (eg : EGraph Op D) : Prop :=
  ∀ rw ∈ rules, ∃ ord ms, IterOrd.OK ord eg ∧ rw.search N eg ord max = .ok ms ∧ (flat ms).length < max

/-- An instance of one of the rules whose left side is a term of `eg`. -/
def LeftIn (eg : EGraph Op D) (eqs : List (Term (PatOp Op) × Term (PatOp Op))) (s w : Term Op) : Prop :=
  RuleInstance eqs s w ∧ ∃ c, Rep eg c s

omit [DecidableEq Op] [Lang Op] in
/-- One parallel rewrite step: any number of subterms, none of them inside another, are replaced, each by an `E`-step. -/
inductive Par (E : Term Op → Term Op → Prop) : Term Op → Term Op → Prop
  | refl (t) : Par E t t
  | rule {s t} : E s t → Par E s t
  | congr {op ss ts} : List.Forall₂ (Par E) ss ts → Par E (.node op ss) (.node op ts)

omit [DecidableEq Op] [Lang Op] in
/-- `t` is reached from `s` by `k` parallel rewrite steps; before, between and after them
terms may be replaced by terms known to be equal. -/
inductive ReachedIn (E known : Term Op → Term Op → Prop) : Nat → Term Op → Term Op → Prop
  | zero {s t} : known s t → ReachedIn E known 0 s t
  | step {k s t u w} : known s t → Par E t u → ReachedIn E known k u w → ReachedIn E known (k + 1) s w

end Egg
