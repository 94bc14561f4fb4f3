import Verif.Model.Machine
import Verif.Spec.Expr
/-
Specification vocabulary for e-matching.  A pattern denotes a term over
`PatOp Op`, whose leaves `.var v` are pattern variables.
-/
namespace Egg
variable {Op D : Type} [DecidableEq Op] [Lang Op]

/-- A well-formed pattern: a well-formed expression whose variable nodes have no
children (the latter holds by typing in Rust). -/
def PatWF (p : PatternAst Op) : Prop :=
  WFExpr p ∧ ∀ n ∈ p, ∀ v, n.op = .var v → n.children = []

/-- The variable `v` occurs in the pattern `p`. -/
def Occurs (v : Var) (p : Term (PatOp Op)) : Prop := Subterm (.node (.var v) []) p

/-- `PMatch eg σ c p`: under the assignment `σ` of classes to variables, the
class `c` contains an instance of the pattern `p`. -/
inductive PMatch (eg : EGraph Op D) (σ : Var → Option Id) : Id → Term (PatOp Op) → Prop where
  | var {c x : Id} {v : Var} : σ v = some x → SameClass eg x c → PMatch eg σ c (.node (.var v) [])
  | node {c : Id} {k : EClass Op D} {n : ENode Op} {ps : List (Term (PatOp Op))} :
      eg.index c = .ok k →
      n ∈ k.nodes →
      n.children.length = ps.length →
      (∀ (j : Nat) (d : Id) (q : Term (PatOp Op)), n.children[j]? = some d → ps[j]? = some q → PMatch eg σ d q) →
      PMatch eg σ c (.node (.op n.op) ps)

omit [DecidableEq Op] [Lang Op] in
/-- `Inst τ p t`: the term `t` is the pattern `p` with every variable `v` replaced
by the term `τ v`. -/
inductive Inst (τ : Var → Term Op) : Term (PatOp Op) → Term Op → Prop where
  | var {v : Var} : Inst τ (.node (.var v) []) (τ v)
  | node {o : Op} {ps : List (Term (PatOp Op))} {ts : List (Term Op)} :
      ps.length = ts.length →
      (∀ (j : Nat) (q : Term (PatOp Op)) (t : Term Op), ps[j]? = some q → ts[j]? = some t → Inst τ q t) →
      Inst τ (.node (.op o) ps) (.node o ts)

/-- Two substitutions bind the same variables to the same classes. -/
def SubstEq (eg : EGraph Op D) (s t : Subst) : Prop :=
  ∀ v, (s.get v = none ∧ t.get v = none) ∨ ∃ x y, s.get v = some x ∧ t.get v = some y ∧ SameClass eg x y

omit [DecidableEq Op] [Lang Op] in
/-- The pairs of a class and a substitution reported by a search, in order. -/
def flat (ms : List (SearchMatches Op)) : List (Id × Subst) :=
  ms.flatMap (fun m => m.substs.map (fun s => (m.eclass, s)))

/-- What is assumed of the order on e-nodes in order to search large classes by
bisection: e-nodes with the same discriminant are adjacent.  (Derived orders
compare the enum variant first, so `define_language!` and `SymbolLang` satisfy
this.) -/
def DiscContiguous (Op : Type) [DecidableEq Op] [Lang Op] : Prop :=
  ∀ a b c : ENode Op, Lang.le a b = true → Lang.le b c = true → Lang.disc a.op = Lang.disc c.op →
    Lang.disc b.op = Lang.disc a.op

/-- The iteration orders of the hash tables list each element once. -/
structure IterOrd.OK (ord : IterOrd) (eg : EGraph Op D) : Prop where
  classes : ord.classes.Perm (eg.classes.map (fun kc => kc.2.id))
  byOp : ∀ l, (ord.byOp l).Perm l

omit [Lang Op] in
/-- The iteration order of the compiler's work table lists each key once. -/
def OrdOK (ord : Compiler Op → List (Id × Nat)) : Prop := ∀ c, (ord c).Perm c.todo.keys

omit [Lang Op] in
/-- `p` was built by `Pattern::new` from a well-formed pattern (whatever the
iteration order of the compiler's table), and its stored syntax denotes `t`. -/
def IsPattern (p : Pattern Op) (t : Term (PatOp Op)) : Prop :=
  ∃ ordc fuel ast, OrdOK ordc ∧ PatWF ast ∧ Pattern.new ordc fuel ast = .ok p ∧ ExprTerm p.ast t

end Egg
