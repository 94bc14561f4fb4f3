import Verif.Model.ProofSharing
import Verif.Spec.ProofText
import Mathlib.Data.Sym.Sym2
/-
Specification vocabulary for explanations with sharing.
-/
namespace Egg
variable {Op : Type}

/-- `u` is a part of `t` (possibly `t` itself). -/
inductive RcTree.Occurs (u : RcTree Op) : RcTree Op → Prop where
  | refl : RcTree.Occurs u u
  | child {ptr c l o b f cps p t} : p ∈ cps → t ∈ p → RcTree.Occurs u t → RcTree.Occurs u (.mk ptr c l o b f cps)

/-- `u` is a part of the explanation `ts`. -/
def RcTree.OccursIn (u : RcTree Op) (ts : List (RcTree Op)) : Prop := ∃ t ∈ ts, RcTree.Occurs u t

/-- Addresses are addresses: parts with the same address are the same. -/
def RcTree.Shared (ts : List (RcTree Op)) : Prop :=
  ∀ u v : RcTree Op, u.OccursIn ts → v.OccursIn ts → u.ptr = v.ptr → u = v

/-- The term is annotated with a rule. -/
def RcTree.IsRule (t : RcTree Op) : Prop := t.bwd ≠ none ∨ t.fwd ≠ none

/-- The steps of the explanation `ts` that apply a rule, each as the unordered pair of the ids that the
step connects. -/
def RcTree.ruleEdges (ts : List (RcTree Op)) : Set (Sym2 Id) :=
  {e | ∃ u : RcTree Op, u.OccursIn ts ∧ u.IsRule ∧ e = s(u.current, u.last)}

/-- The operators and rule names of a tree satisfy `P`. -/
inductive TreeTerm.Texts (T : OpText Op) (name : Symbol → List Char) (P : List Char → Prop) : TreeTerm Op → Prop where
  | mk {o b f cps} : P (T.show_ o) → (∀ r, b = some r ∨ f = some r → P (name r)) → (∀ p ∈ cps, ∀ t ∈ p, TreeTerm.Texts T name P t) →
      TreeTerm.Texts T name P (.mk o b f cps)

mutual
/-- Replace the atoms that are names of `env`. -/
def Sexp.subst (env : List (List Char × Sexp)) : Sexp → Sexp
  | .str a => (env.lookup a).getD (.str a)
  | .list items => .list (substItems env items)
  | .empty => .empty
def substItems (env : List (List Char × Sexp)) : List Sexp → List Sexp
  | [] => []
  | s :: ss => s.subst env :: substItems env ss
end

/-- `Unlet env s s'`: reading `s`, a sequence of `let`s around an explanation, with the bindings `env`
gives the explanation `s'` without `let`s. -/
inductive Unlet : List (List Char × Sexp) → Sexp → Sexp → Prop where
  | bind {env x e body s'} : Unlet ((x, e.subst env) :: env) body s' →
      Unlet env (.list [.str "let".toList, .list [.str x, e], body]) s'
  | body {env items} : Unlet env (.list (.str "Explanation".toList :: items)) (Sexp.subst env (.list (.str "Explanation".toList :: items)))

/-- A name of the form `v_0`, `v_1`, ..., as the let bindings use. -/
def LetName (a : List Char) : Prop := ∃ n, a = "v_".toList ++ showNat n

end Egg
