import Verif.Model.EGraph
import Verif.Model.Text
/-
Model of the languages generated by `define_language!` (`src/macros.rs:95-268`) and of the types
of children they may use (`LanguageChildren`, `src/language.rs:304-370`).

A declaration is a list of variants; the generated `enum` is `Decl.Value`.
-/
namespace Egg

/-- A type used as `$data` in a variant, with the traits that the generated code uses: `Eq`, `Ord`
(with the laws that `Ord` requires), `Display` and `FromStr` (`none` is `Err`). -/
structure DataTy where
  T : Type
  dec : DecidableEq T
  le : T → T → Bool
  le_total : ∀ a b, le a b = true ∨ le b a = true
  le_trans : ∀ a b c, le a b = true → le b c = true → le a c = true
  le_antisymm : ∀ a b, le a b = true → le b a = true → a = b
  show_ : T → List Char
  parse : List Char → Option T

/-- The types of children: `[Id; N]`, `Id`, and `Vec<Id>` or `Box<[Id]>`, `src/language.rs:322-370`. -/
inductive ChildTy where
  | array (n : Nat)
  | one
  | slice

namespace ChildTy

/-- The values of the type. -/
def Val : ChildTy → Type
  | array n => { l : List Id // l.length = n }
  | one => Id
  | slice => List Id

/-- `as_slice`, `src/language.rs:335-337,349,358,367`. -/
def asSlice : (c : ChildTy) → c.Val → List Id
  | array _, v => v.1
  | one, v => [v]
  | slice, v => v

/-- `len`, `src/language.rs:323-325,346,355,364`. -/
def len : (c : ChildTy) → c.Val → Nat
  | array n, _ => n
  | one, _ => 1
  | slice, v => List.length v

/-- `can_be_length`, `src/language.rs:327-329,347,356,365`. -/
def canBeLength : ChildTy → Nat → Bool
  | array n, k => k == n
  | one, k => k == 1
  | slice, _ => true

/-- `from_vec`, `src/language.rs:331-333,348,357,366`: `try_from(..).unwrap()` for arrays, `v[0]` for a
single id. -/
def fromVec : (c : ChildTy) → List Id → Res c.Val
  | array n, v => if h : v.length = n then .ok ⟨v, h⟩ else .error .panic
  | one, v => getIdx v 0
  | slice, v => .ok v

/-- `for_each_mut` on `as_mut_slice`, `src/language.rs:60-62,339-341,350,359,368`: replaces the ids in place. -/
def mapIds (f : Id → Id) : (c : ChildTy) → c.Val → c.Val
  | array _, v => ⟨v.1.map f, by rw [List.length_map]; exact v.2⟩
  | one, v => f v
  | slice, v => List.map f v

end ChildTy

/-- The four forms of a variant, `src/macros.rs:160-268`: `"s" = V`, `"s" = V(ids)`, `V(data)` and
`V(data, ids)`. -/
inductive Variant where
  | word (s : List Char)
  | wordArgs (s : List Char) (c : ChildTy)
  | data (t : DataTy)
  | dataArgs (t : DataTy) (c : ChildTy)

namespace Variant

/-- The data of a value of the variant. -/
def Data : Variant → Type
  | word _ => Unit
  | wordArgs _ _ => Unit
  | data t => t.T
  | dataArgs t _ => t.T

/-- The children of a value of the variant. -/
def Ids : Variant → Type
  | word _ => Unit
  | wordArgs _ c => c.Val
  | data _ => Unit
  | dataArgs _ c => c.Val

/-- Equality of data (`==` of the data type). -/
def decData : (v : Variant) → DecidableEq v.Data
  | word _ => inferInstanceAs (DecidableEq Unit)
  | wordArgs _ _ => inferInstanceAs (DecidableEq Unit)
  | data t => t.dec
  | dataArgs t _ => t.dec

/-- Order of data (`Ord` of the data type). -/
def leData : (v : Variant) → v.Data → v.Data → Bool
  | word _, _, _ => true
  | wordArgs _ _, _, _ => true
  | data t, a, b => t.le a b
  | dataArgs t _, a, b => t.le a b

/-- The arm of `children`, `src/macros.rs:178,202,230,254`. -/
def children : (v : Variant) → v.Ids → List Id
  | word _, _ => []
  | wordArgs _ c, ids => c.asSlice ids
  | data _, _ => []
  | dataArgs _ c, ids => c.asSlice ids

/-- The arm of `children_mut`, `src/macros.rs:179,203,231,255`, used to replace the children. -/
def mapIds (f : Id → Id) : (v : Variant) → v.Ids → v.Ids
  | word _, ids => ids
  | wordArgs _ c, ids => c.mapIds f ids
  | data _, ids => ids
  | dataArgs _ c, ids => c.mapIds f ids

/-- The arm of `matches`, `src/macros.rs:177,201,229,253`. -/
def «matches» : (v : Variant) → v.Data × v.Ids → v.Data × v.Ids → Bool
  | word _, _, _ => true
  | wordArgs _ c, (_, l), (_, r) => c.len l == c.len r
  | data t, (d1, _), (d2, _) => @decide (d1 = d2) (t.dec d1 d2)
  | dataArgs t c, (d1, l), (d2, r) => @decide (d1 = d2) (t.dec d1 d2) && c.len l == c.len r

/-- The arm of `fmt`, `src/macros.rs:180,204,232,256`. -/
def «show» : (v : Variant) → v.Data → List Char
  | word s, _ => s
  | wordArgs s _, _ => s
  | data t, d => t.show_ d
  | dataArgs t _, d => t.show_ d

/-- The arm of `from_op`, `src/macros.rs:181,205-208,233,257-261`: `none` if the guard is false. -/
def fromOp : (v : Variant) → List Char → List Id → Option (Res (v.Data × v.Ids))
  | word s, op, cs => if decide (op = s) && cs.isEmpty then some (.ok ((), ())) else none
  | wordArgs s c, op, cs =>
    if decide (op = s) && c.canBeLength cs.length then some (do let ids ← c.fromVec cs; return ((), ids)) else none
  | data t, op, cs =>
    if (t.parse op).isSome && cs.isEmpty then some (do let d ← unwrap (t.parse op); return (d, ())) else none
  | dataArgs t c, op, cs =>
    if (t.parse op).isSome && c.canBeLength cs.length then
      some (do let d ← unwrap (t.parse op); let ids ← c.fromVec cs; return (d, ids))
    else none

end Variant

/-- The argument of `define_language!`: the variants in order. -/
abbrev Decl := List Variant

/-- Lexicographic order, `Ord` of slices, vectors and arrays of ids (`core`). -/
def lexIds : List Id → List Id → Bool
  | [], _ => true
  | _ :: _, [] => false
  | a :: as, b :: bs => if a = b then lexIds as bs else decide (a < b)

namespace Decl

/-- The generated `enum`, `src/macros.rs:119-121`: a variant with its data and children. -/
structure Value (V : Decl) where
  idx : Fin V.length
  data : (V.get idx).Data
  ids : (V.get idx).Ids

namespace Value
variable {V : Decl}

/-- `discriminant`, `src/macros.rs:126-129`. -/
def discriminant (a : Value V) : Fin V.length := a.idx

/-- `children`, `src/macros.rs:137`. -/
def children (a : Value V) : List Id := (V.get a.idx).children a.ids

/-- `map_children`, `src/language.rs:94-97`, by the generated `children_mut`, `src/macros.rs:138`. -/
def mapChildren (f : Id → Id) (a : Value V) : Value V := ⟨a.idx, a.data, (V.get a.idx).mapIds f a.ids⟩

/-- `matches`, `src/macros.rs:131-135`. -/
def «matches» (a b : Value V) : Bool :=
  if h : a.idx = b.idx then (V.get b.idx).matches (h ▸ (a.data, a.ids)) (b.data, b.ids) else false

/-- `a <= b` for the derived `Ord`, `src/macros.rs:120`: by variant, then by data, then by children. -/
def le (a b : Value V) : Bool :=
  if h : a.idx = b.idx then
    let d : (V.get b.idx).Data := h ▸ a.data
    if @decide (d = b.data) ((V.get b.idx).decData d b.data) then lexIds a.children b.children else (V.get b.idx).leData d b.data
  else decide (a.idx < b.idx)

/-- `Display`, `src/macros.rs:141-147`. -/
def «show» (a : Value V) : List Char := (V.get a.idx).show a.data

/-- `from_op`, `src/macros.rs:149-158`: the first arm whose guard holds; `none` is the `Err` of the last
arm. -/
def fromOp (V : Decl) (op : List Char) (cs : List Id) : Option (Res (Value V)) :=
  (List.finRange V.length).findSome? (fun i =>
    ((V.get i).fromOp op cs).map (fun r => do let p ← r; return ⟨i, p.1, p.2⟩))

end Value

/-! ### As a language of the model -/

/-- The operators of the language: variant and data. -/
abbrev Op (V : Decl) := (i : Fin V.length) × (V.get i).Data

instance (V : Decl) : DecidableEq (Op V) := fun a b =>
  if h : a.1 = b.1 then
    match (V.get b.1).decData (h ▸ a.2) b.2 with
    | .isTrue h2 => .isTrue (by
      obtain ⟨i, d⟩ := a
      obtain ⟨j, e⟩ := b
      simp only at h
      subst h
      simp only at h2
      rw [h2])
    | .isFalse h2 => .isFalse (by
      rintro rfl
      exact h2 rfl)
  else .isFalse (fun hh => h (by rw [hh]))

/-- A value as an e-node of the model. -/
def Value.toENode {V : Decl} (a : Value V) : ENode (Op V) := ⟨⟨a.idx, a.data⟩, a.children⟩

/-- The order on e-nodes: by variant, then by data, then by children. -/
def leNode {V : Decl} (a b : ENode (Op V)) : Bool :=
  if h : a.op.1 = b.op.1 then
    let d : (V.get b.op.1).Data := h ▸ a.op.2
    if @decide (d = b.op.2) ((V.get b.op.1).decData d b.op.2) then lexIds a.children b.children else (V.get b.op.1).leData d b.op.2
  else decide (a.op.1 < b.op.1)

/-- `Display` and `FromOp` as the model of texts takes them. -/
def text (V : Decl) : OpText (Op V) where
  show_ := fun o => (V.get o.1).show o.2
  fromOp := fun s ids =>
    match Value.fromOp V s ids with
    | some (.ok a) => some a.toENode
    | _ => none

end Decl

/-- The derived order of `SymbolLang`, `src/language.rs:943-950`: by operator, then by children.  `T` is the
type `Symbol`. -/
def symbolLe (T : DataTy) (a b : ENode T.T) : Bool :=
  if @decide (a.op = b.op) (T.dec _ _) then lexIds a.children b.children else T.le a.op b.op

end Egg
