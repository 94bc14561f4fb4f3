import Verif.Model.Rewrite
import Verif.Model.MultiText
/-
The macros `rewrite!` and `multi_rewrite!` (`src/macros.rs`).
-/
namespace Egg
variable {Op D : Type} [DecidableEq Op] [Lang Op]

omit [Lang Op] in
/-- `"..".parse::<Pattern<_>>().unwrap()`, `src/macros.rs:399-401`, with `FromStr for Pattern`,
`src/pattern.rs:187-193`: an unreadable text is a panic. -/
def patternLit (T : OpText Op) (parse : List Char → Option Sexp) (ordc : Compiler Op → List (Id × Nat)) (fuel : Nat)
    (text : List Char) : Res (Pattern Op) :=
  match parseExpr T.pat parse text with
  | .error _ => .error .panic
  | .ok ast => Pattern.new ordc fuel ast

omit [Lang Op] in
/-- `"..".parse::<MultiPattern<_>>().unwrap()`, `src/macros.rs:399-401`, with `FromStr for MultiPattern`,
`src/multipattern.rs:75-102`. -/
def multiPatternLit (T : OpText Op) (parse : List Char → Option Sexp) (ordc : Compiler Op → List (Id × Nat)) (fuel : Nat)
    (text : List Char) : Res (MultiPattern Op) :=
  match parseMulti T parse text with
  | .error _ => .error .panic
  | .ok asts => MultiPattern.new ordc fuel asts

/-- `__rewrite!(@applier ..)`, `src/macros.rs:403-409`: the first condition is the outermost. -/
def condApplier (core : Applier Op D) : List (Condition Op D) → Applier Op D
  | [] => core
  | c :: cs => Applier.conditional c (condApplier core cs)

/-- `Rewrite::new(..).unwrap()`, `src/macros.rs:361`, `src/macros.rs:392`. -/
def newUnwrap (name : Symbol) (searcher : Searcher Op D) (applier : Applier Op D) : Res (Rewrite Op D) :=
  match Rewrite.new name searcher applier with
  | .error _ => .error .panic
  | .ok rw' => .ok rw'

/-- `rewrite!(name; "lhs" => "rhs" if c1 if c2 ..)`, `src/macros.rs:351-362`.  `intern` is the table of
`Symbol`s.  Only literals are modelled; if a side is an expression, it is handed to `Rewrite::new` as it is. -/
def rewriteMacro (T : OpText Op) (parse : List Char → Option Sexp) (ordc : Compiler Op → List (Id × Nat)) (fuel : Nat)
    (intern : List Char → Symbol) (name lhs rhs : List Char) (conds : List (Condition Op D)) : Res (Rewrite Op D) := do
  let searcher ← patternLit T parse ordc fuel lhs
  let core ← patternLit T parse ordc fuel rhs
  newUnwrap (intern name) searcher.searcher (condApplier core.applier conds)

/-- `rewrite!(name; "lhs" <=> "rhs" if c1 if c2 ..)`, `src/macros.rs:363-375`. -/
def rewriteBothMacro (T : OpText Op) (parse : List Char → Option Sexp) (ordc : Compiler Op → List (Id × Nat)) (fuel : Nat)
    (intern : List Char → Symbol) (name lhs rhs : List Char) (conds : List (Condition Op D)) : Res (List (Rewrite Op D)) := do
  let r1 ← rewriteMacro T parse ordc fuel intern name lhs rhs conds
  let r2 ← rewriteMacro T parse ordc fuel intern (name ++ "-rev".toList) rhs lhs conds
  return [r1, r2]

/-- `multi_rewrite!(name; "lhs" => "rhs")`, `src/macros.rs:384-394`. -/
def multiRewriteMacro (T : OpText Op) (parse : List Char → Option Sexp) (ordc : Compiler Op → List (Id × Nat)) (fuel : Nat)
    (intern : List Char → Symbol) (name lhs rhs : List Char) : Res (Rewrite Op D) := do
  let searcher ← multiPatternLit T parse ordc fuel lhs
  let applier ← multiPatternLit T parse ordc fuel rhs
  newUnwrap (intern name) searcher.searcher applier.applier

end Egg
