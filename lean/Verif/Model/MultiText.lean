import Verif.Model.Text
/-
Reading multi-patterns from text, `src/multipattern.rs:60-103`.
-/
namespace Egg
variable {Op : Type} [DecidableEq Op]

/-- `str::split(sep)` of Rust's standard library (called at `src/multipattern.rs:81` and `86`): the
pieces between the separators; there is always at least one piece. -/
def splitOn (sep : Char) : List Char → List (List Char)
  | [] => [[]]
  | c :: s =>
    if c = sep then [] :: splitOn sep s
    else
      match splitOn sep s with
      | [] => [[c]]
      | p :: ps => (c :: p) :: ps

/-- `src/multipattern.rs:60-73` `MultiPatternParseError`. -/
inductive MultiErr where
  | pattern (e : ParseErr)
  | assignment (clause : List Char)
  | var (e : VarErr)
deriving DecidableEq

/-- The patterns of a clause, `src/multipattern.rs:91-94`: the first one that does not parse gives
the error. -/
def parsePats (T : OpText Op) (parse : List Char → Option Sexp) :
    List (List Char) → Except MultiErr (List (PatternAst Op))
  | [] => .ok []
  | p :: ps =>
    match parseExpr T.pat parse (trim p) with
    | .error e => .error (.pattern e)
    | .ok a =>
      match parsePats T parse ps with
      | .error e => .error e
      | .ok as => .ok (a :: as)

/-- One clause `?v = p = q`, `src/multipattern.rs:86-98`. -/
def parseClause (T : OpText Op) (parse : List Char → Option Sexp) (split : List Char) :
    Except MultiErr (List (Var × PatternAst Op)) :=
  match splitOn '=' split with
  | [] => .error (.assignment split)
  | vs :: parts =>
    match parseVar (trim vs) with
    | .error e => .error (.var e)
    | .ok v =>
      match parsePats T parse parts with
      | .error e => .error e
      | .ok ps => if ps.isEmpty then .error (.assignment split) else .ok (ps.map (fun p => (v, p)))

/-- The loop over the clauses, `src/multipattern.rs:81-99`. -/
def parseClauses (T : OpText Op) (parse : List Char → Option Sexp) :
    List (List Char) → Except MultiErr (List (Var × PatternAst Op))
  | [] => .ok []
  | s :: ss =>
    if (trim s).isEmpty then parseClauses T parse ss
    else
      match parseClause T parse (trim s) with
      | .error e => .error e
      | .ok as =>
        match parseClauses T parse ss with
        | .error e => .error e
        | .ok rest => .ok (as ++ rest)

/-- `src/multipattern.rs:78-101` `FromStr for MultiPattern`, up to the call of `MultiPattern::new`
(`src/multipattern.rs:52-55`, `compileMulti`): the clauses handed to it. -/
def parseMulti (T : OpText Op) (parse : List Char → Option Sexp) (s : List Char) :
    Except MultiErr (List (Var × PatternAst Op)) :=
  parseClauses T parse (splitOn ',' (trim s))

end Egg
