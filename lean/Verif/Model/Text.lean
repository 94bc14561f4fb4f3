import Verif.Model.Machine
/-
Model of the textual formats: s-expressions (`src/sexp.rs`, the `no_std` implementation),
printing and parsing of expressions (`src/language.rs:560-695`), pretty printing
(`src/util.rs:112-142`), pattern variables (`src/subst.rs:58-82`), patterns
(`src/pattern.rs:186-217`), `alpha_rename` (`src/pattern.rs:76-103`).
Strings are lists of characters.
-/
namespace Egg

/-- `char::is_whitespace` of Rust's standard library: Unicode property White_Space. -/
def isWs (c : Char) : Bool :=
  let n := c.toNat
  (9 ≤ n && n ≤ 13) || n == 32 || n == 133 || n == 160 || n == 5760 || (8192 ≤ n && n ≤ 8202) ||
    n == 8232 || n == 8233 || n == 8239 || n == 8287 || n == 12288

/-- `str::trim_start`. -/
def trimStart (s : List Char) : List Char := s.dropWhile isWs

/-- `str::trim_end`. -/
def trimEnd (s : List Char) : List Char := (s.reverse.dropWhile isWs).reverse

/-- `str::trim`. -/
def trim (s : List Char) : List Char := trimEnd (trimStart s)

/-- `src/sexp.rs:20-27` `Sexp`. -/
inductive Sexp where
  | str (s : List Char)
  | list (items : List Sexp)
  | empty

/-- `src/sexp.rs:29-39`: an atom is put in quotes when it contains a space or a
parenthesis or is empty. -/
def showAtom (s : List Char) : List Char :=
  if s.contains ' ' || s.contains '(' || s.contains ')' || s.isEmpty then '"' :: (s ++ ['"']) else s

mutual
/-- `src/sexp.rs:29-52` `Display for Sexp`. -/
def showSexp : Sexp → List Char
  | .str s => showAtom s
  | .list items => '(' :: (showItems items ++ [')'])
  | .empty => ['(', ')']
/-- The items of a list, separated by a space, `src/sexp.rs:42-47`. -/
def showItems : List Sexp → List Char
  | [] => []
  | [s] => showSexp s
  | s :: ss => showSexp s ++ ' ' :: showItems ss
end

/-- `src/sexp.rs:133-135`: characters that end an unquoted atom. -/
def isDelim (c : Char) : Bool := isWs c || c == '(' || c == ')'

/-- Errors of the parser, `src/sexp.rs:54-65`, with the exhausted recursion bound of the model. -/
inductive SexpErr where
  | empty | trailing | eof | unclosedParen | unclosedString
  | fuel
deriving DecidableEq

mutual
/-- `src/sexp.rs:96-140` `parse_one`.  The first argument bounds the recursion. -/
def parseOne : Nat → List Char → Except SexpErr (Sexp × List Char)
  | 0, _ => .error .fuel
  | k + 1, input =>
    match trimStart input with
    | [] => .error .eof
    | c :: rest =>
      if c = '(' then parseItems k [] rest
      else if c = '"' then
        match rest.dropWhile (· != '"') with
        | [] => .error .unclosedString
        | _ :: rest' => .ok (.str (rest.takeWhile (· != '"')), rest')
      else .ok (.str ((c :: rest).takeWhile (fun c => !isDelim c)), (c :: rest).dropWhile (fun c => !isDelim c))
/-- The loop over the items of a list, `src/sexp.rs:105-126`. -/
def parseItems : Nat → List Sexp → List Char → Except SexpErr (Sexp × List Char)
  | 0, _, _ => .error .fuel
  | k + 1, items, rest =>
    match trimStart rest with
    | [] => .error .unclosedParen
    | c :: rest =>
      if c = ')' then .ok (if items.isEmpty then .empty else .list items, rest)
      else
        match parseOne k (c :: rest) with
        | .error e => .error e
        | .ok (item, rest) => parseItems k (items ++ [item]) rest
end

/-- `src/sexp.rs:77-94` `parse`.  The recursion bound is never reached
(`c41_parse_terminates`). -/
def parseSexp (input : List Char) : Except SexpErr Sexp :=
  let input := trim input
  if input.isEmpty then .error .empty
  else
    match parseOne (2 * input.length + 2) input with
    | .error e => .error e
    | .ok (sexp, rest) => if (trim rest).isEmpty then .ok sexp else .error .trailing

/-! ### Expressions -/

/-- What a language provides for text: `Display` of a node (assumed to print the operator
only, as for every language defined with `define_language!` and `SymbolLang`), and
`FromOp::from_op` (`src/language.rs:333-345`), where `none` is `Err(_)`. -/
structure OpText (Op : Type) where
  show_ : Op → List Char
  fromOp : List Char → List Id → Option (ENode Op)

variable {Op : Type}

/-- The loop over the children in `to_sexp_rec`, `src/language.rs:588-596`, with `f` always
`None`: `rec_` is the recursive call, `i` the index of the node itself. -/
def sexpChildren (rec_ : Id → Res Sexp) (i : Id) : List Id → Res (List Sexp)
  | [] => .ok []
  | c :: cs => do
    let s ← if c < i then rec_ c else .ok (.str "<<<< CYCLE >>>>".toList)
    let ss ← sexpChildren rec_ i cs
    return s :: ss

/-- `src/language.rs:582-599` `to_sexp_rec` with `f` always `None`.  The recursion is bounded by
the first argument.  The text of the cycle message is abbreviated. -/
def toSexpRec (T : OpText Op) (e : List (ENode Op)) : Nat → Id → Res Sexp
  | 0, _ => .error .fuel
  | k + 1, i => do
    let node ← getIdx e i
    let op := Sexp.str (T.show_ node.op)
    if node.isLeaf then return op
    else do
      let cs ← sexpChildren (toSexpRec T e k) i node.children
      return .list (op :: cs)

/-- `src/language.rs:573-580` `to_sexp`; `self.nodes.len() - 1` overflows (a panic) on the empty
expression. -/
def toSexp (T : OpText Op) (e : List (ENode Op)) : Res Sexp :=
  if e.isEmpty then .error .panic else toSexpRec T e (e.length + 1) (e.length - 1)

/-- `src/language.rs:560-569` `Display for RecExpr`; `print` is the `Display` of s-expressions. -/
def showExpr (T : OpText Op) (print : Sexp → List Char) (e : List (ENode Op)) : Res (List Char) :=
  if e.isEmpty then .ok "()".toList
  else do
    let s ← toSexp T e
    return print s

/-- Errors of `RecExpr::from_str`, `src/language.rs:634-656`.  `panic` is the `unreachable!`. -/
inductive ParseErr where
  | emptySexp | headList | badOp | badSexp
  | panic
deriving DecidableEq

mutual
/-- `src/language.rs:664-689` `parse_sexp_into`. -/
def parseInto (T : OpText Op) : Sexp → List (ENode Op) → Except ParseErr (List (ENode Op) × Id)
  | .empty, _ => .error .emptySexp
  | .str s, e =>
    match T.fromOp s [] with
    | none => .error .badOp
    | some n => .ok (e ++ [n], e.length)
  | .list [], _ => .error .emptySexp
  | .list (.empty :: _), _ => .error .panic
  | .list (.list _ :: _), _ => .error .headList
  | .list (.str op :: args), e =>
    match parseArgs T args e with
    | .error err => .error err
    | .ok (e, ids) =>
      match T.fromOp op ids with
      | none => .error .badOp
      | some n => .ok (e ++ [n], e.length)
/-- The arguments, `src/language.rs:680-683`. -/
def parseArgs (T : OpText Op) : List Sexp → List (ENode Op) → Except ParseErr (List (ENode Op) × List Id)
  | [], e => .ok (e, [])
  | s :: ss, e =>
    match parseInto T s e with
    | .error err => .error err
    | .ok (e, i) =>
      match parseArgs T ss e with
      | .error err => .error err
      | .ok (e, is) => .ok (e, i :: is)
end

/-- `src/language.rs:658-695` `FromStr for RecExpr`; `parse` is the parser of s-expressions. -/
def parseExpr (T : OpText Op) (parse : List Char → Option Sexp) (s : List Char) : Except ParseErr (List (ENode Op)) :=
  match parse (trim s) with
  | none => .error .badSexp
  | some sexp =>
    match parseInto T sexp [] with
    | .error err => .error err
    | .ok (e, _) => .ok e

/-- `parse_sexp` of the `no_std` build, `src/language.rs:629-632`. -/
def parseSexp? (s : List Char) : Option Sexp := (parseSexp s).toOption

/-! ### Pretty printing -/

/-- Number of bytes of a string (UTF-8). -/
def byteLen (s : List Char) : Nat := (s.map (fun c => c.utf8Size)).sum

/-- `str::trim_matches('"')`. -/
def trimQuotes (s : List Char) : List Char :=
  ((s.dropWhile (· == '"')).reverse.dropWhile (· == '"')).reverse

mutual
/-- `src/util.rs:112-142` `pretty_print`, returning what is appended to the buffer; `print` is the
`Display` of s-expressions. -/
def prettyPrint (print : Sexp → List Char) (width : Nat) : Nat → Sexp → List Char
  | level, .list items =>
    let indent := decide (byteLen (print (.list items)) > width)
    '(' :: (prettyItems print width indent level true items ++ [')'])
  | _, .str s => trimQuotes (print (.str s))
  | _, .empty => trimQuotes (print .empty)
/-- The loop of `pretty_print` over the items; `first` is `i = 0`. -/
def prettyItems (print : Sexp → List Char) (width : Nat) (indent : Bool) (level : Nat) : Bool → List Sexp → List Char
  | _, [] => []
  | first, s :: ss =>
    (if indent && !first then '\n' :: (List.replicate level [' ', ' ']).flatten else []) ++
    prettyPrint print width (level + 1) s ++
    (if !indent && !ss.isEmpty then [' '] else []) ++
    prettyItems print width indent level false ss
end

/-- `src/language.rs:616-622` `pretty`. -/
def prettyExpr (T : OpText Op) (print : Sexp → List Char) (width : Nat) (e : List (ENode Op)) : Res (List Char) := do
  let s ← toSexp T e
  return prettyPrint print width 1 s

/-! ### Variables and patterns -/

/-- Value of a decimal digit. -/
def digitVal (c : Char) : Option Nat :=
  if '0'.toNat ≤ c.toNat ∧ c.toNat ≤ '9'.toNat then some (c.toNat - '0'.toNat) else none

/-- The digits of `u32::from_str`, with overflow checked at every step. -/
def parseDigits : Nat → List Char → Option Nat
  | acc, [] => some acc
  | acc, c :: cs =>
    match digitVal c with
    | none => none
    | some d => if acc * 10 + d < 2 ^ 32 then parseDigits (acc * 10 + d) cs else none

/-- `u32::from_str` of Rust's standard library: an optional `+`, then at least one digit. -/
def parseU32 (s : List Char) : Option Nat :=
  match s with
  | [] => none
  | '+' :: cs => if cs.isEmpty then none else parseDigits 0 cs
  | cs => parseDigits 0 cs

/-- `Display for u32`: decimal digits. -/
def showNat (n : Nat) : List Char :=
  if h : n < 10 then [Char.ofNat ('0'.toNat + n)]
  else showNat (n / 10) ++ [Char.ofNat ('0'.toNat + n % 10)]
termination_by n
decreasing_by omega

inductive VarErr where
  | missingQuestionMark | badNumber
deriving DecidableEq

/-- `src/subst.rs:58-73` `FromStr for Var`. -/
def parseVar (s : List Char) : Except VarErr Var :=
  match s with
  | '?' :: '#' :: ds =>
    match parseU32 ds with
    | none => .error .badNumber
    | some n => .ok (.num n)
  | '?' :: c :: cs => .ok (.sym ('?' :: c :: cs))
  | _ => .error .missingQuestionMark

/-- `src/subst.rs:75-82` `Display for Var`. -/
def showVar : Var → List Char
  | .sym s => s
  | .num n => '?' :: '#' :: showNat n

/-- `Display` (`src/pattern.rs:180-187`) and `FromOp` (`src/pattern.rs:201-217`) of
`ENodeOrVar`. -/
def OpText.pat (T : OpText Op) : OpText (PatOp Op) where
  show_ := fun o => match o with
    | .op o => T.show_ o
    | .var v => showVar v
  fromOp := fun op children =>
    match op with
    | '?' :: c :: cs =>
      if children.isEmpty then
        match parseVar ('?' :: c :: cs) with
        | .ok v => some ⟨.var v, []⟩
        | .error _ => none
      else none
    | op => (T.fromOp op children).map (fun n => ⟨.op n.op, n.children⟩)

/-- The variable names of `alpha_rename`, `src/pattern.rs:82-88` `mkvar`. -/
def mkvar (i : Nat) : Except VarErr Var :=
  match ["?x".toList, "?y".toList, "?z".toList, "?w".toList][i]? with
  | some v => parseVar v
  | none => parseVar ('?' :: 'v' :: showNat (i - 4))

/-- The loop of `alpha_rename`, `src/pattern.rs:90-98`; the `HashMap` is an association list in
order of insertion. -/
def alphaGo : AMap Var Var → PatternAst Op → Except VarErr (PatternAst Op)
  | _, [] => .ok []
  | vars, n :: rest =>
    match n.op with
    | .op _ => do
      let r ← alphaGo vars rest
      return n :: r
    | .var v =>
      match vars.get? v with
      | some w => do
        let r ← alphaGo vars rest
        return { n with op := .var w } :: r
      | none => do
        let w ← mkvar vars.length
        let r ← alphaGo (vars.insert v w) rest
        return { n with op := .var w } :: r

/-- `src/pattern.rs:76-103` `alpha_rename`. -/
def alphaRename (e : PatternAst Op) : Except VarErr (PatternAst Op) := alphaGo [] e

end Egg
