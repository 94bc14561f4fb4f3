import Verif.Model.Text
/-
Specification of the textual form of s-expressions: a grammar, independent of the parser.
-/
namespace Egg

/-- The code points with the Unicode property White_Space. -/
def whiteSpace : List Nat :=
  [0x9, 0xA, 0xB, 0xC, 0xD, 0x20, 0x85, 0xA0, 0x1680, 0x2000, 0x2001, 0x2002, 0x2003, 0x2004, 0x2005, 0x2006, 0x2007, 0x2008, 0x2009,
   0x200A, 0x2028, 0x2029, 0x202F, 0x205F, 0x3000]

/-- White space only (`isWs` tests for the characters above, `c41_white_space`). -/
def Ws (w : List Char) : Prop := ∀ c ∈ w, isWs c = true

/-- The text starts with a character that ends an unquoted atom, or is empty. -/
def EndsAtom (rest : List Char) : Prop := ∀ c, rest.head? = some c → isWs c = true ∨ c = '(' ∨ c = ')'

/-- An atom that can be written without quotes: not empty, without white space and parentheses,
and not starting with a quote. -/
def RawAtom (a : List Char) : Prop :=
  a ≠ [] ∧ (∀ c ∈ a, isWs c = false ∧ c ≠ '(' ∧ c ≠ ')') ∧ a.head? ≠ some '"'

mutual
/-- `Tok t s`: the text `t`, without surrounding white space, denotes `s`. -/
inductive Tok : List Char → Sexp → Prop where
  | raw {a} : RawAtom a → Tok a (.str a)
  | quoted {a} : '"' ∉ a → Tok ('"' :: (a ++ ['"'])) (.str a)
  | empty {w} : Ws w → Tok ('(' :: (w ++ [')'])) .empty
  | list {t items} : Items t items → items ≠ [] → Tok ('(' :: (t ++ [')'])) (.list items)
/-- `Items t ss`: the text `t` denotes the sequence `ss`.  An unquoted atom has to be separated
from what follows by white space or a parenthesis. -/
inductive Items : List Char → List Sexp → Prop where
  | nil {w} : Ws w → Items w []
  | cons {w t rest s ss} : Ws w → Tok t s → (RawAtom t → EndsAtom rest) → Items rest ss → Items (w ++ (t ++ rest)) (s :: ss)
end

/-- The whole text denotes `s`. -/
def Denotes (text : List Char) (s : Sexp) : Prop :=
  ∃ w t w', Ws w ∧ Tok t s ∧ Ws w' ∧ text = w ++ (t ++ w')

/-- Atoms that are printed with quotes. -/
def NeedsQuotes (a : List Char) : Prop := ' ' ∈ a ∨ '(' ∈ a ∨ ')' ∈ a ∨ a = []

/-- Atoms that survive printing: those printed with quotes must not contain a quote; the others
must not contain white space (a tab, say) and must not start with a quote. -/
def AtomOK (a : List Char) : Prop :=
  (NeedsQuotes a → '"' ∉ a) ∧ (¬ NeedsQuotes a → (∀ c ∈ a, isWs c = false) ∧ a.head? ≠ some '"')

mutual
/-- All atoms satisfy `P`, and no list is empty. -/
def Sexp.AllAtoms (P : List Char → Prop) : Sexp → Prop
  | .str a => P a
  | .list items => items ≠ [] ∧ AllItems P items
  | .empty => True
def AllItems (P : List Char → Prop) : List Sexp → Prop
  | [] => True
  | s :: ss => s.AllAtoms P ∧ AllItems P ss
end

end Egg
