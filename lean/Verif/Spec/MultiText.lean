import Verif.Spec.SexpText
import Verif.Props.VarText
/-
Specification of the text of multi-patterns: `?v = p = q, ?w = r`.  The text of single patterns is a parameter
(`Q text p`: the text denotes the pattern `p`).
-/
namespace Egg

/-- The text is `core` surrounded by white space; `core` does not start or end with white space. -/
def Trimmed (text core : List Char) : Prop :=
  ∃ w w', Ws w ∧ Ws w' ∧ text = w ++ (core ++ w') ∧ (∀ c, core.head? = some c → isWs c = false) ∧
    (∀ c, core.getLast? = some c → isWs c = false)

/-- The text consists of these pieces with the character `sep` between them; no piece contains `sep`. -/
def Pieces (sep : Char) (text : List Char) : List (List Char) → Prop
  | [] => False
  | p :: ps => (∀ q ∈ p :: ps, sep ∉ q) ∧ text = p ++ ps.flatMap (fun q => sep :: q)

/-- The variable and the patterns of a clause `?v = p = q`: one variable, at least one pattern. -/
def ClauseText {α : Type} (Q : List Char → α → Prop) (clause : List Char) (out : List (Var × α)) : Prop :=
  ∃ vt vc v pts ps, Pieces '=' clause (vt :: pts) ∧ Trimmed vt vc ∧ VarText vc v ∧ pts ≠ [] ∧
    List.Forall₂ Q pts ps ∧ out = ps.map (fun p => (v, p))

/-- What a piece between commas contributes: nothing if it is blank. -/
def PieceText {α : Type} (Q : List Char → α → Prop) (piece : List Char) (out : List (Var × α)) : Prop :=
  (Ws piece ∧ out = []) ∨ (¬ Ws piece ∧ ∃ clause, Trimmed piece clause ∧ ClauseText Q clause out)

/-- The text denotes the multi-pattern `out`. -/
def MultiText {α : Type} (Q : List Char → α → Prop) (text : List Char) (out : List (Var × α)) : Prop :=
  ∃ core pieces outs, Trimmed text core ∧ Pieces ',' core pieces ∧ List.Forall₂ (PieceText Q) pieces outs ∧ out = outs.flatten

end Egg
