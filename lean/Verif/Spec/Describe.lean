import Verif.Spec.Assumptions
/-
Specification vocabulary: data that describe terms.
-/
namespace Egg
variable {Op D : Type}

/-- `R` is the meaning of equality, `V d t` that the datum `d` describes the term `t`; `V` respects
`R`.  Nothing else is said about data. -/
def Cfg.ofV (R : Term Op → Term Op → Prop) (hR : IsCongruence R) (V : D → Term Op → Prop)
    (hV : ∀ {s t d}, R s t → V d s → V d t) : Cfg Op D where
  R := R
  isCong := hR
  J := fun _ _ _ => True
  optimized := True
  V := V
  vResp := hV
  le := fun _ _ => True
  leRefl := fun _ => trivial
  leTrans := fun _ _ => trivial
  B := fun _ _ _ => True
  bUp := fun _ _ => trivial
  bAnti := fun _ _ => trivial

variable [DecidableEq Op] [Lang Op]

/-- The analysis is a correct abstraction: the datum made for an e-node describes `op ts` if the data of
its children describe `ts`; what two data describe, the merged datum describes;
and `modify`, in a state where data describe the terms of their classes and terms of one class are
equal, requests correct unions and sets correct data only. -/
structure Describing (A : UserAnalysis Op D) (R : Term Op → Term Op → Prop) (hR : IsCongruence R) (V : D → Term Op → Prop)
    (hV : ∀ {s t d}, R s t → V d s → V d t) : Prop where
  make : ∀ eg n i ds d, EGraph.ChildData eg n ds → A.make eg n i = .ok d → ∀ ts, List.Forall₂ V ds ts → V d (.node n.op ts)
  remake : ∀ eg n i ds d, EGraph.ChildData eg n ds → A.remake eg n i = .ok d → ∀ ts, List.Forall₂ V ds ts → V d (.node n.op ts)
  merge : ∀ a b t, V a t → V b t → V (A.merge a b).1 t
  modify : ∀ depth eg i, Sensible (Cfg.ofV R hR V hV) eg → Valid eg i →
    (A.modify i).Safe (Cfg.ofV R hR V hV) (fun _ => True) (A.at depth) eg

/-- The caller sets only data that describe all terms of the class. -/
def SetsDescribing (V : D → Term Op → Prop) : Caller Op D := ⟨fun eg i d => ∀ t, Rep eg i t → V d t, True, True⟩

omit [DecidableEq Op] [Lang Op] in
mutual
/-- The abstract value of a term: `mk` folded over the tree. -/
def absValue (mk : Op → List D → D) : Term Op → D
  | .node op ts => mk op (absValues mk ts)
def absValues (mk : Op → List D → D) : List (Term Op) → List D
  | [] => []
  | t :: ts => absValue mk t :: absValues mk ts
end

end Egg
