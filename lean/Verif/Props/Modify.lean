import Verif.Lemmas.Modify
import Verif.Props.Closure
import Verif.ExampleFold
/-
C50: the `modify` hook has been run on the final datum of every class.
-/
namespace Egg
variable {Op D : Type} [DecidableEq Op] [Lang Op]

/-- **C50.**  Let `modify` deliver what data promise (`P d t`: a class with datum `d` is to contain
`t`).  Then after every history of API calls every class contains what its datum promises: whenever a
datum is made, merged, remade or set, `modify` is run on the class afterwards.  Nothing else is assumed
of the analysis or the caller; `modify` may change the e-graph and run nested. -/
theorem c50_modify_delivered {A : UserAnalysis Op D} {P : D → Term Op → Prop}
    (hP : A.Delivers (Cfg.ofR _ isCongruence_true anyReason) P) {depth : Nat} {allow : Caller Op D}
    {U : List (UnionRec Op)} {eg : EGraph Op D} (h : Hist (A.at depth) allow U eg)
    {i : Id} {k : EClass Op D} (hk : eg.index i = .ok k) {t : Term Op} (ht : P k.data t) : Rep eg i t := by
  have hA := soundFor_true A
  have hg := hist_good h
  have hkept := EGraph.Hist.kept (hA.hookOK trivial depth) (EGraph.hookK trivial hA hP depth)
    (fun _ _ _ _ _ => ⟨fun _ _ => ⟨trivial, trivial⟩, fun _ _ => trivial⟩) h (fun _ _ => ⟨trivial, trivial⟩)
  unfold EGraph.index at hk
  obtain ⟨r, hr, hk⟩ := bind_eq_ok.1 hk
  obtain ⟨hi, rfl⟩ := hg.inv.find_iff.1 hr
  have hk := unwrap_eq_ok.1 hk
  rcases hkept _ _ hk with h1 | ⟨x, hx, _⟩
  · exact hg.inv.rep_congr hi (hg.inv.core.rtIdem i) (h1 t ht)
  · cases hx

/-- The same for correct analyses of any kind: `C` says which equations are asserted and what data
mean (`modify` may rely on both). -/
theorem c50_modify_delivered_sound {A : UserAnalysis Op D} {C : Cfg Op D} {P : D → Term Op → Prop} {E : Err → Prop} (hE : E .fuel)
    (hA : A.OK C E) (hP : A.Delivers C P) {depth : Nat} {allow : Caller Op D}
    (hallow : ∀ eg i d, Sensible C eg → allow eg i d → SetOK C eg i d)
    (hopt : allow.optimized → C.optimized)
    {U : List (UnionRec Op)} {eg : EGraph Op D} (h : Hist (A.at depth) allow U eg)
    (hU : ∀ u ∈ U, C.R u.s u.t ∧ C.J u.reason u.a u.b)
    {i : Id} {k : EClass Op D} (hk : eg.index i = .ok k) {t : Term Op} (ht : P k.data t) : Rep eg i t := by
  have hg := (EGraph.Hist.good (hA.hookOK hE depth) (fun eg i d hg => hallow eg i d hg.sensible) h hU hopt).1
  have hkept := EGraph.Hist.kept (hA.hookOK hE depth) (EGraph.hookK hE hA hP depth)
    (fun eg i d hg => hallow eg i d hg.sensible) h hU hopt
  unfold EGraph.index at hk
  obtain ⟨r, hr, hk⟩ := bind_eq_ok.1 hk
  obtain ⟨hi, rfl⟩ := hg.inv.find_iff.1 hr
  have hk := unwrap_eq_ok.1 hk
  rcases hkept _ _ hk with h1 | ⟨x, hx, _⟩
  · exact hg.inv.rep_congr hi (hg.inv.core.rtIdem i) (h1 t ht)
  · cases hx

namespace Fold

/-- Constant folding meets the hypothesis of C50: a class whose value is `v` is to contain the
literal `v`. -/
theorem delivers : U.Delivers (Cfg.ofR _ isCongruence_true anyReason) (fun d t => ∃ v, d = some v ∧ t = lit v) where
  flag := by
    rintro (_ | x) (_ | y) t h1 ⟨v, h2, h3⟩ <;> simp_all [U]
  modify := by
    rintro depth eg i k t hs hk ⟨v, h1, rfl⟩
    show Prog.Ends _ _ _ (Prog.read _) eg
    simp only [Prog.Ends, hk, h1]
    intro eg' j _ _ ⟨_, hj⟩ eg'' r _ hl hsc
    have h3 := hl.rep j _ (hj [] .nil)
    obtain ⟨r, h4, h5⟩ := hsc
    unfold lit
    rw [EGraph.rep_iff] at h3 ⊢
    obtain ⟨r', k', n', g1, g2⟩ := h3
    rw [h5] at g1; cases g1
    exact ⟨r, k', n', h4, g2⟩

def st {α : Type} (r : Res (EGraph O (Option Nat) × α)) : EGraph O (Option Nat) :=
  match r with
  | .ok (e, _) => e
  | .error _ => EGraph.new

def snd? {α : Type} (r : Res (EGraph O (Option Nat) × α)) : Option α :=
  match r with
  | .ok (_, a) => some a
  | .error _ => none

theorem ok_st {α : Type} {r : Res (EGraph O (Option Nat) × α)} {a : α} (h : snd? r = some a) : r = .ok (st r, a) := by
  unfold snd? at h
  split at h
  · cases h; rfl
  · cases h

/-- x, 2, x + 2, 1; then x = 1 and `rebuild`. -/
def e1 : EGraph O (Option Nat) := st (EGraph.addUncanonical N EGraph.new ⟨.var 0, []⟩)
def e2 : EGraph O (Option Nat) := st (EGraph.addUncanonical N e1 ⟨.num 2, []⟩)
def e3 : EGraph O (Option Nat) := st (EGraph.addUncanonical N e2 ⟨.plus, [0, 1]⟩)
def e4 : EGraph O (Option Nat) := st (EGraph.addUncanonical N e3 ⟨.num 1, []⟩)
def e5 : EGraph O (Option Nat) := st (EGraph.union N e4 0 3 7)
def e6 : EGraph O (Option Nat) := st (EGraph.rebuild N 20 e5)

def un : UnionRec O := ⟨7, 0, 3, .node (.var 0) [], lit 1⟩

/-- The class of an id. -/
def cls (eg : EGraph O (Option Nat)) (i : Id) : List (ENode O) × Option (Option Nat) :=
  match eg.index i with
  | .ok k => (k.nodes, some k.data)
  | .error _ => ([], none)

theorem rep_leaf {eg : EGraph O (Option Nat)} {i : Id} {o : O} (h : ⟨o, []⟩ ∈ (cls eg i).1) : Rep eg i (.node o []) := by
  unfold cls at h
  split at h
  · rename_i k hk
    unfold EGraph.index at hk
    obtain ⟨r, hr, hk⟩ := bind_eq_ok.1 hk
    rw [EGraph.rep_iff]
    exact ⟨r, k, ⟨o, []⟩, hr, unwrap_eq_ok.1 hk, h, rfl, .nil⟩
  · cases h

theorem cls_data {eg : EGraph O (Option Nat)} {i : Id} {d : Option Nat} (h : (cls eg i).2 = some d) :
    ∃ k, eg.index i = .ok k ∧ k.data = d := by
  unfold cls at h
  split at h
  · rename_i k hk
    cases h
    exact ⟨k, hk, rfl⟩
  · cases h

theorem hist4 (allow) : Hist N allow [] e4 :=
  .tail (V := []) (.tail (V := []) (.tail (V := []) (.tail (V := []) .refl
    (.add (n := ⟨.var 0, []⟩) (i := 0) (ok_st (by decide +kernel))))
    (.add (n := ⟨.num 2, []⟩) (i := 1) (ok_st (by decide +kernel))))
    (.add (n := ⟨.plus, [0, 1]⟩) (i := 2) (ok_st (by decide +kernel))))
    (.add (n := ⟨.num 1, []⟩) (i := 3) (ok_st (by decide +kernel)))

theorem hist6 (allow) : Hist N allow [un] e6 :=
  .tail (V := []) (.tail (V := [un]) (hist4 allow)
    (.union (r := true) (rep_leaf (by decide +kernel)) (rep_leaf (by decide +kernel)) (ok_st (by decide +kernel))))
    (.rebuild (fuel := 20) (n := 0) (ok_st (by decide +kernel)))

/-- Before the union the class of x + 2 has no value; after `rebuild` it has the value 3 and contains
the literal. -/
example : (∃ k, e4.index 2 = .ok k ∧ k.data = none) ∧ (∃ k, e6.index 2 = .ok k ∧ k.data = some 3) ∧ Rep e6 2 (lit 3) := by
  obtain ⟨k, h1, h2⟩ := cls_data (eg := e6) (i := 2) (d := some 3) (by decide +kernel)
  exact ⟨cls_data (by decide +kernel), ⟨k, h1, h2⟩, c50_modify_delivered delivers (hist6 .all) h1 ⟨3, h2, rfl⟩⟩

end Fold
end Egg
