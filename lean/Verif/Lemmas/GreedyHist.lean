import Verif.Lemmas.Greedy
import Verif.Spec.Requests
/-
Requests for explanations in reachable e-graphs.
-/
namespace Egg
variable {Op D : Type} [DecidableEq Op] [Lang Op]

namespace EGraph
variable {C : Cfg Op D} {eg : EGraph Op D}
open Explain

/-- The forest of `eg` is fine, and the memo is fine for requests with the choices `ch`. -/
structure ReqReady (ch : Choices) (eg : EGraph Op D) (x : Explain Op) (L : Log) (cn : List (List Id)) : Prop where
  fo : Fo eg.nodes (fun i j => eg.rt i = eg.rt j) L x
  cls : ClsOK eg.nodes L eg.classes.keys
  cnOf : CnOf x ch eg.nodes eg.uf eg.classes.keys cn
  cnOk : CnOK x eg.nodes L cn
  memo : MemoInv x eg.nodes L cn

theorem directMemo_of {conn : Id → Id → Prop} (hC : ¬ C.optimized) {x : Explain Op} {L : Log} (hL : XOk C.optimized C.J eg.nodes conn x L) : DirectMemo x := by
  intro l r c nx hm
  obtain ⟨h1, e, nb, h2, h3, h4, s, h5⟩ := (hL.short l r c nx hm).2 hC
  exact ⟨h1, e, nb, h2, h3, h4, by rw [h5]; rfl⟩

theorem congr_of (hg : Good C eg) {x : Explain Op} {L : Log}
    (hL : XOk C.optimized C.J eg.nodes (fun i j => eg.rt i = eg.rt j) x L) (ch : Choices) :
    Fo eg.nodes (fun i j => eg.rt i = eg.rt j) L x ∧ ClsOK eg.nodes L eg.classes.keys ∧
    ∃ cn, CnOf x ch eg.nodes eg.uf eg.classes.keys cn ∧ CnOK x eg.nodes L cn := by
  have hfo : Fo eg.nodes (fun i j => eg.rt i = eg.rt j) L x := by
    refine ⟨hg.inv.core.dag, hL.inv, fun i e he c hc => ?_, hL.logNb⟩
    obtain ⟨h1, h2, h3, _⟩ := hL.nb i e he c hc
    exact ⟨h1, h2, (hL.inv.logConn i c.next (by rw [← hL.inv.len]; exact getElem?_lt he) h2).2 h3⟩
  have hkey : ∀ c ∈ eg.classes.keys, c < eg.nodes.length ∧ eg.rt c = c := by
    intro c hc
    exact (hg.inv.core.clsKey c).1 (by
      have := (AMap.get?_isSome_iff _ _).2 hc
      obtain ⟨v, hv⟩ := Option.isSome_iff_exists.1 this
      simp [sk, hv])
  have hcls : ClsOK eg.nodes L eg.classes.keys := by
    refine ⟨hg.inv.clsNodup, fun c hc => (hkey c hc).1, fun c hc c' hc' h => ?_⟩
    have := (hL.inv.logConn c c' (hkey c hc).1 (hkey c' hc').1).1 h
    rw [(hkey c hc).2, (hkey c' hc').2] at this
    exact this
  have huf : UfOK eg.nodes L eg.uf := by
    constructor
    · intro i hi
      exact ⟨_, hg.inv.find hi⟩
    · intro i j r h1 h2 hi hj
      have h1' : eg.find i = .ok r := h1
      have h2' : eg.find j = .ok r := h2
      rw [hg.inv.find hi] at h1'
      rw [hg.inv.find hj] at h2'
      cases h1'
      injection h2' with h2'
      exact (hL.inv.logConn i j hi hj).2 h2'.symm
  exact ⟨hfo, hcls, exists_cn hfo ch huf hcls⟩

theorem reqReady_of (hg : Good C eg) (hC : ¬ C.optimized) {x : Explain Op} {L : Log}
    (hL : XOk C.optimized C.J eg.nodes (fun i j => eg.rt i = eg.rt j) x L) (ch : Choices) : ∃ cn, ReqReady ch eg x L cn := by
  obtain ⟨hfo, hcls, cn, h1, h2⟩ := congr_of hg hL ch
  exact ⟨cn, hfo, hcls, h1, h2, memoInv_of_direct hfo (directMemo_of hC hL)⟩

theorem reqReady (hg : Good C eg) (hC : ¬ C.optimized) {x : Explain Op} (hx : eg.explain = some x) (ch : Choices) :
    ∃ L cn, ReqReady ch eg x L cn := by
  obtain ⟨L, hL⟩ := hg.inv.expl x hx
  exact ⟨L, reqReady_of hg hC hL ch⟩

theorem ReqReady.lengths {ch : Choices} {x : Explain Op} {L : Log} {cn : List (List Id)} (h : ReqReady ch eg x L cn) (on : Bool) :
    ReqReady ch { eg with explain := some { x with optimize := on } } { x with optimize := on } L cn := by
  obtain ⟨h1, h2, ⟨f0, h3⟩, h4, h5⟩ := h
  have hall : ∀ f todo s, findAllEnodesLoop { x with optimize := on } f todo s = findAllEnodesLoop x f todo s := by
    intro f
    induction f with
    | zero => intros; rfl
    | succ f ih =>
      intro todo s
      cases todo with
      | nil => rfl
      | cons c todo =>
        rw [findAllEnodesLoop, findAllEnodesLoop]
        simp only [ih]
  have hcls : ∀ f cls k cn, congrClassesLoop { x with optimize := on } ch eg.nodes eg.uf f cls k cn = congrClassesLoop x ch eg.nodes eg.uf f cls k cn := by
    intro f cls
    induction cls with
    | nil => intros; rfl
    | cons c cls ih =>
      intro k cn
      rw [congrClassesLoop, congrClassesLoop]
      simp only [ih, findAllEnodes, hall]
  refine ⟨⟨h1.dag, ?_, h1.nb, h1.logNb⟩, h2, ⟨f0, fun f hf => ?_⟩, ⟨h4.len, h4.sound, h4.up⟩, ?_⟩
  · exact ⟨h1.inv.len, h1.inv.wf, h1.inv.tree, h1.inv.edge, h1.inv.logConn, h1.inv.logLt, h1.inv.logFresh, h1.inv.logCongr,
      h1.inv.unSound, h1.inv.unComplete, h1.inv.cur⟩
  · have := h3 f hf
    rw [findCongruenceNeighbors] at this ⊢
    simp only [hcls]
    exact this
  · intro l r cost nx hg hne hl hr hc
    obtain ⟨k, g1, g2⟩ := h5 l r cost nx hg hne hl hr hc
    refine ⟨k, ?_, g2⟩
    clear g2 hg hc hl hne
    induction g1 with
    | nil => exact .nil
    | step q1 q2 q3 q4 _ ih => exact .step q1 q2 q3 q4 ih

theorem asks_ok (hg : Good C eg) (ch : Choices) : ∀ (as : List Ask) (x : Explain Op) (L : Log) (cn : List (List Id)),
    ReqReady ch { eg with explain := some x } x L cn → (∀ a b, .explain a b ∈ as → SameClass eg a b) →
    Returns (fun fuel => asks ch fuel as { eg with explain := some x }) (fun q => q.2.nodes = eg.nodes ∧ q.2.uf = eg.uf) := by
  intro as
  induction as with
  | nil => intro x L cn _ _; simp only [asks]; exact Returns.ret ⟨rfl, rfl⟩
  | cons r as ih =>
    intro x L cn hr hs
    cases r with
    | lengths on =>
      have h := ih _ L cn (hr.lengths on) (fun a b hab => hs a b (by simp [hab]))
      simp only [asks]
      cases on
      · exact h
      · exact h
    | explain a b =>
      simp only [asks]
      obtain ⟨ha, hb, hrt⟩ := hg.inv.sameClass_iff.1 (hs a b (by simp))
      have hpair : PairOK eg.nodes L (a, b) := ⟨ha, hb, (hr.fo.inv.logConn a b ha hb).2 hrt⟩
      have hreq := request_ok hr.fo ch hr.cls hr.cnOf hr.cnOk hr.memo hpair
      refine Returns.bind (P := fun q => ∃ x', q.2 = { eg with explain := some x' } ∧ SameTree x x' ∧ MemoInv x' eg.nodes L cn) ?_ ?_
      · have hfa : EGraph.find { eg with explain := some x } a = .ok (eg.rt a) := hg.inv.find ha
        have hfb : EGraph.find { eg with explain := some x } b = .ok (eg.rt b) := hg.inv.find hb
        simp only [explainIdEquivalence, hfa, hfb, ok_bind, hrt, ne_eq, not_true, if_false]
        refine Returns.bind hreq ?_
        rintro ⟨p, x'⟩ ⟨h1, h2⟩
        exact Returns.ret ⟨x', rfl, h1, h2⟩
      · rintro ⟨p, eg1⟩ ⟨x', h1, h2, h3⟩
        simp only at h1
        subst h1
        have hr' : ReqReady ch { eg with explain := some x' } x' L cn :=
          ⟨hr.fo.same h2, hr.cls, hr.cnOf.same h2, hr.cnOk.same h2, h3⟩
        refine Returns.bind (ih x' L cn hr' (fun a b hab => hs a b (by simp [hab]))) ?_
        rintro ⟨ps, eg2⟩ h
        exact Returns.ret h

end EGraph
end Egg
