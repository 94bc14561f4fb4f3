import Verif.Props.Explanations
/-
C64: what the proof checker guarantees.
-/
namespace Egg
variable {Op : Type} [DecidableEq Op]

namespace FlatTerm

theorem term_of_eq {f : FlatTerm Op} : ∀ {g : FlatTerm Op}, f.eq g = true → f.term = g.term := by
  induction f using ind with
  | h o b fw cs ih =>
    rintro ⟨o', b', f', ds⟩ h
    rw [eq, Bool.and_eq_true, Bool.and_eq_true] at h
    obtain ⟨⟨h1, h2⟩, h3⟩ := h
    rw [term_mk, term_mk, of_decide_eq_true h1]
    congr 1
    have h2 : cs.length = ds.length := by simpa using h2
    clear h1
    induction cs generalizing ds with
    | nil => cases ds with
      | nil => rfl
      | cons _ _ => cases h2
    | cons c cs ihl =>
      cases ds with
      | nil => cases h2
      | cons d ds =>
        rw [eqAll, Bool.and_eq_true] at h3
        rw [List.map_cons, List.map_cons, ih c (by simp) h3.1,
          ihl (fun c hc => ih c (by simp [hc])) ds h3.2 (by simpa using h2) (by simpa using h2)]

/-- `b'` extends `b`. -/
def BExt (b b' : AMap Var (FlatTerm Op)) : Prop := ∀ v g, b.get? v = some g → b'.get? v = some g

theorem makeBindings_sound {p : PatternAst Op} (hp : ∀ n ∈ p, ∀ v, n.op = .var v → n.children = []) : ∀ (f : FlatTerm Op) (loc : Nat)
    (L : Term (PatOp Op)) (b b' : AMap Var (FlatTerm Op)), TermOf p loc L → makeBindings p f loc b = .ok b' →
    BExt b b' ∧ ∀ τ, BindsTo τ b' → Inst τ L f.term := by
  intro f
  induction f using ind with
  | h o bw fw cs ih =>
    rintro loc ⟨po, ps⟩ b b' hL h
    obtain ⟨n, hn, rfl, hc⟩ := termOf_iff.1 hL
    have hg : getIdx p loc = .ok n := getIdx_eq_ok.2 hn
    rw [makeBindings] at h
    simp only [hg, ok_bind] at h
    split at h
    · rename_i v hop
      have hz : ps = [] := by
        have := hp n (List.mem_of_getElem? hn) v hop
        rw [this] at hc
        cases hc; rfl
      subst hz
      rw [hop]
      split at h
      · rename_i g hv
        split at h
        · rename_i he
          cases h
          refine ⟨fun _ _ h => h, fun τ hτ => ?_⟩
          rw [← term_of_eq he, hτ v g hv]
          exact .var
        · cases h
      · rename_i hv
        cases h
        refine ⟨fun w g hw => ?_, fun τ hτ => ?_⟩
        · rw [AMap.get?_insert, if_neg (by rintro rfl; rw [hv] at hw; cases hw)]
          exact hw
        · rw [hτ v _ (by rw [AMap.get?_insert, if_pos rfl])]
          exact .var
    · rename_i o' hop
      split at h
      · rename_i hcond
        obtain ⟨rfl, hlen⟩ := hcond
        rw [hop]
        have key : ∀ (cs : List (FlatTerm Op)) (is : List Id) (ps : List (Term (PatOp Op))) (b b' : AMap Var (FlatTerm Op)),
            (∀ c ∈ cs, ∀ (loc : Nat) (L : Term (PatOp Op)) (b b' : AMap Var (FlatTerm Op)), TermOf p loc L →
              makeBindings p c loc b = .ok b' → BExt b b' ∧ ∀ τ, BindsTo τ b' → Inst τ L c.term) →
            is.length = cs.length → List.Forall₂ (TermOf p) is ps → makeBindingsAll p cs is b = .ok b' →
            BExt b b' ∧ ∀ τ, BindsTo τ b' → List.Forall₂ (Inst τ) ps (cs.map term) := by
          intro cs
          induction cs with
          | nil =>
            intro is ps b b' _ hl h1 h
            cases h1 with
            | nil => rw [makeBindingsAll] at h; cases h; exact ⟨fun _ _ h => h, fun _ _ => .nil⟩
            | cons _ _ => cases hl
          | cons c cs ihl =>
            intro is ps b b' hih hl h1 h
            cases h1 with
            | nil => cases hl
            | cons j1 j2 =>
              rw [makeBindingsAll, bind_eq_ok] at h
              obtain ⟨b1, k1, k2⟩ := h
              obtain ⟨e1, e2⟩ := hih c (by simp) _ _ _ _ j1 k1
              obtain ⟨e3, e4⟩ := ihl _ _ _ _ (fun c hc => hih c (by simp [hc])) (by simpa using hl) j2 k2
              exact ⟨fun v g hv => e3 v g (e1 v g hv),
                fun τ hτ => .cons (e2 τ (fun v g hv => hτ v g (e3 v g hv))) (e4 τ hτ)⟩
        obtain ⟨e1, e2⟩ := key cs n.children ps b b' ih hlen hc h
        refine ⟨e1, fun τ hτ => ?_⟩
        rw [term_mk]
        obtain ⟨l1, l2⟩ := forall₂_iff_get?.1 (e2 τ hτ)
        exact .node l1 (fun j q t => l2 j q t)
      · cases h

theorem fromPattern_sound {p : PatternAst Op} (hp : ∀ n ∈ p, ∀ v, n.op = .var v → n.children = []) {τ : Var → Term Op}
    {b : AMap Var (FlatTerm Op)} (hb : BindsTo τ b) : ∀ (fuel : Nat) (loc : Nat) (L : Term (PatOp Op)) (g : FlatTerm Op),
    TermOf p loc L → fromPattern p b fuel loc = .ok g → Inst τ L g.term := by
  intro fuel
  induction fuel with
  | zero => intro loc L g _ h; cases h
  | succ fuel ih =>
    rintro loc ⟨po, ps⟩ g hL h
    obtain ⟨n, hn, rfl, hc⟩ := termOf_iff.1 hL
    have hg : getIdx p loc = .ok n := getIdx_eq_ok.2 hn
    rw [fromPattern] at h
    simp only [hg, ok_bind] at h
    split at h
    · rename_i v hop
      have hz : ps = [] := by
        have := hp n (List.mem_of_getElem? hn) v hop
        rw [this] at hc
        cases hc; rfl
      subst hz
      rw [hop, hb v g (unwrap_eq_ok.1 h)]
      exact .var
    · rename_i o hop
      rw [bind_eq_ok] at h
      obtain ⟨gs, h1, h2⟩ := h
      cases h2
      rw [hop, new, term_mk]
      have h1 := mapM_eq_ok.1 h1
      have : List.Forall₂ (Inst τ) ps (gs.map term) := by
        clear hn hg hL
        rename_i hm
        clear hm
        generalize n.children = is at hc h1
        induction hc generalizing gs with
        | nil => cases h1; exact .nil
        | cons j1 _ ihl =>
          cases h1 with
          | cons k1 k2 => exact .cons (ih _ _ _ j1 k1) (ihl _ k2)
      obtain ⟨l1, l2⟩ := forall₂_iff_get?.1 this
      exact .node l1 (fun j q t => l2 j q t)

end FlatTerm

open FlatTerm

theorem checkRewrite_sound {fuel : Nat} {f g : FlatTerm Op} {info : RuleInfo Op} {lhs rhs : PatternAst Op} (hl : info.lhs = some lhs)
    (hr : info.rhs = some rhs) (hw1 : PatWF lhs) (hw2 : PatWF rhs) (h : checkRewrite fuel f g info = .ok true) :
    IsInstance lhs rhs f.term g.term := by
  unfold checkRewrite at h
  rw [hl, hr] at h
  simp only [] at h
  rw [bind_eq_ok] at h
  obtain ⟨g', h1, h2⟩ := h
  have he : g'.eq g = true := by cases hq : g'.eq g with
    | true => rfl
    | false => rw [hq] at h2; cases h2
  rw [← term_of_eq he]
  unfold FlatTerm.rewrite lastIdx at h1
  have e1 : lhs.length ≠ 0 := by have := List.length_pos_iff.2 hw1.1.1; omega
  have e2 : rhs.length ≠ 0 := by have := List.length_pos_iff.2 hw2.1.1; omega
  rw [if_neg e1, if_neg e2, ok_bind, bind_eq_ok] at h1
  obtain ⟨b, h1, h3⟩ := h1
  rw [ok_bind] at h3
  obtain ⟨L, hL⟩ := Dag.exists_term hw1.1.2 (lhs.length - 1) (by omega)
  obtain ⟨R, hR⟩ := Dag.exists_term hw2.1.2 (rhs.length - 1) (by omega)
  have hb : BindsTo (fun v => ((b.get? v).map term).getD f.term) b := by
    intro v g hg
    simp only [hg, Option.map_some, Option.getD_some]
  exact ⟨_, L, R, ⟨hw1.1.1, hL⟩, ⟨hw2.1.1, hR⟩, (makeBindings_sound hw1.2 f _ L [] b hL h1).2 _ hb,
    fromPattern_sound hw2.2 hb fuel _ R g' hR h3⟩

/-- `Checked rules r s t`: if `r` names a rule of the list that consists of two patterns, then `s` is an instance of its
left-hand side and `t` is the corresponding instance of its right-hand side.  (Nothing is said of rules that are not
in the list or are not patterns.) -/
def Checked (rules : List (RuleInfo Op)) (r : Symbol) (s t : Term Op) : Prop :=
  ∀ info ∈ rules, info.name = r → ∀ lhs rhs, info.lhs = some lhs → info.rhs = some rhs → IsInstance lhs rhs s t

section
variable {rules : List (RuleInfo Op)} {fuel : Nat}

theorem makeRuleTable_get (hn : (rules.map (·.name)).Nodup) {info : RuleInfo Op} (h : info ∈ rules) :
    (makeRuleTable rules).get? info.name = some info := by
  have key : ∀ (rules : List (RuleInfo Op)) (t : AMap Symbol (RuleInfo Op)), (rules.map (·.name)).Nodup →
      (info ∈ rules ∨ (info.name ∉ rules.map (·.name) ∧ t.get? info.name = some info)) →
      (rules.foldl (fun t r => t.insert r.name r) t).get? info.name = some info := by
    intro rules
    induction rules with
    | nil => rintro t _ (h | ⟨_, h⟩); · cases h
             exact h
    | cons a rules ih =>
      intro t hn h
      rw [List.map_cons, List.nodup_cons] at hn
      rw [List.foldl_cons]
      refine ih _ hn.2 ?_
      rcases h with h | ⟨h1, h2⟩
      · rcases List.mem_cons.1 h with rfl | h
        · exact .inr ⟨hn.1, by rw [AMap.get?_insert, if_pos rfl]⟩
        · exact .inl h
      · rw [List.map_cons, List.mem_cons, not_or] at h1
        exact .inr ⟨h1.2, by rw [AMap.get?_insert, if_neg (fun e => h1.1 e.symm)]; exact h2⟩
  exact key rules [] hn (.inl h)

theorem checkRewriteAll_mem {table : AMap Symbol (RuleInfo Op)} {fw : Bool} {pre pre' : List (FlatTerm Op)} (hl : pre.length = pre'.length)
    {c c' : FlatTerm Op} {post post' : List (FlatTerm Op)}
    (h : checkRewriteAll fuel table fw (pre ++ c :: post) (pre' ++ c' :: post') = .ok true) :
    checkRewriteAt fuel table fw c c' = .ok true := by
  induction pre generalizing pre' with
  | nil =>
    cases pre' with
    | cons _ _ => cases hl
    | nil =>
      rw [List.nil_append, List.nil_append, checkRewriteAll, bind_eq_ok] at h
      obtain ⟨b, h1, h2⟩ := h
      cases b with
      | true => exact h1
      | false => cases h2
  | cons p pre ih =>
    cases pre' with
    | nil => cases hl
    | cons p' pre' =>
      rw [List.cons_append, List.cons_append, checkRewriteAll, bind_eq_ok] at h
      obtain ⟨b, h1, h2⟩ := h
      cases b with
      | true => exact ih (by simpa using hl) h2
      | false => cases h2

theorem checkRewriteAt_sound (hn : (rules.map (·.name)).Nodup)
    (hr : ∀ info ∈ rules, ∀ lhs rhs, info.lhs = some lhs → info.rhs = some rhs → PatWF lhs ∧ PatWF rhs)
    {J : Symbol → Term Op → Term Op → Prop} {s : Term Op} {g : FlatTerm Op} (h : OneRewrite J s g) :
    ∀ f : FlatTerm Op, f.term = s → checkRewriteAt fuel (makeRuleTable rules) g.hasForward f g = .ok true →
      OneRewrite (Checked rules) s g := by
  induction h with
  | @fwd s o r cs hp hj =>
    have hF : (FlatTerm.mk o none (some r) cs).hasForward = true := by simp [hasForward]
    rintro ⟨o', b', f', cs'⟩ hf h
    rw [hF, checkRewriteAt] at h
    simp only [if_true] at h
    refine .fwd hp ?_
    rintro info hi rfl lhs rhs h1 h2
    rw [makeRuleTable_get hn hi] at h
    rw [← hf]
    exact checkRewrite_sound h1 h2 (hr info hi lhs rhs h1 h2).1 (hr info hi lhs rhs h1 h2).2 h
  | @bwd s o r cs hp hj =>
    have hF : (FlatTerm.mk o (some r) none cs).hasForward = false := by
      simp only [hasForward, anyForward_eq, Option.isSome_none, Bool.false_or, List.any_eq_false]
      intro c hc; simp [(hp c hc).no.1]
    rintro ⟨o', b', f', cs'⟩ hf h
    rw [hF, checkRewriteAt] at h
    simp only [Bool.false_eq_true, if_false] at h
    refine .bwd hp ?_
    rintro info hi rfl lhs rhs h1 h2
    rw [makeRuleTable_get hn hi] at h
    rw [← hf]
    exact checkRewrite_sound h1 h2 (hr info hi lhs rhs h1 h2).1 (hr info hi lhs rhs h1 h2).2 h
  | @child s o pre c post hpre hpost hc ih =>
    have hno : ∀ l : List (FlatTerm Op), (∀ c ∈ l, c.Plain) → l.any hasForward = false := by
      intro l hl
      rw [List.any_eq_false]
      intro c hc
      simp [(hl c hc).no.1]
    have hF : (FlatTerm.mk o none none (pre ++ c :: post)).hasForward = c.hasForward := by
      simp [hasForward, anyForward_eq, hno pre hpre, hno post hpost]
    rintro ⟨o', b', f', cs'⟩ hf h
    rw [hF, checkRewriteAt] at h
    simp only [ite_self] at h
    rw [term_mk] at hf
    injection hf with _ hf
    obtain ⟨pre', rest, rfl, e1, e2⟩ := List.map_eq_append_iff.1 hf
    obtain ⟨c', post', rfl, e3, e4⟩ := List.map_eq_cons_iff.1 e2
    exact .child hpre hpost (ih c' e3 (checkRewriteAll_mem (by simpa using congrArg List.length e1) h))

theorem checkSteps_sound (hn : (rules.map (·.name)).Nodup)
    (hr : ∀ info ∈ rules, ∀ lhs rhs, info.lhs = some lhs → info.rhs = some rhs → PatWF lhs ∧ PatWF rhs)
    {J : Symbol → Term Op → Term Op → Prop} : ∀ (fs : List (FlatTerm Op)) (f : FlatTerm Op) (t : Term Op),
    Rewrites J f.term fs t → checkSteps fuel (makeRuleTable rules) (f :: fs) = .ok () → Rewrites (Checked rules) f.term fs t := by
  intro fs
  induction fs with
  | nil => intro f t h _; cases h; exact .nil
  | cons g fs ih =>
    intro f t h hc
    cases h with
    | cons h1 h2 =>
      rw [checkSteps] at hc
      obtain ⟨_, k1, hc⟩ := bind_eq_ok.1 hc
      obtain ⟨ok, k2, hc⟩ := bind_eq_ok.1 hc
      obtain ⟨_, k3, hc⟩ := bind_eq_ok.1 hc
      cases ok with
      | false => cases k3
      | true => exact .cons (checkRewriteAt_sound hn hr h1 f rfl k2) (ih g t h2 hc)

/-- **C64.**  For an explanation in which each term differs from the one before by one annotated rewrite and
nothing else, `check_proof` accepts exactly if every rewrite by a rule of the list (that consists of
two patterns) is an instance of that rule.  The names of the rules must be distinct. -/
theorem c64_check_iff (hn : (rules.map (·.name)).Nodup)
    (hr : ∀ info ∈ rules, ∀ lhs rhs, info.lhs = some lhs → info.rhs = some rhs → PatternsOK lhs rhs)
    {p : List (TreeTerm Op)} {fl : List (FlatTerm Op)} (hf : TreeTerm.flattenProof p [] = .ok fl)
    {s t : Term Op} (hv : ValidFlat (fun _ _ _ => True) s fl t) :
    ∃ f0, ∀ f, f0 ≤ f → ((checkProof f rules p = .ok () ↔ ValidFlat (Checked rules) s fl t) ∧
      (¬ ValidFlat (Checked rules) s fl t → ∃ e, checkProof f rules p = .error e)) := by
  refine ⟨(rules.map (fun i => (i.rhs.map List.length).getD 0)).sum, fun f hfu => ?_⟩
  obtain ⟨f0, fs, rfl, h2, rfl, h4⟩ := hv
  have hc : checkProof f rules p = checkSteps f (makeRuleTable rules) (f0 :: fs) := by
    unfold checkProof
    simp only [hf, ok_bind, TreeTerm.first, List.head?_cons, unwrap, h2.no.1, h2.no.2, assert, Bool.not_false, if_true]
  have main : checkProof f rules p = .ok () ↔ ValidFlat (Checked rules) f0.term (f0 :: fs) t := by
    rw [hc]
    constructor
    · intro h
      exact ⟨f0, fs, rfl, h2, rfl, checkSteps_sound hn
        (fun info hi lhs rhs a b => ⟨(hr info hi lhs rhs a b).left, (hr info hi lhs rhs a b).right⟩) fs f0 t h4 h⟩
    · rintro ⟨g0, gs, he, _, _, h⟩
      cases he
      refine checkSteps_ok (J := Checked rules) ?_ fs f0 t h
      intro r info lhs rhs s t hg hl hrh hj
      obtain ⟨hm, rfl⟩ := makeRuleTable_mem hg
      obtain ⟨τ, L, R, k1, k2, k3, k4⟩ := hj info hm rfl lhs rhs hl hrh
      have hP := hr info hm lhs rhs hl hrh
      refine ⟨τ, L, R, k1, k2, hP.right.1.2, le_trans ?_ hfu, hP.vars L R k1 k2, k3, k4⟩
      exact le_sum_of_mem' (List.mem_map.2 ⟨info, hm, by rw [hrh]; rfl⟩)
  refine ⟨main, fun h => ?_⟩
  cases hq : checkProof f rules p with
  | error e => exact ⟨e, rfl⟩
  | ok u => exact absurd (main.1 (by rw [hq])) h

end

/-- Some position of a flat term is annotated with a rule used forwards. -/
inductive FlatTerm.Fwd : FlatTerm Op → Prop where
  | here {o b r cs} : Fwd (.mk o b (some r) cs)
  | inner {o b f cs c} : c ∈ cs → Fwd c → Fwd (.mk o b f cs)

/-- Some position of a flat term is annotated with a rule used backwards. -/
inductive FlatTerm.Bwd : FlatTerm Op → Prop where
  | here {o f r cs} : Bwd (.mk o (some r) f cs)
  | inner {o b f cs c} : c ∈ cs → Bwd c → Bwd (.mk o b f cs)

theorem FlatTerm.hasForward_iff (t : FlatTerm Op) : t.hasForward = true ↔ t.Fwd := by
  induction t using FlatTerm.ind with
  | h o b f cs ih =>
    rw [FlatTerm.hasForward, FlatTerm.anyForward_eq, Bool.or_eq_true, List.any_eq_true]
    constructor
    · rintro (h | ⟨c, hc, h⟩)
      · obtain ⟨r, rfl⟩ := Option.isSome_iff_exists.1 h
        exact .here
      · exact .inner hc ((ih c hc).1 h)
    · intro h
      cases h with
      | here => exact .inl rfl
      | inner hc h => exact .inr ⟨_, hc, (ih _ hc).2 h⟩

theorem FlatTerm.hasBackward_iff (t : FlatTerm Op) : t.hasBackward = true ↔ t.Bwd := by
  induction t using FlatTerm.ind with
  | h o b f cs ih =>
    rw [FlatTerm.hasBackward, FlatTerm.anyBackward_eq, Bool.or_eq_true, List.any_eq_true]
    constructor
    · rintro (h | ⟨c, hc, h⟩)
      · obtain ⟨r, rfl⟩ := Option.isSome_iff_exists.1 h
        exact .here
      · exact .inner hc ((ih c hc).1 h)
    · intro h
      cases h with
      | here => exact .inl rfl
      | inner hc h => exact .inr ⟨_, hc, (ih _ hc).2 h⟩

theorem assert_ok {b : Bool} {u : Unit} : assert b = .ok u ↔ b = true := by
  unfold assert
  cases b <;> simp

theorem checkSteps_shape {fuel : Nat} {table : AMap Symbol (RuleInfo Op)} : ∀ {fs : List (FlatTerm Op)} {f : FlatTerm Op},
    checkSteps fuel table (f :: fs) = .ok () → ∀ g ∈ fs, (g.Fwd ∧ ¬ g.Bwd) ∨ (g.Bwd ∧ ¬ g.Fwd) := by
  intro fs
  induction fs with
  | nil => intro f _ g hg; cases hg
  | cons n fs ih =>
    intro f h g hg
    unfold checkSteps at h
    obtain ⟨_, h1, h⟩ := bind_eq_ok.1 h
    obtain ⟨_, h2, h⟩ := bind_eq_ok.1 h
    obtain ⟨_, h3, h⟩ := bind_eq_ok.1 h
    rcases List.mem_cons.1 hg with rfl | hg
    · have h1 := assert_ok.1 h1
      rw [← FlatTerm.hasForward_iff, ← FlatTerm.hasBackward_iff]
      cases hF : g.hasForward <;> cases hB : g.hasBackward <;> simp [hF, hB] at h1 ⊢
    · exact ih h g hg

/-- **C64.**  Whatever is given to it, the checker accepts nothing but explanations that begin with an unannotated term and
go on with terms that are annotated in exactly one direction. -/
theorem c64_shape {fuel : Nat} {rules : List (RuleInfo Op)} {p : List (TreeTerm Op)} (h : checkProof fuel rules p = .ok ()) :
    ∃ f0 fs, TreeTerm.flattenProof p [] = .ok (f0 :: fs) ∧ ¬ f0.Fwd ∧ ¬ f0.Bwd ∧ ∀ g ∈ fs, (g.Fwd ∧ ¬ g.Bwd) ∨ (g.Bwd ∧ ¬ g.Fwd) := by
  unfold checkProof at h
  obtain ⟨fl, h1, h⟩ := bind_eq_ok.1 h
  obtain ⟨f0, h2, h⟩ := bind_eq_ok.1 h
  obtain ⟨_, h3, h⟩ := bind_eq_ok.1 h
  obtain ⟨_, h4, h⟩ := bind_eq_ok.1 h
  have h3 := assert_ok.1 h3
  have h4 := assert_ok.1 h4
  cases fl with
  | nil => cases h2
  | cons g fs =>
    cases h2
    refine ⟨f0, fs, h1, ?_, ?_, checkSteps_shape h⟩
    · rw [← FlatTerm.hasForward_iff]; simpa using h3
    · rw [← FlatTerm.hasBackward_iff]; simpa using h4

/-- `f a`, rewritten to `g a` by the rule `f ?x => g ?x`, and `f a` "rewritten" to `g b`. -/
def Ex.goodSteps : List (TreeTerm Ex.S) :=
  [.mk .f none none [[.mk .a none none []]], .mk .g none (some 9) [[.mk .a none none []]]]
def Ex.wrongSteps : List (TreeTerm Ex.S) :=
  [.mk .f none none [[.mk .a none none []]], .mk .g none (some 9) [[.mk .b none none []]]]

/-- The hypotheses of `c64_check_iff` are met by both; the first is accepted and the second is not. -/
example : ([Ex.infoFG].map (·.name)).Nodup ∧
    (∀ info ∈ [Ex.infoFG], ∀ lhs rhs, info.lhs = some lhs → info.rhs = some rhs → PatternsOK lhs rhs) ∧
    (∃ fl s t, TreeTerm.flattenProof Ex.goodSteps [] = .ok fl ∧ ValidFlat (fun _ _ _ => True) s fl t) ∧
    (∃ fl s t, TreeTerm.flattenProof Ex.wrongSteps [] = .ok fl ∧ ValidFlat (fun _ _ _ => True) s fl t) ∧
    checkProof 10 [Ex.infoFG] Ex.goodSteps = .ok () ∧ checkProof 10 [Ex.infoFG] Ex.wrongSteps = .error .panic := by
  have plain : ∀ o : Ex.S, ∀ c ∈ [FlatTerm.mk o none none []], FlatTerm.Plain c := by
    intro o c hc
    rw [List.mem_singleton.1 hc]
    exact .mk (by simp)
  refine ⟨by decide, Ex.infoFG_ok, ⟨_, _, _, rfl, _, _, rfl, .mk (plain _), rfl, .cons (.fwd (plain _) trivial) .nil⟩,
    ⟨_, _, _, rfl, _, _, rfl, .mk (plain _), rfl, .cons (.fwd (plain _) trivial) .nil⟩, rfl, rfl⟩

end Egg
