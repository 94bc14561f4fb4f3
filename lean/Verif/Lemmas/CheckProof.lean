import Verif.Lemmas.Flatten
import Verif.Spec.Match
import Verif.Lemmas.Basic
/-
The proof checker accepts valid flat explanations whose steps are instances of the rules.
-/
namespace Egg
variable {Op : Type} [DecidableEq Op]

namespace FlatTerm

theorem eqAll_of {cs ds : List (FlatTerm Op)} (h : List.Forall₂ (fun c d => c.eq d = true) cs ds) : eqAll cs ds = true := by
  induction h with
  | nil => rfl
  | cons h _ ih => rw [eqAll, h, ih]; rfl

theorem eq_of_term {f : FlatTerm Op} : ∀ {g : FlatTerm Op}, f.term = g.term → f.eq g = true := by
  induction f using ind with
  | h o b fw cs ih =>
    rintro ⟨o', b', f', ds⟩ h
    rw [term_mk, term_mk] at h
    injection h with h1 h2
    have hl : cs.length = ds.length := by simpa using congrArg List.length h2
    rw [eq]
    simp only [h1, decide_true, hl, beq_self_eq_true, Bool.true_and]
    refine eqAll_of ?_
    rw [forall₂_iff_get?]
    refine ⟨hl, fun j c d hc hd => ih c (List.mem_of_getElem? hc) ?_⟩
    have := congrArg (fun l => l[j]?) h2
    simpa [hc, hd] using this

/-- The bindings collected so far agree with `τ`. -/
def BindsTo (τ : Var → Term Op) (b : AMap Var (FlatTerm Op)) : Prop := ∀ v g, b.get? v = some g → g.term = τ v

/-- `b'` has all the variables of `b`. -/
def BMore (b b' : AMap Var (FlatTerm Op)) : Prop := ∀ v, (b.get? v).isSome → (b'.get? v).isSome

theorem inst_node {τ : Var → Term Op} {o o' : Op} {ps : List (Term (PatOp Op))} {ts : List (Term Op)}
    (h : Inst τ (.node (.op o) ps) (.node o' ts)) : o = o' ∧ List.Forall₂ (Inst τ) ps ts := by
  cases h with
  | node h1 h2 => exact ⟨rfl, forall₂_iff_get?.2 ⟨h1, fun j q t => h2 j q t⟩⟩

theorem inst_var {τ : Var → Term Op} {v : Var} {ps : List (Term (PatOp Op))} {t : Term Op}
    (h : Inst τ (.node (.var v) ps) t) : t = τ v ∧ ps = [] := by
  cases h; exact ⟨rfl, rfl⟩

theorem makeBindings_ok {p : PatternAst Op} {τ : Var → Term Op} : ∀ (f : FlatTerm Op) (loc : Nat) (L : Term (PatOp Op))
    (b : AMap Var (FlatTerm Op)), TermOf p loc L → Inst τ L f.term → BindsTo τ b →
    ∃ b', makeBindings p f loc b = .ok b' ∧ BindsTo τ b' ∧ BMore b b' ∧ ∀ v, Occurs v L → (b'.get? v).isSome := by
  intro f
  induction f using ind with
  | h o bw fw cs ih =>
    rintro loc ⟨po, ps⟩ b hL hi hb
    obtain ⟨n, hn, rfl, hc⟩ := termOf_iff.1 hL
    have hg : getIdx p loc = .ok n := getIdx_eq_ok.2 hn
    cases hop : n.op with
    | var v =>
      rw [hop] at hi
      obtain ⟨ht, rfl⟩ := inst_var hi
      have hocc : ∀ w, Occurs w (.node (.var v) [] : Term (PatOp Op)) → w = v := by
        intro w hw; cases hw with
        | refl => rfl
        | arg h _ => simp at h
      cases hv : b.get? v with
      | some g =>
        refine ⟨b, ?_, hb, fun _ h => h, fun w hw => ?_⟩
        · rw [makeBindings]
          simp only [hg, ok_bind, hop, hv]
          rw [if_pos (eq_of_term (by rw [hb v g hv, ← ht]))]; rfl
        · rw [hocc w hw, hv]; rfl
      | none =>
        refine ⟨b.insert v (mk o bw fw cs), ?_, ?_, ?_, fun w hw => ?_⟩
        · rw [makeBindings]
          simp only [hg, ok_bind, hop, hv]; rfl
        · intro w g hw
          rw [AMap.get?_insert] at hw
          split at hw
          · rename_i he; subst he; cases hw; exact ht
          · exact hb w g hw
        · intro w hw
          rw [AMap.get?_insert]
          split
          · rfl
          · exact hw
        · rw [hocc w hw, AMap.get?_insert, if_pos rfl]; rfl
    | op o' =>
      rw [hop, term_mk] at hi
      obtain ⟨rfl, hf⟩ := inst_node hi
      have hl1 := hc.length_eq
      have hl2 := hf.length_eq
      rw [List.length_map] at hl2
      have key : ∀ (cs : List (FlatTerm Op)) (is : List Id) (ps : List (Term (PatOp Op))) (b : AMap Var (FlatTerm Op)),
          (∀ c ∈ cs, ∀ (loc : Nat) (L : Term (PatOp Op))
            (b : AMap Var (FlatTerm Op)), TermOf p loc L → Inst τ L c.term → BindsTo τ b →
            ∃ b', makeBindings p c loc b = .ok b' ∧ BindsTo τ b' ∧ BMore b b' ∧ ∀ v, Occurs v L → (b'.get? v).isSome) →
          List.Forall₂ (TermOf p) is ps → List.Forall₂ (Inst τ) ps (cs.map term) → BindsTo τ b →
          ∃ b', makeBindingsAll p cs is b = .ok b' ∧ BindsTo τ b' ∧ BMore b b' ∧ ∀ q ∈ ps, ∀ v, Occurs v q → (b'.get? v).isSome := by
        intro cs
        induction cs with
        | nil =>
          intro is ps b _ h1 h2 hb
          cases h2; cases h1
          exact ⟨b, by rw [makeBindingsAll], hb, fun _ h => h, fun q hq => by simp at hq⟩
        | cons c cs ihl =>
          intro is ps b hih h1 h2 hb
          cases h2 with
          | cons i1 i2 =>
            cases h1 with
            | cons j1 j2 =>
              obtain ⟨b1, k1, k2, k3, k4⟩ := hih c (by simp) _ _ b j1 i1 hb
              obtain ⟨b2, l1, l2, l3, l4⟩ := ihl _ _ b1 (fun c hc => hih c (by simp [hc])) j2 i2 k2
              refine ⟨b2, by rw [makeBindingsAll, k1]; exact l1, l2, fun v hv => l3 v (k3 v hv), ?_⟩
              intro q hq v hv
              rcases List.mem_cons.1 hq with rfl | hq
              · exact l3 v (k4 v hv)
              · exact l4 q hq v hv
      obtain ⟨b', k1, k2, k3, k4⟩ := key cs n.children ps b ih hc hf hb
      refine ⟨b', ?_, k2, k3, ?_⟩
      · rw [makeBindings]
        simp only [hg, ok_bind, hop]
        rw [if_pos ⟨trivial, by omega⟩]; exact k1
      · intro v hv
        cases hv with
        | arg hq hv => exact k4 _ hq v hv

theorem fromPattern_ok {p : PatternAst Op} {τ : Var → Term Op} {b : AMap Var (FlatTerm Op)} (hd : Dag p) (hb : BindsTo τ b) : ∀ (fuel : Nat)
    (loc : Nat) (L : Term (PatOp Op)) (t : Term Op), loc < fuel → TermOf p loc L → Inst τ L t →
    (∀ v, Occurs v L → (b.get? v).isSome) → ∃ g, fromPattern p b fuel loc = .ok g ∧ g.term = t := by
  intro fuel
  induction fuel with
  | zero => intro loc L t h; omega
  | succ fuel ih =>
    rintro loc ⟨po, ps⟩ t hlt hL hi hv
    obtain ⟨n, hn, rfl, hc⟩ := termOf_iff.1 hL
    have hg : getIdx p loc = .ok n := getIdx_eq_ok.2 hn
    cases hop : n.op with
    | var v =>
      rw [hop] at hi
      obtain ⟨ht, rfl⟩ := inst_var hi
      obtain ⟨g, hg'⟩ := Option.isSome_iff_exists.1 (hv v (by rw [hop]; exact .refl))
      refine ⟨g, ?_, by rw [ht, hb v g hg']⟩
      rw [fromPattern]
      simp only [hg, ok_bind, hop, hg']; rfl
    | op o =>
      obtain ⟨o', ts⟩ := t
      rw [hop] at hi
      obtain ⟨rfl, hf⟩ := inst_node hi
      have : ∃ gs, n.children.mapM (fun c => fromPattern p b fuel c) = .ok gs ∧ gs.map term = ts := by
        have hch : ∀ c ∈ n.children, c < fuel := fun c hc => by
          have := hd loc n hn c hc; omega
        have hv' : ∀ q ∈ ps, ∀ v, Occurs v q → (b.get? v).isSome := fun q hq v ho => hv v (.arg hq ho)
        clear hn hg hL hi hv hlt
        generalize n.children = is at hc hch
        induction hf generalizing is with
        | nil => cases hc; exact ⟨[], rfl, rfl⟩
        | cons i1 _ ihl =>
          cases hc with
          | cons j1 j2 =>
            obtain ⟨g, g1, g2⟩ := ih _ _ _ (hch _ (by simp)) j1 i1 (hv' _ (by simp))
            obtain ⟨gs, g3, g4⟩ := ihl (fun q hq => hv' q (by simp [hq])) _ (by exact j2) (fun c hc => hch c (by simp [hc]))
            refine ⟨g :: gs, ?_, by simp [g2, g4]⟩
            rw [List.mapM_cons, g1, ok_bind, g3]; rfl
      obtain ⟨gs, h1, h2⟩ := this
      refine ⟨new o gs, ?_, by rw [new, term_mk, h2]⟩
      rw [fromPattern]
      simp only [hg, ok_bind, hop, h1]; rfl

/-- A rewrite by patterns of which the current term is an instance. -/
theorem rewrite_ok {lhs rhs : PatternAst Op} {τ : Var → Term Op} {L R : Term (PatOp Op)} (hl : ExprTerm lhs L) (hr : ExprTerm rhs R)
    (hd : Dag rhs) (hvars : ∀ v, Occurs v R → Occurs v L) {f : FlatTerm Op} {t : Term Op} (h1 : Inst τ L f.term) (h2 : Inst τ R t)
    {fuel : Nat} (hf : rhs.length ≤ fuel) : ∃ g, f.rewrite fuel lhs rhs = .ok g ∧ g.term = t := by
  obtain ⟨hl0, hl⟩ := hl
  obtain ⟨hr0, hr⟩ := hr
  have hl1 : lhs.length ≠ 0 := by have := List.length_pos_iff.2 hl0; omega
  have hr1 : rhs.length ≠ 0 := by have := List.length_pos_iff.2 hr0; omega
  obtain ⟨b, g1, g2, _, g4⟩ := makeBindings_ok f (lhs.length - 1) L [] hl h1 (by intro v g hg; simp [AMap.get?] at hg)
  obtain ⟨g, g5, g6⟩ := fromPattern_ok hd g2 fuel (rhs.length - 1) R t (by omega) hr h2 (fun v hv => g4 v (hvars v hv))
  refine ⟨g, ?_, g6⟩
  simp [rewrite, lastIdx, hl1, hr1, g1, g5]

end FlatTerm

open FlatTerm

/-- The steps by a rule of the table are instances of its patterns, as far as the rule has
patterns. -/
def TableOK (fuel : Nat) (table : AMap Symbol (RuleInfo Op)) (J : Symbol → Term Op → Term Op → Prop) : Prop :=
  ∀ r info lhs rhs s t, table.get? r = some info → info.lhs = some lhs → info.rhs = some rhs → J r s t →
    ∃ τ L R, ExprTerm lhs L ∧ ExprTerm rhs R ∧ Dag rhs ∧ rhs.length ≤ fuel ∧ (∀ v, Occurs v R → Occurs v L) ∧ Inst τ L s ∧ Inst τ R t

variable {fuel : Nat} {table : AMap Symbol (RuleInfo Op)} {J : Symbol → Term Op → Term Op → Prop}

theorem TableOK.check (h : TableOK fuel table J) {r : Symbol} {info : RuleInfo Op} (hg : table.get? r = some info)
    {f g : FlatTerm Op} (hj : J r f.term g.term) : checkRewrite fuel f g info = .ok true := by
  unfold checkRewrite
  split
  · rename_i l rh hl hr
    obtain ⟨τ, L, R, h1, h2, h3, h4, h5, h6, h7⟩ := h r info l rh _ _ hg hl hr hj
    obtain ⟨g', k1, k2⟩ := rewrite_ok h1 h2 h3 h5 h6 h7 h4
    simp only [k1, ok_bind]
    rw [eq_of_term k2]; rfl
  · rfl

theorem checkRewriteAll_of {fw : Bool} {cs ds : List (FlatTerm Op)}
    (h : List.Forall₂ (fun c d => checkRewriteAt fuel table fw c d = .ok true) cs ds) :
    checkRewriteAll fuel table fw cs ds = .ok true := by
  induction h with
  | nil => rw [checkRewriteAll]; intros; simp_all
  | cons h _ ih => rw [checkRewriteAll, h]; exact ih

theorem checkRewriteAt_plain {fw : Bool} {d : FlatTerm Op} : ∀ {c : FlatTerm Op}, d.Plain → c.term = d.term →
    checkRewriteAt fuel table fw c d = .ok true := by
  induction d using FlatTerm.ind with
  | h o b f ds ih =>
    rintro ⟨o', b', f', cs⟩ hp ht
    obtain ⟨rfl, rfl, hp'⟩ := plain_iff.1 hp
    rw [term_mk, term_mk] at ht
    injection ht with _ ht
    have hl : cs.length = ds.length := by simpa using congrArg List.length ht
    rw [checkRewriteAt]
    simp only [ite_self]
    refine checkRewriteAll_of (forall₂_iff_get?.2 ⟨hl, fun j c d hc hd => ?_⟩)
    refine ih d (List.mem_of_getElem? hd) (hp' d (List.mem_of_getElem? hd)) ?_
    have := congrArg (fun l => l[j]?) ht
    simpa [hc, hd] using this

theorem checkRewriteAt_ok (hT : TableOK fuel table J) {s : Term Op} {g : FlatTerm Op} (h : OneRewrite J s g) :
    xor g.hasForward g.hasBackward = true ∧
    ∀ f : FlatTerm Op, f.term = s → checkRewriteAt fuel table g.hasForward f g = .ok true := by
  induction h with
  | @fwd s o r cs hp hj =>
    have hF : (FlatTerm.mk o none (some r) cs).hasForward = true := by simp [hasForward]
    have hB : (FlatTerm.mk o none (some r) cs).hasBackward = false := by
      simp only [hasBackward, anyBackward_eq, Option.isSome_none, Bool.false_or, List.any_eq_false]
      intro c hc; simp [(hp c hc).no.2]
    refine ⟨by rw [hF, hB]; rfl, ?_⟩
    rintro ⟨o', b', f', cs'⟩ hf
    rw [hF, checkRewriteAt]
    simp only [if_true]
    split
    · rename_i info hi
      exact hT.check hi (by rw [hf]; exact hj)
    · rfl
  | @bwd s o r cs hp hj =>
    have hB : (FlatTerm.mk o (some r) none cs).hasBackward = true := by simp [hasBackward]
    have hF : (FlatTerm.mk o (some r) none cs).hasForward = false := by
      simp only [hasForward, anyForward_eq, Option.isSome_none, Bool.false_or, List.any_eq_false]
      intro c hc; simp [(hp c hc).no.1]
    refine ⟨by rw [hF, hB]; rfl, ?_⟩
    rintro ⟨o', b', f', cs'⟩ hf
    rw [hF, checkRewriteAt]
    simp only [Bool.false_eq_true, if_false]
    split
    · rename_i info hi
      exact hT.check hi (by rw [hf]; exact hj)
    · rfl
  | @child s o pre c post hpre hpost hc ih =>
    obtain ⟨ih1, ih2⟩ := ih
    have hno : ∀ l : List (FlatTerm Op), (∀ c ∈ l, c.Plain) → l.any hasForward = false ∧ l.any hasBackward = false := by
      intro l hl
      constructor <;> rw [List.any_eq_false] <;> intro c hc
      · simp [(hl c hc).no.1]
      · simp [(hl c hc).no.2]
    have hF : (FlatTerm.mk o none none (pre ++ c :: post)).hasForward = c.hasForward := by
      simp [hasForward, anyForward_eq, (hno pre hpre).1, (hno post hpost).1]
    have hB : (FlatTerm.mk o none none (pre ++ c :: post)).hasBackward = c.hasBackward := by
      simp [hasBackward, anyBackward_eq, (hno pre hpre).2, (hno post hpost).2]
    refine ⟨by rw [hF, hB]; exact ih1, ?_⟩
    rintro ⟨o', b', f', cs'⟩ hf
    rw [hF, checkRewriteAt]
    simp only [ite_self]
    rw [term_mk] at hf
    injection hf with _ hf
    have hl : cs'.length = (pre ++ c :: post).length := by simpa using congrArg List.length hf
    obtain ⟨pre', rest, rfl, e1, e2⟩ := List.map_eq_append_iff.1 hf
    obtain ⟨c', post', rfl, e3, e4⟩ := List.map_eq_cons_iff.1 e2
    have hplain : ∀ (l l' : List (FlatTerm Op)), l.map term = l'.map term → (∀ c ∈ l', c.Plain) →
        List.Forall₂ (fun a b => checkRewriteAt fuel table c.hasForward a b = .ok true) l l' := by
      intro l l' he hp
      have hl : l.length = l'.length := by simpa using congrArg List.length he
      refine forall₂_iff_get?.2 ⟨hl, fun j x y hx hy => checkRewriteAt_plain (hp y (List.mem_of_getElem? hy)) ?_⟩
      have := congrArg (fun l => l[j]?) he
      simpa [hx, hy] using this
    exact checkRewriteAll_of (List.rel_append (hplain _ _ e1 hpre) (.cons (ih2 c' e3) (hplain _ _ e4 hpost)))

theorem checkSteps_ok (hT : TableOK fuel table J) : ∀ (fs : List (FlatTerm Op)) (f : FlatTerm Op) (t : Term Op),
    Rewrites J f.term fs t → checkSteps fuel table (f :: fs) = .ok () := by
  intro fs
  induction fs with
  | nil => intro f t _; rw [checkSteps]; intros; simp_all
  | cons g fs ih =>
    intro f t h
    cases h with
    | cons h1 h2 =>
      obtain ⟨g1, g2⟩ := checkRewriteAt_ok hT h1
      rw [checkSteps, g1, g2 f rfl]
      simp only [assert, if_true, ok_bind]
      exact ih g t h2

theorem checkProof_ok {rules : List (RuleInfo Op)} (hT : TableOK fuel (makeRuleTable rules) J) {p : List (TreeTerm Op)} {s t : Term Op}
    (h : ValidTree J s p t) : checkProof fuel rules p = .ok () := by
  obtain ⟨fl, h1, f, fs, rfl, h2, h3, h4⟩ := TreeTerm.flatten_valid p h
  unfold checkProof
  subst h3
  simp only [h1, ok_bind, TreeTerm.first, List.head?_cons, unwrap, h2.no.1, h2.no.2, assert, Bool.not_false, if_true]
  exact checkSteps_ok hT fs f t h4

theorem makeRuleTable_mem {rules : List (RuleInfo Op)} {r : Symbol} {info : RuleInfo Op}
    (h : (makeRuleTable rules).get? r = some info) : info ∈ rules ∧ info.name = r := by
  have key : ∀ (rules : List (RuleInfo Op)) (t : AMap Symbol (RuleInfo Op)),
      (rules.foldl (fun t r => t.insert r.name r) t).get? r = some info → (info ∈ rules ∧ info.name = r) ∨ t.get? r = some info := by
    intro rules
    induction rules with
    | nil => intro t h; exact .inr h
    | cons a rules ih =>
      intro t h
      rcases ih _ h with ⟨h1, h2⟩ | h
      · exact .inl ⟨by simp [h1], h2⟩
      · rw [AMap.get?_insert] at h
        split at h
        · rename_i he; cases h; exact .inl ⟨by simp, he⟩
        · exact .inr h
  rcases key rules [] h with h | h
  · exact h
  · simp [AMap.get?] at h

end Egg
