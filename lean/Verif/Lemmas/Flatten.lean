import Verif.Spec.Proof
import Verif.Lemmas.Basic
/-
Flattening a valid tree explanation gives a valid flat explanation.
-/
namespace Egg
variable {Op : Type}

namespace FlatTerm

@[simp] theorem term_mk (o : Op) (b f : Option Symbol) (cs : List (FlatTerm Op)) :
    (mk o b f cs).term = .node o (cs.map term) := by rw [term]; simp

theorem ind {P : FlatTerm Op → Prop} (h : ∀ o b f cs, (∀ c ∈ cs, P c) → P (.mk o b f cs)) : ∀ t, P t
  | .mk o b f cs => h o b f cs (fun c _ => ind h c)

theorem plain_iff {o : Op} {b f : Option Symbol} {cs : List (FlatTerm Op)} :
    Plain (mk o b f cs) ↔ b = none ∧ f = none ∧ ∀ c ∈ cs, Plain c := by
  constructor
  · intro h; cases h with | mk h => exact ⟨rfl, rfl, h⟩
  · rintro ⟨rfl, rfl, h⟩; exact .mk h

theorem Plain.ext : ∀ {a b : FlatTerm Op}, Plain a → Plain b → a.term = b.term → a = b := by
  intro a
  induction a using ind with
  | h o bw fw cs ih =>
    intro b ha hb e
    obtain ⟨o', bw', fw', cs'⟩ := b
    obtain ⟨rfl, rfl, ha1⟩ := plain_iff.1 ha
    clear ha
    rename' ha1 => ha
    obtain ⟨rfl, rfl, hb1⟩ := plain_iff.1 hb
    clear hb
    rename' hb1 => hb
    rw [term_mk, term_mk] at e
    injection e with e1 e2
    subst e1
    congr 1
    induction cs generalizing cs' with
    | nil => cases cs' with
      | nil => rfl
      | cons => simp at e2
    | cons c cs ihc =>
      cases cs' with
      | nil => simp at e2
      | cons c' cs' =>
        simp only [List.map_cons, List.cons.injEq] at e2
        rw [ih c (by simp) (ha c (by simp)) (hb c' (by simp)) e2.1,
          ihc (fun d hd => ih d (by simp [hd])) cs' (fun d hd => ha d (by simp [hd])) (fun d hd => hb d (by simp [hd])) e2.2]

theorem removeAll_eq (cs : List (FlatTerm Op)) : removeAll cs = cs.map removeRewrites := by
  induction cs with
  | nil => rfl
  | cons c cs ih => rw [removeAll, ih]; rfl

theorem removeRewrites_plain (t : FlatTerm Op) : t.removeRewrites.Plain := by
  induction t using ind with
  | h o b f cs ih =>
    rw [removeRewrites, new, removeAll_eq]
    refine .mk ?_
    intro c hc
    obtain ⟨d, hd, rfl⟩ := List.mem_map.1 hc
    exact ih d hd

theorem removeRewrites_term (t : FlatTerm Op) : t.removeRewrites.term = t.term := by
  induction t using ind with
  | h o b f cs ih =>
    rw [removeRewrites, new, removeAll_eq, term_mk, term_mk, List.map_map]
    congr 1
    exact List.map_congr_left ih

theorem anyForward_eq (cs : List (FlatTerm Op)) : anyForward cs = cs.any hasForward := by
  induction cs with
  | nil => rfl
  | cons c cs ih => rw [anyForward, ih]; rfl

theorem anyBackward_eq (cs : List (FlatTerm Op)) : anyBackward cs = cs.any hasBackward := by
  induction cs with
  | nil => rfl
  | cons c cs ih => rw [anyBackward, ih]; rfl

theorem Plain.no {t : FlatTerm Op} (h : t.Plain) : t.hasForward = false ∧ t.hasBackward = false := by
  induction t using ind with
  | h o b f cs ih =>
    obtain ⟨rfl, rfl, h'⟩ := plain_iff.1 h
    rw [hasForward, hasBackward, anyForward_eq, anyBackward_eq]
    constructor
    · simpa using fun c hc => (ih c hc (h' c hc)).1
    · simpa using fun c hc => (ih c hc (h' c hc)).2

theorem Plain.combine {e : FlatTerm Op} (h : e.Plain) : ∀ {l : FlatTerm Op}, e.term = l.term → e.combineRewrites l = .ok l := by
  induction e using ind with
  | h o b f cs ih =>
    intro l hl
    obtain ⟨o', b', f', cs'⟩ := l
    obtain ⟨rfl, rfl, h1⟩ := plain_iff.1 h
    clear h
    rename' h1 => h
    rw [term_mk, term_mk] at hl
    injection hl with e1 e2
    subst e1
    have hc : combineAll cs cs' = .ok cs' := by
        induction cs generalizing cs' with
      | nil => cases cs' with
        | nil => rw [combineAll]; intros; simp_all
        | cons => simp at e2
      | cons c cs ihc =>
        cases cs' with
        | nil => simp at e2
        | cons c' cs' =>
          simp only [List.map_cons, List.cons.injEq] at e2
          rw [combineAll, ih c (by simp) (h c (by simp)) e2.1]
          simp only [ok_bind]
          rw [ihc (fun d hd => ih d (by simp [hd])) cs' (fun d hd => h d (by simp [hd])) e2.2]
          rfl
    have hr : ∀ q, combineRule none q = .ok q := by intro q; cases q <;> rfl
    rw [combineRewrites, hr, hr, hc]
    rfl

end FlatTerm

open FlatTerm

theorem Rewrites.append {J : Symbol → Term Op → Term Op → Prop} {s u t : Term Op} {l l' : List (FlatTerm Op)}
    (h : Rewrites J s l u) (h' : Rewrites J u l' t) : Rewrites J s (l ++ l') t := by
  induction h with
  | nil => exact h'
  | cons h1 _ ih => exact .cons h1 (ih h')

theorem Rewrites.lift {J : Symbol → Term Op → Term Op → Prop} {o : Op} {pre post : List (FlatTerm Op)}
    (hpre : ∀ c ∈ pre, Plain c) (hpost : ∀ c ∈ post, Plain c) {s t : Term Op} {l : List (FlatTerm Op)}
    (h : Rewrites J s l t) :
    Rewrites J (.node o (pre.map term ++ s :: post.map term)) (l.map (fun c => FlatTerm.mk o none none (pre ++ c :: post)))
      (.node o (pre.map term ++ t :: post.map term)) := by
  induction h with
  | nil => exact .nil
  | cons h1 _ ih =>
    refine .cons (.child hpre hpost h1) ?_
    simpa using ih

theorem ValidFlat.last {J : Symbol → Term Op → Term Op → Prop} {s t : Term Op} {fl : List (FlatTerm Op)}
    (h : ValidFlat J s fl t) : ∃ l, fl.getLast? = some l ∧ l.term = t := by
  obtain ⟨f, fs, rfl, _, h2, h3⟩ := h
  clear * - h2 h3
  induction h3 generalizing f with
  | nil => exact ⟨f, rfl, h2⟩
  | @cons s g gs t h1 h2 ih =>
    obtain ⟨l, hl, hlt⟩ := ih g rfl
    exact ⟨l, by rw [List.getLast?_cons_cons]; exact hl, hlt⟩

/-- What flattening a tree term gives. -/
def FlatBody (J : Symbol → Term Op → Term Op → Prop) (b f : Option Symbol) (s : Term Op) (fl : List (FlatTerm Op)) (t : Term Op) : Prop :=
  ∃ o cs fs, fl = .mk o b f cs :: fs ∧ (∀ c ∈ cs, Plain c) ∧ s = .node o (cs.map term) ∧ Rewrites J s fs t

namespace TreeTerm

theorem flattenLoop_ok {J : Symbol → Term Op → Term Op → Prop} (o : Op) :
    ∀ (cps : List (List (FlatTerm Op))) (ss ts : List (Term Op)) (pre post : List (FlatTerm Op)) (done lc : List (FlatTerm Op)),
      List.Forall₂ (fun cp (st : Term Op × Term Op) => ValidFlat J st.1 cp st.2) cps (ss.zip ts) → ss.length = ts.length →
      (∀ c ∈ pre, Plain c) → (∀ c ∈ post, Plain c) → post.map term = ss →
      lc.length = pre.length → lc.map term = pre.map term →
      ∃ new, flattenLoop o pre.length cps (pre ++ post) done (.mk o none none (lc ++ post)) = .ok (done ++ .mk o none none (lc ++ post) :: new) ∧
        Rewrites J (.node o (pre.map term ++ ss)) new (.node o (pre.map term ++ ts)) := by
  intro cps
  induction cps with
  | nil =>
    intro ss ts pre post done lc h hl _ _ _ _ _
    cases ss with
    | nil =>
      cases ts with
      | nil => exact ⟨[], by rw [flattenLoop], .nil⟩
      | cons => simp at hl
    | cons =>
      cases ts with
      | nil => simp at hl
      | cons => simp at h
  | cons cp cps ih =>
    intro ss ts pre post done lc h hl hpre hpost hps hlc hlct
    cases ss with
    | nil => simp at h
    | cons s ss =>
      cases ts with
      | nil => simp at hl
      | cons t ts =>
        rw [List.zip_cons_cons] at h
        cases h with
        | cons hv h =>
          cases post with
          | nil => simp at hps
          | cons r post =>
            simp only [List.map_cons, List.cons.injEq] at hps
            obtain ⟨cl, hcl, hclt⟩ := hv.last
            obtain ⟨c0, cfs, rfl, h1, h2, h3⟩ := hv
            have h1' : (c0 :: cfs).head? = some c0 := rfl
            have hr : r = c0 := (hpost r (by simp)).ext h1 (by rw [hps.1]; exact h2.symm)
            subst hr
            rw [flattenLoop]
            simp only [first, List.head?_cons, unwrap, ok_bind, hcl, List.tail_cons]
            have hset : ∀ c, (pre ++ r :: post).set pre.length c = pre ++ c :: post := by intro c; simp
            have hset' : (lc ++ r :: post).set pre.length r = lc ++ r :: post := by rw [← hlc]; simp
            simp only [FlatTerm.op, FlatTerm.bwd, FlatTerm.fwd, FlatTerm.children, hset, hset', FlatTerm.new]
            have hlift := h3.lift (o := o) hpre (fun c hc => hpost c (by simp [hc]) : ∀ c ∈ post, Plain c)
            -- the new last term
            obtain ⟨lc', d', e1, e2, e3⟩ : ∃ (lc' : List (FlatTerm Op)) (d' : List (FlatTerm Op)),
                (done ++ FlatTerm.mk o none none (lc ++ r :: post) :: cfs.map (fun c => FlatTerm.mk o none none (pre ++ c :: post))) =
                  d' ++ [FlatTerm.mk o none none (lc' ++ post)] ∧ lc'.length = pre.length + 1 ∧
                lc'.map term = pre.map term ++ [t] := by
              rcases List.eq_nil_or_concat cfs with rfl | ⟨cfs', cz, rfl⟩
              · cases h3
                refine ⟨lc ++ [r], done, by simp, by simp [hlc], ?_⟩
                simp [hlct, h2]
              · refine ⟨pre ++ [cz], done ++ FlatTerm.mk o none none (lc ++ r :: post) :: cfs'.map (fun c => FlatTerm.mk o none none (pre ++ c :: post)), by simp, by simp, ?_⟩
                have : cz = cl := by
                  rw [List.concat_eq_append, ← List.cons_append, List.getLast?_append] at hcl
                  simpa using hcl
                simp [this, hclt]
            rw [e1]
            simp only [List.getLast?_append, List.getLast?_singleton, List.dropLast_concat, Option.some_or, ok_bind]
            have hpl : ∀ c ∈ pre ++ [cl.removeRewrites], Plain c := by
              intro c hc
              rcases List.mem_append.1 hc with hc | hc
              · exact hpre c hc
              · rw [List.mem_singleton.1 hc]; exact removeRewrites_plain cl
            have hmt : (pre ++ [cl.removeRewrites]).map term = pre.map term ++ [t] := by
              simp [removeRewrites_term, hclt]
            obtain ⟨new, hn1, hn2⟩ := ih ss ts (pre ++ [cl.removeRewrites]) post d' lc' h (by simpa using hl) hpl
              (fun c hc => hpost c (by simp [hc])) hps.2 (by simp [e2]) (by rw [hmt, e3])
            rw [hmt] at hn2
            have e4 : pre ++ cl.removeRewrites :: post = (pre ++ [cl.removeRewrites]) ++ post := by simp
            rw [e4]
            have e5 : pre.length + 1 = (pre ++ [cl.removeRewrites]).length := by simp
            rw [e5, hn1]
            refine ⟨cfs.map (fun c => FlatTerm.mk o none none (pre ++ c :: post)) ++ new, ?_, ?_⟩
            · have : d' ++ FlatTerm.mk o none none (lc' ++ post) :: new =
                  (d' ++ [FlatTerm.mk o none none (lc' ++ post)]) ++ new := by simp
              rw [this, ← e1]
              simp
            · rw [hps.2] at hlift
              refine hlift.append ?_
              simpa using hn2

theorem assemble_ok {J : Symbol → Term Op → Term Op → Prop} (o : Op) (b f : Option Symbol)
    {cps : List (List (FlatTerm Op))} {ss ts : List (Term Op)}
    (h : List.Forall₂ (fun cp (st : Term Op × Term Op) => ValidFlat J st.1 cp st.2) cps (ss.zip ts)) (hl : ss.length = ts.length) :
    ∃ fl, assemble o b f cps = .ok fl ∧ FlatBody J b f (.node o ss) fl (.node o ts) := by
  have hreps : ∃ reps, cps.mapM (fun p => do let f ← first p; return f.removeRewrites) = (.ok reps : Res (List (FlatTerm Op))) ∧
      (∀ c ∈ reps, Plain c) ∧ reps.map term = ss := by
    clear * - h hl
    induction cps generalizing ss ts with
    | nil =>
      cases ss with
      | nil => exact ⟨[], rfl, by simp, rfl⟩
      | cons =>
        cases ts with
        | nil => simp at hl
        | cons => simp at h
    | cons cp cps ih =>
      cases ss with
      | nil => simp at h
      | cons s ss =>
        cases ts with
        | nil => simp at hl
        | cons t ts =>
          rw [List.zip_cons_cons] at h
          cases h with
          | cons hv h =>
            obtain ⟨reps, h1, h2, h3⟩ := ih h (by simpa using hl)
            obtain ⟨c0, cfs, rfl, g1, g2, g3⟩ := hv
            refine ⟨c0.removeRewrites :: reps, ?_, ?_, ?_⟩
            · rw [List.mapM_cons, h1]; rfl
            · intro c hc
              rcases List.mem_cons.1 hc with rfl | hc
              · exact removeRewrites_plain _
              · exact h2 c hc
            · simp [removeRewrites_term, g2, h3]
  obtain ⟨reps, h1, h2, h3⟩ := hreps
  obtain ⟨new, h4, h5⟩ := flattenLoop_ok (J := J) o cps ss ts [] reps [] [] h hl (by simp) h2 h3 rfl rfl
  refine ⟨.mk o b f reps :: new, ?_, o, reps, new, rfl, h2, by rw [h3], by simpa using h5⟩
  unfold assemble
  rw [h1, ok_bind]
  simp only [List.nil_append, List.length_nil, FlatTerm.new] at h4 ⊢
  rw [h4]
  rfl

theorem glue_body {J : Symbol → Term Op → Term Op → Prop} {s u t w : Term Op} {acc e : List (FlatTerm Op)} {b f : Option Symbol}
    (ha : ValidFlat J s acc u) (he : FlatBody J b f w e t)
    (hs : (b = none ∧ f = none ∧ w = u) ∨ (∃ r, b = none ∧ f = some r ∧ J r u w) ∨ (∃ r, b = some r ∧ f = none ∧ J r w u)) :
    ∃ fl, glue acc e = .ok fl ∧ ValidFlat J s fl t := by
  obtain ⟨l, hl, hlt⟩ := ha.last
  obtain ⟨o, cs, fs, rfl, hcs, hw, hfs⟩ := he
  unfold glue
  rw [hl]
  simp only [first, List.head?_cons, unwrap, ok_bind, List.tail_cons]
  have happ : ∀ (one : OneRewrite J u (.mk o b f cs)), ValidFlat J s (acc ++ .mk o b f cs :: fs) t := by
    intro one
    obtain ⟨f0, fs0, rfl, g1, g2, g3⟩ := ha
    refine ⟨f0, fs0 ++ .mk o b f cs :: fs, rfl, g1, g2, g3.append (.cons one ?_)⟩
    rw [term_mk, ← hw]; exact hfs
  rcases hs with ⟨rfl, rfl, rfl⟩ | ⟨r, rfl, rfl, hJ⟩ | ⟨r, rfl, rfl, hJ⟩
  · have hp : Plain (.mk o none none cs) := .mk hcs
    rw [hp.no.1, hp.no.2]
    simp only [Bool.not_false, Bool.and_self, ↓reduceIte]
    rw [hp.combine (l := l) (by rw [term_mk, ← hw, hlt])]
    refine ⟨_, rfl, ?_⟩
    have e1 : acc.dropLast ++ l :: fs = acc ++ fs := by
      have := List.dropLast_append_getLast? l hl
      calc acc.dropLast ++ l :: fs = (acc.dropLast ++ [l]) ++ fs := by simp
        _ = acc ++ fs := by rw [this]
    rw [e1]
    obtain ⟨f0, fs0, rfl, g1, g2, g3⟩ := ha
    exact ⟨f0, fs0 ++ fs, rfl, g1, g2, g3.append hfs⟩
  · have : (FlatTerm.mk o none (some r) cs).hasForward = true := by simp [hasForward]
    rw [this]
    refine ⟨_, rfl, happ (.fwd hcs ?_)⟩
    rw [term_mk, ← hw]; exact hJ
  · have : (FlatTerm.mk o (some r) none cs).hasBackward = true := by simp [hasBackward]
    rw [this]
    refine ⟨acc ++ .mk o (some r) none cs :: fs, by simp, happ (.bwd hcs ?_)⟩
    rw [term_mk, ← hw]; exact hJ

mutual
theorem flatten_tree {J : Symbol → Term Op → Term Op → Prop} : ∀ (tr : TreeTerm Op) {s t : Term Op}, TreeFrom J tr s t →
    ∃ fl, flattenExplanation tr = .ok fl ∧ FlatBody J tr.bwd tr.fwd s fl t
  | .mk o b f cps, _, _, .mk h => by
    obtain ⟨fls, h1, h2, h3⟩ := flatten_children cps h
    obtain ⟨fl, h4, h5⟩ := assemble_ok o b f h2 h3
    exact ⟨fl, by rw [flattenExplanation, h1, ok_bind, h4], h5⟩
theorem flatten_children {J : Symbol → Term Op → Term Op → Prop} : ∀ (cps : List (List (TreeTerm Op))) {ss ts : List (Term Op)},
    ProofsFrom J cps ss ts → ∃ fls, flattenChildren cps = .ok fls ∧
      List.Forall₂ (fun cp (st : Term Op × Term Op) => ValidFlat J st.1 cp st.2) fls (ss.zip ts) ∧ ss.length = ts.length
  | [], _, _, .nil => ⟨[], by rw [flattenChildren], .nil, rfl⟩
  | p :: ps, _, _, .cons h h' => by
    obtain ⟨fl, h1, h2⟩ := flatten_valid p h
    obtain ⟨fls, h3, h4, h5⟩ := flatten_children ps h'
    refine ⟨fl :: fls, ?_, ?_, by simp [h5]⟩
    · rw [flattenChildren, h1, ok_bind, h3]; rfl
    · rw [List.zip_cons_cons]; exact .cons h2 h4
theorem flatten_valid {J : Symbol → Term Op → Term Op → Prop} : ∀ (p : List (TreeTerm Op)) {s t : Term Op}, ValidTree J s p t →
    ∃ fl, flattenProof p [] = .ok fl ∧ ValidFlat J s fl t
  | .mk o _ _ cps :: trs, s, t, .mk (u := u) h h' => by
    obtain ⟨e, h1, h2⟩ := flatten_tree (.mk o none none cps) h
    have hv : ValidFlat J s e u := by
      obtain ⟨o, cs, fs, rfl, g1, rfl, g3⟩ := h2
      exact ⟨_, fs, rfl, .mk g1, by rw [term_mk], g3⟩
    obtain ⟨fl, h3, h4⟩ := flatten_steps trs h' hv
    exact ⟨fl, by rw [flattenProof, h1, ok_bind]; simp only [glue, List.getLast?_nil, ok_bind]; exact h3, h4⟩
theorem flatten_steps {J : Symbol → Term Op → Term Op → Prop} : ∀ (trs : List (TreeTerm Op)) {s u t : Term Op} {acc : List (FlatTerm Op)},
    TreeSteps J u trs t → ValidFlat J s acc u → ∃ fl, flattenProof trs acc = .ok fl ∧ ValidFlat J s fl t
  | [], _, _, _, acc, .nil, ha => ⟨acc, by rw [flattenProof], ha⟩
  | .mk o b f cps :: trs, s, u, t, acc, .cons (u := u') h h', ha => by
    have hbody : ∃ e u', flattenExplanation (.mk o b f cps) = .ok e ∧ ∃ w, FlatBody J b f w e u' ∧ TreeSteps J u' trs t ∧
        ((b = none ∧ f = none ∧ w = u) ∨ (∃ r, b = none ∧ f = some r ∧ J r u w) ∨ (∃ r, b = some r ∧ f = none ∧ J r w u)) := by
      cases h with
      | @fwd _ w _ r _ _ hJ hT =>
        obtain ⟨e, h1, h2⟩ := flatten_tree _ hT
        exact ⟨e, u', h1, w, h2, h', .inr (.inl ⟨r, rfl, rfl, hJ⟩)⟩
      | @bwd _ w _ r _ _ hJ hT =>
        obtain ⟨e, h1, h2⟩ := flatten_tree _ hT
        exact ⟨e, u', h1, w, h2, h', .inr (.inr ⟨r, rfl, rfl, hJ⟩)⟩
      | congr hT =>
        obtain ⟨e, h1, h2⟩ := flatten_tree _ hT
        exact ⟨e, u', h1, u, h2, h', .inl ⟨rfl, rfl, rfl⟩⟩
    obtain ⟨e, u', h1, w, h2, h3, h4⟩ := hbody
    obtain ⟨acc', h5, h6⟩ := glue_body ha h2 h4
    obtain ⟨fl, h7, h8⟩ := flatten_steps trs h3 h6
    exact ⟨fl, by rw [flattenProof, h1, ok_bind, h5, ok_bind, h7], h8⟩
end

end TreeTerm
end Egg
