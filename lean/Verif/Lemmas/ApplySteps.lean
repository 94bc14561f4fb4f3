import Verif.Spec.Below
import Verif.Lemmas.Apply
/-
Applying a pattern only adds instances of its nodes.
-/
namespace Egg
variable {Op D : Type} [DecidableEq Op] [Lang Op]

theorem ApplySteps.trans {N : Analysis Op D} {P : Term (PatOp Op) → Prop} {tl t : Term (PatOp Op)} {ms : List (Id × Subst)}
    {a b c : EGraph Op D} {k l : Nat} (h : ApplySteps N P tl t ms a k b) (h' : ApplySteps N P tl t ms b l c) :
    ApplySteps N P tl t ms a (k + l) c := by
  induction h' with
  | refl => exact h
  | add _ h1 h2 h3 h4 ih => exact ih.add h1 h2 h3 h4
  | @union k' _ _ _ _ _ _ did _ h1 h2 h3 h4 h5 ih =>
    have := ih.union h1 h2 h3 h4 h5
    cases did
    · simpa using this
    · simpa [Nat.add_assoc] using this

theorem ApplySteps.add_trans {N : Analysis Op D} {P : Term (PatOp Op) → Prop} {tl t : Term (PatOp Op)} {ms : List (Id × Subst)}
    {a b c : EGraph Op D} {k : Nat} (h : ApplySteps N P tl t ms a 0 b) (h' : ApplySteps N P tl t ms b k c) :
    ApplySteps N P tl t ms a k c := by
  have := h.trans h'
  rwa [Nat.zero_add] at this

namespace EGraph
variable {W : Id → Id → Prop} {C : Cfg Op D} {eg : EGraph Op D} {E : Err → Prop} {N : Analysis Op D}
  {P : Term (PatOp Op) → Prop} {tl t : Term (PatOp Op)} {L : List (Id × Subst)}

theorem entry_of_dag {e : PatternAst Op} (hd : Dag e) {k : Nat} (hk : k < e.length) : ∃ q, TermOf e k q := hd.exists_term k hk

theorem applyPatGo_inst (hN : HookOK C E N) {e : PatternAst Op} (hw : PatWF e) (hP : ∀ q, EntryOf e q → P q) {c : Id} {s : Subst}
    (hL : (c, s) ∈ L) : ∀ (rest : List (ENode (PatOp Op)))
    (eg : EGraph Op D) (pre : List (ENode (PatOp Op))) (ids : List Id), e = pre ++ rest → ids.length = e.length →
    Good C eg → Binds eg s e → PidsOK eg e s.get pre.length ids →
    Post E (applyPatGo N s eg rest pre.length ids) (fun r => ApplySteps N P tl t L eg 0 r.1) := by
  intro rest
  induction rest with
  | nil =>
    intro eg pre ids he hl hg hb hi
    exact ApplySteps.refl
  | cons n rest ih =>
    intro eg pre ids he hl hg hb hi
    have hnk : e[pre.length]? = some n := by rw [he]; simp
    have hnm : n ∈ e := by rw [he]; simp
    have hpl : pre.length < e.length := getElem?_lt hnk
    unfold applyPatGo
    cases ho : n.op with
    | var v =>
      obtain ⟨x, hx, hxl⟩ := hb n hnm v ho
      have e1 : s.index v = .ok x := by unfold Subst.index; rw [hx]; rfl
      simp only [e1, ok_bind]
      have hxx : SameClass eg x x := by rw [hg.inv.sameClass_iff]; exact ⟨hxl, hxl, rfl⟩
      have := ih eg (pre ++ [n]) (ids.set pre.length x) (by simp [he]) (by simpa using hl) hg hb
        (by simpa using hi.set hxl (pat_var (fun h => hw.2 n hnm v ho) hnk ho hx hxx))
      simpa using this
    | op o =>
      obtain ⟨m, h1, h2, h3, h4⟩ := pat_children hw.1.2 hi (by omega) hnk ho
      simp only [h1, ok_bind]
      refine Post.bind (x := EGraph.add N eg m) (Post.and (Good.add_post hN hg (fun c hc => hg.valid_iff.2 (h2 c hc))) (fun _ h => h)) ?_
      rintro ⟨eg1, x⟩ ⟨⟨g1, g2, j, nj, q1, q2, q3, -⟩, hadd⟩
      have q2 : x = eg1.rt j := q2
      have hxl : x < eg1.nodes.length := by rw [q2]; exact g1.inv.core.rtLt _ (getElem?_lt q1)
      have hj : SameClass eg1 j x := by
        rw [g1.inv.sameClass_iff]
        exact ⟨getElem?_lt q1, hxl, by rw [q2, g1.inv.core.rtIdem]⟩
      have hstep : ApplySteps N P tl t L eg 0 eg1 := by
        obtain ⟨q, hq⟩ := entry_of_dag hw.1.2 hpl
        obtain ⟨ps, rfl, hps⟩ := h4 q hq
        unfold EGraph.add at hadd
        rw [bind_eq_ok] at hadd
        obtain ⟨⟨eg2, y⟩, k1, hadd⟩ := hadd
        rw [bind_eq_ok] at hadd
        obtain ⟨z, _, hadd⟩ := hadd
        cases hadd
        exact ApplySteps.refl.add hL (hP _ ⟨_, by rw [h3]; exact hq⟩) hps k1
      have := ih eg1 (pre ++ [n]) (ids.set pre.length x) (by simp [he]) (by simpa using hl) g1 (hb.ext g2)
        (by
          simpa using (hi.ext g2 hg g1).set hxl (fun t ht => by
            obtain ⟨ps, rfl, hps⟩ := h4 t ht
            have := forall₂_mono_mem hps (fun d _ q hq hd => g2.pmatch hg.inv g1.inv hd)
            rw [← h3]
            exact g1.inv.pmatch_congr hj (g1.inv.pmatch_node q1 q3 this)))
      refine Post.mono (by simpa using this) ?_
      rintro r r1
      exact hstep.add_trans r1

theorem applyPat_inst (hN : HookOK C E N) {e : PatternAst Op} (hw : PatWF e) (hP : ∀ q, EntryOf e q → P q) {c : Id} {s : Subst}
    (hL : (c, s) ∈ L) (hg : Good C eg) (hb : Binds eg s e) {buf : List Id} (hl : buf.length = e.length)
    {r : EGraph Op D × List Id × Id} (h : applyPat N buf e eg s = .ok r) : ApplySteps N P tl t L eg 0 r.1 := by
  unfold applyPat at h
  rw [bind_eq_ok] at h
  obtain ⟨⟨eg1, ids⟩, h1, h⟩ := h
  rw [bind_eq_ok] at h
  obtain ⟨j, _, h⟩ := h
  cases h
  exact (applyPatGo_inst hN hw hP hL e eg [] buf (by simp) hl hg hb (fun k x hk => absurd hk (Nat.not_lt_zero _))).elim h1

theorem addInstGo_inst (hN : HookOK C E N) {e : PatternAst Op} (hw : PatWF e) (hP : ∀ q, EntryOf e q → P q) {c : Id} {s : Subst}
    (hL : (c, s) ∈ L) : ∀ (rest : List (ENode (PatOp Op)))
    (eg : EGraph Op D) (pre : List (ENode (PatOp Op))) (ids : List Id), e = pre ++ rest → ids.length = pre.length →
    Good C eg → Binds eg s e → PidsOK eg e s.get pre.length ids →
    Post E (addInstGo N s eg rest ids) (fun r => ApplySteps N P tl t L eg 0 r.1) := by
  intro rest
  induction rest with
  | nil =>
    intro eg pre ids he hl hg hb hi
    exact ApplySteps.refl
  | cons n rest ih =>
    intro eg pre ids he hl hg hb hi
    have hnk : e[pre.length]? = some n := by rw [he]; simp
    have hnm : n ∈ e := by rw [he]; simp
    have hpl : pre.length < e.length := getElem?_lt hnk
    unfold addInstGo
    cases ho : n.op with
    | var v =>
      obtain ⟨x, hx, hxl⟩ := hb n hnm v ho
      have e1 : s.index v = .ok x := by unfold Subst.index; rw [hx]; rfl
      simp only [e1, ok_bind, hg.inv.find hxl]
      have hrl := hg.inv.core.rtLt x hxl
      have hxx : SameClass eg x (eg.rt x) := by
        rw [hg.inv.sameClass_iff]; exact ⟨hxl, hrl, (hg.inv.core.rtIdem x).symm⟩
      have := ih eg (pre ++ [n]) (ids ++ [eg.rt x]) (by simp [he]) (by simp [hl]) hg hb
        (by simpa using hi.push hl hrl (pat_var (fun h => hw.2 n hnm v ho) hnk ho hx hxx))
      simpa using this
    | op o =>
      obtain ⟨m, h1, h2, h3, h4⟩ := pat_children hw.1.2 hi (by omega) hnk ho
      simp only [h1, ok_bind]
      refine Post.bind (x := addUncanonical N eg m) (Post.and (addUncanonical_post hN hg h2) (fun _ h => h)) ?_
      rintro ⟨eg1, x⟩ ⟨⟨g1, g2, nj, q1, q3, -⟩, hadd⟩
      have hxl : x < eg1.nodes.length := getElem?_lt q1
      have hstep : ApplySteps N P tl t L eg 0 eg1 := by
        obtain ⟨q, hq⟩ := entry_of_dag hw.1.2 hpl
        obtain ⟨ps, rfl, hps⟩ := h4 q hq
        exact ApplySteps.refl.add hL (hP _ ⟨_, by rw [h3]; exact hq⟩) hps hadd
      have := ih eg1 (pre ++ [n]) (ids ++ [x]) (by simp [he]) (by simp [hl]) g1 (hb.ext g2)
        (by
          simpa using (hi.ext g2 hg g1).push hl hxl (fun t ht => by
            obtain ⟨ps, rfl, hps⟩ := h4 t ht
            have := forall₂_mono_mem hps (fun d _ q hq hd => g2.pmatch hg.inv g1.inv hd)
            rw [← h3]
            exact g1.inv.pmatch_node q1 q3 this))
      refine Post.mono (by simpa using this) ?_
      rintro r r1
      exact hstep.add_trans r1

theorem addInst_inst (hN : HookOK C E N) {e : PatternAst Op} (hw : PatWF e) (hP : ∀ q, EntryOf e q → P q) {c : Id} {s : Subst}
    (hL : (c, s) ∈ L) (hg : Good C eg) (hb : Binds eg s e)
    {r : EGraph Op D × Id} (h : addInstantiationNoncanonical N eg e s = .ok r) : ApplySteps N P tl t L eg 0 r.1 := by
  unfold addInstantiationNoncanonical at h
  rw [bind_eq_ok] at h
  obtain ⟨⟨eg1, ids⟩, h1, h⟩ := h
  rw [bind_eq_ok] at h
  obtain ⟨j, _, h⟩ := h
  cases h
  exact (addInstGo_inst hN hw hP hL e eg [] [] (by simp) rfl hg hb (fun k x hk => absurd hk (Nat.not_lt_zero _))).elim h1

theorem unionInst_inst (hN : HookOK C E N) {l e : PatternAst Op} (hl : PatWF l) (htl : ExprTerm l tl) (he : PatWF e) (ht : ExprTerm e t)
    (hPl : ∀ q, EntryOf l q → P q) (hPe : ∀ q, EntryOf e q → P q) (hg : Good C eg) {c : Id} {s : Subst} (hL : (c, s) ∈ L)
    (hb : Binds eg s l) (hb' : Binds eg s e) {rule : Symbol} {r : EGraph Op D × Id × Bool}
    (hR : ∀ s t, C.R s t) (hJ : ∀ r a b, C.J r a b)
    (h : eg.unionInstantiations N l e s rule = .ok r) : ApplySteps N P tl t L eg (if r.2.2 then 1 else 0) r.1 := by
  unfold unionInstantiations at h
  rw [bind_eq_ok] at h
  obtain ⟨⟨eg1, id1⟩, a1, h⟩ := h
  rw [bind_eq_ok] at h
  obtain ⟨⟨eg2, id2⟩, a2, h⟩ := h
  rw [bind_eq_ok] at h
  obtain ⟨⟨eg3, did⟩, a3, h⟩ := h
  rw [bind_eq_ok] at h
  obtain ⟨j, _, h⟩ := h
  cases h
  obtain ⟨g1, x1, l1, p1⟩ := (addInst_post hN hl hg hb).elim a1
  obtain ⟨g2, x2, l2, p2⟩ := (addInst_post hN he g1 (hb'.ext x1)).elim a2
  have l1 : id1 < eg1.nodes.length := l1
  have x2 : Ext eg1 eg2 := x2
  obtain ⟨u, hu⟩ := g2.inv.exists_rep (x2.lt l1)
  obtain ⟨w, hw⟩ := g2.inv.exists_rep (show id2 < eg2.nodes.length from l2)
  have hdid := ((Good.union_post (caller := rule) hN g2 hu hw (hR _ _) (hJ _ _ _)).2.elim a3).2.2.2
  refine ((addInst_inst hN hl hPl hL hg hb a1).add_trans (addInst_inst hN he hPe hL g1 (hb'.ext x1) a2)).union hL (p2 _ ht)
    (x2.pmatch g1.inv g2.inv (p1 _ htl)) (Or.inr ⟨rule, Or.inr a3⟩) (by
      rw [hdid, g2.inv.sameClass_iff]
      constructor
      · rintro hne ⟨_, _, e⟩; exact hne e.symm
      · intro hne e; exact hne ⟨l2, x2.lt l1, e.symm⟩)

theorem applySubsts_inst (hN : HookOK C E N) (hR : ∀ s t, C.R s t) (hJ : ∀ r a b, C.J r a b) {p : Pattern Op}
    (he : PatWF p.ast) (ht : ExprTerm p.ast t) {ast : Option (PatternAst Op)} {c : Id} (rule : Symbol)
    (hPe : ∀ q, EntryOf p.ast q → P q) (hx : Prop) (hPl : hx → ∀ l, ast = some l → ∀ q, EntryOf l q → P q) :
    ∀ (ss : List Subst) (eg : EGraph Op D) (buf : List Id) (added : List Id), Good C eg → buf.length = p.ast.length →
    (∀ s ∈ ss, (c, s) ∈ L) →
    (∀ s ∈ ss, MatchOK eg tl p.ast c s) → (eg.explain.isSome → hx) → (eg.explain.isSome → ∀ s ∈ ss, SearchAst eg tl s ast) →
    ∀ r, p.applySubsts N ast c rule eg ss buf added = .ok r → ∃ k, ApplySteps N P tl t L eg k r.1 ∧ r.2.2.length = added.length + k := by
  have hlen : ∀ (did : Bool) (i : Id) (added : List Id), (if did then added ++ [i] else added).length = added.length + (if did then 1 else 0) := by
    intro did i added; cases did <;> simp
  intro ss
  induction ss with
  | nil =>
    intro eg buf added hg hl _ _ _ _ r h
    cases h
    exact ⟨0, .refl, rfl⟩
  | cons s ss ih =>
    intro eg buf added hg hl hLs hm hxx ha r h
    have hs := hm s (by simp)
    have hL := hLs s (by simp)
    unfold Pattern.applySubsts at h
    split at h
    · next hex =>
      obtain ⟨l, rfl, q2, q3, q4⟩ := ha hex s (by simp)
      simp only [unwrap, ok_bind] at h
      rw [bind_eq_ok] at h
      obtain ⟨⟨eg2, i2, did⟩, h1, h⟩ := h
      have ho := (unionInst_post hN hR hJ q2 q3 he ht hg q4 hs.binds hex rule c).elim h1
      have st := unionInst_inst hN q2 q3 he ht (hPl (hxx hex) l rfl) hPe hg hL q4 hs.binds hR hJ h1
      obtain ⟨k, s2, e2⟩ := (ih eg2 _ _ ho.good hl (fun s' hs' => hLs s' (by simp [hs'])) (fun s' hs' => (hm s' (by simp [hs'])).ext ho.ext hg ho.good)
        (fun hx => hxx (by rw [← ho.ext.expl]; exact hx))
        (fun hx s' hs' => (ha (by rw [← ho.ext.expl]; exact hx) s' (by simp [hs'])).ext ho.ext) r h)
      exact ⟨_, st.trans s2, by rw [e2, hlen, Nat.add_assoc]⟩
    · rw [bind_eq_ok] at h
      obtain ⟨⟨eg1, buf1, i⟩, h1, h⟩ := h
      dsimp only at h
      rw [bind_eq_ok] at h
      obtain ⟨⟨eg2, did⟩, h2, h⟩ := h
      obtain ⟨g1, x1, b1, hil, p1⟩ := (applyPat_post hN he hg hs.binds hl).elim h1
      have hcl : c < eg1.nodes.length := x1.lt (hg.inv.pmatch_lt hs.pmatch)
      have ho := (applyUnion_post (tl := tl) hN hR hJ (applyPat_steps h1) x1 g1 hil hcl (p1 _ ht) 0).1.elim h2
      have hil : i < eg1.nodes.length := hil
      obtain ⟨u, hu⟩ := g1.inv.exists_rep hil
      obtain ⟨w, hw⟩ := g1.inv.exists_rep hcl
      have hdid := ((Good.union_post (caller := 0) hN g1 hu hw (hR _ _) (hJ _ _ _)).1.elim h2).2.2.2
      have st : ApplySteps N P tl t L eg (if did then 1 else 0) eg2 :=
        (applyPat_inst hN he hPe hL hg hs.binds hl h1).union hL (p1 _ ht) (x1.pmatch hg.inv g1.inv hs.pmatch) (Or.inl ⟨0, Or.inl h2⟩) (by
          rw [hdid, g1.inv.sameClass_iff]
          constructor
          · rintro hne ⟨_, _, e⟩; exact hne e
          · intro hne e; exact hne ⟨hil, hcl, e⟩)
      obtain ⟨k, s2, e2⟩ := (ih eg2 _ _ ho.good b1 (fun s' hs' => hLs s' (by simp [hs'])) (fun s' hs' => (hm s' (by simp [hs'])).ext ho.ext hg ho.good)
        (fun hx => hxx (by rw [← ho.ext.expl]; exact hx))
        (fun hx s' hs' => (ha (by rw [← ho.ext.expl]; exact hx) s' (by simp [hs'])).ext ho.ext) r h)
      exact ⟨_, st.trans s2, by rw [e2, hlen, Nat.add_assoc]⟩

theorem applyMatchesGo_inst (hN : HookOK C E N) (hR : ∀ s t, C.R s t) (hJ : ∀ r a b, C.J r a b) {p : Pattern Op}
    (he : PatWF p.ast) (ht : ExprTerm p.ast t) (rule : Symbol) (hPe : ∀ q, EntryOf p.ast q → P q) (hx : Prop) :
    ∀ (ms : List (SearchMatches Op)) (eg : EGraph Op D) (buf : List Id) (added : List Id), Good C eg →
    buf.length = p.ast.length → (∀ m ∈ ms, ∀ s ∈ m.substs, (m.eclass, s) ∈ L) → (∀ m ∈ ms, ∀ s ∈ m.substs, MatchOK eg tl p.ast m.eclass s) →
    (eg.explain.isSome → hx) → (hx → ∀ m ∈ ms, ∀ l, m.ast = some l → ∀ q, EntryOf l q → P q) →
    (eg.explain.isSome → ∀ m ∈ ms, ∀ s ∈ m.substs, SearchAst eg tl s m.ast) →
    ∀ r, p.applyMatchesGo N rule eg ms buf added = .ok r → ∃ k, ApplySteps N P tl t L eg k r.1 ∧ r.2.length = added.length + k := by
  intro ms
  induction ms with
  | nil =>
    intro eg buf added hg hl _ _ _ _ _ r h
    cases h
    exact ⟨0, .refl, rfl⟩
  | cons m ms ih =>
    intro eg buf added hg hl hLs hm hxx hPl ha r h
    unfold Pattern.applyMatchesGo at h
    rw [bind_eq_ok] at h
    obtain ⟨⟨eg1, buf1, added1⟩, h1, h⟩ := h
    obtain ⟨g1, x1, b1, -⟩ := (applySubsts_post (tl := tl) hN hR hJ he ht rule m.substs eg buf added hg hl (hm m (by simp))
      (fun hx => ha hx m (by simp))).elim h1
    have x1 : Ext eg eg1 := x1
    obtain ⟨k, st, e1⟩ := applySubsts_inst (P := P) (L := L) (tl := tl) hN hR hJ he ht rule hPe hx (fun h l hl => hPl h m (by simp) l hl) m.substs eg buf added hg hl
      (hLs m (by simp)) (hm m (by simp)) hxx (fun hx => ha hx m (by simp)) _ h1
    obtain ⟨l, s2, e2⟩ := (ih eg1 buf1 added1 g1 b1 (fun m' hm' => hLs m' (by simp [hm'])) (fun m' hm' s hs => (hm m' (by simp [hm']) s hs).ext x1 hg g1)
      (fun hx => hxx (by rw [← x1.expl]; exact hx)) (fun hx m' hm' => hPl hx m' (by simp [hm']))
      (fun hx m' hm' s hs => (ha (by rw [← x1.expl]; exact hx) m' (by simp [hm']) s hs).ext x1) r h)
    exact ⟨_, st.trans s2, by rw [e2, e1, Nat.add_assoc]⟩

end EGraph
end Egg
