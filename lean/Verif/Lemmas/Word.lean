import Verif.Model.Word
import Verif.Lemmas.Basic
/-
A computation with unbounded ids that ends with at most `W` ids takes the same course with words.
-/
namespace Egg
variable {Op D α β : Type} [DecidableEq Op] [Lang Op]

theorem Except.bind_ok' {x : Res α} {f : α → Res β} {r : β} (h : (x >>= f) = .ok r) : ∃ a, x = .ok a ∧ f a = .ok r := by
  cases x with
  | error e => cases h
  | ok a => exact ⟨a, rfl, h⟩

/-- The number of ids and whether it is the number of e-nodes. -/
structure Carries (W : Nat) (eg : EGraph Op D) (g : α → EGraph Op D) (x y : Res α) : Prop where
  len : ∀ r, x = .ok r → eg.uf.length ≤ (g r).uf.length
  bal : eg.uf.length = eg.nodes.length → ∀ r, x = .ok r → (g r).uf.length = (g r).nodes.length
  eq : ∀ r, x = .ok r → (g r).uf.length ≤ W → y = .ok r

namespace Carries
variable {W : Nat} {eg : EGraph Op D} {g : α → EGraph Op D} {g' : β → EGraph Op D}

theorem bind {x y : Res α} {f f' : α → Res β} (h : Carries W eg g x y) (hf : ∀ a, Carries W (g a) g' (f a) (f' a)) :
    Carries W eg g' (x >>= f) (y >>= f') := by
  refine ⟨fun r hr => ?_, fun hb r hr => ?_, fun r hr hw => ?_⟩
  · obtain ⟨a, h1, h2⟩ := Except.bind_ok' hr
    exact Nat.le_trans (h.len a h1) ((hf a).len r h2)
  · obtain ⟨a, h1, h2⟩ := Except.bind_ok' hr
    exact (hf a).bal (h.bal hb a h1) r h2
  · obtain ⟨a, h1, h2⟩ := Except.bind_ok' hr
    rw [h.eq a h1 (Nat.le_trans ((hf a).len r h2) hw)]
    exact (hf a).eq r h2 hw

/-- A step that does not touch the e-graph. -/
theorem pre {x : Res α} {f f' : α → Res β} (hf : ∀ a, x = .ok a → Carries W eg g' (f a) (f' a)) :
    Carries W eg g' (x >>= f) (x >>= f') := by
  cases x with
  | error e => exact ⟨nofun, nofun, nofun⟩
  | ok a => exact hf a rfl

theorem same {x : Res α} (h : ∀ r, x = .ok r → (g r).uf.length = eg.uf.length ∧ (g r).nodes.length = eg.nodes.length) :
    Carries W eg g x x :=
  ⟨fun r hr => Nat.le_of_eq (h r hr).1.symm, fun hb r hr => by rw [(h r hr).1, (h r hr).2, hb], fun _ hr _ => hr⟩

/-- From another e-graph of the same size. -/
theorem move {eg' : EGraph Op D} {x y : Res α} (h : Carries W eg' g x y) (h1 : eg'.uf.length = eg.uf.length)
    (h2 : eg'.nodes.length = eg.nodes.length) : Carries W eg g x y :=
  ⟨fun r hr => h1 ▸ h.len r hr, fun hb r hr => h.bal (by rw [h1, h2, hb]) r hr, h.eq⟩

theorem pure {a : α} (h1 : (g a).uf.length = eg.uf.length) (h2 : (g a).nodes.length = eg.nodes.length) :
    Carries W eg g (Pure.pure a : Res α) (Pure.pure a) := same fun r hr => by cases hr; exact ⟨h1, h2⟩

theorem error {e : Err} : Carries W eg g (Except.error e : Res α) (Except.error e) := ⟨nofun, nofun, nofun⟩

end Carries

/-- Two analyses that differ in their hooks only, where the hook of the second does with words what that of the first
does with unbounded ids. -/
structure Agree (W : Nat) (N N' : Analysis Op D) : Prop where
  make : N'.make = N.make
  remake : N'.remake = N.remake
  merge : N'.merge = N.merge
  modify : ∀ eg i, Carries W eg id (N.modify eg i) (N'.modify eg i)

theorem UF.findMutLoop_length : ∀ {k : Nat} {ps ps' : UF} {i r : Id}, UF.findMutLoop k ps i = .ok (ps', r) → ps'.length = ps.length
  | 0, _, _, _, _, h => nomatch h
  | k + 1, ps, ps', i, r, h => by
    unfold UF.findMutLoop at h
    split at h
    · cases h
    · split at h
      · cases h; rfl
      · split at h
        · cases h
        · have := UF.findMutLoop_length h
          simpa using this

theorem UF.findMut_length {ps ps' : UF} {i r : Id} (h : UF.findMut ps i = .ok (ps', r)) : ps'.length = ps.length :=
  UF.findMutLoop_length h

theorem UF.union_length {ps ps' : UF} {a b : Id} (h : UF.union ps a b = .ok ps') : ps'.length = ps.length := by
  unfold UF.union at h
  split at h
  · cases h; simp
  · cases h

theorem UF.findMutList_length : ∀ {is rs : List Id} {ps ps' : UF}, UF.findMutList ps is = .ok (ps', rs) → ps'.length = ps.length
  | [], _, _, _, h => by cases h; rfl
  | i :: is, rs, ps, ps', h => by
    unfold UF.findMutList at h
    obtain ⟨⟨p1, r1⟩, h1, h⟩ := Except.bind_ok' h
    obtain ⟨⟨p2, r2⟩, h2, h⟩ := Except.bind_ok' h
    cases h
    rw [UF.findMutList_length h2, UF.findMut_length h1]

namespace EGraph
variable {W : Nat} {N N' : Analysis Op D}

theorem pushParents_length : ∀ {cs : List Id} {eg eg' : EGraph Op D} {i : Id}, eg.pushParents cs i = .ok eg' →
    eg'.uf.length = eg.uf.length ∧ eg'.nodes = eg.nodes ∧ eg'.explain = eg.explain
  | [], _, _, _, h => by cases h; exact ⟨rfl, rfl, rfl⟩
  | c :: cs, eg, eg', i, h => by
    unfold pushParents at h
    obtain ⟨⟨p1, r1⟩, h1, h⟩ := Except.bind_ok' h
    obtain ⟨k, h2, h⟩ := Except.bind_ok' h
    obtain ⟨h3, h4, h5⟩ := pushParents_length h
    exact ⟨h3.trans (UF.findMut_length h1), h4, h5⟩

theorem makeSetW_eq {ps : UF} (h : ps.length < W) : UF.makeSetW W ps = UF.makeSet ps := by
  unfold UF.makeSetW UF.makeSet Word.ofUsize
  rw [Nat.mod_eq_of_lt h]

theorem makeNewEClass_carries (h : Agree W N N') (eg : EGraph Op D) (n o : ENode Op) :
    (∀ r, makeNewEClass N eg n o = .ok r → r.1.uf.length = eg.uf.length + 1 ∧ r.1.nodes.length = eg.nodes.length + 1) ∧
    (eg.uf.length < W → makeNewEClassW W N' eg n o = makeNewEClass N eg n o) := by
  refine ⟨fun r hr => ?_, fun hw => ?_⟩
  · unfold makeNewEClass at hr
    dsimp only [UF.makeSet] at hr
    obtain ⟨d, -, hr⟩ := Except.bind_ok' hr
    obtain ⟨e1, h1, hr⟩ := Except.bind_ok' hr
    obtain ⟨h2, h3, -⟩ := pushParents_length h1
    dsimp only at hr h2 h3
    split at hr
    · cases hr
    · cases hr
      simp [h2, h3]
  · unfold makeNewEClassW makeNewEClass
    rw [makeSetW_eq hw, h.make]

theorem addUncanonical_carries (h : Agree W N N') (eg : EGraph Op D) (n : ENode Op) :
    Carries W eg Prod.fst (addUncanonical N eg n) (addUncanonicalW W N' eg n) := by
  unfold addUncanonical addUncanonicalW
  refine .pre fun c _ => ?_
  cases eg.memo.get? c with
  | some ex =>
    refine .pre fun i _ => ?_
    cases hx : eg.explain with
    | none => exact .pure rfl rfl
    | some x =>
      dsimp only
      cases x.uncanonMemo.get? n with
      | some j => exact .pure rfl rfl
      | none =>
        dsimp only
        refine ⟨fun r hr => ?_, fun hb r hr => ?_, fun r hr hw => ?_⟩
        all_goals
          dsimp only [UF.makeSet] at hr
          obtain ⟨x1, h1, hr⟩ := Except.bind_ok' hr
          obtain ⟨u1, h2, hr⟩ := Except.bind_ok' hr
          obtain ⟨x2, h3, hr⟩ := Except.bind_ok' hr
          cases hr
          have h4 := UF.union_length h2
          simp only [List.length_append, List.length_cons, List.length_nil] at h4
        · simp [h4]
        · simp [h4, hb]
        · dsimp only at hw
          rw [makeSetW_eq (by omega)]
          dsimp only [UF.makeSet]
          rw [h1]
          dsimp only [Bind.bind, Except.bind]
          rw [h2]
          dsimp only
          rw [h3]
          rfl
  | none =>
    obtain ⟨a1, a2⟩ := makeNewEClass_carries h eg c n
    refine .bind (g := Prod.fst) ⟨fun r hr => ?_, fun hb r hr => ?_, fun r hr hw => ?_⟩ fun r => ?_
    · have := (a1 r hr).1; omega
    · obtain ⟨p, q⟩ := a1 r hr; omega
    · have := (a1 r hr).1
      rw [a2 (by omega), hr]
    · refine .pre fun x _ => ?_
      dsimp only
      refine .bind (g := id) (.move (h.modify _ _) rfl rfl) fun e => .pure rfl rfl

theorem add_carries (h : Agree W N N') (eg : EGraph Op D) (n : ENode Op) :
    Carries W eg Prod.fst (add N eg n) (addW W N' eg n) := by
  unfold add addW
  refine .bind (addUncanonical_carries h eg n) fun r => ?_
  refine .pre fun i _ => .pure rfl rfl

theorem addExprGo_carries (h : Agree W N N') : ∀ (e : List (ENode Op)) (eg : EGraph Op D) (ids : List Id),
    Carries W eg Prod.fst (addExprGo N eg e ids) (addExprGoW W N' eg e ids)
  | [], eg, ids => .same fun r hr => by cases hr; exact ⟨rfl, rfl⟩
  | n :: e, eg, ids => by
    unfold addExprGo addExprGoW
    refine .pre fun m _ => ?_
    exact .bind (addUncanonical_carries h eg m) fun r => addExprGo_carries h e r.1 _

theorem addExpr_carries (h : Agree W N N') (eg : EGraph Op D) (e : List (ENode Op)) :
    Carries W eg Prod.fst (addExpr N eg e) (addExprW W N' eg e) := by
  unfold addExpr addExprW addExprUncanonical addExprUncanonicalW
  refine .bind (g := Prod.fst) (.bind (addExprGo_carries h e eg []) fun r => .pre fun i _ => .pure rfl rfl) fun r => ?_
  exact .pre fun i _ => .pure rfl rfl

theorem performUnion_carries (h : Agree W N N') (eg : EGraph Op D) (a b : Id) (j : Option Justification) :
    Carries W eg Prod.fst (performUnion N eg a b j) (performUnion N' eg a b j) := by
  unfold performUnion
  refine .pre fun ⟨u1, i1⟩ h1 => ?_
  refine .pre fun ⟨u2, i2⟩ h2 => ?_
  have hl : u2.length = eg.uf.length := (UF.findMut_length h2).trans (UF.findMut_length h1)
  dsimp only
  split
  · split
    · refine .pre fun x _ => .pure hl rfl
    · exact .pure hl rfl
  · refine .pre fun c1 _ => .pre fun c2 _ => .pre fun x _ => .pre fun u3 h3 => .pre fun k2 _ => .pre fun k1 _ => ?_
    have hl3 := (UF.union_length h3).trans hl
    generalize (if c1.parents.length < c2.parents.length then (i2, i1) else (i1, i2)) = p
    have hN : linkClasses N' = linkClasses N := by
      funext e u a b c d; unfold linkClasses; rw [h.merge]
    rw [hN]
    split
    · exact .error
    · exact .bind (g := id) (.move (h.modify _ _) hl3 rfl) fun e => .pure rfl rfl

theorem union_carries (h : Agree W N N') (eg : EGraph Op D) (a b : Id) (c : Symbol) :
    Carries W eg Prod.fst (union N eg a b c) (union N' eg a b c) := by
  unfold union unionTrusted
  split <;> exact performUnion_carries h _ _ _ _

theorem setAnalysisData_carries (h : Agree W N N') (eg : EGraph Op D) (i : Id) (d : D) :
    Carries W eg id (setAnalysisData N eg i d) (setAnalysisData N' eg i d) := by
  unfold setAnalysisData
  refine .pre fun ⟨u1, i1⟩ h1 => .pre fun k _ => ?_
  exact .move (h.modify _ _) (UF.findMut_length h1) rfl

theorem pendingStep_carries (h : Agree W N N') (eg : EGraph Op D) (i : Id) :
    Carries W eg Prod.fst (pendingStep N eg i) (pendingStep N' eg i) := by
  unfold pendingStep
  refine .pre fun n _ => .pre fun ⟨u1, cs⟩ h1 => ?_
  have hl := UF.findMutList_length h1
  dsimp only
  split
  · exact .pure hl rfl
  · exact .move (performUnion_carries h _ _ _ _) hl rfl

theorem pendingLoop_carries (h : Agree W N N') : ∀ (f : Nat) (eg : EGraph Op D) (k : Nat),
    Carries W eg Prod.fst (pendingLoop N f eg k) (pendingLoop N' f eg k)
  | 0, _, _ => .error
  | f + 1, eg, k => by
    unfold pendingLoop
    split
    · exact .same fun r hr => by cases hr; exact ⟨rfl, rfl⟩
    · refine .bind (.move (pendingStep_carries h _ _) ?_ ?_) fun r => pendingLoop_carries h f r.1 _
      · rfl
      · rfl

theorem analysisStep_carries (h : Agree W N N') (eg : EGraph Op D) (i : Id) :
    Carries W eg id (analysisStep N eg i) (analysisStep N' eg i) := by
  unfold analysisStep
  rw [h.remake, h.merge]
  refine .pre fun n _ => .pre fun ⟨u1, r⟩ h1 => .pre fun d _ => .pre fun k _ => ?_
  have hl := UF.findMut_length h1
  dsimp only
  split
  · exact .move (h.modify _ _) hl rfl
  · exact .pure hl rfl

theorem analysisLoop_carries (h : Agree W N N') : ∀ (f : Nat) (eg : EGraph Op D),
    Carries W eg id (analysisLoop N f eg) (analysisLoop N' f eg)
  | 0, _ => .error
  | f + 1, eg => by
    unfold analysisLoop
    split
    · exact .same fun r hr => by cases hr; exact ⟨rfl, rfl⟩
    · refine .bind (.move (analysisStep_carries h _ _) ?_ ?_) fun r => analysisLoop_carries h f r
      · rfl
      · rfl

theorem processUnions_carries (h : Agree W N N') : ∀ (f : Nat) (eg : EGraph Op D) (k : Nat),
    Carries W eg Prod.fst (processUnions N f eg k) (processUnions N' f eg k)
  | 0, _, _ => .error
  | f + 1, eg, k => by
    unfold processUnions
    split
    · exact .same fun r hr => by cases hr; exact ⟨rfl, rfl⟩
    · exact .bind (pendingLoop_carries h _ _ _) fun r => .bind (analysisLoop_carries h _ _) fun e => processUnions_carries h f e _

theorem canonNodes_length : ∀ {ns ms : List (ENode Op)} {u u' : UF}, canonNodes u ns = .ok (u', ms) → u'.length = u.length
  | [], _, _, _, h => by cases h; rfl
  | n :: ns, ms, u, u', h => by
    unfold canonNodes at h
    obtain ⟨⟨p1, r1⟩, h1, h⟩ := Except.bind_ok' h
    obtain ⟨⟨p2, r2⟩, h2, h⟩ := Except.bind_ok' h
    cases h
    rw [canonNodes_length h2, UF.findMutList_length h1]

theorem rebuildClassesGo_length : ∀ {m m' : AMap Id (EClass Op D)} {u u' : UF} {o o'} {t t' : Nat},
    rebuildClassesGo u o m t = .ok (u', o', m', t') → u'.length = u.length
  | [], _, _, _, _, _, _, _, h => by cases h; rfl
  | (k, c) :: m, _, _, _, _, _, _, _, h => by
    unfold rebuildClassesGo at h
    obtain ⟨⟨p1, r1⟩, h1, h⟩ := Except.bind_ok' h
    dsimp only at h
    obtain ⟨⟨p2, r2, r3, r4⟩, h2, h⟩ := Except.bind_ok' h
    cases h
    rw [rebuildClassesGo_length h2, canonNodes_length h1]

theorem rebuild_carries (h : Agree W N N') (f : Nat) (eg : EGraph Op D) :
    Carries W eg Prod.fst (rebuild N f eg) (rebuild N' f eg) := by
  unfold rebuild
  refine .bind (processUnions_carries h _ _ _) fun r => .bind (g := Prod.fst) (.same fun s hs => ?_) fun s => .pure rfl rfl
  unfold rebuildClasses at hs
  obtain ⟨⟨u, o, m, t⟩, h1, hs⟩ := Except.bind_ok' hs
  cases hs
  exact ⟨rebuildClassesGo_length h1, rfl⟩

end EGraph

variable {W : Nat}

theorem Prog.run_carries {N N' : Analysis Op D} (h : Agree W N N') : ∀ (p : Prog Op D) (eg : EGraph Op D),
    Carries W eg id (p.run N eg) (p.runW W N' eg) := by
  intro p
  induction p with
  | done => exact fun eg => .same fun r hr => by cases hr; exact ⟨rfl, rfl⟩
  | panic => exact fun eg => .error
  | read k ih => exact fun eg => ih eg eg
  | add n k ih => exact fun eg => .bind (EGraph.add_carries h eg n) fun r => ih r.2 r.1
  | union a b c k ih => exact fun eg => .bind (EGraph.union_carries h eg a b c) fun r => ih r.2 r.1
  | setData i d k ih => exact fun eg => .bind (EGraph.setAnalysisData_carries h eg i d) fun r => ih r

theorem UserAnalysis.at_parts (U : UserAnalysis Op D) (depth : Nat) :
    (U.at depth).make = U.make ∧ (U.at depth).remake = U.remake ∧ (U.at depth).merge = U.merge := by
  cases depth <;> exact ⟨rfl, rfl, rfl⟩

theorem UserAnalysis.atW_parts (U : UserAnalysis Op D) (depth : Nat) :
    (U.atW W depth).make = U.make ∧ (U.atW W depth).remake = U.remake ∧ (U.atW W depth).merge = U.merge := by
  cases depth <;> exact ⟨rfl, rfl, rfl⟩

theorem UserAnalysis.agree (U : UserAnalysis Op D) (depth : Nat) : Agree W (U.at depth) (U.atW W depth) := by
  obtain ⟨a1, a2, a3⟩ := U.at_parts depth
  obtain ⟨b1, b2, b3⟩ := U.atW_parts (W := W) depth
  refine ⟨b1.trans a1.symm, b2.trans a2.symm, b3.trans a3.symm, ?_⟩
  clear a1 a2 a3 b1 b2 b3
  induction depth with
  | zero =>
    have h1 : (U.at 0).modify = fun _ _ => .error .fuel := rfl
    have h2 : (U.atW W 0).modify = fun _ _ => .error .fuel := rfl
    rw [h1, h2]
    exact fun _ _ => .error
  | succ depth ih =>
    have h1 : (U.at (depth + 1)).modify = fun eg i => (U.modify i).run (U.at depth) eg := rfl
    have h2 : (U.atW W (depth + 1)).modify = fun eg i => (U.modify i).runW W (U.atW W depth) eg := rfl
    obtain ⟨a1, a2, a3⟩ := U.at_parts depth
    obtain ⟨b1, b2, b3⟩ := U.atW_parts (W := W) depth
    rw [h1, h2]
    exact fun eg i => Prog.run_carries ⟨b1.trans a1.symm, b2.trans a2.symm, b3.trans a3.symm, ih⟩ (U.modify i) eg

theorem EGraph.withExplanationsEnabled_carries (eg : EGraph Op D) :
    Carries W eg id eg.withExplanationsEnabled eg.withExplanationsEnabled := by
  refine .same fun r hr => ?_
  unfold EGraph.withExplanationsEnabled at hr
  split at hr
  · cases hr; exact ⟨rfl, rfl⟩
  · split at hr
    · cases hr
    · cases hr; exact ⟨rfl, rfl⟩

theorem Session.run_carries {N N' : Analysis Op D} (h : Agree W N N') : ∀ (p : Session Op D) (eg : EGraph Op D),
    Carries W eg id (p.run N eg) (p.runW W N' eg) := by
  intro p
  induction p with
  | done => exact fun eg => .same fun r hr => by cases hr; exact ⟨rfl, rfl⟩
  | read k ih => exact fun eg => ih eg eg
  | explanations k ih => exact fun eg => .bind (EGraph.withExplanationsEnabled_carries eg) fun r => ih r
  | add n k ih => exact fun eg => .bind (EGraph.add_carries h eg n) fun r => ih r.2 r.1
  | addUncanonical n k ih => exact fun eg => .bind (EGraph.addUncanonical_carries h eg n) fun r => ih r.2 r.1
  | addExpr n k ih => exact fun eg => .bind (EGraph.addExpr_carries h eg n) fun r => ih r.2 r.1
  | union a b c k ih => exact fun eg => .bind (EGraph.union_carries h eg a b c) fun r => ih r.2 r.1
  | unionTrusted a b c k ih => exact fun eg => .bind (EGraph.performUnion_carries h eg a b _) fun r => ih r.2 r.1
  | setData i d k ih => exact fun eg => .bind (EGraph.setAnalysisData_carries h eg i d) fun r => ih r
  | rebuild f k ih => exact fun eg => .bind (EGraph.rebuild_carries h f eg) fun r => ih r.2 r.1

end Egg
