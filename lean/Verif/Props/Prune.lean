import Verif.Spec.PruneFold
import Verif.Lemmas.ThinHist
import Verif.Props.Fold
import Verif.Examples
/-
C86: dropping e-nodes from classes changes nothing but the e-nodes of the classes.
-/
namespace Egg
variable {Op D : Type} [DecidableEq Op] [Lang Op] {K : Op → Nat → Prop}

theorem alike_of_sim {P : D → Prop} {b : Mark} {α : Type} {x y : Res (EGraph Op D × α)} (h : Sim (ThinR K P b) x y) : Alike x y := by
  cases x with
  | error e =>
    cases y with
    | error e' => exact .inl ⟨e, rfl, by rw [show e = e' from h]⟩
    | ok q => exact h.elim
  | ok p =>
    cases y with
    | error e' => exact h.elim
    | ok q =>
      obtain ⟨eg, a⟩ := p
      obtain ⟨g, a'⟩ := q
      obtain ⟨h1, h2⟩ := h
      dsimp only at h1 h2
      subst h2
      exact .inr ⟨eg, g, a, rfl, rfl, h1.thin.thinner⟩

theorem ThinC.kept {P : D → Prop} {b : Mark} {eg g : EGraph Op D} (h : ThinC K P b eg g) : Kept K eg g := by
  intro i k kf hk hkf n hn hK
  unfold EGraph.index at hk hkf
  rw [h.thin.find] at hk
  obtain ⟨r, h1, hk⟩ := bind_eq_ok.1 hk
  obtain ⟨r', h1', hkf⟩ := bind_eq_ok.1 hkf
  rw [h1] at h1'
  cases h1'
  rcases h.thin.classes.get? r with ⟨h2, h3⟩ | ⟨k1, k2, h2, h3, h4⟩
  · rw [h2] at hk; cases hk
  · rw [h2] at hk
    rw [h3] at hkf
    cases hk
    cases hkf
    exact h4.kept n hn hK

variable {A : PruneAnalysis Op D} {allow : Caller Op D} {depth : Nat} {U : List (UnionRec Op)} {eg : EGraph Op D}

/-- **C86.**  For every history in which the user or the hook `modify` drops e-nodes from classes there is the
history without the dropping.  Its e-graph has the same ids, the same equalities, the same data, the same hashcons
and the same explanations; e-nodes are missing from classes, none of those that pruning keeps; and every later call
of `add`, `union` and `rebuild` has the same outcome on both: the same failure or the same result. -/
theorem c86_same_as_unpruned (hA : A.OK K) (ha : allow.Blind) (h : PruneHist K (A.at depth) allow U eg) :
    ∃ full, Hist (A.full.at depth) allow U full ∧ Thinner eg full ∧ Kept K eg full ∧
      (∀ n, Alike (EGraph.add (A.at depth) eg n) (EGraph.add (A.full.at depth) full n)) ∧
      (∀ a b caller, Alike (EGraph.union (A.at depth) eg a b caller) (EGraph.union (A.full.at depth) full a b caller)) ∧
      ∀ fuel, Alike (EGraph.rebuild (A.at depth) fuel eg) (EGraph.rebuild (A.full.at depth) fuel full) := by
  obtain ⟨g, hg, hC⟩ := PruneHist.follow hA ha h
  have hN := hA.hookSim depth
  exact ⟨g, hg, hC.thin.thinner, hC.kept, fun n => alike_of_sim ((Thin.add hN hC n).mono (fun _ _ h => h.1)),
    fun a b c => alike_of_sim (Thin.union hN hC a b c), fun fuel => alike_of_sim (Thin.rebuild hN hC fuel)⟩

/-- What that means for reading: `lookup`, `lookup_expr`, the number of classes, the node an id stands for and the data
are the same, and a term of a class is a term of the complete class. -/
theorem c86_reads {eg full : EGraph Op D} (h : Thinner eg full) :
    (∀ n, eg.lookup n = full.lookup n) ∧ (∀ e, eg.lookupExpr e = full.lookupExpr e) ∧
    eg.numberOfClasses = full.numberOfClasses ∧ (∀ i, eg.idToNode i = full.idToNode i) ∧
    (∀ a b, SameClass eg a b ↔ SameClass full a b) ∧ (∀ i t, Rep eg i t → Rep full i t) ∧
    ∀ i d, (∃ k, eg.index i = .ok k ∧ k.data = d) ↔ ∃ k, full.index i = .ok k ∧ k.data = d := by
  have hf : eg.find = full.find := funext h.find
  have hl : ∀ n, eg.lookup n = full.lookup n := by
    intro n
    unfold EGraph.lookup EGraph.lookupInternal EGraph.canon
    rw [hf, h.memo]
  have hgo : ∀ (l : List (ENode Op)) (ids : List Id), eg.lookupExprIdsGo l ids = full.lookupExprIdsGo l ids := by
    intro l
    induction l with
    | nil => intro ids; rfl
    | cons n l ih =>
      intro ids
      unfold EGraph.lookupExprIdsGo
      simp only [hl, ih]
  refine ⟨hl, fun e => ?_, h.classes.length_eq, fun i => by unfold EGraph.idToNode; rw [h.nodes], fun a b => h.sameClass, fun i t => h.rep, fun i d => ?_⟩
  · unfold EGraph.lookupExpr EGraph.lookupExprIds
    rw [hgo]
  · unfold EGraph.index
    rw [hf]
    cases full.find i with
    | error e => simp
    | ok r =>
      simp only [ok_bind]
      rcases h.get? r with ⟨h1, h2⟩ | ⟨k, k0, h1, h2, h3⟩
      · rw [h1, h2]
      · rw [h1, h2]
        simp only [unwrap_some, Except.ok.injEq, exists_eq_left', h3.data]

/-- **C86.**  The terms of a class of the pruned e-graph, dropped or not, are the terms that the class of the complete
e-graph represents. -/
theorem c86_terms {full : EGraph Op D} (hh : Hist (A.full.at depth) allow U full) (h : Thinner eg full) (i : Id) (t : Term Op) :
    TermFor eg i t ↔ Rep full i t := h.termFor_full (hist_good hh).inv

/-- **C86.**  Pruning makes no spurious equality. -/
theorem c86_sound {R : Term Op → Term Op → Prop} {hR : IsCongruence R} (hA : A.OK K) (hS : SoundFor A.full R hR) (ha : allow.Blind)
    (h : PruneHist K (A.at depth) allow U eg) (hU : ∀ s t, eqsOf U s t → R s t) {a b : Id} {s t : Term Op}
    (hab : SameClass eg a b) (hs : TermFor eg a s) (ht : TermFor eg b t) : R s t := by
  obtain ⟨g, hg, hC, -⟩ := c86_same_as_unpruned hA ha h
  exact c02_no_spurious_equality hR hS hg hU (hC.sameClass.1 hab) ((c86_terms hg hC _ _).1 hs) ((c86_terms hg hC _ _).1 ht)

/-- **C86.**  Pruning loses no equality: after `rebuild` two ids are in one class iff their terms are equal by the
requested unions, whatever was pruned before. -/
theorem c86_complete (hA : A.OK K) (hS : SoundFor A.full (GEq (eqsOf U)) .geq) (ha : allow.Blind) {eg' : EGraph Op D} {fuel n : Nat}
    (h : PruneHist K (A.at depth) allow U eg) (hr : EGraph.rebuild (A.at depth) fuel eg = .ok (eg', n)) {a b : Id} {s t : Term Op}
    (hs : TermFor eg' a s) (ht : TermFor eg' b t) : SameClass eg' a b ↔ GEq (eqsOf U) s t := by
  obtain ⟨g, hg, hC⟩ := PruneHist.follow hA ha h
  obtain ⟨⟨g', n'⟩, h1, h2, _⟩ := (Thin.rebuild (hA.hookSim depth) hC fuel).of_ok hr
  have hT := h2.thin.thinner
  have hg' : Hist (A.full.at depth) allow ([] ++ U) g' := .tail hg (.rebuild h1)
  rw [hT.sameClass]
  exact c01_same_class_iff hS hg h1 ((c86_terms hg' hT _ _).1 hs) ((c86_terms hg' hT _ _).1 ht)

/-! ### Constant folding with pruning -/

variable {V : Type} [DecidableEq V] {F : Folding Op V} {caller : Symbol} {M : Op → List V → V}

theorem Folding.pruning_full : (F.pruning caller).full = F.analysis caller := by
  unfold Folding.pruning Folding.analysis PruneAnalysis.full
  congr 1
  funext i
  simp only [PruneProg.full]
  congr 1
  funext eg
  cases eg.index i with
  | error e => rfl
  | ok k =>
    dsimp only
    cases k.data with
    | none => rfl
    | some d => cases d <;> rfl

theorem Thinner.childData {eg full : EGraph Op D} (h : Thinner eg full) (cs : List Id) : childData eg cs = Egg.childData full cs := by
  induction cs with
  | nil => rfl
  | cons c cs ih =>
    unfold Egg.childData EGraph.index
    rw [ih, h.find]
    cases full.find c with
    | error e => rfl
    | ok r =>
      simp only [ok_bind]
      rcases h.get? r with ⟨h1, h2⟩ | ⟨k, k0, h1, h2, h3⟩
      · rw [h1, h2]
      · rw [h1, h2]
        simp only [unwrap_some, ok_bind, h3.data]

/-- The e-nodes without children. -/
def leaves : Op → Nat → Prop := fun _ n => n = 0

theorem Folding.pruning_ok (F : Folding Op V) (caller : Symbol) : (F.pruning caller).OK leaves where
  make := fun eg full n i h => by
    show (do return F.datum n.op (← Egg.childData eg n.children)) = (do return F.datum n.op (← Egg.childData full n.children))
    rw [h.childData]
  remake := fun eg full n i h => by
    show (do return F.datum n.op (← Egg.childData eg n.children)) = (do return F.datum n.op (← Egg.childData full n.children))
    rw [h.childData]
  modify := fun i => by
    refine ⟨⟨?_, ?_⟩, ?_, ?_⟩
    · intro eg full h
      dsimp only
      unfold EGraph.index
      rw [h.find]
      cases full.find i with
      | error e => rfl
      | ok r =>
        simp only [ok_bind]
        rcases h.get? r with ⟨h1, h2⟩ | ⟨k, k0, h1, h2, h3⟩
        · rw [h1, h2]
        · rw [h1, h2]
          simp only [unwrap_some, h3.data]
    · intro eg
      dsimp only
      cases eg.index i with
      | error e => trivial
      | ok k =>
        dsimp only
        split
        · trivial
        · trivial
        · exact fun _ _ => trivial
    · intro eg
      dsimp only
      cases eg.index i with
      | error e => trivial
      | ok k =>
        dsimp only
        split
        · trivial
        · trivial
        · exact fun _ _ => ⟨.inl (.inl rfl), trivial⟩
    · intro eg
      dsimp only
      cases eg.index i with
      | error e => trivial
      | ok k =>
        dsimp only
        split
        · trivial
        · trivial
        · refine fun _ _ => ⟨fun eg n hn => ?_, trivial⟩
          have : n.children = [] := List.eq_nil_of_length_eq_zero hn
          simp [ENode.isLeaf, this]

theorem Alike.no_panic {α : Type} {x y : Res (EGraph Op D × α)} (h : Alike x y) (hy : y ≠ .error .panic) : x ≠ .error .panic := by
  rcases h with ⟨e, rfl, rfl⟩ | ⟨eg, g, a, rfl, rfl, _⟩
  · exact hy
  · intro h; cases h

theorem blind_noSet : (Caller.noSet : Caller Op D).Blind := fun _ _ _ _ _ h => h

theorem fold_of_thin {eg g : EGraph Op (Option (Known V))} (hM : F.Agrees M) (hg : Hist ((F.pruning caller).full.at depth) .noSet U g)
    (hT : Thinner eg g) (hK : Kept leaves eg g) (hU : ∀ s t, eqsOf U s t → absValue M s = absValue M t) :
    (∀ a b s t, SameClass eg a b → TermFor eg a s → TermFor eg b t → absValue M s = absValue M t) ∧
    ∀ i k, eg.index i = .ok k → k.data ≠ some .clash ∧
      ∀ v, k.data = some (.val v) → Rep eg i (.node (F.con v) []) ∧ ∀ t, TermFor eg i t → absValue M t = v := by
  have hg' : Hist ((F.analysis caller).at depth) .noSet U g := by
    rw [Folding.pruning_full] at hg
    exact hg
  obtain ⟨h1, h2⟩ := c85_sound hM hg' hU
  refine ⟨fun a b s t hab hs ht => h1 a b s t (hT.sameClass.1 hab) ((c86_terms hg hT _ _).1 hs) ((c86_terms hg hT _ _).1 ht), fun i k hk => ?_⟩
  obtain ⟨kf, hkf, hd⟩ := ((c86_reads hT).2.2.2.2.2.2 i k.data).1 ⟨k, hk, rfl⟩
  rw [← hd]
  refine ⟨(h2 i kf hkf).1, fun v hv => ?_⟩
  obtain ⟨h3, h4⟩ := (h2 i kf hkf).2 v hv
  refine ⟨?_, fun t ht => h4 t ((c86_terms hg hT _ _).1 ht)⟩
  generalize ht : Term.node (F.con v) [] = t at h3 ⊢
  cases h3 with
  | @mk c r cls n ts g1 g2 g3 g4 _ =>
    injection ht with ht1 ht2
    subst ht2
    have hn0 : n.children = [] := List.eq_nil_of_length_eq_zero g4
    have hkf' : g.index i = .ok cls := by
      unfold EGraph.index
      rw [g1]
      simp only [ok_bind, g2, unwrap_some]
    have := hK i k cls hk hkf' n g3 (by rw [hn0]; rfl)
    unfold EGraph.index at hk
    obtain ⟨r', q1, q2⟩ := bind_eq_ok.1 hk
    rw [hT.find, g1] at q1
    cases q1
    cases hcl : eg.classes.get? r with
    | none => rw [hcl] at q2; cases q2
    | some k' =>
      rw [hcl] at q2
      cases q2
      exact .mk (by rw [hT.find]; exact g1) hcl this (by rw [hn0]; rfl) (fun j d t hj => by rw [hn0] at hj; simp at hj)

/-- **C86**, constant folding that prunes (`tests/math.rs`): if the requested unions are correct then terms of a
class have one value; the assertion of `merge` has not failed; the datum of a class is the value of its terms, and
the class contains the constant. -/
theorem c86_fold {eg : EGraph Op (Option (Known V))} (hM : F.Agrees M)
    (h : PruneHist leaves ((F.pruning caller).at depth) .noSet U eg) (hU : ∀ s t, eqsOf U s t → absValue M s = absValue M t) :
    (∀ a b s t, SameClass eg a b → TermFor eg a s → TermFor eg b t → absValue M s = absValue M t) ∧
    ∀ i k, eg.index i = .ok k → k.data ≠ some .clash ∧
      ∀ v, k.data = some (.val v) → Rep eg i (.node (F.con v) []) ∧ ∀ t, TermFor eg i t → absValue M t = v := by
  obtain ⟨g, hg, hT, hK, -⟩ := c86_same_as_unpruned (F.pruning_ok caller) blind_noSet h
  exact fold_of_thin hM hg hT hK hU

/-- **C86**: and none of the next calls panics. -/
theorem c86_fold_no_panic {eg : EGraph Op (Option (Known V))} (hM : F.Agrees M)
    (h : PruneHist leaves ((F.pruning caller).at depth) .noSet U eg) (hU : ∀ s t, eqsOf U s t → absValue M s = absValue M t) :
    (∀ n : ENode Op, (∀ c ∈ n.children, Valid eg c) → EGraph.add ((F.pruning caller).at depth) eg n ≠ .error .panic) ∧
    (∀ a b s t caller', TermFor eg a s → TermFor eg b t → absValue M s = absValue M t →
      EGraph.union ((F.pruning caller).at depth) eg a b caller' ≠ .error .panic) ∧
    (∀ fuel, EGraph.rebuild ((F.pruning caller).at depth) fuel eg ≠ .error .panic) := by
  obtain ⟨g, hg, hT, -, h1, h2, h3⟩ := c86_same_as_unpruned (F.pruning_ok caller) blind_noSet h
  have hg' := hg
  rw [Folding.pruning_full] at hg' h1 h2 h3
  obtain ⟨q1, q2, q3⟩ := c85_no_panic hM hg' hU
  refine ⟨fun n hn => (h1 n).no_panic (q1 n fun c hc => ?_),
    fun a b s t cl hs ht hst => (h2 a b cl).no_panic (q2 a b s t cl ((c86_terms hg hT _ _).1 hs) ((c86_terms hg hT _ _).1 ht) hst),
    fun fuel => (h3 fuel).no_panic (q3 fuel)⟩
  obtain ⟨r, hr⟩ := hn c hc
  exact ⟨r, by rw [← hT.find]; exact hr⟩

/-! ### An example: the sums of C85, with pruning -/

namespace Fold

abbrev NP : Analysis O (Option (Known Nat)) := (sums.pruning 0).at 3

/-- x, 2, x + 2, (x + 2) + 2, 1; the user empties the class of (x + 2) + 2; then x = 1 and `rebuild`. -/
def p1 : GS := stS (EGraph.addUncanonical NP EGraph.new ⟨.var 0, []⟩)
def p2 : GS := stS (EGraph.addUncanonical NP p1 ⟨.num 2, []⟩)
def p3 : GS := stS (EGraph.addUncanonical NP p2 ⟨.plus, [0, 1]⟩)
def p4 : GS := stS (EGraph.addUncanonical NP p3 ⟨.plus, [2, 1]⟩)
def p5 : GS := stS (EGraph.addUncanonical NP p4 ⟨.num 1, []⟩)
def p6 : GS := match p5.retain 3 (fun n => n.isLeaf) with | .ok e => e | .error _ => EGraph.new
def p7 : GS := stS (EGraph.union NP p6 0 4 7)
def p8 : GS := stS (EGraph.rebuild NP 20 p7)

theorem retP : p5.retain 3 (fun n => n.isLeaf) = .ok p6 := by
  unfold p6
  cases h : p5.retain 3 (fun n => n.isLeaf) with
  | ok e => rfl
  | error e =>
    have : (match p5.retain 3 (fun n => n.isLeaf) with | .ok _ => true | .error _ => false) = true := by decide +kernel
    rw [h] at this
    cases this

theorem histP6 : PruneHist leaves NP .noSet [] p6 :=
  .tail (V := []) (.tail (V := []) (.tail (V := []) (.tail (V := []) (.tail (V := []) (.tail (V := []) .new
    (.call (.add (n := ⟨.var 0, []⟩) (i := 0) (ok_stS (by decide +kernel)))))
    (.call (.add (n := ⟨.num 2, []⟩) (i := 1) (ok_stS (by decide +kernel)))))
    (.call (.add (n := ⟨.plus, [0, 1]⟩) (i := 2) (ok_stS (by decide +kernel)))))
    (.call (.add (n := ⟨.plus, [2, 1]⟩) (i := 3) (ok_stS (by decide +kernel)))))
    (.call (.add (n := ⟨.num 1, []⟩) (i := 4) (ok_stS (by decide +kernel)))))
    (.retain (fun n hn => by simp [ENode.isLeaf, List.eq_nil_of_length_eq_zero hn]) retP)

theorem histP : PruneHist leaves NP .noSet [⟨7, 0, 4, .node (.var 0) [], lit 1⟩] p7 :=
  .tail (V := [_]) histP6
    (.call (.union (r := true) (repS (n := ⟨.var 0, []⟩) (by decide +kernel) .nil)
      (repS (n := ⟨.num 1, []⟩) (by decide +kernel) .nil) (ok_stS (by decide +kernel))))

theorem rebP : p7.rebuild NP 20 = .ok (p8, 0) := ok_stS (by decide +kernel)

theorem histP8 : PruneHist leaves NP .noSet [⟨7, 0, 4, .node (.var 0) [], lit 1⟩] p8 := .tail (V := []) histP (.call (.rebuild rebP))

/-- The user has emptied the class of (x + 2) + 2, and `modify` has dropped the sums from the folded classes; the
constants are there. -/
example : (clsS p5 3).1 = [⟨.plus, [2, 1]⟩] ∧ (clsS p7 3).1 = [] ∧ (clsS p8 3) = ([⟨.num 5, []⟩], some (some (.val 5))) ∧
    (clsS p8 2) = ([⟨.num 3, []⟩], some (some (.val 3))) ∧ (clsS s7 2).1 = [⟨.num 3, []⟩, ⟨.plus, [0, 1]⟩] := by decide +kernel

/-- The hypotheses of C86 are met: the class of (x + 2) + 2 has the value 5, with or without its sums. -/
example : Rep p8 3 (lit 5) ∧ absValue (meaning fun _ => 1) (.node .plus [.node .plus [.node (.var 0) [], lit 2], lit 2]) = 5 := by
  obtain ⟨k, hk, hd⟩ : ∃ k, p8.index 3 = .ok k ∧ k.data = some (.val 5) := by
    have h : (clsS p8 3).2 = some (some (.val 5)) := by decide +kernel
    unfold clsS at h
    split at h
    · rename_i k hk
      exact ⟨k, hk, Option.some.inj h⟩
    · cases h
  have := ((c86_fold (sums_agrees fun _ => 1) histP8 eqsS).2 3 k hk).2 5 hd
  refine ⟨this.1, this.2 _ (.of_termOf (fun i hi => ?_) ?_)⟩
  · have hB : ∀ i, i < 7 → (p8.find i).toBool = true := by decide +kernel
    have h7 : p8.nodes.length = 7 := by decide +kernel
    have hi7 : i < 7 := by rw [← h7]; exact hi
    have := hB i hi7
    generalize hf : p8.find i = x at this
    cases x with
    | error e => cases this
    | ok r => exact ⟨r, hf⟩
  have mk : ∀ {i : Id} {n : ENode O} {ts : List (Term O)}, p8.nodes[i]? = some n → List.Forall₂ (TermOf p8.nodes) n.children ts →
      TermOf p8.nodes i (.node n.op ts) := fun h1 h2 =>
    .mk h1 h2.length_eq fun k c t hc ht => by
      obtain ⟨hk, rfl⟩ := List.getElem?_eq_some_iff.1 hc
      obtain ⟨hk', rfl⟩ := List.getElem?_eq_some_iff.1 ht
      exact List.forall₂_iff_get.1 h2 |>.2 k hk hk'
  have t0 := mk (i := 0) (n := ⟨O.var 0, []⟩) (by decide +kernel) .nil
  have t1 := mk (i := 1) (n := ⟨O.num 2, []⟩) (by decide +kernel) .nil
  have t2 := mk (i := 2) (n := ⟨O.plus, [0, 1]⟩) (by decide +kernel) (.cons t0 (.cons t1 .nil))
  exact mk (i := 3) (n := ⟨O.plus, [2, 1]⟩) (by decide +kernel) (.cons t2 (.cons t1 .nil))

end Fold

/-! ### An example: the user empties classes -/

namespace Ex

/-- The trivial analysis. -/
def PU : PruneAnalysis S Unit where
  make := fun _ _ _ => .ok ()
  remake := fun _ _ _ => .ok ()
  merge := fun _ _ => ((), false, false)
  modify := fun _ => .done

theorem PU_ok : PU.OK (fun _ _ => False) := ⟨fun _ _ _ _ _ => rfl, fun _ _ _ _ _ => rfl, fun _ => ⟨trivial, trivial, trivial⟩⟩

abbrev PN : Analysis S Unit := PU.at 1

/-- Everything is dropped from the classes of `a` and `f a`. -/
def q4 : G := st (do
  let (e, _) ← EGraph.addUncanonical PN EGraph.new (leaf .a)
  let (e, _) ← EGraph.addUncanonical PN e (leaf .b)
  let (e, _) ← EGraph.addUncanonical PN e (app .f [0])
  EGraph.addUncanonical PN e (app .f [1]))
def q5 : G := st (do return (← q4.retain 2 (fun _ => false), ()))
def q6 : G := st (do return (← q5.retain 0 (fun _ => false), ()))
def q7 : G := st (EGraph.union PN q6 0 1 7)
def q8 : G := st (EGraph.rebuild PN 20 q7)

theorem term_q6 : TermFor q6 0 ta ∧ TermFor q6 1 tb :=
  ⟨termFor_iff.2 ⟨0, leaf .a, ⟨0, rfl, rfl⟩, rfl, rfl, .nil⟩, termFor_iff.2 ⟨1, leaf .b, ⟨1, rfl, rfl⟩, rfl, rfl, .nil⟩⟩

theorem histQ (allow) : PruneHist (fun _ _ => False) PN allow [un] q7 :=
  .tail (V := [un]) (.tail (V := []) (.tail (V := []) (.tail (V := []) (.tail (V := []) (.tail (V := []) (.tail (V := []) .new
    (.call (.add (n := leaf .a) (i := 0) rfl))) (.call (.add (n := leaf .b) (i := 1) rfl)))
    (.call (.add (n := app .f [0]) (i := 2) rfl))) (.call (.add (n := app .f [1]) (i := 3) rfl)))
    (.retain (eg' := q5) (i := 2) (keep := fun _ => false) (fun _ h => h.elim) rfl))
    (.retain (eg' := q6) (i := 0) (keep := fun _ => false) (fun _ h => h.elim) rfl))
    (.union (r := true) term_q6.1 term_q6.2 rfl)

theorem rebQ : EGraph.rebuild PN 20 q7 = .ok (q8, 1) := rfl

/-- The classes of `a` and `f a` are empty when `a` and `b` are united, and still congruence is found: the
hypotheses of C86 are met. -/
example : (q6.classes.get? 0).map (·.nodes) = some [] ∧ (q6.classes.get? 2).map (·.nodes) = some [] ∧ SameClass q8 2 3 := by
  refine ⟨rfl, rfl, ?_⟩
  have t2 : TermFor q8 2 tfa := termFor_iff.2 ⟨2, app .f [0], ⟨_, rfl, rfl⟩, rfl, rfl, .cons (termFor_iff.2 ⟨0, leaf .a, ⟨_, rfl, rfl⟩, rfl, rfl, .nil⟩) .nil⟩
  have t3 : TermFor q8 3 tfb := termFor_iff.2 ⟨3, app .f [1], ⟨_, rfl, rfl⟩, rfl, rfl, .cons (termFor_iff.2 ⟨1, leaf .b, ⟨_, rfl, rfl⟩, rfl, rfl, .nil⟩) .nil⟩
  refine (c86_complete PU_ok (soundFor_of_quiet (fun _ => rfl) _ _) blind_noSet (histQ .noSet) rebQ t2 t3).2 ?_
  exact (IsCongruence.geq (E := eqsOf [un])).congr S.f (.cons (.ax ⟨un, by simp, rfl, rfl⟩) .nil)

end Ex

end Egg
