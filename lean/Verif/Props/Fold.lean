import Verif.Spec.Fold
import Verif.Props.Describe
/-
C85: constant folding.
-/
namespace Egg
variable {Op V : Type}

section
variable [DecidableEq V] {F : Folding Op V}

/-- The order of knowledge. -/
def Known.le : Option (Known V) → Option (Known V) → Prop := fun d d' => d = none ∨ d' = d ∨ d' = some .clash

theorem Known.le_refl (d : Option (Known V)) : Known.le d d := .inr (.inl rfl)

theorem Known.le_trans {a b c : Option (Known V)} (h1 : Known.le a b) (h2 : Known.le b c) : Known.le a c := by
  rcases h1 with rfl | rfl | rfl
  · exact .inl rfl
  · exact h2
  · rcases h2 with h | rfl | rfl
    · cases h
    · exact .inr (.inr rfl)
    · exact .inr (.inr rfl)

theorem Folding.datum_mono {op : Op} {ds ds' : List (Option (Known V))} (h : List.Forall₂ Known.le ds ds') :
    Known.le (F.datum op ds) (F.datum op ds') := by
  unfold Folding.datum
  by_cases hc' : some Known.clash ∈ ds'
  · rw [if_pos hc']; exact .inr (.inr rfl)
  · have hc : some Known.clash ∉ ds := by
      intro hc
      obtain ⟨d', h1, h2⟩ := forall₂_mem_left h hc
      rcases h2 with h2 | rfl | rfl
      · cases h2
      · exact hc' h1
      · exact hc' h1
    rw [if_neg hc, if_neg hc']
    cases he : F.eval op (ds.map (·.bind Known.val?)) with
    | none => exact .inl rfl
    | some v =>
      refine .inr (.inl ?_)
      rw [F.mono ?_ he]
      clear he hc
      induction h with
      | nil => exact .nil
      | @cons a b l l' hab _ ih =>
        simp only [List.map_cons]
        refine .cons ?_ (ih (fun h => hc' (by simp [h])))
        rcases hab with rfl | rfl | rfl
        · exact .inl rfl
        · exact .inr rfl
        · exact absurd (by simp) hc'

theorem absValue_mk (F : Folding Op V) : ∀ t : Term Op, absValue F.datum t = (absValue F.eval t).map .val := by
  intro t
  induction t using Term.ind with
  | h op ts ih =>
    rw [absValue, absValue]
    have : absValues F.datum ts = (absValues F.eval ts).map (·.map .val) := by
      induction ts with
      | nil => simp [absValues]
      | cons t ts ih' =>
        rw [absValues, absValues, List.map_cons, ih t (by simp), ih' (fun t ht => ih t (by simp [ht]))]
    rw [this]
    unfold Folding.datum
    rw [if_neg]
    · congr 2
      rw [List.map_map]
      conv_rhs => rw [← List.map_id (absValues F.eval ts)]
      refine List.map_congr_left fun d _ => ?_
      cases d <;> rfl
    · intro h
      obtain ⟨d, _, h⟩ := List.mem_map.1 h
      cases d <;> cases h

end

variable [DecidableEq Op] [Lang Op] [DecidableEq V] {F : Folding Op V} {caller : Symbol}

theorem childData_ok {D : Type} {eg : EGraph Op D} : ∀ {cs : List Id} {ds : List D},
    List.Forall₂ (fun c d => ∃ k, eg.index c = .ok k ∧ k.data = d) cs ds ↔ childData eg cs = .ok ds := by
  intro cs
  induction cs with
  | nil =>
    intro ds
    constructor
    · intro h; cases h; rfl
    · intro h; cases h; exact .nil
  | cons c cs ih =>
    intro ds
    constructor
    · intro h
      cases h with
      | cons h1 h2 =>
        obtain ⟨k, h1, rfl⟩ := h1
        simp only [childData, h1, ok_bind, ih.1 h2]
        rfl
    · intro h
      unfold childData at h
      obtain ⟨k, h1, h⟩ := bind_eq_ok.1 h
      obtain ⟨ds', h2, h⟩ := bind_eq_ok.1 h
      cases h
      exact .cons ⟨k, h1, rfl⟩ (ih.2 h2)

omit [DecidableEq Op] [Lang Op] in
theorem Known.both_self (a : Known V) : Known.both a a = (a, false, false) := if_pos rfl

omit [DecidableEq Op] [Lang Op] in
theorem Known.both_ne {a b : Known V} (h : a ≠ b) : Known.both a b = (.clash, true, true) := if_neg h

theorem Folding.merge_le (a b : Option (Known V)) : Known.le a ((F.analysis caller).merge a b).1 ∧
    Known.le b ((F.analysis caller).merge a b).1 := by
  show Known.le a (mergeOption Known.both a b).1 ∧ Known.le b (mergeOption Known.both a b).1
  cases a with
  | none =>
    cases b with
    | none => exact ⟨.inl rfl, .inl rfl⟩
    | some b => exact ⟨.inl rfl, Known.le_refl _⟩
  | some a =>
    cases b with
    | none => exact ⟨Known.le_refl _, .inl rfl⟩
    | some b =>
      simp only [mergeOption]
      by_cases h : a = b
      · subst h; rw [Known.both_self]; exact ⟨Known.le_refl _, Known.le_refl _⟩
      · rw [Known.both_ne h]; exact ⟨.inr (.inr rfl), .inr (.inr rfl)⟩

/-- Constant folding is a join analysis for the order of knowledge. -/
theorem Folding.join (F : Folding Op V) (caller : Symbol) : JoinAnalysis (F.analysis caller) Known.le F.datum where
  refl := Known.le_refl
  trans := Known.le_trans
  mono := Folding.datum_mono
  make := fun {eg n i ds} h => by
    show (do return F.datum n.op (← childData eg n.children) : Res _) = _
    rw [childData_ok.1 h]; rfl
  remake := fun {eg n i ds} h => by
    show (do return F.datum n.op (← childData eg n.children) : Res _) = _
    rw [childData_ok.1 h]; rfl
  left := fun a b => (Folding.merge_le a b).1
  right := fun a b => (Folding.merge_le a b).2
  lub := fun {a b u} h1 h2 => by
    show Known.le (mergeOption Known.both a b).1 u
    cases a with
    | none =>
      cases b with
      | none => exact .inl rfl
      | some b => exact h2
    | some a =>
      cases b with
      | none => exact h1
      | some b =>
        simp only [mergeOption]
        by_cases h : a = b
        · subst h; rw [Known.both_self]; exact h1
        · rw [Known.both_ne h]
          rcases h1 with h1 | rfl | rfl
          · cases h1
          · rcases h2 with h2 | h2 | h2
            · cases h2
            · cases h2; exact absurd rfl h
            · rw [h2]; exact Known.le_refl _
          · exact Known.le_refl _
  flagL := fun a b h => by
    change (mergeOption Known.both a b).2.1 = false at h
    show Known.le (mergeOption Known.both a b).1 a
    cases a with
    | none =>
      cases b with
      | none => exact Known.le_refl _
      | some b => cases h
    | some a =>
      cases b with
      | none => exact Known.le_refl _
      | some b =>
        simp only [mergeOption] at h ⊢
        by_cases e : a = b
        · subst e; rw [Known.both_self]; exact Known.le_refl _
        · rw [Known.both_ne e] at h; cases h
  flagR := fun a b h => by
    change (mergeOption Known.both a b).2.2 = false at h
    show Known.le (mergeOption Known.both a b).1 b
    cases a with
    | none =>
      cases b with
      | none => exact Known.le_refl _
      | some b => exact Known.le_refl _
    | some a =>
      cases b with
      | none => cases h
      | some b =>
        simp only [mergeOption] at h ⊢
        by_cases e : a = b
        · subst e; rw [Known.both_self]; exact Known.le_refl _
        · rw [Known.both_ne e] at h; cases h
  noSet := fun i eg => by
    show Prog.NoSet (match eg.index i with | .error _ => _ | .ok k => _)
    split
    · trivial
    · split
      · trivial
      · trivial
      · exact fun _ _ => trivial

/-! ### Soundness -/

section
variable {M : Op → List V → V}

omit [DecidableEq Op] [Lang Op] [DecidableEq V] in
theorem absValues_map (M : Op → List V → V) (ts : List (Term Op)) : absValues M ts = ts.map (absValue M) := by
  induction ts with
  | nil => rfl
  | cons t ts ih => rw [absValues, ih]; rfl

/-- Same value. -/
def SameValue (M : Op → List V → V) (s t : Term Op) : Prop := absValue M s = absValue M t

omit [DecidableEq Op] [Lang Op] [DecidableEq V] in
theorem sameValue (M : Op → List V → V) : IsCongruence (SameValue M) where
  refl := fun _ => rfl
  symm := fun h => h.symm
  trans := fun h1 h2 => h1.trans h2
  congr := fun op ss ts h => by
    have : absValues M ss = absValues M ts := by
      induction h with
      | nil => rfl
      | cons h1 _ ih => rw [absValues, absValues, h1, ih]
    show absValue M _ = absValue M _
    rw [absValue, absValue, this]

/-- The datum is the value, if it says anything. -/
def IsValue (M : Op → List V → V) (d : Option (Known V)) (t : Term Op) : Prop := d = none ∨ d = some (.val (absValue M t))

omit [DecidableEq Op] [Lang Op] [DecidableEq V] in
theorem isValue_resp {s t : Term Op} {d : Option (Known V)} (h : SameValue M s t) (hd : IsValue M d s) : IsValue M d t := by
  unfold IsValue at *
  rw [← h]; exact hd

omit [DecidableEq Op] [Lang Op] in
theorem Folding.Agrees.datum (hM : F.Agrees M) {op : Op} {ds : List (Option (Known V))} {ts : List (Term Op)}
    (h : List.Forall₂ (IsValue M) ds ts) : IsValue M (F.datum op ds) (.node op ts) := by
  unfold Folding.datum
  rw [if_neg]
  · cases he : F.eval op (ds.map (·.bind Known.val?)) with
    | none => exact .inl rfl
    | some v =>
      refine .inr ?_
      rw [absValue, hM op _ (absValues M ts) v ?_ he]
      · rfl
      · clear he
        induction h with
        | nil => exact .nil
        | cons h1 _ ih =>
          rw [absValues]
          refine .cons ?_ ih
          rcases h1 with rfl | rfl
          · exact .inl rfl
          · exact .inr rfl
  · intro hc
    obtain ⟨t, _, h1⟩ := forall₂_mem_left h hc
    rcases h1 with h1 | h1 <;> cases h1

/-- What the theorems know about terms and data. -/
abbrev Folding.cfg (M : Op → List V → V) : Cfg Op (Option (Known V)) := Cfg.ofV (SameValue M) (sameValue M) (IsValue M) isValue_resp

theorem Folding.Agrees.ok (hM : F.Agrees M) : (F.analysis caller).OK (Folding.cfg M) (fun e => e = .fuel) where
  make := fun eg n i ds hd => by
    rw [(F.join caller).make hd]
    exact ⟨trivial, fun _ _ => trivial, fun ts ht => hM.datum ht⟩
  remake := fun eg n i ds hd => by
    rw [(F.join caller).remake hd]
    exact ⟨trivial, fun _ _ => trivial, fun ts ht => hM.datum ht⟩
  mergeV := fun {a b t} h1 h2 => by
    show IsValue M (mergeOption Known.both a b).1 t
    rcases h1 with rfl | rfl
    · rcases h2 with rfl | rfl
      · exact .inl rfl
      · exact .inr rfl
    · rcases h2 with rfl | rfl
      · exact .inr rfl
      · simp only [mergeOption, Known.both_self]; exact .inr rfl
  mergeL := fun _ _ => trivial
  mergeR := fun _ _ => trivial
  mergeLub := fun _ _ => trivial
  flagL := fun _ _ _ => trivial
  flagR := fun _ _ _ => trivial
  modify := by
    intro depth eg i hs hv
    show Prog.Safe _ _ _ (Prog.read _) eg
    simp only [Prog.Safe]
    obtain ⟨s, hsr⟩ := hs.inhabited i hv
    cases hk : eg.index i with
    | error e =>
      exfalso
      cases s
      rw [EGraph.rep_iff] at hsr
      obtain ⟨r, k, n, h1, h2, _⟩ := hsr
      simp only [EGraph.index, h1, ok_bind, h2, unwrap] at hk
      cases hk
    | ok k =>
      have hd := hs.data i k s hk hsr
      rcases hd with hd | hd
      · simp only [hd]; trivial
      · simp only [hd]
        refine ⟨Or.inl (by simp), fun eg' j _ hl ⟨hj, hrep⟩ => ⟨Or.inl ⟨hl.valid i hv, hj⟩, fun _ _ => ⟨?_, trivial⟩, fun _ _ _ _ _ => trivial⟩⟩
        refine ⟨s, .node (F.con (absValue M s)) [], hl.rep _ _ hsr, hrep [] .nil, ?_⟩
        show absValue M _ = absValue M _
        rw [absValue, absValues, hM _ [] [] _ .nil (F.eval_con _)]

theorem Folding.delivers (F : Folding Op V) (C : Cfg Op (Option (Known V))) :
    (F.analysis caller).Delivers C (fun d t => ∃ v, d = some (.val v) ∧ t = .node (F.con v) []) where
  flag := by
    rintro a b t h1 ⟨v, h2, h3⟩
    refine ⟨v, ?_, h3⟩
    change (mergeOption Known.both a b).2.1 = false at h1
    change (mergeOption Known.both a b).1 = _ at h2
    cases a with
    | none =>
      cases b with
      | none => exact h2
      | some b => cases h1
    | some a =>
      cases b with
      | none => exact h2
      | some b =>
        simp only [mergeOption] at h1 h2
        by_cases e : a = b
        · subst e; rw [Known.both_self] at h2; exact h2
        · rw [Known.both_ne e] at h1; cases h1
  modify := by
    rintro depth eg i k t hs hk ⟨v, h1, rfl⟩
    show Prog.Ends _ _ _ (Prog.read _) eg
    simp only [Prog.Ends, hk, h1]
    intro eg' j _ _ ⟨_, hj⟩ eg'' r _ hl hsc
    have h3 := hl.rep j _ (hj [] .nil)
    obtain ⟨r, h4, h5⟩ := hsc
    rw [EGraph.rep_iff] at h3 ⊢
    obtain ⟨r', k', n', g1, g2⟩ := h3
    rw [h5] at g1; cases g1
    exact ⟨r, k', n', h4, g2⟩

variable {depth : Nat} {U : List (UnionRec Op)} {eg : EGraph Op (Option (Known V))}

theorem Folding.good (hM : F.Agrees M) (h : Hist ((F.analysis caller).at depth) .noSet U eg)
    (hU : ∀ s t, eqsOf U s t → absValue M s = absValue M t) : EGraph.Good (Folding.cfg M) eg :=
  (EGraph.Hist.good ((hM.ok (caller := caller)).hookOK (E := fun e => e = .fuel) rfl depth) (fun _ _ _ _ ha => False.elim ha) h
    (fun u hu => ⟨hU _ _ ⟨u, hu, rfl, rfl⟩, trivial⟩)).1

/-- **C85, soundness.**  Let constants be folded by the analysis, and let `M` be a meaning of the operators with which
folding agrees and in which all equations that the caller asserts are true.  Then at every moment, rebuilt or not: terms
of one class have the same value; a known value is the value of all terms of the class; the class contains the constant;
and two different values have never been merged. -/
theorem c85_sound (hM : F.Agrees M) (h : Hist ((F.analysis caller).at depth) .noSet U eg)
    (hU : ∀ s t, eqsOf U s t → absValue M s = absValue M t) :
    (∀ a b s t, SameClass eg a b → Rep eg a s → Rep eg b t → absValue M s = absValue M t) ∧
    ∀ i k, eg.index i = .ok k → k.data ≠ some .clash ∧
      ∀ v, k.data = some (.val v) → Rep eg i (.node (F.con v) []) ∧ ∀ t, Rep eg i t → absValue M t = v := by
  have hs := (Folding.good hM h hU).sensible
  refine ⟨hs.sound, fun i k hk => ?_⟩
  have hv : Valid eg i := by
    unfold EGraph.index at hk
    obtain ⟨r, hr, _⟩ := bind_eq_ok.1 hk
    exact ⟨r, hr⟩
  obtain ⟨s, hsr⟩ := hs.inhabited i hv
  refine ⟨fun hc => ?_, fun v hd => ⟨?_, fun t ht => ?_⟩⟩
  · rcases hs.data i k s hk hsr with h1 | h1 <;> rw [hc] at h1 <;> cases h1
  · exact c50_modify_delivered (Folding.delivers F _) h hk ⟨v, hd, rfl⟩
  · rcases hs.data i k t hk ht with h1 | h1 <;> rw [hd] at h1 <;> cases h1
    rfl

/-- **C85, no assertion fails.**  In such a state no call panics: `add`, a union that is correct in `M`, and `rebuild`. -/
theorem c85_no_panic (hM : F.Agrees M) (h : Hist ((F.analysis caller).at depth) .noSet U eg)
    (hU : ∀ s t, eqsOf U s t → absValue M s = absValue M t) :
    (∀ n : ENode Op, (∀ c ∈ n.children, Valid eg c) → EGraph.add ((F.analysis caller).at depth) eg n ≠ .error .panic) ∧
    (∀ a b s t caller', Rep eg a s → Rep eg b t → absValue M s = absValue M t →
      EGraph.union ((F.analysis caller).at depth) eg a b caller' ≠ .error .panic) ∧
    (∀ fuel, EGraph.rebuild ((F.analysis caller).at depth) fuel eg ≠ .error .panic) := by
  have hg := Folding.good hM h hU
  have hN := (hM.ok (caller := caller)).hookOK (E := fun e => e = .fuel) rfl depth
  have np : ∀ {α : Type} {x : Res α} {P : α → Prop}, Post (fun e => e = Err.fuel) x P → x ≠ .error .panic := by
    intro α x P hp hx
    rw [hx] at hp
    cases hp
  refine ⟨fun n hn => np (EGraph.Good.add_post hN hg hn), fun a b s t cl hs ht hst => ?_,
    fun fuel => np (EGraph.rebuild_post (E := fun e => e = .fuel) rfl hN fuel hg)⟩
  exact np (EGraph.Good.union_post (caller := cl) hN hg hs ht hst trivial).1

/-! ### Completeness -/

omit [DecidableEq V] in
theorem Steps.weaken {D : Type} {N : Analysis Op D} {allow allow' : Caller Op D} {g g' : EGraph Op D} {W : List (UnionRec Op)}
    (h1 : ∀ eg i d, allow eg i d → allow' eg i d) (h2 : allow.optimized → allow'.optimized) (h3 : allow.disables → allow'.disables)
    (h : Steps N allow g W g') : Steps N allow' g W g' := by
  induction h with
  | refl => exact .refl
  | tail _ hs ih =>
    refine .tail ih ?_
    cases hs with
    | explain a => exact .explain a
    | noOptimize a => exact .noOptimize a
    | optimize a => exact .optimize a
    | query a b => exact .query (fun x hx ho => h2 (a x hx ho)) b
    | add a => exact .add a
    | union a b c => exact .union a b c
    | unionTrusted a b c => exact .unionTrusted a b c
    | setData a b => exact .setData (h1 _ _ _ a) b
    | rebuild a => exact .rebuild a
    | restore => exact .restore
    | disable a => exact .disable (h3 a)

/-- **C85, completeness.**  After `rebuild`: if a class represents a term that can be folded, its datum is the
value of that term.  More precisely the value of a class is known exactly if one of its e-nodes
can be folded with what is known of the children. -/
theorem c85_complete (hM : F.Agrees M) {eg0 : EGraph Op (Option (Known V))} {fuel n : Nat}
    (h0 : Hist ((F.analysis caller).at depth) .noSet U eg0)
    (hU : ∀ s t, eqsOf U s t → absValue M s = absValue M t) (hr : eg0.rebuild ((F.analysis caller).at depth) fuel = .ok (eg, n))
    {i : Id} {k : EClass Op (Option (Known V))} (hk : eg.index i = .ok k) (v : V) :
    (∀ t, Rep eg i t → absValue F.eval t = some v → k.data = some (.val v)) ∧
    (k.data = some (.val v) ↔ ∃ m ∈ k.nodes, ∃ ds, EGraph.ChildData eg m (ds.map (·.map .val)) ∧ F.eval m.op ds = some v) := by
  have h0' : Hist ((F.analysis caller).at depth) (EquivSet Known.le) U eg0 :=
    Steps.weaken (fun _ _ _ h => False.elim h) (fun _ => trivial) (fun _ => trivial) h0
  have h : Hist ((F.analysis caller).at depth) .noSet ([] ++ U) eg := Steps.trans h0 (.single (.rebuild hr))
  obtain ⟨-, hs⟩ := c85_sound hM h hU
  have hnc := (hs i k hk).1
  have up : ∀ {d}, Known.le (some (.val v)) d → d ≠ some .clash → d = some (.val v) := by
    rintro d (h | h | h) hn
    · cases h
    · exact h
    · exact absurd h hn
  have hval : ∀ (d : Option V), (d.map Known.val).bind Known.val? = d := by rintro (_ | _) <;> rfl
  have dat : ∀ (m : ENode Op) (ds : List (Option V)), F.datum m.op (ds.map (·.map .val)) = (F.eval m.op ds).map .val := by
    intro m ds
    unfold Folding.datum
    rw [if_neg]
    · rw [List.map_map]
      congr 2
      conv_rhs => rw [← List.map_id ds]
      exact List.map_congr_left fun d _ => hval d
    · intro hc
      obtain ⟨d, _, hd⟩ := List.mem_map.1 hc
      cases d <;> cases hd
  obtain ⟨b1, b2⟩ := c13_analysis_invariant (F.join caller) h0' hr hk
  refine ⟨fun t ht hv => ?_, fun hd => ?_, ?_⟩
  · have := c59_join_bound (F.join caller) h0' hr t i k hk ht
    rw [absValue_mk, hv] at this
    exact up this hnc
  · by_contra hno
    have := b2 none (fun m hm ds hds => ?_)
    · rw [hd] at this
      rcases this with h | h | h <;> cases h
    · refine .inl ?_
      have hds' : ∃ es : List (Option V), ds = es.map (·.map .val) := by
        unfold EGraph.ChildData at hds
        have hcl : ∀ d ∈ ds, d ≠ some .clash := by
          intro d hdm
          obtain ⟨c, _, kc, h1, rfl⟩ := forall₂_mem_left (forall₂_flip hds) hdm
          exact (hs c kc h1).1
        refine ⟨ds.map (·.bind Known.val?), ?_⟩
        rw [List.map_map]
        conv_lhs => rw [← List.map_id ds]
        refine List.map_congr_left fun d hdm => ?_
        rcases d with _ | (_ | _)
        · rfl
        · rfl
        · exact absurd rfl (hcl _ hdm)
      obtain ⟨es, rfl⟩ := hds'
      rw [dat]
      cases he : F.eval m.op es with
      | none => rfl
      | some w =>
        exfalso
        obtain ⟨ds2, q1, q2⟩ := b1 m hm
        have : ds2 = es.map (·.map .val) := by
          have e1 := childData_ok.1 hds
          rw [childData_ok.1 q1] at e1
          cases e1; rfl
        subst this
        rw [dat, he, hd] at q2
        have hwv : w = v := by
          rcases q2 with h | h | h
          · cases h
          · cases h; rfl
          · cases h
        subst hwv
        exact hno ⟨m, hm, es, hds, he⟩
  · rintro ⟨m, hm, ds, hds, he⟩
    obtain ⟨ds2, q1, q2⟩ := b1 m hm
    have : ds2 = ds.map (·.map .val) := by
      have e1 := childData_ok.1 hds
      rw [childData_ok.1 q1] at e1
      cases e1; rfl
    subst this
    rw [dat, he] at q2
    exact up q2 hnc

/-- **C85, runs.**  The same after equality saturation: if rules, asserted equations and hooks are true in `M`, so
are the classes and the known values, and no values clash. -/
theorem c85_run (hM : F.Agrees M) {S H : Type} {env : RunEnv Op (Option (Known V))} {sch : Scheduler Op (Option (Known V)) S}
    {hooks : List (Hook Op (Option (Known V)) H)} {rules : List (Rewrite Op (Option (Known V)))}
    {eqs : List (Term (PatOp Op) × Term (PatOp Op))} {Q : Term Op → Term Op → Prop} {r r' : Runner Op (Option (Known V)) S H}
    (hN : env.analysis = (F.analysis caller).at depth) (hord : ∀ i eg, (env.ord i eg).OK eg)
    (hd : DiscContiguous Op) (hs : sch.Honest env) (hh : HooksOK ((F.analysis caller).at depth) .noSet Q hooks)
    (hr : AreRules ((F.analysis caller).at depth) rules eqs) (h : Hist ((F.analysis caller).at depth) .noSet U r.egraph)
    (hU : ∀ s t, eqsOf U s t → absValue M s = absValue M t) (hI : ∀ s t, RuleInstance eqs s t → absValue M s = absValue M t)
    (hQ : ∀ s t, Q s t → absValue M s = absValue M t) {f : Nat} (hrun : r.run env sch hooks rules f = .ok r') :
    (∀ a b s t, SameClass r'.egraph a b → Rep r'.egraph a s → Rep r'.egraph b t → absValue M s = absValue M t) ∧
    ∀ i k, r'.egraph.index i = .ok k → k.data ≠ some .clash ∧
      ∀ v, k.data = some (.val v) → Rep r'.egraph i (.node (F.con v) []) ∧ ∀ t, Rep r'.egraph i t → absValue M t = v := by
  obtain ⟨_, W, s1, q1⟩ := c25_run_reach hN hord hd hs hh hr h hrun
  refine c85_sound hM (Steps.trans h s1) (fun s t hst => ?_)
  obtain ⟨u, hu, rfl, rfl⟩ := hst
  rcases List.mem_append.1 hu with hu | hu
  · rcases q1 u hu with hq | hq | hq
    · exact hQ _ _ hq
    · exact hI _ _ hq
    · exact (hI _ _ hq).symm
  · exact hU _ _ ⟨u, hu, rfl, rfl⟩

/-- **C85, extraction.**  After `rebuild`, `find_best` with `AstSize` gives a single e-node for every class that represents
a term that can be folded, and for every model the value of that e-node is the value of the term. -/
theorem c85_extract (hM : F.Agrees M) {eg0 : EGraph Op (Option (Known V))} {fuel n : Nat}
    (h0 : Hist ((F.analysis caller).at depth) .noSet U eg0)
    (hU : ∀ s t, eqsOf U s t → absValue M s = absValue M t) (hr : eg0.rebuild ((F.analysis caller).at depth) fuel = .ok (eg, n))
    {i : Id} {t : Term Op} {v : V} (ht : Rep eg i t) (hv : absValue F.eval t = some v)
    {B : Nat} (hB : 2 ≤ B) {ks : List (EClass Op (Option (Known V)))} (hks : ks.Perm (eg.classes.map Prod.snd))
    {passes : Nat} {x : Extractor Op (CostFn.Usize B)} (hx : Extractor.new (CostFn.astSize B) eg ks passes = .ok x) :
    ∃ fuel cost e op, (∀ f, fuel ≤ f → x.findBest eg f i = .ok (cost, e)) ∧ ExprTerm e (.node op []) ∧ M op [] = v := by
  have h : Hist ((F.analysis caller).at depth) .noSet ([] ++ U) eg := Steps.trans h0 (.single (.rebuild hr))
  have hg := hist_good h
  have hi := hg.inv.rep_lt ht
  obtain ⟨k, hk, _⟩ := hg.inv.index hi
  have hd := (c85_complete hM h0 hU hr hk v).1 t ht hv
  obtain ⟨h1, h2⟩ := ((c85_sound hM h hU).2 i k hk).2 v hd
  obtain ⟨fu, cost, e, u, q1, -, -, q2, q3, q4, -, q5⟩ := c29_c30_find_best h (c30_astSize_ok B) hks hx (hg.valid_iff.2 hi)
  have hle := q5 _ h1
  have hle : cost.1 ≤ (termCost (CostFn.astSize B) (.node (F.con v) [])).1 := natCmp_le.1 hle
  have hsame : CostFn.natCmp cost.1 (termCost (CostFn.astSize B) u).1 = some .eq := q4
  unfold CostFn.natCmp at hsame
  rw [Option.some_inj, Nat.compare_eq_eq] at hsame
  rw [hsame, c49_astSize, c49_astSize] at hle
  obtain ⟨op, ts⟩ := u
  have hts : ts = [] := by
    cases ts with
    | nil => rfl
    | cons u us =>
      exfalso
      obtain ⟨o', us'⟩ := u
      simp only [Term.size, Term.sizes] at hle
      omega
  subst hts
  refine ⟨fu, cost, e, op, q1, q2, ?_⟩
  have := h2 _ q3
  rw [absValue, absValues] at this
  exact this

end

/-! ### An example: sums of numbers and variables -/

namespace Fold

/-- Sums are folded if both summands are known. -/
def evalO : O → List (Option Nat) → Option Nat
  | .num k, _ => some k
  | .plus, [some x, some y] => some (x + y)
  | _, _ => none

def sums : Folding O Nat where
  eval := evalO
  con := .num
  eval_con := fun _ => rfl
  mono := by
    intro op ds ds' v h hv
    unfold evalO at hv
    split at hv
    · exact hv
    · cases h with
      | cons h1 h =>
        cases h with
        | cons h2 h =>
          cases h
          rcases h1 with h1 | rfl
          · cases h1
          rcases h2 with h2 | rfl
          · cases h2
          exact hv
    · cases hv

/-- The meaning of the operators when variable `n` has the value `ρ n`. -/
def meaning (ρ : Nat → Nat) : O → List Nat → Nat
  | .num k, _ => k
  | .var n, _ => ρ n
  | .plus, [x, y] => x + y
  | .plus, _ => 0

theorem sums_agrees (ρ : Nat → Nat) : sums.Agrees (meaning ρ) := by
  intro op ds vs v h hv
  change evalO op ds = some v at hv
  unfold evalO at hv
  split at hv
  · cases hv; rfl
  · cases hv
    cases h with
    | cons h1 h =>
      cases h with
      | cons h2 h =>
        cases h
        rcases h1 with h1 | h1 <;> cases h1
        rcases h2 with h2 | h2 <;> cases h2
        rfl
  · cases hv

abbrev NS : Analysis O (Option (Known Nat)) := (sums.analysis 0).at 3

abbrev GS := EGraph O (Option (Known Nat))

def stS {α : Type} (r : Res (GS × α)) : GS :=
  match r with
  | .ok (e, _) => e
  | .error _ => EGraph.new

def sndS {α : Type} (r : Res (GS × α)) : Option α :=
  match r with
  | .ok (_, a) => some a
  | .error _ => none

theorem ok_stS {α : Type} {r : Res (GS × α)} {a : α} (h : sndS r = some a) : r = .ok (stS r, a) := by
  unfold sndS at h
  split at h
  · cases h; rfl
  · cases h

/-- x, 2, x + 2, (x + 2) + 2, 1; then x = 1 and `rebuild`. -/
def s1 : GS := stS (EGraph.addUncanonical NS EGraph.new ⟨.var 0, []⟩)
def s2 : GS := stS (EGraph.addUncanonical NS s1 ⟨.num 2, []⟩)
def s3 : GS := stS (EGraph.addUncanonical NS s2 ⟨.plus, [0, 1]⟩)
def s4 : GS := stS (EGraph.addUncanonical NS s3 ⟨.plus, [2, 1]⟩)
def s5 : GS := stS (EGraph.addUncanonical NS s4 ⟨.num 1, []⟩)
def s6 : GS := stS (EGraph.union NS s5 0 4 7)
def s7 : GS := stS (EGraph.rebuild NS 20 s6)

theorem histS5 : Hist NS .noSet [] s5 :=
  .tail (V := []) (.tail (V := []) (.tail (V := []) (.tail (V := []) (.tail (V := []) .refl
    (.add (n := ⟨.var 0, []⟩) (i := 0) (ok_stS (by decide +kernel))))
    (.add (n := ⟨.num 2, []⟩) (i := 1) (ok_stS (by decide +kernel))))
    (.add (n := ⟨.plus, [0, 1]⟩) (i := 2) (ok_stS (by decide +kernel))))
    (.add (n := ⟨.plus, [2, 1]⟩) (i := 3) (ok_stS (by decide +kernel))))
    (.add (n := ⟨.num 1, []⟩) (i := 4) (ok_stS (by decide +kernel)))

/-- The class of an id. -/
def clsS (eg : GS) (i : Id) : List (ENode O) × Option (Option (Known Nat)) :=
  match eg.index i with
  | .ok k => (k.nodes, some k.data)
  | .error _ => ([], none)

theorem repS {eg : GS} {i : Id} {n : ENode O} {ts : List (Term O)} (h : n ∈ (clsS eg i).1) (ht : List.Forall₂ (Rep eg) n.children ts) :
    Rep eg i (.node n.op ts) := by
  unfold clsS at h
  split at h
  · rename_i k hk
    unfold EGraph.index at hk
    obtain ⟨r, hr, hk⟩ := bind_eq_ok.1 hk
    rw [EGraph.rep_iff]
    exact ⟨r, k, n, hr, unwrap_eq_ok.1 hk, h, rfl, ht⟩
  · cases h

theorem histS6 : Hist NS .noSet [⟨7, 0, 4, .node (.var 0) [], lit 1⟩] s6 :=
  .tail (V := [_]) histS5 (.union (r := true) (repS (n := ⟨.var 0, []⟩) (by decide +kernel) .nil)
    (repS (n := ⟨.num 1, []⟩) (by decide +kernel) .nil) (ok_stS (by decide +kernel)))

theorem rebS : s6.rebuild NS 20 = .ok (s7, 0) := ok_stS (by decide +kernel)

/-- The equation asserted holds if x is 1. -/
theorem eqsS : ∀ s t, eqsOf [⟨7, 0, 4, .node (.var 0) [], lit 1⟩] s t →
    absValue (meaning fun _ => 1) s = absValue (meaning fun _ => 1) t := by
  rintro s t ⟨u, hu, rfl, rfl⟩
  rw [List.mem_singleton] at hu
  subst hu
  rfl

/-- The hypotheses of C85 are met: the class of (x + 2) + 2 represents (1 + 2) + 2, which can be folded, so its datum is 5 and
it contains the constant 5.  Before, nothing was known of it. -/
example : (clsS s5 3).2 = some none ∧ ∃ k, s7.index 3 = .ok k ∧ k.data = some (.val 5) ∧ Rep s7 3 (lit 5) := by
  refine ⟨by decide +kernel, ?_⟩
  have h1 : Rep s7 0 (lit 1) := repS (n := ⟨.num 1, []⟩) (by decide +kernel) .nil
  have h2 : Rep s7 1 (lit 2) := repS (n := ⟨.num 2, []⟩) (by decide +kernel) .nil
  have h3 : Rep s7 2 (.node .plus [lit 1, lit 2]) := repS (n := ⟨.plus, [0, 1]⟩) (by decide +kernel) (.cons h1 (.cons h2 .nil))
  have h4 : Rep s7 3 (.node .plus [.node .plus [lit 1, lit 2], lit 2]) :=
    repS (n := ⟨.plus, [2, 1]⟩) (by decide +kernel) (.cons h3 (.cons h2 .nil))
  have hh : Hist NS .noSet _ s7 := .tail (V := []) histS6 (.rebuild rebS)
  obtain ⟨k, hk, _⟩ := (hist_good hh).inv.index ((hist_good hh).inv.rep_lt h4)
  have hd := (c85_complete (sums_agrees fun _ => 1) histS6 eqsS rebS hk 5).1 _ h4 (by
    simp [absValue, absValues, lit, sums, evalO])
  exact ⟨k, hk, hd, (((c85_sound (sums_agrees fun _ => 1) hh eqsS).2 3 k hk).2 5 hd).1⟩

/-- A false equation, 1 = 2, is noticed: the model's `union` panics, as the assertion in `merge` does. -/
example : (match EGraph.union NS s5 1 4 7 with | .error .panic => true | _ => false) = true := by decide +kernel

end Fold
end Egg
