import Verif.Lemmas.Match
import Mathlib.Data.List.Nodup
/-
The abstract machine: a run enumerates exactly the register contents that satisfy
all instructions.
-/
namespace Egg
variable {Op D : Type} [DecidableEq Op] [Lang Op]

/-- The register contents `R` satisfy an instruction. -/
def SatI (eg : EGraph Op D) (order : List Id) (R : List Id) : Instr Op → Prop
  | .bind node i out => ∃ x cls m, R[i]? = some x ∧ eg.index x = .ok cls ∧ m ∈ matchingNodes cls.nodes node ∧
      (R.drop out).take m.children.length = m.children
  | .compare i j => ∃ x y, R[i]? = some x ∧ R[j]? = some y ∧ SameClass eg x y
  | .lookup term i => lookupOk eg R term i = .ok true
  | .scan out => ∃ c ∈ order, R[out]? = some c

omit [DecidableEq Op] [Lang Op] in
/-- The term of a `Lookup` reads earlier entries and registers below `n`;
`k` entries precede it. -/
def TermLaid (n : Nat) : Nat → List (ENodeOrReg Op) → Prop
  | _, [] => True
  | k, .enode m :: rest => (∀ c ∈ m.children, c < k) ∧ TermLaid n (k + 1) rest
  | k, .reg r :: rest => r < n ∧ TermLaid n (k + 1) rest

omit [DecidableEq Op] [Lang Op] in
theorem TermLaid.mono {n n' : Nat} (hn : n ≤ n') : ∀ {k : Nat} {term : List (ENodeOrReg Op)}, TermLaid n k term →
    TermLaid n' k term
  | _, [], _ => trivial
  | _, .enode _ :: _, h => ⟨h.1, TermLaid.mono hn h.2⟩
  | _, .reg _ :: _, h => ⟨Nat.lt_of_lt_of_le h.1 hn, TermLaid.mono hn h.2⟩

omit [DecidableEq Op] [Lang Op] in
/-- The instructions write registers consecutively, starting with number `n` and
ending before `n'`, and read registers already written. -/
inductive Laid : List (Instr Op) → Nat → Nat → Prop where
  | nil {n} : Laid [] n n
  | bind {node i n n' rest} : i < n → Laid rest (n + node.children.length) n' → Laid (.bind node i n :: rest) n n'
  | compare {i j n n' rest} : i < n → j < n → Laid rest n n' → Laid (.compare i j :: rest) n n'
  | lookup {term i n n' rest} : i < n → TermLaid n 0 term → Laid rest n n' → Laid (.lookup term i :: rest) n n'
  | scan {n n' rest} : Laid rest (n + 1) n' → Laid (.scan n :: rest) n n'

omit [DecidableEq Op] [Lang Op] in
theorem Laid.append {l l' : List (Instr Op)} {n n' n'' : Nat} (h : Laid l n n') (h' : Laid l' n' n'') :
    Laid (l ++ l') n n'' := by
  induction h with
  | nil => exact h'
  | bind h1 _ ih => exact .bind h1 (ih h')
  | compare h1 h2 _ ih => exact .compare h1 h2 (ih h')
  | lookup h1 h2 _ ih => exact .lookup h1 h2 (ih h')
  | scan _ ih => exact .scan (ih h')

omit [DecidableEq Op] [Lang Op] in
theorem Laid.le {l : List (Instr Op)} {n n' : Nat} (h : Laid l n n') : n ≤ n' := by
  induction h with
  | nil => exact Nat.le_refl _
  | bind _ _ ih => omega
  | compare _ _ _ ih => exact ih
  | lookup _ _ _ ih => exact ih
  | scan _ ih => omega

/-- `egraph.find(x) == egraph.find(y)`. -/
def sameB (eg : EGraph Op D) (x y : Id) : Bool :=
  match eg.find x, eg.find y with
  | .ok a, .ok b => decide (a = b)
  | _, _ => false

theorem sameB_iff {eg : EGraph Op D} {x y : Id} : sameB eg x y = true ↔ SameClass eg x y := by
  unfold sameB SameClass
  cases h1 : eg.find x with
  | error e => simp
  | ok a =>
    cases h2 : eg.find y with
    | error e => simp
    | ok b =>
      simp only [decide_eq_true_eq, Except.ok.injEq]
      constructor
      · rintro rfl; exact ⟨a, rfl, rfl⟩
      · rintro ⟨r, rfl, rfl⟩; rfl

/-- All register contents reached at the end of the instructions. -/
def runs (eg : EGraph Op D) (order : List Id) : List (Instr Op) → List Id → List (List Id)
  | [], R => [R]
  | .bind node i _ :: rest, R =>
    match R[i]? with
    | none => []
    | some x =>
      match eg.index x with
      | .error _ => []
      | .ok cls => (matchingNodes cls.nodes node).flatMap (fun m => runs eg order rest (R ++ m.children))
  | .scan _ :: rest, R => order.flatMap (fun c => runs eg order rest (R ++ [c]))
  | .compare i j :: rest, R =>
    match R[i]?, R[j]? with
    | some x, some y => if sameB eg x y then runs eg order rest R else []
    | _, _ => []
  | .lookup term i :: rest, R =>
    match lookupOk eg R term i with
    | .ok true => runs eg order rest R
    | _ => []

/-! ### Lookups -/

theorem getIdx_append {α : Type} {R S : List α} {i : Nat} (h : i < R.length) : getIdx (R ++ S) i = getIdx R i := by
  unfold getIdx
  rw [List.getElem?_append_left h]

theorem lookupTerm_append {eg : EGraph Op D} {R S : List Id} : ∀ (term : List (ENodeOrReg Op)) (k : Nat) (buf : List Id),
    TermLaid R.length k term → lookupTerm eg (R ++ S) term buf = lookupTerm eg R term buf
  | [], _, _, _ => rfl
  | .enode n :: rest, k, buf, h => by
    unfold lookupTerm
    congr 1
    funext m
    congr 1
    funext o
    cases o with
    | none => rfl
    | some i => exact lookupTerm_append rest (k + 1) _ h.2
  | .reg r :: rest, k, buf, h => by
    unfold lookupTerm
    rw [getIdx_append h.1]
    congr 1
    funext m
    congr 1
    funext o
    exact lookupTerm_append rest (k + 1) _ h.2

theorem lookupOk_append {eg : EGraph Op D} {R S : List Id} {term : List (ENodeOrReg Op)} {i : Nat}
    (h : TermLaid R.length 0 term) (hi : i < R.length) : lookupOk eg (R ++ S) term i = lookupOk eg R term i := by
  unfold lookupOk
  rw [lookupTerm_append term 0 [] h, getIdx_append hi]

section
variable {W : Id → Id → Prop} {C : Cfg Op D} {eg : EGraph Op D} {order : List Id}

/-- Lookups do not panic. -/
theorem lookupTerm_total (h : EGraph.Inv C eg) {R : List Id} (hR : ∀ x ∈ R, x < eg.nodes.length) :
    ∀ (term : List (ENodeOrReg Op)) (buf : List Id), (∀ x ∈ buf, x < eg.nodes.length) →
      TermLaid R.length buf.length term → ∃ o, lookupTerm eg R term buf = .ok o
  | [], buf, _, _ => ⟨some buf, rfl⟩
  | .enode n :: rest, buf, hb, hl => by
    obtain ⟨m, hm⟩ := mapChildrenM_getIdx_total hl.1
    have hm' := mapChildrenM_getIdx.1 hm
    have hlt : ∀ c ∈ m.children, c < eg.nodes.length := by
      intro c hc
      obtain ⟨d, _, hd⟩ := forall₂_mem_left (forall₂_flip hm'.2) hc
      exact hb c (List.mem_of_getElem? hd)
    obtain ⟨o, ho, h1, _⟩ := EGraph.lookup_ok h hlt
    unfold lookupTerm
    rw [hm]
    simp only [ok_bind, ho]
    cases o with
    | none => exact ⟨none, rfl⟩
    | some i =>
      refine lookupTerm_total h hR rest (buf ++ [i]) ?_ (by simpa using hl.2)
      intro x hx
      simp at hx
      rcases hx with hx | rfl
      · exact hb x hx
      · exact (h1 x rfl).1
  | .reg r :: rest, buf, hb, hl => by
    have hx := hR _ (List.getElem_mem hl.1)
    unfold lookupTerm
    rw [getIdx_lt hl.1]
    simp only [ok_bind, h.find hx]
    refine lookupTerm_total h hR rest (buf ++ [eg.rt (R[r]'hl.1)]) ?_ (by simpa using hl.2)
    intro x hx'
    simp at hx'
    rcases hx' with hx' | rfl
    · exact hb x hx'
    · exact h.core.rtLt _ hx

theorem lookupOk_total (h : EGraph.Inv C eg) {R : List Id} (hR : ∀ x ∈ R, x < eg.nodes.length) {term : List (ENodeOrReg Op)}
    {i : Nat} (hi : i < R.length) (hl : TermLaid R.length 0 term) : ∃ b, lookupOk eg R term i = .ok b := by
  obtain ⟨o, ho⟩ := lookupTerm_total h hR term [] (by simp) hl
  unfold lookupOk
  rw [ho]
  cases o with
  | none => exact ⟨false, rfl⟩
  | some buf =>
    simp only [ok_bind, getIdx_lt hi, h.find (hR _ (List.getElem_mem hi))]
    exact ⟨_, rfl⟩

/-! ### Membership -/

theorem take_prefix {R R' : List Id} {n : Nat} (h : R'.take n = R) (hn : R.length = n) : ∃ S, R' = R ++ S :=
  ⟨R'.drop n, by rw [← h]; exact (List.take_append_drop n R').symm⟩

/-- What a run of the machine enumerates. -/
theorem mem_runs (h : EGraph.Inv C eg) (hr : Rebuilt eg) (hd : DiscContiguous Op) : ∀ {instrs : List (Instr Op)} {n n' : Nat},
    Laid instrs n n' → ∀ {R R' : List Id}, R.length = n →
    (R' ∈ runs eg order instrs R ↔ R'.length = n' ∧ R'.take n = R ∧ ∀ ins ∈ instrs, SatI eg order R' ins) := by
  intro instrs n n' hl
  induction hl with
  | @nil n =>
    intro R R' hR
    simp only [runs, List.mem_singleton, List.not_mem_nil, false_implies, implies_true, and_true]
    constructor
    · rintro rfl; exact ⟨hR, List.take_of_length_le (by omega)⟩
    · rintro ⟨h1, h2⟩; rw [← h2, List.take_of_length_le (by omega)]
  | @bind node i n n' rest hi hl ih =>
    intro R R' hR
    obtain ⟨x, hx⟩ : ∃ x, R[i]? = some x := ⟨_, List.getElem?_eq_getElem (by omega)⟩
    simp only [runs, hx]
    constructor
    · intro hm
      cases hk : eg.index x with
      | error e => rw [hk] at hm; simp at hm
      | ok cls =>
        rw [hk] at hm
        simp only [List.mem_flatMap] at hm
        obtain ⟨m, hm1, hm2⟩ := hm
        have hs : cls.nodes.Pairwise (fun x y => Lang.le x y = true ∧ x ≠ y) := hr.sorted _ _ (h.index_iff.1 hk).2
        have hlen := ((mem_matchingNodes hd hs).1 hm1).2.2
        rw [ih (by simp [hR, hlen])] at hm2
        obtain ⟨h1, h2, h3⟩ := hm2
        have e1 : R'.take n = R := by
          have := congrArg (List.take n) h2
          rw [List.take_take, Nat.min_eq_left (by omega)] at this
          rw [this, ← hR, List.take_left]
        refine ⟨h1, e1, ?_⟩
        intro ins hins
        rcases List.mem_cons.1 hins with rfl | hins
        · obtain ⟨S, rfl⟩ := take_prefix e1 hR
          refine ⟨x, cls, m, getElem?_prefix hx, hk, hm1, ?_⟩
          rw [← hR, List.drop_left]
          rw [← hR, List.take_length_add_append, List.append_cancel_left_eq, ← hlen] at h2
          exact h2
        · exact h3 ins hins
    · rintro ⟨h1, h2, h3⟩
      obtain ⟨S, rfl⟩ := take_prefix h2 hR
      obtain ⟨x', cls, m, g1, g2, g3, g4⟩ := h3 _ (List.mem_cons_self ..)
      rw [getElem?_prefix hx] at g1; cases g1
      rw [g2]
      simp only [List.mem_flatMap]
      have hs : cls.nodes.Pairwise (fun x y => Lang.le x y = true ∧ x ≠ y) := hr.sorted _ _ (h.index_iff.1 g2).2
      have hlen := ((mem_matchingNodes hd hs).1 g3).2.2
      refine ⟨m, g3, ?_⟩
      rw [ih (by simp [hR, hlen])]
      refine ⟨h1, ?_, fun ins hins => h3 ins (List.mem_cons_of_mem _ hins)⟩
      rw [← hR, List.drop_left] at g4
      rw [← hR, List.take_length_add_append, ← hlen, g4]
  | @compare i j n n' rest hi hj hl ih =>
    intro R R' hR
    obtain ⟨x, hx⟩ : ∃ x, R[i]? = some x := ⟨_, List.getElem?_eq_getElem (by omega)⟩
    obtain ⟨y, hy⟩ : ∃ y, R[j]? = some y := ⟨_, List.getElem?_eq_getElem (by omega)⟩
    simp only [runs, hx, hy]
    constructor
    · intro hm
      split at hm
      · next hb =>
        rw [sameB_iff] at hb
        obtain ⟨h1, h2, h3⟩ := (ih hR).1 hm
        refine ⟨h1, h2, ?_⟩
        intro ins hins
        rcases List.mem_cons.1 hins with rfl | hins
        · obtain ⟨S, rfl⟩ := take_prefix h2 hR
          exact ⟨x, y, getElem?_prefix hx, getElem?_prefix hy, hb⟩
        · exact h3 ins hins
      · simp at hm
    · rintro ⟨h1, h2, h3⟩
      obtain ⟨x', y', g1, g2, g3⟩ := h3 _ (List.mem_cons_self ..)
      obtain ⟨S, rfl⟩ := take_prefix h2 hR
      rw [getElem?_prefix hx] at g1; cases g1
      rw [getElem?_prefix hy] at g2; cases g2
      rw [if_pos (sameB_iff.2 g3)]
      exact (ih hR).2 ⟨h1, h2, fun ins hins => h3 ins (List.mem_cons_of_mem _ hins)⟩
  | @lookup term i n n' rest hi ht hl ih =>
    intro R R' hR
    simp only [runs]
    constructor
    · intro hm
      split at hm
      · next hb =>
        obtain ⟨h1, h2, h3⟩ := (ih hR).1 hm
        refine ⟨h1, h2, ?_⟩
        intro ins hins
        rcases List.mem_cons.1 hins with rfl | hins
        · obtain ⟨S, rfl⟩ := take_prefix h2 hR
          show lookupOk eg (R ++ S) term i = .ok true
          rw [lookupOk_append (by rw [hR]; exact ht) (by omega), hb]
        · exact h3 ins hins
      · simp at hm
    · rintro ⟨h1, h2, h3⟩
      have g : lookupOk eg R' term i = .ok true := h3 _ (List.mem_cons_self ..)
      obtain ⟨S, rfl⟩ := take_prefix h2 hR
      rw [lookupOk_append (by rw [hR]; exact ht) (by omega)] at g
      rw [g]
      exact (ih hR).2 ⟨h1, h2, fun ins hins => h3 ins (List.mem_cons_of_mem _ hins)⟩
  | @scan n n' rest hl ih =>
    intro R R' hR
    simp only [runs, List.mem_flatMap]
    constructor
    · rintro ⟨c, hc, hm⟩
      rw [ih (by simp [hR])] at hm
      obtain ⟨h1, h2, h3⟩ := hm
      have e1 : R'.take n = R := by
        have := congrArg (List.take n) h2
        rw [List.take_take, Nat.min_eq_left (by omega)] at this
        rw [this, ← hR, List.take_left]
      refine ⟨h1, e1, ?_⟩
      intro ins hins
      rcases List.mem_cons.1 hins with rfl | hins
      · refine ⟨c, hc, ?_⟩
        have : (R'.take (n + 1))[n]? = some c := by rw [h2, ← hR]; simp
        rwa [List.getElem?_take_of_lt (by omega)] at this
      · exact h3 ins hins
    · rintro ⟨h1, h2, h3⟩
      obtain ⟨c, g1, g2⟩ := h3 _ (List.mem_cons_self ..)
      refine ⟨c, g1, ?_⟩
      rw [ih (by simp [hR])]
      refine ⟨h1, ?_, fun ins hins => h3 ins (List.mem_cons_of_mem _ hins)⟩
      rw [List.take_add_one, h2, g2]
      rfl

/-- No register contents are enumerated twice. -/
theorem runs_nodup (h : EGraph.Inv C eg) (hr : Rebuilt eg) (hd : DiscContiguous Op) (ho : order.Nodup) :
    ∀ {instrs : List (Instr Op)} {n n' : Nat}, Laid instrs n n' → ∀ {R : List Id}, R.length = n →
    (runs eg order instrs R).Nodup := by
  intro instrs n n' hl
  induction hl with
  | nil => intro R hR; simp [runs]
  | @bind node i n n' rest hi hl ih =>
    intro R hR
    simp only [runs]
    split
    · simp
    · next x hx =>
      split
      · simp
      · next cls hk =>
        have hs : cls.nodes.Pairwise (fun x y => Lang.le x y = true ∧ x ≠ y) := hr.sorted _ _ (h.index_iff.1 hk).2
        rw [List.nodup_flatMap]
        refine ⟨fun m hm => ih (by simp [hR, ((mem_matchingNodes hd hs).1 hm).2.2]), ?_⟩
        refine (matchingNodes_nodup hd hs node).pairwise_of_forall_ne ?_
        intro m hm m' hm' hne R' h1 h2
        have q := (mem_matchingNodes hd hs).1 hm
        have q' := (mem_matchingNodes hd hs).1 hm'
        have g1 := ((mem_runs h hr hd hl (by simp [hR, q.2.2])).1 h1).2.1
        have g2 := ((mem_runs h hr hd hl (by simp [hR, q'.2.2])).1 h2).2.1
        rw [g1] at g2
        have := List.append_cancel_left g2
        apply hne
        cases m; cases m'
        simp only at q q' this
        simp [q.2.1, q'.2.1, this]
  | @compare i j n n' rest hi hj hl ih =>
    intro R hR
    simp only [runs]
    split
    · split
      · exact ih hR
      · simp
    · simp
  | @lookup term i n n' rest hi ht hl ih =>
    intro R hR
    simp only [runs]
    split
    · exact ih hR
    · simp
  | @scan n n' rest hl ih =>
    intro R hR
    simp only [runs]
    rw [List.nodup_flatMap]
    refine ⟨fun c hc => ih (by simp [hR]), ?_⟩
    refine ho.pairwise_of_forall_ne ?_
    intro c _ c' _ hne R' h1 h2
    have g1 := ((mem_runs h hr hd hl (by simp [hR])).1 h1).2.1
    have g2 := ((mem_runs h hr hd hl (by simp [hR])).1 h2).2.1
    rw [g1] at g2
    have := List.append_cancel_left g2
    simp at this
    exact hne this

/-! ### The machine computes `runs` -/

/-- The substitution reported for final register contents, if any. -/
def report (ac : Bool) (subst : List (Var × Nat)) (R : List Id) : Option Subst :=
  if !ac && rootAgain R then none
  else match readSubst subst R with
    | .ok σ => some σ
    | .error _ => none

theorem tryForEach_spec {α : Type} {f : α → MState → Res (MState × Bool)} {g : α → List Subst} {P : MState → Prop} :
    ∀ (l : List α), (∀ a ∈ l, ∀ s, P s → 0 < s.limit → ∃ s', f a s = .ok (s', decide (s'.limit ≠ 0)) ∧
      s'.found = s.found ++ (g a).take s.limit ∧ s'.limit = s.limit - (g a).length ∧ P s') →
    ∀ s, P s → 0 < s.limit → ∃ s', tryForEach f l s = .ok (s', decide (s'.limit ≠ 0)) ∧
      s'.found = s.found ++ (l.flatMap g).take s.limit ∧ s'.limit = s.limit - (l.flatMap g).length ∧ P s'
  | [], _, s, hs, hl => ⟨s, by simp [tryForEach]; omega, by simp, by simp, hs⟩
  | a :: l, hf, s, hs, hl => by
    obtain ⟨s1, h1, h2, h3, h4⟩ := hf a (by simp) s hs hl
    unfold tryForEach
    rw [h1]
    simp only [ok_bind]
    by_cases h0 : s1.limit = 0
    · refine ⟨s1, ?_, ?_, ?_, h4⟩
      · rw [if_neg (by simp [h0])]
        simp [h0]
      · rw [h2, List.flatMap_cons, List.take_append, show s.limit - (g a).length = 0 by omega]; simp
      · simp only [List.flatMap_cons, List.length_append]; omega
    · rw [if_pos (by simp [h0])]
      obtain ⟨s2, g1, g2, g3, g4⟩ := tryForEach_spec l (fun b hb => hf b (by simp [hb])) s1 h4 (by omega)
      refine ⟨s2, g1, ?_, ?_, g4⟩
      · rw [g2, h2, h3, List.flatMap_cons, List.take_append, List.append_assoc]
      · simp only [List.flatMap_cons, List.length_append]; omega

theorem yieldFn_spec {ac : Bool} {subst : List (Var × Nat)} {s : MState} (hv : ∀ vr ∈ subst, vr.2 < s.reg.length)
    (hl : 0 < s.limit) : ∃ s', yieldFn ac subst s = .ok (s', decide (s'.limit ≠ 0)) ∧
      s'.found = s.found ++ ([s.reg].filterMap (report ac subst)).take s.limit ∧
      s'.limit = s.limit - ([s.reg].filterMap (report ac subst)).length ∧ s'.reg = s.reg := by
  unfold yieldFn
  by_cases hc : (!ac && rootAgain s.reg) = true
  · rw [if_pos hc]
    have : report ac subst s.reg = none := by unfold report; rw [if_pos hc]
    refine ⟨s, by simp; omega, ?_, ?_, rfl⟩ <;> simp [List.filterMap_cons, this]
  · rw [if_neg hc]
    obtain ⟨σ, hσ⟩ : ∃ σ, readSubst subst s.reg = .ok σ := by
      unfold readSubst
      obtain ⟨l, hl⟩ := forall₂_exists (R := fun (vr : Var × Nat) (b : Var × Id) =>
        (do return (vr.1, ← getIdx s.reg vr.2) : Res (Var × Id)) = .ok b) (as := subst) (by
          intro vr hvr
          refine ⟨(vr.1, s.reg[vr.2]'(hv vr hvr)), ?_⟩
          rw [getIdx_lt (hv vr hvr)]; rfl)
      exact ⟨l, mapM_eq_ok.2 hl⟩
    have hrep : report ac subst s.reg = some σ := by unfold report; rw [if_neg hc, hσ]
    rw [hσ]
    refine ⟨{ s with found := s.found ++ [σ], limit := s.limit - 1 }, rfl, ?_, ?_, rfl⟩
    · simp only [List.filterMap_cons, hrep, List.filterMap_nil]
      rw [List.take_of_length_le (by simp; omega)]
    · simp [List.filterMap_cons, hrep]

/-- A run of the machine: it does not panic, and it collects the reported
substitutions of `runs`, in order, up to the limit. -/
theorem run_spec (h : EGraph.Inv C eg) (hr : Rebuilt eg) (hd : DiscContiguous Op) (ho : ∀ c ∈ order, c < eg.nodes.length)
    {ac : Bool} {subst : List (Var × Nat)} : ∀ {instrs : List (Instr Op)} {n n' : Nat}, Laid instrs n n' →
    (∀ vr ∈ subst, vr.2 < n') → ∀ (s : MState), s.reg.length = n → (∀ x ∈ s.reg, x < eg.nodes.length) → 0 < s.limit →
    ∃ s', Machine.run eg order (yieldFn ac subst) instrs s = .ok (s', decide (s'.limit ≠ 0)) ∧
      s'.found = s.found ++ ((runs eg order instrs s.reg).filterMap (report ac subst)).take s.limit ∧
      s'.limit = s.limit - ((runs eg order instrs s.reg).filterMap (report ac subst)).length ∧
      s'.reg.take n = s.reg := by
  intro instrs n n' hl hv
  induction hl with
  | @nil n =>
    intro s hs _ hlim
    obtain ⟨s', h1, h2, h3, h4⟩ := yieldFn_spec (ac := ac) (subst := subst) (s := s) (by rw [hs]; exact hv) hlim
    exact ⟨s', h1, h2, h3, by rw [h4, List.take_of_length_le (by omega)]⟩
  | @bind node i n n' rest hi hl ih =>
    intro s hs hval hlim
    have hx : s.reg[i]? = some (s.reg[i]'(by omega)) := List.getElem?_eq_getElem (by omega)
    obtain ⟨k, hk, hkc⟩ := h.index (hval _ (List.getElem_mem (show i < s.reg.length by omega)))
    have hsrt : k.nodes.Pairwise (fun x y => Lang.le x y = true ∧ x ≠ y) := hr.sorted _ _ hkc
    obtain ⟨s', g1, g2, g3, g4⟩ := tryForEach_spec
      (f := fun m t => Machine.run eg order (yieldFn ac subst) rest { t with reg := t.reg.take n ++ m.children })
      (g := fun m => (runs eg order rest (s.reg ++ m.children)).filterMap (report ac subst))
      (P := fun t => t.reg.take n = s.reg) (matchingNodes k.nodes node) (by
        intro m hm t ht htl
        have q := (mem_matchingNodes hd hsrt).1 hm
        obtain ⟨t', e1, e2, e3, e4⟩ := ih hv { t with reg := t.reg.take n ++ m.children }
          (by simp only [ht, List.length_append, hs]; rw [q.2.2]) (by
            intro y hy
            simp only [ht, List.mem_append] at hy
            rcases hy with hy | hy
            · exact hval y hy
            · exact h.index_node_lt hk q.1 y hy) htl
        simp only [ht] at e1 e2 e3 e4
        refine ⟨t', by simp only [ht]; exact e1, e2, e3, ?_⟩
        have := congrArg (List.take n) e4
        rw [List.take_take, Nat.min_eq_left (by omega)] at this
        rw [this, ← hs, List.take_left]) s (List.take_of_length_le (by omega)) hlim
    refine ⟨s', ?_, ?_, ?_, g4⟩
    · unfold Machine.run
      rw [getIdx_lt (by omega)]
      simp only [ok_bind, hk]
      exact g1
    · simp only [runs, hx, hk, List.filterMap_flatMap]
      exact g2
    · simp only [runs, hx, hk, List.filterMap_flatMap]
      exact g3
  | @compare i j n n' rest hi hj hl ih =>
    intro s hs hval hlim
    have hx : s.reg[i]? = some (s.reg[i]'(by omega)) := List.getElem?_eq_getElem (by omega)
    have hy : s.reg[j]? = some (s.reg[j]'(by omega)) := List.getElem?_eq_getElem (by omega)
    have vx := hval _ (List.getElem_mem (show i < s.reg.length by omega))
    have vy := hval _ (List.getElem_mem (show j < s.reg.length by omega))
    unfold Machine.run
    rw [getIdx_lt (show i < s.reg.length by omega), getIdx_lt (show j < s.reg.length by omega)]
    simp only [ok_bind, h.find vx, h.find vy]
    by_cases he : eg.rt (s.reg[i]'(by omega)) = eg.rt (s.reg[j]'(by omega))
    · rw [if_neg (by simp [he])]
      have hb := sameB_iff.2 (h.sameClass_iff.2 ⟨vx, vy, he⟩)
      simp only [runs, hx, hy, hb, if_true]
      exact ih hv s hs hval hlim
    · rw [if_pos he]
      have hb : sameB eg (s.reg[i]'(by omega)) (s.reg[j]'(by omega)) = false := by
        rw [Bool.eq_false_iff]
        intro hb
        exact he (h.sameClass_iff.1 (sameB_iff.1 hb)).2.2
      simp only [runs, hx, hy, hb]
      refine ⟨s, ?_, by simp, by simp, List.take_of_length_le (by omega)⟩
      simp [show s.limit ≠ 0 by omega]
  | @lookup term i n n' rest hi ht hl ih =>
    intro s hs hval hlim
    obtain ⟨b, hb⟩ := lookupOk_total h hval (term := term) (i := i) (by omega) (by rw [hs]; exact ht)
    unfold Machine.run
    rw [hb]
    simp only [ok_bind]
    cases b with
    | true =>
      rw [if_pos rfl]
      simp only [runs, hb]
      exact ih hv s hs hval hlim
    | false =>
      simp only [runs, hb]
      refine ⟨s, ?_, by simp, by simp, List.take_of_length_le (by omega)⟩
      simp [show s.limit ≠ 0 by omega]
  | @scan n n' rest hl ih =>
    intro s hs hval hlim
    obtain ⟨s', g1, g2, g3, g4⟩ := tryForEach_spec
      (f := fun c t => Machine.run eg order (yieldFn ac subst) rest { t with reg := t.reg.take n ++ [c] })
      (g := fun c => (runs eg order rest (s.reg ++ [c])).filterMap (report ac subst))
      (P := fun t => t.reg.take n = s.reg) order (by
        intro c hc t ht htl
        obtain ⟨t', e1, e2, e3, e4⟩ := ih hv { t with reg := t.reg.take n ++ [c] }
          (by simp only [ht, List.length_append, hs]; rfl) (by
            intro y hy
            simp only [ht, List.mem_append, List.mem_singleton] at hy
            rcases hy with hy | rfl
            · exact hval y hy
            · exact ho _ hc) htl
        simp only [ht] at e1 e2 e3 e4
        refine ⟨t', by simp only [ht]; exact e1, e2, e3, ?_⟩
        have := congrArg (List.take n) e4
        rw [List.take_take, Nat.min_eq_left (by omega)] at this
        rw [this, ← hs, List.take_left]) s (List.take_of_length_le (by omega)) hlim
    refine ⟨s', ?_, ?_, ?_, g4⟩
    · unfold Machine.run
      exact g1
    · simp only [runs, List.filterMap_flatMap]
      exact g2
    · simp only [runs, List.filterMap_flatMap]
      exact g3

end
end Egg
