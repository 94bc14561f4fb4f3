import Verif.Model.Text
import Verif.Lemmas.Basic
/-
C43: the text of pattern variables.  C44: `alpha_rename`.
-/
namespace Egg

/-! ### Specification -/

/-- A decimal digit. -/
def IsDigit (c : Char) : Prop := '0' ≤ c ∧ c ≤ '9'

/-- The number written by a string of decimal digits. -/
def decimal (ds : List Char) : Nat := ds.foldl (fun a c => 10 * a + (c.toNat - '0'.toNat)) 0

/-- The texts of 32-bit numbers: one or more decimal digits, possibly after a plus sign. -/
def IsU32Text (ds : List Char) (n : Nat) : Prop :=
  ∃ body, (ds = body ∨ ds = '+' :: body) ∧ body ≠ [] ∧ (∀ c ∈ body, IsDigit c) ∧ decimal body = n ∧ n < 2 ^ 32

/-- The texts that denote a pattern variable: a question mark followed by something; if that
starts with `#`, a 32-bit number must follow. -/
inductive VarText : List Char → Var → Prop where
  | num {ds n} : IsU32Text ds n → VarText ('?' :: '#' :: ds) (.num n)
  | sym {c cs} : c ≠ '#' → VarText ('?' :: c :: cs) (.sym ('?' :: c :: cs))

/-! ### Digits -/

theorem isDigit_iff (c : Char) : IsDigit c ↔ 48 ≤ c.toNat ∧ c.toNat ≤ 57 := by
  unfold IsDigit
  rw [Char.le_def, Char.le_def, UInt32.le_iff_toNat_le, UInt32.le_iff_toNat_le]
  rfl

theorem digitVal_eq (c : Char) : (IsDigit c ∧ digitVal c = some (c.toNat - 48)) ∨ (¬ IsDigit c ∧ digitVal c = none) := by
  rw [isDigit_iff]
  unfold digitVal
  have h0 : '0'.toNat = 48 := rfl
  have h9 : '9'.toNat = 57 := rfl
  rw [h0, h9]
  by_cases h : 48 ≤ c.toNat ∧ c.toNat ≤ 57
  · exact Or.inl ⟨h, if_pos h⟩
  · exact Or.inr ⟨h, if_neg h⟩

theorem foldl_ge (ds : List Char) : ∀ acc, acc ≤ ds.foldl (fun a c => 10 * a + (c.toNat - 48)) acc := by
  induction ds with
  | nil => intro acc; exact Nat.le_refl _
  | cons c cs ih =>
    intro acc
    have := ih (10 * acc + (c.toNat - 48))
    simp only [List.foldl_cons]
    omega

theorem parseDigits_iff (ds : List Char) : ∀ acc n, acc < 2 ^ 32 →
    (parseDigits acc ds = some n ↔
      (∀ c ∈ ds, IsDigit c) ∧ ds.foldl (fun a c => 10 * a + (c.toNat - 48)) acc = n ∧ n < 2 ^ 32) := by
  induction ds with
  | nil =>
    intro acc n ha
    simp only [parseDigits, List.foldl_nil]
    constructor
    · intro h; cases h; exact ⟨by simp, rfl, ha⟩
    · rintro ⟨_, h, _⟩; rw [h]
  | cons c cs ih =>
    intro acc n ha
    simp only [parseDigits]
    rcases digitVal_eq c with ⟨hd, e⟩ | ⟨hd, e⟩
    · rw [e]
      simp only []
      have e2 : acc * 10 + (c.toNat - 48) = 10 * acc + (c.toNat - 48) := by omega
      rw [e2]
      by_cases hb : 10 * acc + (c.toNat - 48) < 2 ^ 32
      · rw [if_pos hb, ih _ _ hb]
        simp only [List.foldl_cons, List.mem_cons, forall_eq_or_imp]
        exact ⟨fun ⟨a, b⟩ => ⟨⟨hd, a⟩, b⟩, fun ⟨⟨_, a⟩, b⟩ => ⟨a, b⟩⟩
      · rw [if_neg hb]
        constructor
        · intro h; cases h
        · rintro ⟨_, h, hn⟩
          have := foldl_ge cs (10 * acc + (c.toNat - 48))
          simp only [List.foldl_cons] at h
          omega
    · rw [e]
      simp only []
      constructor
      · intro h; cases h
      · rintro ⟨h, _⟩; exact absurd (h c (List.mem_cons_self ..)) hd

theorem parseU32_iff (ds : List Char) (n : Nat) : parseU32 ds = some n ↔ IsU32Text ds n := by
  have plus : ¬ IsDigit '+' := by rw [isDigit_iff]; decide
  constructor
  · intro h
    unfold parseU32 at h
    split at h
    · cases h
    · rename_i cs
      split at h
      · cases h
      · rename_i hne
        obtain ⟨a, b, c⟩ := (parseDigits_iff cs 0 n (by decide)).1 h
        exact ⟨cs, Or.inr rfl, by intro e; rw [e] at hne; exact hne rfl, a, b, c⟩
    · rename_i hn _
      obtain ⟨a, b, c⟩ := (parseDigits_iff ds 0 n (by decide)).1 h
      exact ⟨ds, Or.inl rfl, fun e => hn e, a, b, c⟩
  · rintro ⟨body, hb, hne, hd, hv, hn⟩
    have hp := (parseDigits_iff body 0 n (by decide)).2 ⟨hd, hv, hn⟩
    rcases hb with rfl | rfl
    · unfold parseU32
      split
      · exact absurd rfl hne
      · exact absurd (hd '+' (List.mem_cons_self ..)) plus
      · exact hp
    · unfold parseU32
      simp only []
      rw [if_neg (by simpa using hne)]
      exact hp

theorem digit_ofNat : ∀ d, d < 10 → (Char.ofNat ('0'.toNat + d)).toNat = 48 + d := by
  decide

theorem showNat_spec : ∀ n, showNat n ≠ [] ∧ (∀ c ∈ showNat n, IsDigit c) ∧
    (showNat n).foldl (fun a c => 10 * a + (c.toNat - 48)) 0 = n := by
  intro n
  induction n using Nat.strongRecOn with
  | ind n ih =>
    unfold showNat
    split
    · rename_i h
      refine ⟨by simp, ?_, ?_⟩
      · intro c hc
        rw [List.mem_singleton] at hc
        rw [isDigit_iff, hc, digit_ofNat n h]; omega
      · simp only [List.foldl_cons, List.foldl_nil]
        rw [digit_ofNat n h]; omega
    · rename_i h
      obtain ⟨_, hd, hv⟩ := ih (n / 10) (by omega)
      refine ⟨by simp, ?_, ?_⟩
      · intro c hc
        rcases List.mem_append.1 hc with hc | hc
        · exact hd c hc
        · rw [List.mem_singleton] at hc
          rw [isDigit_iff, hc, digit_ofNat _ (by omega)]; omega
      · rw [List.foldl_append, hv]
        simp only [List.foldl_cons, List.foldl_nil]
        rw [digit_ofNat _ (by omega)]; omega

theorem showNat_injective {m n : Nat} (h : showNat m = showNat n) : m = n := by
  rw [← (showNat_spec m).2.2, ← (showNat_spec n).2.2, h]

/-! ### C43 -/

/-- **C43.** Exactly the texts described by `VarText` parse as pattern variables, and each
denotes the variable the description says. -/
theorem c43_parse (s : List Char) (v : Var) : parseVar s = .ok v ↔ VarText s v := by
  constructor
  · intro h
    unfold parseVar at h
    split at h
    · rename_i ds
      split at h
      · cases h
      · rename_i n hn
        injection h with h
        subst h
        exact .num ((parseU32_iff ds n).1 hn)
    · rename_i c cs hc
      injection h with h
      subst h
      exact .sym hc
    · cases h
  · intro h
    cases h with
    | num hn =>
      unfold parseVar
      simp only []
      rw [(parseU32_iff _ _).2 hn]
    | sym hc =>
      unfold parseVar
      split
      · rename_i e
        injection e with _ e
        injection e with e _
        exact absurd e hc
      · rename_i e
        rw [← e]
      · rename_i hx
        exact absurd rfl (hx _ _)

/-- **C43.** Parsing never fails otherwise than with an error, and the error tells the two
cases apart: the malformed number is reported exactly when the text starts with `?#`. -/
theorem c43_error (s : List Char) (e : VarErr) (h : parseVar s = .error e) :
    (¬ ∃ v, VarText s v) ∧ (e = .badNumber ↔ ∃ ds, s = '?' :: '#' :: ds) := by
  refine ⟨?_, ?_⟩
  · rintro ⟨v, hv⟩
    rw [(c43_parse s v).2 hv] at h
    cases h
  · unfold parseVar at h
    split at h
    · rename_i ds
      split at h
      · injection h with h
        subst h
        simp
      · cases h
    · cases h
    · rename_i hx
      injection h with h
      subst h
      constructor
      · intro h; cases h
      · rintro ⟨ds, rfl⟩
        exact absurd rfl (hx _ _)

/-- **C43.** Printing a variable obtained by parsing, and parsing the text again, gives the same
variable. -/
theorem c43_roundtrip (s : List Char) (v : Var) (h : parseVar s = .ok v) : parseVar (showVar v) = .ok v := by
  rw [c43_parse] at h ⊢
  cases h with
  | num hn =>
    obtain ⟨_, _, _, _, _, hlt⟩ := hn
    obtain ⟨a, b, c⟩ := showNat_spec ‹Nat›
    exact .num ⟨_, Or.inl rfl, a, b, c, hlt⟩
  | sym hc => exact .sym hc

/-- **C43.** Two variables obtained by parsing that print alike are the same variable. -/
theorem c43_injective (s t : List Char) (v w : Var) (hv : parseVar s = .ok v) (hw : parseVar t = .ok w)
    (h : showVar v = showVar w) : v = w := by
  have a := c43_roundtrip s v hv
  rw [h, c43_roundtrip t w hw] at a
  injection a with a
  exact a.symm

/-- **C43.** A named variable prints as it was written, and no named variable is written
with `?#`. -/
theorem c43_named (s x : List Char) (h : parseVar s = .ok (.sym x)) : showVar (.sym x) = s ∧ x.take 2 ≠ ['?', '#'] := by
  rw [c43_parse] at h
  cases h with
  | sym hc => exact ⟨rfl, fun e => hc (by simpa using e)⟩

/-- `?x1`, `?#007` and `?#+12` are variables, `?`, `x`, `?#` and `?#4294967296` are not. -/
example : parseVar "?x1".toList = .ok (.sym "?x1".toList) ∧ parseVar "?#007".toList = .ok (.num 7) ∧
    parseVar "?#+12".toList = .ok (.num 12) ∧ parseVar "?".toList = .error .missingQuestionMark ∧
    parseVar "x".toList = .error .missingQuestionMark ∧ parseVar "?#".toList = .error .badNumber ∧
    parseVar "?#4294967296".toList = .error .badNumber ∧ parseVar "?#4294967295".toList = .ok (.num 4294967295) := by
  refine ⟨?_, ?_, ?_, ?_, ?_, ?_, ?_, ?_⟩ <;> rfl

/-- A variable made from a symbol directly (`Var::from(Symbol)`, `src/subst.rs:95-99`) need not
survive printing: the symbol `?#3` prints like the numbered variable 3. -/
theorem c43_from_symbol_counterexample :
    parseVar (showVar (.sym "?#3".toList)) = .ok (.num 3) ∧ (Var.num 3) ≠ .sym "?#3".toList := by
  refine ⟨rfl, by intro h; cases h⟩

/-! ### C44 -/

variable {Op : Type}

theorem okv_bind {α β : Type} (a : α) (f : α → Except VarErr β) : ((Except.ok a : Except VarErr α) >>= f) = f a := rfl

/-- Replace every variable `v` by `ρ v`. -/
def renameVars (ρ : Var → Var) (e : PatternAst Op) : PatternAst Op :=
  e.map fun n => match n.op with
    | .op _ => n
    | .var v => { n with op := .var (ρ v) }

/-- `v` occurs in the pattern. -/
def OccursIn (v : Var) (e : PatternAst Op) : Prop := ∃ n ∈ e, n.op = .var v

/-- `e'` is `e` with its variables renamed one-to-one. -/
def AlphaEquiv (e e' : PatternAst Op) : Prop :=
  ∃ ρ : Var → Var, (∀ v w, OccursIn v e → OccursIn w e → ρ v = ρ w → v = w) ∧ e' = renameVars ρ e

/-- The name given to the `i`-th variable. -/
def freshName (i : Nat) : List Char :=
  match i with
  | 0 => "?x".toList
  | 1 => "?y".toList
  | 2 => "?z".toList
  | 3 => "?w".toList
  | i + 4 => '?' :: 'v' :: showNat i

theorem mkvar_eq (i : Nat) : mkvar i = .ok (.sym (freshName i)) := by
  match i with
  | 0 => rfl
  | 1 => rfl
  | 2 => rfl
  | 3 => rfl
  | i + 4 =>
    unfold mkvar freshName
    simp [parseVar]

theorem freshName_injective {i j : Nat} (h : freshName i = freshName j) : i = j := by
  have key : ∀ k (c : Char), c ≠ 'v' → freshName (k + 4) ≠ ['?', c] := by
    intro k c hc e
    unfold freshName at e
    injection e with _ e
    injection e with e _
    exact hc e.symm
  match i, j with
  | 0, 0 => rfl
  | 1, 1 => rfl
  | 2, 2 => rfl
  | 3, 3 => rfl
  | 0, 1 | 0, 2 | 0, 3 | 1, 0 | 1, 2 | 1, 3 | 2, 0 | 2, 1 | 2, 3 | 3, 0 | 3, 1 | 3, 2 => exact absurd h (by decide)
  | 0, k + 4 => exact absurd h.symm (key k 'x' (by decide))
  | 1, k + 4 => exact absurd h.symm (key k 'y' (by decide))
  | 2, k + 4 => exact absurd h.symm (key k 'z' (by decide))
  | 3, k + 4 => exact absurd h.symm (key k 'w' (by decide))
  | k + 4, 0 => exact absurd h (key k 'x' (by decide))
  | k + 4, 1 => exact absurd h (key k 'y' (by decide))
  | k + 4, 2 => exact absurd h (key k 'z' (by decide))
  | k + 4, 3 => exact absurd h (key k 'w' (by decide))
  | k + 4, l + 4 =>
    unfold freshName at h
    injection h with _ h
    injection h with _ h
    rw [showNat_injective h]

/-- Numbering used while renaming: the `j`-th key inserted is named `freshName j`. -/
structure Names (vars : AMap Var Var) : Prop where
  fresh : ∀ v w, vars.get? v = some w → ∃ j < vars.length, w = .sym (freshName j)
  inj : ∀ v v' w, vars.get? v = some w → vars.get? v' = some w → v = v'

theorem Names.insert {vars : AMap Var Var} (h : Names vars) {v : Var} (hv : vars.get? v = none) :
    Names (vars.insert v (.sym (freshName vars.length))) ∧
      (vars.insert v (.sym (freshName vars.length))).length = vars.length + 1 := by
  have hl : (vars.insert v (.sym (freshName vars.length))).length = vars.length + 1 := by
    rw [AMap.length_insert, if_neg (fun hk => ?_)]
    have := (AMap.get?_isSome_iff _ _).2 hk
    rw [hv] at this; cases this
  refine ⟨⟨?_, ?_⟩, hl⟩
  · intro x w hx
    rw [hl]
    rw [AMap.get?_insert] at hx
    split at hx
    · cases hx; exact ⟨_, Nat.lt_succ_self _, rfl⟩
    · obtain ⟨j, hj, e⟩ := h.fresh x w hx
      exact ⟨j, by omega, e⟩
  · have no : ∀ x, vars.get? x = some (.sym (freshName vars.length)) → False := by
      intro x hx
      obtain ⟨j, hj, e⟩ := h.fresh x _ hx
      injection e with e
      have := freshName_injective e
      omega
    intro x x' w hx hx'
    rw [AMap.get?_insert] at hx hx'
    split at hx <;> split at hx'
    · rename_i a b; exact a.symm.trans b
    · cases hx; exact (no _ hx').elim
    · cases hx'; exact (no _ hx).elim
    · exact h.inj x x' w hx hx'

theorem renameVars_cons (ρ : Var → Var) (n : ENode (PatOp Op)) (e : PatternAst Op) :
    renameVars ρ (n :: e) = (match n.op with
      | .op _ => n
      | .var v => { n with op := .var (ρ v) }) :: renameVars ρ e := rfl

/-- The loop of `alpha_rename` renames by an extension of the current map. -/
theorem alphaGo_spec (e : PatternAst Op) : ∀ vars, Names vars → ∃ vars', Names vars' ∧
    (∀ v w, vars.get? v = some w → vars'.get? v = some w) ∧
    (∀ v, OccursIn v e → ∃ w, vars'.get? v = some w) ∧
    alphaGo vars e = .ok (renameVars (fun v => (vars'.get? v).getD v) e) := by
  induction e with
  | nil => intro vars h; exact ⟨vars, h, fun _ _ h => h, fun v ⟨n, hn, _⟩ => (List.not_mem_nil hn).elim, rfl⟩
  | cons n e ih =>
    intro vars h
    unfold alphaGo
    match hop : n.op with
    | .op o =>
      obtain ⟨vars', h', ext, occ, eq⟩ := ih vars h
      refine ⟨vars', h', ext, ?_, ?_⟩
      · rintro v ⟨m, hm, hv⟩
        rcases List.mem_cons.1 hm with rfl | hm
        · rw [hop] at hv; cases hv
        · exact occ v ⟨m, hm, hv⟩
      · simp only []
        rw [eq, okv_bind, renameVars_cons, hop]
        rfl
    | .var v =>
      simp only []
      match hg : vars.get? v with
      | some w =>
        obtain ⟨vars', h', ext, occ, eq⟩ := ih vars h
        refine ⟨vars', h', ext, ?_, ?_⟩
        · rintro x ⟨m, hm, hv⟩
          rcases List.mem_cons.1 hm with rfl | hm
          · rw [hop] at hv; cases hv; exact ⟨w, ext _ _ hg⟩
          · exact occ x ⟨m, hm, hv⟩
        · simp only []
          rw [eq, okv_bind, renameVars_cons, hop]
          simp only []
          rw [ext _ _ hg]
          rfl
      | none =>
        obtain ⟨hn, hl⟩ := h.insert hg
        obtain ⟨vars', h', ext, occ, eq⟩ := ih _ hn
        have hw := ext v _ (by rw [AMap.get?_insert, if_pos rfl])
        refine ⟨vars', h', ?_, ?_, ?_⟩
        · intro x w hx
          apply ext
          rw [AMap.get?_insert, if_neg ?_]
          · exact hx
          · rintro rfl; rw [hg] at hx; cases hx
        · rintro x ⟨m, hm, hv⟩
          rcases List.mem_cons.1 hm with rfl | hm
          · rw [hop] at hv; cases hv; exact ⟨_, hw⟩
          · exact occ x ⟨m, hm, hv⟩
        · simp only []
          rw [mkvar_eq, okv_bind, eq, okv_bind, renameVars_cons, hop]
          simp only []
          rw [hw]
          rfl

/-- Renaming the variables first does not change the result of the loop. -/
theorem alphaGo_rename (ρ : Var → Var) (e : PatternAst Op) : ∀ vars vars' : AMap Var Var,
    (∀ v w, OccursIn v e → OccursIn w e → ρ v = ρ w → v = w) →
    (∀ v, OccursIn v e → vars'.get? (ρ v) = vars.get? v) → vars'.length = vars.length →
    alphaGo vars' (renameVars ρ e) = alphaGo vars e := by
  induction e with
  | nil => intros; rfl
  | cons n e ih =>
    intro vars vars' inj hv hl
    have inj' : ∀ v w, OccursIn v e → OccursIn w e → ρ v = ρ w → v = w := fun v w ⟨m, hm, a⟩ ⟨m', hm', b⟩ =>
      inj v w ⟨m, List.mem_cons_of_mem _ hm, a⟩ ⟨m', List.mem_cons_of_mem _ hm', b⟩
    have hv' : ∀ v, OccursIn v e → vars'.get? (ρ v) = vars.get? v := fun v ⟨m, hm, a⟩ =>
      hv v ⟨m, List.mem_cons_of_mem _ hm, a⟩
    rw [renameVars_cons]
    unfold alphaGo
    match hop : n.op with
    | .op o =>
      simp only [hop]
      rw [ih vars vars' inj' hv' hl]
    | .var v =>
      have ho : OccursIn v (n :: e) := ⟨n, List.mem_cons_self .., hop⟩
      simp only [hv v ho]
      match hg : vars.get? v with
      | some w =>
        simp only []
        rw [ih vars vars' inj' hv' hl]
      | none =>
        simp only []
        rw [hl, mkvar_eq, okv_bind, okv_bind, ih _ _ inj' ?_ ?_]
        · intro x hx
          rw [AMap.get?_insert, AMap.get?_insert, hv' x hx]
          obtain ⟨m, hm, a⟩ := hx
          by_cases hvx : v = x
          · rw [if_pos hvx, if_pos (by rw [hvx])]
          · rw [if_neg hvx, if_neg (fun e => hvx (inj v x ho ⟨m, List.mem_cons_of_mem _ hm, a⟩ e))]
        · have no : ∀ (m : AMap Var Var) (k w : Var), m.get? k = none → (m.insert k w).length = m.length + 1 := by
            intro m k w hm
            rw [AMap.length_insert, if_neg (fun hk => ?_)]
            have := (AMap.get?_isSome_iff _ _).2 hk
            rw [hm] at this; cases this
          rw [no _ _ _ hg, no _ _ _ (by rw [hv v ho, hg]), hl]

theorem names_nil : Names [] := by
  constructor
  · intro v w h; cases h
  · intro v v' w h; cases h

/-- **C44.** `alpha_rename` never fails, and its result differs from the pattern by a one-to-one
renaming of the variables only. -/
theorem c44_renames (e : PatternAst Op) : ∃ e', alphaRename e = .ok e' ∧ AlphaEquiv e e' := by
  obtain ⟨vars, hn, _, occ, eq⟩ := alphaGo_spec e [] names_nil
  refine ⟨_, eq, _, ?_, rfl⟩
  intro v w hv hw h
  obtain ⟨x, hx⟩ := occ v hv
  obtain ⟨y, hy⟩ := occ w hw
  simp only [hx, hy, Option.getD_some] at h
  subst h
  exact hn.inj v w x hx hy

theorem mem_renameVars {ρ : Var → Var} {e : PatternAst Op} {v : Var} :
    OccursIn v (renameVars ρ e) ↔ ∃ w, OccursIn w e ∧ v = ρ w := by
  unfold OccursIn renameVars
  constructor
  · rintro ⟨n, hn, hv⟩
    obtain ⟨m, hm, rfl⟩ := List.mem_map.1 hn
    match hop : m.op with
    | .op o => simp only [hop] at hv; cases hv
    | .var w => simp only [hop] at hv; cases hv; exact ⟨w, ⟨m, hm, hop⟩, rfl⟩
  · rintro ⟨w, ⟨m, hm, hop⟩, rfl⟩
    exact ⟨_, List.mem_map.2 ⟨m, hm, rfl⟩, by simp only [hop]⟩

theorem renameVars_comp (ρ σ : Var → Var) (e : PatternAst Op) :
    renameVars σ (renameVars ρ e) = renameVars (fun v => σ (ρ v)) e := by
  unfold renameVars
  rw [List.map_map]
  apply List.map_congr_left
  intro n _
  match hop : n.op with
  | .op o => simp only [Function.comp, hop]
  | .var v => simp only [Function.comp, hop]

theorem renameVars_id {ρ : Var → Var} {e : PatternAst Op} (h : ∀ v, OccursIn v e → ρ v = v) : renameVars ρ e = e := by
  unfold renameVars
  conv => rhs; rw [← List.map_id e]
  apply List.map_congr_left
  intro n hn
  match hop : n.op with
  | .op o => simp only [hop, id]
  | .var v =>
    simp only [hop, id]
    rw [h v ⟨n, hn, hop⟩]
    obtain ⟨o, c⟩ := n
    simp only at hop
    rw [hop]

theorem AlphaEquiv.symm' {e e' : PatternAst Op} (h : AlphaEquiv e e') : AlphaEquiv e' e := by
  classical
  obtain ⟨ρ, inj, rfl⟩ := h
  let σ : Var → Var := fun w => if h : ∃ v, OccursIn v e ∧ ρ v = w then h.choose else w
  have hσ : ∀ v, OccursIn v e → σ (ρ v) = v := by
    intro v hv
    have hex : ∃ u, OccursIn u e ∧ ρ u = ρ v := ⟨v, hv, rfl⟩
    have : σ (ρ v) = hex.choose := dif_pos hex
    rw [this]
    exact inj _ _ hex.choose_spec.1 hv hex.choose_spec.2
  refine ⟨σ, ?_, ?_⟩
  · intro a b ha hb h
    obtain ⟨x, hx, rfl⟩ := mem_renameVars.1 ha
    obtain ⟨y, hy, rfl⟩ := mem_renameVars.1 hb
    rw [hσ x hx, hσ y hy] at h
    rw [h]
  · rw [renameVars_comp]
    exact (renameVars_id hσ).symm

theorem AlphaEquiv.trans' {e1 e2 e3 : PatternAst Op} (h : AlphaEquiv e1 e2) (h' : AlphaEquiv e2 e3) : AlphaEquiv e1 e3 := by
  obtain ⟨ρ, inj, rfl⟩ := h
  obtain ⟨σ, inj', rfl⟩ := h'
  refine ⟨fun v => σ (ρ v), ?_, renameVars_comp ρ σ e1⟩
  intro v w hv hw h
  exact inj v w hv hw (inj' _ _ (mem_renameVars.2 ⟨v, hv, rfl⟩) (mem_renameVars.2 ⟨w, hw, rfl⟩) h)

/-- **C44.** Two patterns have the same canonical form exactly when one is the other with its
variables renamed one-to-one. -/
theorem c44_canonical (e1 e2 : PatternAst Op) : alphaRename e1 = alphaRename e2 ↔ AlphaEquiv e1 e2 := by
  constructor
  · intro h
    obtain ⟨a, ha, ea⟩ := c44_renames e1
    obtain ⟨b, hb, eb⟩ := c44_renames e2
    rw [ha, hb] at h
    injection h with h
    subst h
    exact ea.trans' eb.symm'
  · rintro ⟨ρ, inj, rfl⟩
    exact (alphaGo_rename ρ e1 [] [] inj (fun _ _ => rfl) rfl).symm

/-- **C44.** Renaming twice changes nothing more. -/
theorem c44_idempotent (e e' : PatternAst Op) (h : alphaRename e = .ok e') : alphaRename e' = .ok e' := by
  obtain ⟨a, ha, ea⟩ := c44_renames e
  rw [h] at ha
  injection ha with ha
  subst ha
  rw [← h]
  exact (c44_canonical e' e).2 ea.symm'

/-- The pattern `f(?b, ?a, ?b)`, where `f` is an operator. -/
def exAlpha (a b : List Char) : PatternAst Nat :=
  [⟨.var (.sym b), []⟩, ⟨.var (.sym a), []⟩, ⟨.op 0, [0, 1, 0]⟩]

/-- `f(?b, ?a, ?b)` becomes `f(?x, ?y, ?x)`. -/
example : alphaRename (exAlpha "?a".toList "?b".toList) = .ok (exAlpha "?y".toList "?x".toList) := by rfl

/-- `f(?b, ?a, ?b)` and `f(?b, ?b, ?b)` have different canonical forms. -/
example : ¬ AlphaEquiv (exAlpha "?a".toList "?b".toList) (exAlpha "?b".toList "?b".toList) := by
  rw [← c44_canonical]
  intro h
  have : (Except.ok (exAlpha "?y".toList "?x".toList) : Except VarErr _) = .ok (exAlpha "?x".toList "?x".toList) := h
  injection this with h
  have := congrArg (fun e => (e[1]?).map ENode.op) h
  simp only [exAlpha, List.getElem?_cons_succ, List.getElem?_cons_zero, Option.map_some] at this
  injection this with this
  injection this with this
  injection this with this
  exact absurd this (by decide)

end Egg
