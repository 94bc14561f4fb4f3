import Verif.Lemmas.Lookup
/-
The pattern compiler: the program's solutions are exactly the matches of the
pattern.
-/
namespace Egg
variable {Op D : Type}

namespace Compiler

/-! ### `load_pattern` -/

/-- The tables of free variables and subtree sizes describe the first `k` nodes
of the pattern. -/
structure Tables (p : PatternAst Op) (k : Nat) (free : List (List Var)) (size : List Nat) : Prop where
  flen : free.length = k
  slen : size.length = k
  free : ∀ (id : Nat) (t : Term (PatOp Op)), id < k → TermOf p id t → ∃ fv, free[id]? = some fv ∧ ∀ v, v ∈ fv ↔ Occurs v t
  size : ∀ (id : Nat) (n : ENode (PatOp Op)) (o : Op), id < k → p[id]? = some n → n.op = .op o →
    size[id]? = some (1 + (n.children.map (fun c => (size[c]?).getD 0)).sum)

theorem mem_foldl_setInsert {α : Type} [DecidableEq α] : ∀ (l s : List α) (a : α),
    a ∈ l.foldl setInsert s ↔ a ∈ s ∨ a ∈ l
  | [], s, a => by simp
  | b :: l, s, a => by
    rw [List.foldl_cons, mem_foldl_setInsert l]
    unfold setInsert
    split <;> simp
    · next h =>
      constructor
      · rintro (h1 | h1)
        · exact .inl h1
        · exact .inr (.inr h1)
      · rintro (h1 | h1 | h1)
        · exact .inl h1
        · subst h1; exact .inl h
        · exact .inr h1
    · tauto

theorem loadGo_spec {p : PatternAst Op} (hd : Dag p) (hv : VarLeaf p) : ∀ (rest done : PatternAst Op) (free : List (List Var))
    (size : List Nat), p = done ++ rest → Tables p done.length free size →
    ∃ free' size', loadGo rest free size = .ok (free', size') ∧ Tables p p.length free' size' := by
  intro rest
  induction rest with
  | nil =>
    intro done free size he ht
    have hl : p.length = done.length := by rw [he]; simp
    exact ⟨free, size, rfl, by rw [hl]; exact ht⟩
  | cons n rest ih =>
    intro done free size he ht
    have hn : p[done.length]? = some n := by rw [he]; simp
    have he' : p = (done ++ [n]) ++ rest := by rw [he]; simp
    have hlt := hd _ _ hn
    have step : ∀ fv s, (∀ t, TermOf p done.length t → ∀ v, v ∈ fv ↔ Occurs v t) →
        (∀ o, n.op = .op o → s = 1 + (n.children.map (fun c => (size[c]?).getD 0)).sum) →
        Tables p (done ++ [n]).length (free ++ [fv]) (size ++ [s]) := by
      intro fv s h1 h2
      refine ⟨by simp [ht.flen], by simp [ht.slen], ?_, ?_⟩
      · intro id t hid hidt
        simp at hid
        rcases Nat.lt_or_eq_of_le (Nat.lt_succ_iff.1 hid) with h | h
        · obtain ⟨fv', g1, g2⟩ := ht.free id t h hidt
          exact ⟨fv', getElem?_prefix g1, g2⟩
        · subst h
          exact ⟨fv, by rw [← ht.flen]; simp, h1 t hidt⟩
      · intro id m o hid hm ho
        have hsame : ∀ c ∈ m.children, ((size ++ [s])[c]?).getD 0 = (size[c]?).getD 0 := by
          intro c hc
          have := hd _ _ hm c hc
          simp at hid
          rw [List.getElem?_append_left (by rw [ht.slen]; omega)]
        rw [List.map_congr_left hsame]
        simp at hid
        rcases Nat.lt_or_eq_of_le (Nat.lt_succ_iff.1 hid) with h | h
        · exact getElem?_prefix (ht.size id m o h hm ho)
        · subst h
          rw [hn] at hm; cases hm
          rw [← h2 o ho, ← ht.slen]
          simp
    unfold loadGo
    cases hop : n.op with
    | var v =>
      simp only
      refine ih (done ++ [n]) _ _ he' (step _ _ ?_ ?_)
      · intro t h1 w
        have hc := hv n (List.mem_of_getElem? hn) v hop
        cases t with
        | node op ts =>
          rw [termOf_iff] at h1
          obtain ⟨n', g1, rfl, g3⟩ := h1
          rw [hn] at g1; cases g1
          rw [hc] at g3; cases g3
          rw [hop]
          simp only [List.mem_singleton]
          constructor
          · rintro rfl; exact .refl
          · intro ho
            cases ho with
            | refl => rfl
            | arg hm _ => simp at hm
      · intro o ho; rw [hop] at ho; cases ho
    | op o =>
      simp only
      obtain ⟨fs, hfs⟩ := forall₂_exists (R := fun c f => getIdx free c = .ok f) (as := n.children)
        (fun c hc => ⟨_, getIdx_lt (by rw [ht.flen]; exact hlt c hc)⟩)
      obtain ⟨ss, hss⟩ := forall₂_exists (R := fun c s => getIdx size c = .ok s) (as := n.children)
        (fun c hc => ⟨_, getIdx_lt (by rw [ht.slen]; exact hlt c hc)⟩)
      rw [mapM_eq_ok.2 hfs, mapM_eq_ok.2 hss]
      simp only [ok_bind]
      refine ih (done ++ [n]) _ _ he' (step _ _ ?_ ?_)
      · intro t h1 w
        cases t with
        | node op ts =>
          rw [termOf_iff] at h1
          obtain ⟨n', g1, rfl, g3⟩ := h1
          rw [hn] at g1; cases g1
          rw [hop, mem_foldl_setInsert]
          simp only [List.not_mem_nil, false_or, List.mem_flatten]
          constructor
          · rintro ⟨l, hl, hw⟩
            obtain ⟨c, hc, hcl⟩ := forall₂_mem_left (forall₂_flip hfs) hl
            obtain ⟨u, hu, hcu⟩ := forall₂_mem_left g3 hc
            obtain ⟨fv, q1, q2⟩ := ht.free c u (hlt c hc) hcu
            rw [getIdx_eq_ok, q1] at hcl
            cases hcl
            exact .arg hu ((q2 w).1 hw)
          · intro ho
            cases ho with
            | arg hm hw =>
              obtain ⟨c, hc, hcu⟩ := forall₂_mem_left (forall₂_flip g3) hm
              obtain ⟨fv, q1, q2⟩ := ht.free c _ (hlt c hc) hcu
              obtain ⟨l, hl, hcl⟩ := forall₂_mem_left hfs hc
              rw [getIdx_eq_ok, q1] at hcl
              cases hcl
              exact ⟨fv, hl, (q2 w).2 hw⟩
      · intro o' _
        congr 1
        congr 1
        have : List.Forall₂ (fun s c => s = (size[c]?).getD 0) ss n.children :=
          forall₂_mono_mem (forall₂_flip hss) (fun s _ c _ h => by rw [getIdx_eq_ok] at h; simp [h])
        have := (forall₂_map_eq (f := id) (g := fun c => (size[c]?).getD 0)).1 this
        simpa using this

/-! ### Solutions -/

section
variable [DecidableEq Op]

/-- The tables of the compiler describe the pattern, its work list consists of
pattern nodes, its instructions are laid out consecutively. -/
structure CI (p : PatternAst Op) (c : Compiler Op) (n : Nat) : Prop where
  laid : Laid c.instrs 1 n
  tab : Tables p p.length c.freeVars c.subtreeSize
  vlt : ∀ v r, c.v2r.get? v = some r → r < n
  vkeys : (AMap.keys c.v2r).Nodup
  tlt : ∀ (id : Id) (reg : Nat) (m : ENode Op), c.todo.get? (id, reg) = some m → reg < n ∧ p[id]? = some ⟨.op m.op, m.children⟩
  tkeys : (AMap.keys c.todo).Nodup

/-- Variables bound so far or occurring in the remaining work. -/
def Vs (p : PatternAst Op) (c : Compiler Op) (v : Var) : Prop :=
  (∃ r, c.v2r.get? v = some r) ∨ ∃ id reg m t, c.todo.get? (id, reg) = some m ∧ TermOf p id t ∧ Occurs v t

/-- Size of the remaining work. -/
def work (c : Compiler Op) : Nat := (c.todo.map (fun e => (c.subtreeSize[e.1.1]?).getD 0)).sum

theorem work_insert {K V : Type} [DecidableEq K] (f : K → Nat) : ∀ (m : AMap K V) (k : K) (v : V),
    ((m.insert k v).map (fun e => f e.1)).sum ≤ (m.map (fun e => f e.1)).sum + f k
  | [], k, v => by simp [AMap.insert]
  | (k', v') :: m, k, v => by
    unfold AMap.insert
    split
    · next h => subst h; simp
    · have := work_insert f m k v
      simp only [List.map_cons, List.sum_cons]
      omega

theorem work_erase_le {K V : Type} [DecidableEq K] (f : K → Nat) : ∀ (m : AMap K V) (k : K),
    ((m.erase k).map (fun e => f e.1)).sum ≤ (m.map (fun e => f e.1)).sum
  | [], k => by simp [AMap.erase]
  | (k', v') :: m, k => by
    unfold AMap.erase
    have := work_erase_le f m k
    split <;> simp only [List.map_cons, List.sum_cons] <;> omega

theorem work_erase {K V : Type} [DecidableEq K] (f : K → Nat) : ∀ (m : AMap K V) (k : K) (v : V), m.get? k = some v →
    ((m.erase k).map (fun e => f e.1)).sum + f k ≤ (m.map (fun e => f e.1)).sum
  | [], k, v, h => by simp [AMap.get?] at h
  | (k', v') :: m, k, v, h => by
    unfold AMap.erase
    unfold AMap.get? at h
    split
    · next hk =>
      subst hk
      have := work_erase_le f m k'
      simp only [List.map_cons, List.sum_cons]
      omega
    · next hk =>
      rw [if_neg hk] at h
      have := work_erase f m k v h
      simp only [List.map_cons, List.sum_cons]
      omega

end

variable [DecidableEq Op] [Lang Op]

/-- Register `reg` holds a class matching node `id` of the pattern. -/
def Ob (eg : EGraph Op D) (p : PatternAst Op) (σ : Var → Option Id) (R : List Id) (id : Id) (reg : Nat) : Prop :=
  ∀ t, TermOf p id t → ∃ y, R[reg]? = some y ∧ PMatch eg σ y t

/-- `R` is a solution of the compiler state for the assignment `σ`: it satisfies
the instructions emitted so far, the registers of bound variables agree with `σ`,
and the remaining work can be matched. -/
structure Sols (eg : EGraph Op D) (order : List Id) (p : PatternAst Op) (c : Compiler Op) (n : Nat)
    (σ : Var → Option Id) (c0 : Id) (R : List Id) : Prop where
  len : R.length = n
  root : R[0]? = some c0
  valid : ∀ x ∈ R, x < eg.nodes.length
  sat : ∀ ins ∈ c.instrs, SatI eg order R ins
  vars : ∀ v r, c.v2r.get? v = some r → ∃ x y, σ v = some x ∧ R[r]? = some y ∧ SameClass eg x y
  todo : ∀ (id : Id) (reg : Nat) (m : ENode Op), c.todo.get? (id, reg) = some m → Ob eg p σ R id reg

variable {eg : EGraph Op D} {order : List Id} {p : PatternAst Op} {C : Cfg Op D}

/-- What `addTodo` (one or several) does. -/
structure Added (eg : EGraph Op D) (order : List Id) (p : PatternAst Op) (c c' : Compiler Op) (n : Nat)
    (obs : List (Id × Nat)) : Prop where
  ci : CI p c' n
  ext : ∃ l, c'.instrs = c.instrs ++ l
  free : c'.freeVars = c.freeVars
  size : c'.subtreeSize = c.subtreeSize
  next : c'.nextReg = c.nextReg
  sols : ∀ σ c0 R, Sols eg order p c' n σ c0 R ↔ Sols eg order p c n σ c0 R ∧ ∀ o ∈ obs, Ob eg p σ R o.1 o.2
  vs : ∀ v, Vs p c' v ↔ Vs p c v ∨ ∃ o ∈ obs, ∃ t, TermOf p o.1 t ∧ Occurs v t
  work : work c' ≤ work c + (obs.map (fun o => (c.subtreeSize[o.1]?).getD 0)).sum
  same : c.v2r.keys ⊆ c'.v2r.keys

theorem addTodo_spec (hd : Dag p) (hv : VarLeaf p) {c : Compiler Op} {n : Nat} (hc : CI p c n) {id : Id} {reg : Nat}
    (hid : id < p.length) (hreg : reg < n) :
    ∃ c', addTodo c p id reg = .ok c' ∧ Added eg order p c c' n [(id, reg)] := by
  have hn : p[id]? = some p[id] := List.getElem?_eq_getElem hid
  obtain ⟨t, ht⟩ := hd.exists_term id hid
  have htu : ∀ s, TermOf p id s → s = t := fun s hs => hs.unique ht
  have hob : ∀ σ R, Ob eg p σ R id reg ↔ ∃ y, R[reg]? = some y ∧ PMatch eg σ y t := by
    intro σ R
    constructor
    · intro h; exact h t ht
    · intro h s hs; rw [htu s hs]; exact h
  unfold addTodo
  rw [getIdx_eq_ok.2 hn]
  simp only [ok_bind]
  cases hop : p[id].op with
  | var v =>
    simp only
    have htv : t = .node (.var v) [] := by
      cases t with
      | node op ts =>
        rw [termOf_iff] at ht
        obtain ⟨n', g1, rfl, g3⟩ := ht
        rw [hn] at g1; cases g1
        rw [hv _ (List.getElem_mem hid) v hop] at g3
        cases g3
        rw [hop]
    have hocc : ∀ w, (∃ o ∈ [(id, reg)], ∃ t, TermOf p o.1 t ∧ Occurs w t) ↔ w = v := by
      intro w
      simp only [List.mem_singleton, exists_eq_left]
      constructor
      · rintro ⟨s, hs, ho⟩
        rw [htu s hs, htv] at ho
        cases ho with
        | refl => rfl
        | arg hm _ => simp at hm
      · rintro rfl; exact ⟨t, ht, by rw [htv]; exact .refl⟩
    cases hj : c.v2r.get? v with
    | some j =>
      refine ⟨_, rfl, ?_⟩
      refine ⟨⟨hc.laid.append (.compare hreg (hc.vlt _ _ hj) .nil), hc.tab, hc.vlt, hc.vkeys, hc.tlt, hc.tkeys⟩,
        ⟨_, rfl⟩, rfl, rfl, rfl, ?_, ?_, by simp [Compiler.work], fun _ h => h⟩
      · intro σ c0 R
        simp only [List.mem_singleton, forall_eq, hob, htv, pmatch_var_iff]
        constructor
        · intro hs
          have hs' : Sols eg order p c n σ c0 R :=
            ⟨hs.len, hs.root, hs.valid, fun ins hi => hs.sat ins (List.mem_append_left _ hi), hs.vars, hs.todo⟩
          refine ⟨hs', ?_⟩
          obtain ⟨a, b, h1, h2, h3⟩ := hs.sat (.compare reg j) (by simp)
          obtain ⟨x, y, g1, g2, g3⟩ := hs.vars v j hj
          rw [h2] at g2; cases g2
          exact ⟨a, h1, trivial, x, g1, g3.trans h3.symm⟩
        · rintro ⟨hs, y, hy, _, x, hx, hxy⟩
          refine ⟨hs.len, hs.root, hs.valid, ?_, hs.vars, hs.todo⟩
          intro ins hi
          rcases List.mem_append.1 hi with hi | hi
          · exact hs.sat ins hi
          · simp at hi
            subst hi
            obtain ⟨x', z, g1, g2, g3⟩ := hs.vars v j hj
            rw [hx] at g1; cases g1
            exact ⟨y, z, hy, g2, hxy.symm.trans g3⟩
      · intro w
        rw [hocc]
        constructor
        · exact fun h => .inl h
        · rintro (h | rfl)
          · exact h
          · exact .inl ⟨j, hj⟩
    | none =>
      refine ⟨_, rfl, ?_⟩
      refine ⟨⟨hc.laid, hc.tab, ?_, AMap.nodup_insert hc.vkeys _ _, hc.tlt, hc.tkeys⟩,
        ⟨[], by simp⟩, rfl, rfl, rfl, ?_, ?_, by simp [Compiler.work], ?_⟩
      · intro w r hw
        rw [AMap.get?_insert] at hw
        split at hw
        · cases hw; exact hreg
        · exact hc.vlt _ _ hw
      · intro σ c0 R
        simp only [List.mem_singleton, forall_eq, hob, htv, pmatch_var_iff]
        constructor
        · intro hs
          refine ⟨⟨hs.len, hs.root, hs.valid, hs.sat, ?_, hs.todo⟩, ?_⟩
          · intro w r hw
            refine hs.vars w r ?_
            show (c.v2r.insert v reg).get? w = some r
            rw [AMap.get?_insert, if_neg]
            · exact hw
            · rintro rfl; rw [hj] at hw; cases hw
          · obtain ⟨x, y, g1, g2, g3⟩ := hs.vars v reg (by
              show (c.v2r.insert v reg).get? v = some reg
              rw [AMap.get?_insert, if_pos rfl])
            exact ⟨y, g2, trivial, x, g1, g3⟩
        · rintro ⟨hs, y, hy, _, x, hx, hxy⟩
          refine ⟨hs.len, hs.root, hs.valid, hs.sat, ?_, hs.todo⟩
          intro w r hw
          have hw : (c.v2r.insert v reg).get? w = some r := hw
          rw [AMap.get?_insert] at hw
          split at hw
          · next he =>
            subst he
            refine ⟨x, y, hx, ?_, hxy⟩
            have : reg = r := by simpa [AMap.get?_insert] using hw
            rw [← this]; exact hy
          · exact hs.vars w r hw
      · intro w
        rw [hocc]
        constructor
        · rintro (⟨r, hr⟩ | h)
          · have hr : (c.v2r.insert v reg).get? w = some r := hr
            rw [AMap.get?_insert] at hr
            split at hr
            · next he => exact .inr he.symm
            · exact .inl (.inl ⟨r, hr⟩)
          · exact .inl (.inr h)
        · have key : ∀ w, (∃ r, c.v2r.get? w = some r) ∨ w = v → ∃ r, (c.v2r.insert v reg).get? w = some r := by
            intro w h
            rw [AMap.get?_insert]
            split
            · exact ⟨reg, rfl⟩
            · next hne =>
              rcases h with h | h
              · exact h
              · exact absurd h.symm hne
          rintro ((h | h) | h)
          · exact .inl (key w (.inl h))
          · exact .inr h
          · exact .inl (key w (.inr h))
      · intro w hw
        show w ∈ (c.v2r.insert v reg).keys
        rw [← AMap.get?_isSome_iff] at hw ⊢
        rw [AMap.get?_insert]
        split
        · rfl
        · exact hw
  | op o =>
    simp only
    refine ⟨_, rfl, ?_⟩
    refine ⟨⟨hc.laid, hc.tab, hc.vlt, hc.vkeys, ?_, AMap.nodup_insert hc.tkeys _ _⟩,
        ⟨[], by simp⟩, rfl, rfl, rfl, ?_, ?_, ?_, fun _ h => h⟩
    · intro id' reg' m hm
      rw [AMap.get?_insert] at hm
      split at hm
      · next he =>
        cases he; cases hm
        refine ⟨hreg, ?_⟩
        rw [hn]
        cases hpi : p[id] with
        | mk op ch => rw [hpi] at hop; simp at hop; simp [hop]
      · exact hc.tlt _ _ _ hm
    · intro σ c0 R
      simp only [List.mem_singleton, forall_eq]
      constructor
      · intro hs
        refine ⟨⟨hs.len, hs.root, hs.valid, hs.sat, hs.vars, ?_⟩, ?_⟩
        · intro id' reg' m hm
          by_cases he : (id, reg) = (id', reg')
          · cases he
            exact hs.todo id reg _ (by
              show (c.todo.insert (id, reg) _).get? (id, reg) = some _
              rw [AMap.get?_insert, if_pos rfl])
          · exact hs.todo id' reg' m (by
              show (c.todo.insert (id, reg) _).get? (id', reg') = some _
              rw [AMap.get?_insert, if_neg he]; exact hm)
        · exact hs.todo id reg _ (by
            show (c.todo.insert (id, reg) _).get? (id, reg) = some _
            rw [AMap.get?_insert, if_pos rfl])
      · rintro ⟨hs, ho⟩
        refine ⟨hs.len, hs.root, hs.valid, hs.sat, hs.vars, ?_⟩
        intro id' reg' m hm
        have hm : (c.todo.insert (id, reg) _).get? (id', reg') = some m := hm
        rw [AMap.get?_insert] at hm
        split at hm
        · next he => cases he; exact ho
        · exact hs.todo _ _ _ hm
    · intro w
      constructor
      · rintro (h | ⟨id', reg', m, s, h1, h2, h3⟩)
        · exact .inl (.inl h)
        · have h1 : (c.todo.insert (id, reg) _).get? (id', reg') = some m := h1
          rw [AMap.get?_insert] at h1
          split at h1
          · next he => cases he; exact .inr ⟨(id, reg), by simp, s, h2, h3⟩
          · exact .inl (.inr ⟨id', reg', m, s, h1, h2, h3⟩)
      · have hget : ∀ id' reg', (∃ m, c.todo.get? (id', reg') = some m) ∨ (id', reg') = (id, reg) →
            ∃ m, (c.todo.insert (id, reg) ⟨o, p[id].children⟩).get? (id', reg') = some m := by
          intro id' reg' h
          rw [AMap.get?_insert]
          split
          · exact ⟨_, rfl⟩
          · next hne =>
            rcases h with h | h
            · exact h
            · exact absurd h.symm hne
        rintro ((h | ⟨id', reg', m, s, h1, h2, h3⟩) | ⟨o', ho', s, h2, h3⟩)
        · exact .inl h
        · obtain ⟨m', hm'⟩ := hget id' reg' (.inl ⟨m, h1⟩)
          exact .inr ⟨id', reg', m', s, hm', h2, h3⟩
        · simp at ho'
          subst ho'
          obtain ⟨m', hm'⟩ := hget id reg (.inr rfl)
          exact .inr ⟨id, reg, m', s, hm', h2, h3⟩
    · have := work_insert (fun k : Id × Nat => (c.subtreeSize[k.1]?).getD 0) c.todo (id, reg) (⟨o, p[id].children⟩ : ENode Op)
      simpa [Compiler.work] using this

theorem Added.trans {c c' c'' : Compiler Op} {n : Nat} {o1 o2 : List (Id × Nat)} (h1 : Added eg order p c c' n o1)
    (h2 : Added eg order p c' c'' n o2) : Added eg order p c c'' n (o1 ++ o2) := by
  refine ⟨h2.ci, ?_, h2.free.trans h1.free, h2.size.trans h1.size, h2.next.trans h1.next, ?_, ?_, ?_, ?_⟩
  · obtain ⟨l1, e1⟩ := h1.ext
    obtain ⟨l2, e2⟩ := h2.ext
    exact ⟨l1 ++ l2, by rw [e2, e1, List.append_assoc]⟩
  · intro σ c0 R
    rw [h2.sols, h1.sols]
    simp only [List.mem_append]
    constructor
    · rintro ⟨⟨a, b⟩, d⟩
      refine ⟨a, ?_⟩
      rintro o (ho | ho)
      · exact b o ho
      · exact d o ho
    · rintro ⟨a, b⟩
      exact ⟨⟨a, fun o ho => b o (.inl ho)⟩, fun o ho => b o (.inr ho)⟩
  · intro v
    rw [h2.vs, h1.vs]
    simp only [List.mem_append]
    constructor
    · rintro ((a | ⟨o, ho, b⟩) | ⟨o, ho, b⟩)
      · exact .inl a
      · exact .inr ⟨o, .inl ho, b⟩
      · exact .inr ⟨o, .inr ho, b⟩
    · rintro (a | ⟨o, (ho | ho), b⟩)
      · exact .inl (.inl a)
      · exact .inl (.inr ⟨o, ho, b⟩)
      · exact .inr ⟨o, ho, b⟩
  · have a := h1.work
    have b := h2.work
    rw [h1.size] at b
    simp only [List.map_append, List.sum_append]
    omega
  · exact fun v hv => h2.same (h1.same hv)

theorem Added.rfl' {c : Compiler Op} {n : Nat} (hc : CI p c n) : Added eg order p c c n [] :=
  ⟨hc, ⟨[], by simp⟩, rfl, rfl, rfl, by simp, by simp, by simp, fun _ h => h⟩

/-- The pairs (child, register) of a `Bind`. -/
def obsOf : List Id → Nat → List (Id × Nat)
  | [], _ => []
  | ch :: chs, out => (ch, out) :: obsOf chs (out + 1)

omit [DecidableEq Op] [Lang Op] in
theorem mem_obsOf {o : Id × Nat} : ∀ (l : List Id) (out : Nat), o ∈ obsOf l out ↔ ∃ j : Nat, l[j]? = some o.1 ∧ o.2 = out + j
  | [], out => by simp [obsOf]
  | ch :: chs, out => by
    unfold obsOf
    rw [List.mem_cons, mem_obsOf chs (out + 1)]
    constructor
    · rintro (rfl | ⟨j, h1, h2⟩)
      · exact ⟨0, by simp, by simp⟩
      · exact ⟨j + 1, by simpa using h1, by omega⟩
    · rintro ⟨j, h1, h2⟩
      cases j with
      | zero => left; cases o; simp at h1 h2; simp [h1, h2]
      | succ j => right; exact ⟨j, by simpa using h1, by omega⟩

omit [DecidableEq Op] [Lang Op] in
theorem map_obsOf {f : Id → Nat} : ∀ (l : List Id) (out : Nat), (obsOf l out).map (fun o => f o.1) = l.map f
  | [], _ => rfl
  | ch :: chs, out => by unfold obsOf; simp [map_obsOf chs]

theorem addTodos_spec (hd : Dag p) (hv : VarLeaf p) : ∀ (l : List Id) {c : Compiler Op} {n out : Nat}, CI p c n →
    (∀ ch ∈ l, ch < p.length) → out + l.length ≤ n →
    ∃ c', addTodos p c l out = .ok c' ∧ Added eg order p c c' n (obsOf l out)
  | [], c, n, out, hc, _, _ => ⟨c, rfl, Added.rfl' hc⟩
  | ch :: chs, c, n, out, hc, hl, ho => by
    simp at ho
    obtain ⟨c1, h1, h2⟩ := addTodo_spec (eg := eg) (order := order) hd hv hc (hl ch (by simp)) (show out < n by omega)
    obtain ⟨c2, h3, h4⟩ := addTodos_spec hd hv chs h2.ci (fun x hx => hl x (by simp [hx])) (show out + 1 + chs.length ≤ n by omega)
    refine ⟨c2, ?_, h2.trans h4⟩
    unfold addTodos
    rw [h1]
    exact h3

/-! ### One step of the loop -/

/-- What the loop of `compile` preserves, from state `(c, n)` to `(c', n')`. -/
structure Prog' (eg : EGraph Op D) (order : List Id) (p : PatternAst Op) (c : Compiler Op) (n : Nat) (c' : Compiler Op)
    (n' : Nat) : Prop where
  ci : CI p c' n'
  ext : ∃ l, c'.instrs = c.instrs ++ l
  next : c'.nextReg = c.nextReg
  sols : ∀ σ c0, (∃ R, Sols eg order p c' n' σ c0 R) ↔ ∃ R, Sols eg order p c n σ c0 R
  uniq : (∀ σ c0 R R', Sols eg order p c n σ c0 R → Sols eg order p c n σ c0 R' → R = R') →
    ∀ σ c0 R R', Sols eg order p c' n' σ c0 R → Sols eg order p c' n' σ c0 R' → R = R'
  vs : ∀ v, Vs p c' v ↔ Vs p c v
  same : c.v2r.keys ⊆ c'.v2r.keys

theorem Prog'.rfl' {c : Compiler Op} {n : Nat} (hc : CI p c n) : Prog' eg order p c n c n :=
  ⟨hc, ⟨[], by simp⟩, rfl, by simp, fun h => h, by simp, fun _ h => h⟩

theorem Prog'.trans {c c' c'' : Compiler Op} {n n' n'' : Nat} (h : Prog' eg order p c n c' n')
    (h' : Prog' eg order p c' n' c'' n'') : Prog' eg order p c n c'' n'' := by
  refine ⟨h'.ci, ?_, h'.next.trans h.next, fun σ c0 => (h'.sols σ c0).trans (h.sols σ c0), fun u => h'.uniq (h.uniq u),
    fun v => (h'.vs v).trans (h.vs v), fun v hv => h'.same (h.same hv)⟩
  obtain ⟨l1, e1⟩ := h.ext
  obtain ⟨l2, e2⟩ := h'.ext
  exact ⟨l1 ++ l2, by rw [e2, e1, List.append_assoc]⟩

omit [Lang Op] in
/-- Taking an entry off the work list. -/
theorem CI.erase {c : Compiler Op} {n : Nat} (hc : CI p c n) (k : Id × Nat) : CI p { c with todo := c.todo.erase k } n := by
  refine ⟨hc.laid, hc.tab, hc.vlt, hc.vkeys, ?_, AMap.nodup_erase hc.tkeys _⟩
  intro id reg m hm
  rw [AMap.get?_erase] at hm
  split at hm
  · cases hm
  · exact hc.tlt _ _ _ hm

theorem sols_erase {c : Compiler Op} {n : Nat} {id : Id} {reg : Nat} {m : ENode Op}
    (hm : c.todo.get? (id, reg) = some m) {σ : Var → Option Id} {c0 : Id} {R : List Id} :
    Sols eg order p c n σ c0 R ↔ Sols eg order p { c with todo := c.todo.erase (id, reg) } n σ c0 R ∧ Ob eg p σ R id reg := by
  constructor
  · intro hs
    refine ⟨⟨hs.len, hs.root, hs.valid, hs.sat, hs.vars, ?_⟩, hs.todo _ _ _ hm⟩
    intro id' reg' m' hm'
    have hm' : (c.todo.erase (id, reg)).get? (id', reg') = some m' := hm'
    rw [AMap.get?_erase] at hm'
    split at hm'
    · cases hm'
    · exact hs.todo _ _ _ hm'
  · rintro ⟨hs, ho⟩
    refine ⟨hs.len, hs.root, hs.valid, hs.sat, hs.vars, ?_⟩
    intro id' reg' m' hm'
    by_cases he : (id, reg) = (id', reg')
    · cases he; exact ho
    · exact hs.todo id' reg' m' (by
        show (c.todo.erase (id, reg)).get? (id', reg') = some m'
        rw [AMap.get?_erase, if_neg he]; exact hm')

omit [Lang Op] in
theorem vs_erase {c : Compiler Op} {id : Id} {reg : Nat} {m : ENode Op} (hm : c.todo.get? (id, reg) = some m)
    {t : Term (PatOp Op)} (ht : TermOf p id t) (v : Var) :
    Vs p c v ↔ Vs p { c with todo := c.todo.erase (id, reg) } v ∨ Occurs v t := by
  constructor
  · rintro (h | ⟨id', reg', m', s, h1, h2, h3⟩)
    · exact .inl (.inl h)
    · by_cases he : (id, reg) = (id', reg')
      · cases he; rw [h2.unique ht] at h3; exact .inr h3
      · refine .inl (.inr ⟨id', reg', m', s, ?_, h2, h3⟩)
        show (c.todo.erase (id, reg)).get? (id', reg') = some m'
        rw [AMap.get?_erase, if_neg he]; exact h1
  · rintro ((h | ⟨id', reg', m', s, h1, h2, h3⟩) | h)
    · exact .inl h
    · have h1 : (c.todo.erase (id, reg)).get? (id', reg') = some m' := h1
      rw [AMap.get?_erase] at h1
      split at h1
      · cases h1
      · exact .inr ⟨id', reg', m', s, h1, h2, h3⟩
    · exact .inr ⟨id, reg, m, t, hm, ht, h⟩

omit [Lang Op] in
theorem toReg_laid {v2r : AMap Var Nat} {n : Nat} (hn : ∀ v r, v2r.get? v = some r → r < n) :
    ∀ (rest : PatternAst Op) (term : List (ENodeOrReg Op)) (k : Nat),
    List.Forall₂ (fun n m => toReg v2r n = .ok m) rest term →
    (∀ (j : Nat) (m : ENode (PatOp Op)), rest[j]? = some m → ∀ c ∈ m.children, c < k + j) → TermLaid n k term := by
  intro rest
  induction rest with
  | nil => intro term k hf _; cases hf; trivial
  | cons a rest ih =>
    intro term k hf hlt
    cases hf with
    | @cons _ b _ bs h1 h2 =>
    have hrest := ih bs (k + 1) h2 (fun j m hm c hc => by
      have := hlt (j + 1) m (by simpa using hm) c hc; omega)
    unfold toReg at h1
    cases hop : a.op with
    | op o =>
      rw [hop] at h1
      cases h1
      exact ⟨hlt 0 a (by simp), hrest⟩
    | var v =>
      rw [hop] at h1
      simp only at h1
      rw [bind_eq_ok] at h1
      obtain ⟨r, hr, h1⟩ := h1
      cases h1
      exact ⟨hn v r (unwrap_eq_ok.1 hr), hrest⟩

omit [DecidableEq Op] [Lang Op] in
theorem slice_append {R S : List Id} {n : Nat} (hR : R.length = n) : ((R ++ S).drop n).take S.length = S := by
  rw [← hR, List.drop_left, List.take_length]

theorem matchingNodes_length {nodes : List (ENode Op)} {node m : ENode Op} (hm : m ∈ matchingNodes nodes node) :
    m.children.length = node.children.length := by
  have : node.matches m = true := by
    unfold matchingNodes at hm
    split at hm
    · exact (List.mem_filter.1 hm).2
    · exact (List.mem_filter.1 hm).2
  unfold ENode.matches at this
  simp at this
  exact this.2.symm

/-- Instructions do not see registers written after them. -/
theorem satI_append {instrs : List (Instr Op)} {k n : Nat} (hl : Laid instrs k n) {R S : List Id} (hR : R.length = n) :
    ∀ ins ∈ instrs, (SatI eg order (R ++ S) ins ↔ SatI eg order R ins) := by
  induction hl with
  | nil => simp
  | @bind node i k n rest hi hl ih =>
    intro ins hins
    rcases List.mem_cons.1 hins with rfl | hins
    · have hle := hl.le
      simp only [SatI]
      rw [List.getElem?_append_left (by omega)]
      have : ∀ m : ENode Op, m.children.length = node.children.length →
          ((R ++ S).drop k).take m.children.length = (R.drop k).take m.children.length := by
        intro m hm
        rw [List.drop_append_of_le_length (by omega), List.take_append_of_le_length (by simp; omega)]
      constructor
      · rintro ⟨x, cls, m, h1, h2, h3, h4⟩
        exact ⟨x, cls, m, h1, h2, h3, by rw [← this m (matchingNodes_length h3)]; exact h4⟩
      · rintro ⟨x, cls, m, h1, h2, h3, h4⟩
        exact ⟨x, cls, m, h1, h2, h3, by rw [this m (matchingNodes_length h3)]; exact h4⟩
    · exact ih hR ins hins
  | @compare i j k n rest hi hj hl ih =>
    intro ins hins
    rcases List.mem_cons.1 hins with rfl | hins
    · have hle := hl.le
      simp only [SatI]
      rw [List.getElem?_append_left (by omega), List.getElem?_append_left (by omega)]
    · exact ih hR ins hins
  | @lookup term i k n rest hi ht hl ih =>
    intro ins hins
    rcases List.mem_cons.1 hins with rfl | hins
    · have hle := hl.le
      simp only [SatI]
      rw [lookupOk_append (ht.mono (by omega)) (by omega)]
    · exact ih hR ins hins
  | @scan k n rest hl ih =>
    intro ins hins
    rcases List.mem_cons.1 hins with rfl | hins
    · have hle := hl.le
      simp only [SatI]
      rw [List.getElem?_append_left (by omega)]
    · exact ih hR ins hins

/-- Register contents after a `Bind`. -/
theorem sols_bind {c : Compiler Op} {n : Nat} (hc : CI p c n) {reg : Nat} (hreg : reg < n) {node : ENode Op}
    {ids : List Id} (hids : ids.length = node.children.length) {us : List (Term (PatOp Op))}
    (hus : List.Forall₂ (TermOf p) ids us) {σ : Var → Option Id} {c0 : Id} {R' : List Id} (h : EGraph.Inv C eg) :
    (Sols eg order p { c with instrs := c.instrs ++ [.bind node reg n] } (n + ids.length) σ c0 R' ∧
      ∀ o ∈ obsOf ids n, Ob eg p σ R' o.1 o.2) ↔
    ∃ R y cls q, R' = R ++ q.children ∧ Sols eg order p c n σ c0 R ∧ R[reg]? = some y ∧ eg.index y = .ok cls ∧
      q ∈ matchingNodes cls.nodes node ∧ List.Forall₂ (PMatch eg σ) q.children us := by
  have hn1 := hc.laid.le
  constructor
  · rintro ⟨hs, ho⟩
    obtain ⟨y, cls, q, h1, h2, h3, h4⟩ := hs.sat (.bind node reg n) (by simp)
    have hql := matchingNodes_length h3
    have hlen := hs.len
    have e : R' = R'.take n ++ q.children := by
      conv_lhs => rw [← List.take_append_drop n R']
      congr 1
      rw [← h4, List.take_of_length_le]
      simp; omega
    have hRl : (R'.take n).length = n := by simp; omega
    generalize R'.take n = R at e hRl
    subst e
    refine ⟨R, y, cls, q, rfl, ?_, ?_, h2, h3, ?_⟩
    · refine ⟨hRl, ?_, fun x hx => hs.valid x (List.mem_append_left _ hx), ?_, ?_, ?_⟩
      · rw [← hs.root, List.getElem?_append_left (by omega)]
      · intro ins hins
        exact (satI_append hc.laid hRl ins hins).1 (hs.sat ins (List.mem_append_left _ hins))
      · intro v r hv
        obtain ⟨x, z, g1, g2, g3⟩ := hs.vars v r hv
        rw [List.getElem?_append_left (by rw [hRl]; exact hc.vlt v r hv)] at g2
        exact ⟨x, z, g1, g2, g3⟩
      · intro id reg' m hm t ht
        obtain ⟨z, g1, g2⟩ := hs.todo id reg' m hm t ht
        rw [List.getElem?_append_left (by rw [hRl]; exact (hc.tlt _ _ _ hm).1)] at g1
        exact ⟨z, g1, g2⟩
    · rw [List.getElem?_append_left (by omega)] at h1; exact h1
    · rw [forall₂_iff_get?]
      rw [forall₂_iff_get?] at hus
      refine ⟨by rw [hql, ← hids, hus.1], ?_⟩
      intro j d u hd hu
      have hj := getElem?_lt hd
      have hidj : ids[j]? = some (ids[j]'(by omega)) := List.getElem?_eq_getElem (by omega)
      obtain ⟨z, g1, g2⟩ := ho (ids[j]'(by omega), n + j) ((mem_obsOf _ _).2 ⟨j, hidj, rfl⟩) u (hus.2 j _ u hidj hu)
      simp only at g1
      rw [List.getElem?_append_right (by omega), hRl, Nat.add_sub_cancel_left, hd] at g1
      cases g1
      exact g2
  · rintro ⟨R, y, cls, q, rfl, hs, h1, h2, h3, h4⟩
    have hql := matchingNodes_length h3
    have hlen := hs.len
    refine ⟨⟨by simp; omega, getElem?_prefix hs.root, ?_, ?_, ?_, ?_⟩, ?_⟩
    · intro x hx
      rcases List.mem_append.1 hx with hx | hx
      · exact hs.valid x hx
      · have : q ∈ cls.nodes := by
          unfold matchingNodes at h3
          split at h3
          · exact (List.mem_filter.1 h3).1
          · have := (List.mem_filter.1 h3).1
            have := (List.takeWhile_sublist _).subset this
            exact (List.drop_sublist _ _).subset this
        exact h.index_node_lt h2 this x hx
    · intro ins hins
      rcases List.mem_append.1 hins with hins | hins
      · exact (satI_append hc.laid hlen ins hins).2 (hs.sat ins hins)
      · simp at hins
        subst hins
        exact ⟨y, cls, q, getElem?_prefix h1, h2, h3, slice_append hlen⟩
    · intro v r hv
      obtain ⟨x, z, g1, g2, g3⟩ := hs.vars v r hv
      exact ⟨x, z, g1, getElem?_prefix g2, g3⟩
    · intro id reg' m hm t ht
      obtain ⟨z, g1, g2⟩ := hs.todo id reg' m hm t ht
      exact ⟨z, getElem?_prefix g1, g2⟩
    · rintro ⟨id, r⟩ ho t ht
      obtain ⟨j, g1, g2⟩ := (mem_obsOf _ _).1 ho
      simp only at g1 g2 ht ⊢
      subst g2
      rw [forall₂_iff_get?] at hus h4
      have hj := getElem?_lt g1
      have hu : us[j]? = some (us[j]'(by omega)) := List.getElem?_eq_getElem _
      have hq : q.children[j]? = some (q.children[j]'(by omega)) := List.getElem?_eq_getElem _
      rw [ht.unique (hus.2 j _ _ g1 hu)]
      refine ⟨_, ?_, h4.2 j _ _ hq hu⟩
      rw [List.getElem?_append_right (by omega), hlen, Nat.add_sub_cancel_left, hq]

theorem step_spec (h : EGraph.Inv C eg) (hr : Rebuilt eg) (hdc : DiscContiguous Op) (hd : Dag p) (hv : VarLeaf p)
    {c : Compiler Op} {n : Nat} (hc : CI p c n) {id : Id} {reg : Nat} {m : ENode Op}
    (hm : c.todo.get? (id, reg) = some m) {f : Nat} {c' : Compiler Op} {n' : Nat}
    (hs : step p f { c with todo := c.todo.erase (id, reg) } n id reg m = .ok (c', n')) :
    Prog' eg order p c n c' n' ∧ work c' < work c ∧ c'.instrs ≠ [] := by
  obtain ⟨hreg, hpid⟩ := hc.tlt _ _ _ hm
  have hc1 := hc.erase (id, reg)
  have hidl := getElem?_lt hpid
  obtain ⟨t, ht⟩ := hd.exists_term id hidl
  obtain ⟨us, rfl, hus⟩ : ∃ us, t = .node (.op m.op) us ∧ List.Forall₂ (TermOf p) m.children us := by
    cases t with
    | node op us =>
      rw [termOf_iff] at ht
      obtain ⟨n', g1, rfl, g3⟩ := ht
      rw [hpid] at g1; cases g1
      exact ⟨us, rfl, g3⟩
  have hsz := hc.tab.size id _ m.op hidl hpid rfl
  have hwk := work_erase (fun k : Id × Nat => (c.subtreeSize[k.1]?).getD 0) c.todo (id, reg) m hm
  simp only [hsz, Option.getD_some] at hwk
  have hobt : ∀ σ R, Ob eg p σ R id reg ↔ ∃ y, R[reg]? = some y ∧ PMatch eg σ y (.node (.op m.op) us) := by
    intro σ R
    constructor
    · intro h; exact h _ ht
    · intro h s hs; rw [hs.unique ht]; exact h
  obtain ⟨fv, hfv, hfv'⟩ := hc.tab.free id _ hidl ht
  unfold step isGroundNow at hs
  simp only [getIdx_eq_ok.2 hfv, ok_bind] at hs
  rw [show (pure (fv.all fun v => (c.v2r.get? v).isSome) : Res Bool) = .ok (fv.all fun v => (c.v2r.get? v).isSome) from rfl,
    ok_bind] at hs
  split at hs
  · next hg =>
    simp only [Bool.and_eq_true, List.all_eq_true] at hg
    rw [bind_eq_ok] at hs
    obtain ⟨e, he, hs⟩ := hs
    rw [bind_eq_ok] at hs
    obtain ⟨term, hterm, hs⟩ := hs
    cases hs
    obtain ⟨f0, e', hE, hE1, hE2, hE3⟩ := RecExpr.extract_spec ht
    have : e = e' := by
      have h1 := hE (max f f0) (Nat.le_max_right _ _)
      rw [RecExpr.extract_mono he (Nat.le_max_left _ _)] at h1
      cases h1; rfl
    subst this
    have hvE : VarLeaf e := by
      intro k hk v hkv
      obtain ⟨j, hj⟩ := List.mem_iff_getElem?.1 hk
      obtain ⟨u, hu⟩ := hE1.exists_term j (getElem?_lt hj)
      have hsub := live_subterm hE1 hE2 (hE3 j (getElem?_lt hj)) u hu
      cases u with
      | node op ws =>
        rw [termOf_iff] at hu
        obtain ⟨k', g1, rfl, g3⟩ := hu
        rw [hj] at g1; cases g1
        rw [hkv] at hsub
        have := hv.twf _ ht v ws hsub
        subst this
        cases g3' : k.children with
        | nil => rfl
        | cons a l => rw [g3'] at g3; cases g3
    have hsol : ∀ σ c0 R, Sols eg order p { c with todo := c.todo.erase (id, reg), instrs := c.instrs ++ [.lookup term reg] } n σ c0 R ↔
        Sols eg order p c n σ c0 R := by
      intro σ c0 R
      rw [sols_erase hm, hobt]
      constructor
      · intro hs
        refine ⟨⟨hs.len, hs.root, hs.valid, fun ins hi => hs.sat ins (List.mem_append_left _ hi), hs.vars, hs.todo⟩, ?_⟩
        have hy : R[reg]? = some (R[reg]'(by rw [hs.len]; exact hreg)) := List.getElem?_eq_getElem _
        refine ⟨_, hy, (lookupOk_iff h hr.pending hE1 hvE hE2 hE3 hs.valid hs.vars hterm hy).1 ?_⟩
        exact hs.sat (.lookup term reg) (by simp)
      · rintro ⟨hs, y, hy, hmt⟩
        refine ⟨hs.len, hs.root, hs.valid, ?_, hs.vars, hs.todo⟩
        intro ins hins
        rcases List.mem_append.1 hins with hins | hins
        · exact hs.sat ins hins
        · simp at hins
          subst hins
          exact (lookupOk_iff h hr.pending hE1 hvE hE2 hE3 hs.valid hs.vars hterm hy).2 hmt
    refine ⟨⟨?_, ⟨_, rfl⟩, rfl, fun σ c0 => exists_congr (fun R => hsol σ c0 R), ?_, ?_, fun _ h => h⟩, ?_, by simp⟩
    · refine ⟨hc1.laid.append (.lookup hreg ?_ .nil), hc1.tab, hc1.vlt, hc1.vkeys, hc1.tlt, hc1.tkeys⟩
      exact toReg_laid hc.vlt e term 0 (mapM_eq_ok.1 hterm) (fun j k hk x hx => by have := hE1 _ _ hk x hx; omega)
    · intro u σ c0 R R' h1 h2
      exact u σ c0 R R' ((hsol _ _ _).1 h1) ((hsol _ _ _).1 h2)
    · intro v
      rw [vs_erase hm ht]
      constructor
      · exact fun hh => .inl hh
      · rintro (hh | hh)
        · exact hh
        · exact .inl (Option.isSome_iff_exists.1 (hg.1 v ((hfv' v).2 hh)))
    · show ((c.todo.erase (id, reg)).map (fun e => (c.subtreeSize[e.1.1]?).getD 0)).sum <
        (c.todo.map (fun e => (c.subtreeSize[e.1.1]?).getD 0)).sum
      omega
  · rw [bind_eq_ok] at hs
    obtain ⟨c3, hs3, hs⟩ := hs
    cases hs
    have hids : m.children.length = (m.mapChildren (fun _ => 0)).children.length := by simp [ENode.mapChildren]
    have hc2 : CI p { c with todo := c.todo.erase (id, reg), instrs := c.instrs ++ [.bind (m.mapChildren (fun _ => 0)) reg n] }
        (n + m.children.length) := by
      refine ⟨?_, hc1.tab, fun v r hv => Nat.lt_of_lt_of_le (hc1.vlt v r hv) (Nat.le_add_right _ _), hc1.vkeys,
        fun a b k hk => ⟨Nat.lt_of_lt_of_le (hc1.tlt a b k hk).1 (Nat.le_add_right _ _), (hc1.tlt a b k hk).2⟩, hc1.tkeys⟩
      refine hc1.laid.append (.bind hreg ?_)
      rw [← hids]
      exact .nil
    obtain ⟨c3', e3, ha⟩ := addTodos_spec (eg := eg) (order := order) hd hv m.children (out := n) hc2
      (fun ch hch => by have := hd _ _ hpid ch hch; omega) (Nat.le_refl _)
    rw [hs3] at e3; cases e3
    have hsb := fun σ c0 R' => (ha.sols σ c0 R').trans
      (sols_bind (order := order) (R' := R') (σ := σ) (c0 := c0) hc1 hreg hids hus h)
    have hmn : ∀ {cls : EClass Op D} {y : Id} {q : ENode Op}, eg.index y = .ok cls →
        (q ∈ matchingNodes cls.nodes (m.mapChildren (fun _ => 0)) ↔ q ∈ cls.nodes ∧ q.op = m.op ∧ q.children.length = m.children.length) := by
      intro cls y q hy
      rw [mem_matchingNodes hdc (hr.sorted _ _ (h.index_iff.1 hy).2)]
      simp [ENode.mapChildren]
    have hback : ∀ σ c0 R y cls q, Sols eg order p { c with todo := c.todo.erase (id, reg) } n σ c0 R → R[reg]? = some y →
        eg.index y = .ok cls → q ∈ matchingNodes cls.nodes (m.mapChildren (fun _ => 0)) →
        List.Forall₂ (PMatch eg σ) q.children us → Sols eg order p c n σ c0 R := by
      intro σ c0 R y cls q h1 h2 h3 h4 h5
      rw [sols_erase hm, hobt]
      rw [hmn h3] at h4
      exact ⟨h1, y, h2, pmatch_node_iff.2 ⟨cls, q, h3, h4.1, h4.2.1, h5⟩⟩
    refine ⟨⟨ha.ci, ?_, ha.next, ?_, ?_, ?_, ha.same⟩, ?_, ?_⟩
    · obtain ⟨l, hl⟩ := ha.ext
      exact ⟨[.bind (m.mapChildren (fun _ => 0)) reg n] ++ l, by rw [hl]; simp⟩
    · intro σ c0
      constructor
      · rintro ⟨R', hR'⟩
        obtain ⟨R, y, cls, q, _, h1, h2, h3, h4, h5⟩ := (hsb σ c0 R').1 hR'
        exact ⟨R, hback σ c0 R y cls q h1 h2 h3 h4 h5⟩
      · rintro ⟨R, hR⟩
        rw [sols_erase hm, hobt] at hR
        obtain ⟨hR, y, hy, hmt⟩ := hR
        rw [pmatch_node_iff] at hmt
        obtain ⟨cls, q, g1, g2, g3, g4⟩ := hmt
        refine ⟨R ++ q.children, (hsb σ c0 _).2 ⟨R, y, cls, q, rfl, hR, hy, g1, (hmn g1).2 ⟨g2, g3, ?_⟩, g4⟩⟩
        rw [g4.length_eq, hus.length_eq]
    · intro u σ c0 R1 R2 h1 h2
      obtain ⟨R, y, cls, q, rfl, a1, a2, a3, a4, a5⟩ := (hsb σ c0 R1).1 h1
      obtain ⟨R', y', cls', q', rfl, b1, b2, b3, b4, b5⟩ := (hsb σ c0 R2).1 h2
      have := u σ c0 R R' (hback σ c0 R y cls q a1 a2 a3 a4 a5) (hback σ c0 R' y' cls' q' b1 b2 b3 b4 b5)
      subst this
      rw [a2] at b2; cases b2
      rw [a3] at b3; cases b3
      congr 1
      have hcan : ∀ {q : ENode Op}, q ∈ cls.nodes → ∀ ch ∈ q.children, eg.rt ch = ch := by
        intro q hq ch hch
        exact (h.find_iff.1 (hr.canon _ _ (h.index_iff.1 a3).2 q hq ch hch)).2
      have := forall₂_comp (T := fun a b => _root_.id a = _root_.id b) a5 (forall₂_flip b5) (fun a u b ha _ hb h1 h2 => by
        have := (h.sameClass_iff.1 (EGraph.InvW.pmatch_det h hr.pending u h1 h2)).2.2
        rw [hcan ((hmn a3).1 a4).1 a ha, hcan ((hmn a3).1 b4).1 b hb] at this
        exact this)
      simpa using forall₂_map_eq.1 this
    · intro v
      rw [ha.vs, vs_erase hm ht]
      refine or_congr Iff.rfl ?_
      constructor
      · rintro ⟨⟨ch, r⟩, ho, s, hs1, hs2⟩
        obtain ⟨j, g1, _⟩ := (mem_obsOf _ _).1 ho
        obtain ⟨w, hw1, hw2⟩ := forall₂_mem_left hus (List.mem_of_getElem? g1)
        rw [hs1.unique hw2] at hs2
        exact .arg hw1 hs2
      · intro hocc
        cases hocc with
        | arg hw hocc =>
          rw [forall₂_iff_get?] at hus
          obtain ⟨j, hj⟩ := List.mem_iff_getElem?.1 hw
          have hjl := getElem?_lt hj
          have hch : m.children[j]? = some (m.children[j]'(by omega)) := List.getElem?_eq_getElem _
          exact ⟨(m.children[j]'(by omega), n + j), (mem_obsOf _ _).2 ⟨j, hch, rfl⟩, _, hus.2 j _ _ hch hj, hocc⟩
    · have hw3 := ha.work
      rw [map_obsOf (f := fun ch => (c.subtreeSize[ch]?).getD 0)] at hw3
      have : work { c with todo := c.todo.erase (id, reg), instrs := c.instrs ++ [.bind (m.mapChildren (fun _ => 0)) reg n] } =
        ((c.todo.erase (id, reg)).map (fun e => (c.subtreeSize[e.1.1]?).getD 0)).sum := rfl
      rw [this] at hw3
      unfold work at hw3 ⊢
      omega
    · obtain ⟨l, hl⟩ := ha.ext
      rw [hl]; simp

/-- A step of the loop succeeds when the extraction fuel suffices. -/
theorem step_total (hd : Dag p) (hv : VarLeaf p) {c : Compiler Op} {n : Nat} (hc : CI p c n) {id : Id} {reg : Nat}
    {m : ENode Op} (hm : c.todo.get? (id, reg) = some m) {f : Nat} (hf : ∃ e, RecExpr.extract f p id = .ok e) :
    ∃ c' n', step p f { c with todo := c.todo.erase (id, reg) } n id reg m = .ok (c', n') := by
  obtain ⟨hreg, hpid⟩ := hc.tlt _ _ _ hm
  have hidl := getElem?_lt hpid
  obtain ⟨t, ht⟩ := hd.exists_term id hidl
  obtain ⟨fv, hfv, hfv'⟩ := hc.tab.free id _ hidl ht
  unfold step isGroundNow
  simp only [getIdx_eq_ok.2 hfv, ok_bind]
  rw [show (pure (fv.all fun v => (c.v2r.get? v).isSome) : Res Bool) = .ok (fv.all fun v => (c.v2r.get? v).isSome) from rfl,
    ok_bind]
  split
  · next hg =>
    simp only [Bool.and_eq_true, List.all_eq_true] at hg
    obtain ⟨e, he⟩ := hf
    obtain ⟨f0, e', hE, hE1, hE2, hE3⟩ := RecExpr.extract_spec ht
    have : e = e' := by
      have h1 := hE (max f f0) (Nat.le_max_right _ _)
      rw [RecExpr.extract_mono he (Nat.le_max_left _ _)] at h1
      cases h1; rfl
    subst this
    obtain ⟨term, hterm⟩ := forall₂_exists (R := fun k r => toReg c.v2r k = .ok r) (as := e) (by
      intro k hk
      unfold toReg
      cases hop : k.op with
      | op o => exact ⟨_, rfl⟩
      | var v =>
        simp only
        obtain ⟨j, hj⟩ := List.mem_iff_getElem?.1 hk
        obtain ⟨u, hu⟩ := hE1.exists_term j (getElem?_lt hj)
        have hsub := live_subterm hE1 hE2 (hE3 j (getElem?_lt hj)) u hu
        cases u with
        | node op ws =>
          rw [termOf_iff] at hu
          obtain ⟨k', g1, rfl, g3⟩ := hu
          rw [hj] at g1; cases g1
          rw [hop] at hsub
          have := hv.twf _ ht v ws hsub
          subst this
          obtain ⟨r, hr⟩ := Option.isSome_iff_exists.1 (hg.1 v ((hfv' v).2 hsub))
          rw [hr]
          exact ⟨.reg r, rfl⟩)
    rw [he]
    simp only [ok_bind]
    rw [mapM_eq_ok.2 hterm]
    exact ⟨_, _, rfl⟩
  · have hc2 : CI p { c with todo := c.todo.erase (id, reg), instrs := c.instrs ++ [.bind (m.mapChildren (fun _ => 0)) reg n] }
        (n + m.children.length) := by
      have hc1 := hc.erase (id, reg)
      refine ⟨?_, hc1.tab, fun v r hv => Nat.lt_of_lt_of_le (hc1.vlt v r hv) (Nat.le_add_right _ _), hc1.vkeys,
        fun a b k hk => ⟨Nat.lt_of_lt_of_le (hc1.tlt a b k hk).1 (Nat.le_add_right _ _), (hc1.tlt a b k hk).2⟩, hc1.tkeys⟩
      refine hc1.laid.append (.bind hreg ?_)
      simp only [ENode.mapChildren, List.length_map]
      exact .nil
    obtain ⟨c3, e3, _⟩ := addTodos_spec (eg := (EGraph.new : EGraph Op Unit)) (order := []) hd hv m.children (out := n) hc2
      (fun ch hch => by have := hd _ _ hpid ch hch; omega) (Nat.le_refl _)
    rw [e3]
    exact ⟨_, _, rfl⟩

/-! ### The loop -/

omit [Lang Op] in
theorem maxByKey_none {c : Compiler Op} : ∀ {l : List (Id × Nat)}, maxByKey c l = .ok none → l = []
  | [], _ => rfl
  | k :: l, h => by
    unfold maxByKey at h
    rw [bind_eq_ok] at h
    obtain ⟨m, _, h⟩ := h
    rw [bind_eq_ok] at h
    obtain ⟨kk, _, h⟩ := h
    cases m with
    | none => cases h
    | some m => simp only [pure, Except.pure, Except.ok.injEq] at h; split at h <;> cases h

omit [Lang Op] in
theorem maxByKey_some {c : Compiler Op} : ∀ {l : List (Id × Nat)} {i r : Nat} {q}, maxByKey c l = .ok (some (i, r, q)) → (i, r) ∈ l
  | [], _, _, _, h => by cases h
  | k :: l, i, r, q, h => by
    unfold maxByKey at h
    rw [bind_eq_ok] at h
    obtain ⟨m, hm, h⟩ := h
    rw [bind_eq_ok] at h
    obtain ⟨kk, _, h⟩ := h
    cases m with
    | none => cases h; simp
    | some m =>
      simp only [pure, Except.pure, Except.ok.injEq] at h
      split at h
      · cases h; exact List.mem_cons_of_mem _ (maxByKey_some hm)
      · cases h; simp

omit [Lang Op] in
theorem maxByKey_total {c : Compiler Op} : ∀ {l : List (Id × Nat)}, (∀ k ∈ l, ∃ q, c.key k = .ok q) → ∃ o, maxByKey c l = .ok o
  | [], _ => ⟨_, rfl⟩
  | k :: l, h => by
    obtain ⟨m, hm⟩ := maxByKey_total (fun k hk => h k (List.mem_cons_of_mem _ hk))
    obtain ⟨q, hq⟩ := h k (by simp)
    unfold maxByKey
    rw [hm, hq]
    simp only [ok_bind]
    cases m <;> exact ⟨_, rfl⟩

omit [Lang Op] in
theorem next_cases {ord : Compiler Op → List (Id × Nat)} (ho : OrdOK ord) {c : Compiler Op} {r}
    (h : c.next ord = .ok r) :
    (r = none ∧ c.todo = []) ∨ ∃ id reg m, r = some ((id, reg), m, { c with todo := c.todo.erase (id, reg) }) ∧
      c.todo.get? (id, reg) = some m := by
  unfold next at h
  rw [bind_eq_ok] at h
  obtain ⟨o, h1, h2⟩ := h
  cases o with
  | none =>
    cases h2
    left
    refine ⟨rfl, ?_⟩
    have := ho c
    rw [maxByKey_none h1] at this
    have := this.symm.eq_nil
    unfold AMap.keys at this
    simpa using this
  | some q =>
    obtain ⟨i, r, q⟩ := q
    simp only at h2
    rw [bind_eq_ok] at h2
    obtain ⟨m, h3, h4⟩ := h2
    cases h4
    exact .inr ⟨i, r, m, rfl, unwrap_eq_ok.1 h3⟩

omit [Lang Op] in
theorem next_total {ord : Compiler Op → List (Id × Nat)} (ho : OrdOK ord) {c : Compiler Op} {n : Nat} (hc : CI p c n) :
    ∃ r, c.next ord = .ok r := by
  have hkey : ∀ k ∈ ord c, ∃ m, c.todo.get? k = some m := by
    intro k hk
    rw [(ho c).mem_iff, ← AMap.get?_isSome_iff] at hk
    exact Option.isSome_iff_exists.1 hk
  obtain ⟨o, h1⟩ := maxByKey_total (c := c) (l := ord c) (by
    rintro ⟨i, r⟩ hk
    obtain ⟨m, hm⟩ := hkey _ hk
    have hi := getElem?_lt (hc.tlt i r m hm).2
    unfold key
    rw [getIdx_lt (show i < c.freeVars.length by rw [hc.tab.flen]; exact hi),
      getIdx_lt (show i < c.subtreeSize.length by rw [hc.tab.slen]; exact hi)]
    exact ⟨_, rfl⟩)
  unfold next
  rw [h1]
  simp only [ok_bind]
  cases o with
  | none => exact ⟨_, rfl⟩
  | some q =>
    obtain ⟨i, r, q⟩ := q
    obtain ⟨m, hm⟩ := hkey _ (maxByKey_some h1)
    simp only [hm]
    exact ⟨_, rfl⟩

theorem loop_spec {ord : Compiler Op → List (Id × Nat)} (ho : OrdOK ord) (h : EGraph.Inv C eg) (hr : Rebuilt eg)
    (hdc : DiscContiguous Op) (hd : Dag p) (hv : VarLeaf p) : ∀ (f : Nat) {c : Compiler Op} {n : Nat} {c' : Compiler Op} {n' : Nat},
    CI p c n → loop ord p f c n = .ok (c', n') →
    Prog' eg order p c n c' n' ∧ c'.todo = [] ∧ (c.todo ≠ [] → c'.instrs ≠ [])
  | 0, _, _, _, _, _, hl => by cases hl
  | f + 1, c, n, c', n', hc, hl => by
    unfold loop at hl
    rw [bind_eq_ok] at hl
    obtain ⟨r, h1, h2⟩ := hl
    rcases next_cases ho h1 with ⟨rfl, ht⟩ | ⟨id, reg, m, rfl, hm⟩
    · cases h2
      exact ⟨Prog'.rfl' hc, ht, fun hne => absurd ht hne⟩
    · simp only at h2
      rw [bind_eq_ok] at h2
      obtain ⟨⟨c1, n1⟩, h3, h4⟩ := h2
      obtain ⟨a1, a2, a3⟩ := step_spec (order := order) h hr hdc hd hv hc hm h3
      obtain ⟨b1, b2, b3⟩ := loop_spec ho h hr hdc hd hv f a1.ci h4
      refine ⟨a1.trans b1, b2, fun _ => ?_⟩
      obtain ⟨l, hl⟩ := b1.ext
      rw [hl]
      simp [a3]

/-- The work list shrinks. -/
theorem step_work (hd : Dag p) (hv : VarLeaf p) {c : Compiler Op} {n : Nat} (hc : CI p c n) {id : Id} {reg : Nat}
    {m : ENode Op} (hm : c.todo.get? (id, reg) = some m) {f : Nat} {c' : Compiler Op} {n' : Nat}
    (hs : step p f { c with todo := c.todo.erase (id, reg) } n id reg m = .ok (c', n')) :
    CI p c' n' ∧ work c' < work c := by
  obtain ⟨hreg, hpid⟩ := hc.tlt _ _ _ hm
  have hc1 := hc.erase (id, reg)
  have hidl := getElem?_lt hpid
  have hsz := hc.tab.size id _ m.op hidl hpid rfl
  have hwk := work_erase (fun k : Id × Nat => (c.subtreeSize[k.1]?).getD 0) c.todo (id, reg) m hm
  simp only [hsz, Option.getD_some] at hwk
  obtain ⟨t, ht⟩ := hd.exists_term id hidl
  obtain ⟨fv, hfv, hfv'⟩ := hc.tab.free id _ hidl ht
  unfold step isGroundNow at hs
  simp only [getIdx_eq_ok.2 hfv, ok_bind] at hs
  rw [show (pure (fv.all fun v => (c.v2r.get? v).isSome) : Res Bool) = .ok (fv.all fun v => (c.v2r.get? v).isSome) from rfl,
    ok_bind] at hs
  split at hs
  · rw [bind_eq_ok] at hs
    obtain ⟨e, he, hs⟩ := hs
    rw [bind_eq_ok] at hs
    obtain ⟨term, hterm, hs⟩ := hs
    cases hs
    obtain ⟨f0, e', hE, hE1, hE2, hE3⟩ := RecExpr.extract_spec ht
    have : e = e' := by
      have h1 := hE (max f f0) (Nat.le_max_right _ _)
      rw [RecExpr.extract_mono he (Nat.le_max_left _ _)] at h1
      cases h1; rfl
    subst this
    refine ⟨⟨hc1.laid.append (.lookup hreg ?_ .nil), hc1.tab, hc1.vlt, hc1.vkeys, hc1.tlt, hc1.tkeys⟩, ?_⟩
    · exact toReg_laid hc.vlt e term 0 (mapM_eq_ok.1 hterm) (fun j k hk x hx => by have := hE1 _ _ hk x hx; omega)
    · show ((c.todo.erase (id, reg)).map (fun e => (c.subtreeSize[e.1.1]?).getD 0)).sum <
        (c.todo.map (fun e => (c.subtreeSize[e.1.1]?).getD 0)).sum
      omega
  · rw [bind_eq_ok] at hs
    obtain ⟨c3, hs3, hs⟩ := hs
    cases hs
    have hc2 : CI p { c with todo := c.todo.erase (id, reg), instrs := c.instrs ++ [.bind (m.mapChildren (fun _ => 0)) reg n] }
        (n + m.children.length) := by
      refine ⟨?_, hc1.tab, fun v r hv => Nat.lt_of_lt_of_le (hc1.vlt v r hv) (Nat.le_add_right _ _), hc1.vkeys,
        fun a b k hk => ⟨Nat.lt_of_lt_of_le (hc1.tlt a b k hk).1 (Nat.le_add_right _ _), (hc1.tlt a b k hk).2⟩, hc1.tkeys⟩
      refine hc1.laid.append (.bind hreg ?_)
      simp only [ENode.mapChildren, List.length_map]
      exact .nil
    obtain ⟨c3', e3, ha⟩ := addTodos_spec (eg := (EGraph.new : EGraph Op Unit)) (order := []) hd hv m.children (out := n) hc2
      (fun ch hch => by have := hd _ _ hpid ch hch; omega) (Nat.le_refl _)
    rw [hs3] at e3; cases e3
    refine ⟨ha.ci, ?_⟩
    have hw3 := ha.work
    rw [map_obsOf (f := fun ch => (c.subtreeSize[ch]?).getD 0)] at hw3
    have : work { c with todo := c.todo.erase (id, reg), instrs := c.instrs ++ [.bind (m.mapChildren (fun _ => 0)) reg n] } =
      ((c.todo.erase (id, reg)).map (fun e => (c.subtreeSize[e.1.1]?).getD 0)).sum := rfl
    rw [this] at hw3
    unfold work at hw3 ⊢
    omega

theorem loop_total {ord : Compiler Op → List (Id × Nat)} (ho : OrdOK ord) (hd : Dag p) (hv : VarLeaf p) {F : Nat}
    (hF : ∀ f id, F ≤ f → id < p.length → ∃ e, RecExpr.extract f p id = .ok e) :
    ∀ (k : Nat) {c : Compiler Op} {n : Nat}, CI p c n → work c ≤ k → ∀ f, F + k + 1 ≤ f →
      ∃ c' n', loop ord p f c n = .ok (c', n') ∧ CI p c' n' ∧ c'.todo = [] := by
  intro k
  induction k with
  | zero =>
    intro c n hc hk f hf
    obtain ⟨f, rfl⟩ : ∃ g, f = g + 1 := ⟨f - 1, by omega⟩
    unfold loop
    obtain ⟨r, h1⟩ := next_total ho hc
    rw [h1]
    simp only [ok_bind]
    rcases next_cases ho h1 with ⟨rfl, ht⟩ | ⟨id, reg, m, rfl, hm⟩
    · exact ⟨c, n, rfl, hc, ht⟩
    · obtain ⟨c1, n1, h3⟩ := step_total hd hv hc hm (hF f id (by omega) (getElem?_lt (hc.tlt _ _ _ hm).2))
      have := step_work hd hv hc hm h3
      omega
  | succ k ih =>
    intro c n hc hk f hf
    obtain ⟨f, rfl⟩ : ∃ g, f = g + 1 := ⟨f - 1, by omega⟩
    unfold loop
    obtain ⟨r, h1⟩ := next_total ho hc
    rw [h1]
    simp only [ok_bind]
    rcases next_cases ho h1 with ⟨rfl, ht⟩ | ⟨id, reg, m, rfl, hm⟩
    · exact ⟨c, n, rfl, hc, ht⟩
    · obtain ⟨c1, n1, h3⟩ := step_total hd hv hc hm (hF f id (by omega) (getElem?_lt (hc.tlt _ _ _ hm).2))
      have hw := step_work hd hv hc hm h3
      simp only [h3, ok_bind]
      exact ih hw.1 (by omega) f (by omega)

/-! ### Whole patterns -/

/-- The compiler between two patterns: nothing to do; the solutions for the
assignment `σ` and root class `c0` exist exactly when `Q σ c0`, are unique, and
the bound variables are given by `V`. -/
structure Fin (eg : EGraph Op D) (order : List Id) (c : Compiler Op) (Q : (Var → Option Id) → Id → Prop)
    (V : Var → Prop) : Prop where
  laid : Laid c.instrs 1 c.nextReg
  vlt : ∀ v r, c.v2r.get? v = some r → r < c.nextReg
  vkeys : (AMap.keys c.v2r).Nodup
  todo : c.todo = []
  sols : ∀ σ c0, (∃ R, Sols eg order [] c c.nextReg σ c0 R) ↔ Q σ c0
  uniq : ∀ σ c0 R R', Sols eg order [] c c.nextReg σ c0 R → Sols eg order [] c c.nextReg σ c0 R' → R = R'
  vs : ∀ v, (∃ r, c.v2r.get? v = some r) ↔ V v

/-- Solutions depend on instructions, variables and work list only. -/
theorem sols_irrel {c c' : Compiler Op} {p p' : PatternAst Op} {n : Nat} {σ : Var → Option Id} {c0 : Id} {R : List Id}
    (h1 : c'.instrs = c.instrs) (h2 : c'.v2r = c.v2r) (h3 : c.todo = []) (h4 : c'.todo = []) :
    Sols eg order p c n σ c0 R ↔ Sols eg order p' c' n σ c0 R := by
  constructor
  · intro hs
    exact ⟨hs.len, hs.root, hs.valid, by rw [h1]; exact hs.sat, by rw [h2]; exact hs.vars,
      by rw [h4]; intro _ _ _ h; simp [AMap.get?] at h⟩
  · intro hs
    exact ⟨hs.len, hs.root, hs.valid, by rw [← h1]; exact hs.sat, by rw [← h2]; exact hs.vars,
      by rw [h3]; intro _ _ _ h; simp [AMap.get?] at h⟩

/-- Binding the name of a pattern to its root register. -/
theorem insertVar_spec {c : Compiler Op} {n : Nat} (hc : CI p c n) {v : Var} {r : Nat} (hr : r < n)
    (hv : ∀ r', c.v2r.get? v = some r' → r' = r) :
    CI p { c with v2r := c.v2r.insert v r } n ∧
    (∀ σ c0 R, Sols eg order p { c with v2r := c.v2r.insert v r } n σ c0 R ↔ Sols eg order p c n σ c0 R ∧
      ∃ x y, σ v = some x ∧ R[r]? = some y ∧ SameClass eg x y) ∧
    (∀ w, Vs p { c with v2r := c.v2r.insert v r } w ↔ Vs p c w ∨ w = v) := by
  refine ⟨⟨hc.laid, hc.tab, ?_, AMap.nodup_insert hc.vkeys _ _, hc.tlt, hc.tkeys⟩, ?_, ?_⟩
  · intro w r' hw
    rw [AMap.get?_insert] at hw
    split at hw
    · cases hw; exact hr
    · exact hc.vlt _ _ hw
  · intro σ c0 R
    constructor
    · intro hs
      refine ⟨⟨hs.len, hs.root, hs.valid, hs.sat, ?_, hs.todo⟩, hs.vars v r ?_⟩
      · intro w r' hw
        refine hs.vars w r' ?_
        show (c.v2r.insert v r).get? w = some r'
        rw [AMap.get?_insert]
        split
        · next he => subst he; rw [hv r' hw]
        · exact hw
      · show (c.v2r.insert v r).get? v = some r
        rw [AMap.get?_insert, if_pos rfl]
    · rintro ⟨hs, x, y, h1, h2, h3⟩
      refine ⟨hs.len, hs.root, hs.valid, hs.sat, ?_, hs.todo⟩
      intro w r' hw
      have hw : (c.v2r.insert v r).get? w = some r' := hw
      rw [AMap.get?_insert] at hw
      split at hw
      · next he =>
        subst he
        have : r = r' := Option.some.inj ‹_›
        subst this
        exact ⟨x, y, h1, h2, h3⟩
      · exact hs.vars w r' hw
  · intro w
    have hget : (∃ r', (c.v2r.insert v r).get? w = some r') ↔ (∃ r', c.v2r.get? w = some r') ∨ w = v := by
      rw [AMap.get?_insert]
      split
      · next he => subst he; simp
      · next he =>
        constructor
        · exact fun h => .inl h
        · rintro (h | h)
          · exact h
          · exact absurd h.symm he
    unfold Vs
    show ((∃ r', (c.v2r.insert v r).get? w = some r') ∨ _) ↔ _
    rw [hget]
    exact or_right_comm

theorem vs_todo_nil {c : Compiler Op} (ht : c.todo = []) (w : Var) : Vs p c w ↔ ∃ r, c.v2r.get? w = some r := by
  constructor
  · rintro (h | ⟨_, _, _, _, h, _⟩)
    · exact h
    · rw [ht] at h; simp [AMap.get?] at h
  · exact fun h => .inl h

theorem loop_fin {ord : Compiler Op → List (Id × Nat)} (ho : OrdOK ord) (h : EGraph.Inv C eg) (hr : Rebuilt eg)
    (hdc : DiscContiguous Op) (hd : Dag p) (hv : VarLeaf p) {f : Nat} {c : Compiler Op} {n : Nat} {c' : Compiler Op} {n' : Nat}
    (hc : CI p c n) (hl : loop ord p f c n = .ok (c', n'))
    (hu : ∀ σ c0 R R', Sols eg order p c n σ c0 R → Sols eg order p c n σ c0 R' → R = R')
    {Q : (Var → Option Id) → Id → Prop} (hQ : ∀ σ c0, (∃ R, Sols eg order p c n σ c0 R) ↔ Q σ c0)
    {V : Var → Prop} (hV : ∀ v, Vs p c v ↔ V v) :
    Fin eg order { c' with nextReg := n' } Q V ∧ (c.instrs ≠ [] ∨ c.todo ≠ [] → c'.instrs ≠ []) := by
  obtain ⟨h1, h2, h3⟩ := loop_spec (order := order) ho h hr hdc hd hv f hc hl
  have hirr : ∀ σ c0 R, Sols eg order [] { c' with nextReg := n' } n' σ c0 R ↔ Sols eg order p c' n' σ c0 R :=
    fun σ c0 R => sols_irrel rfl rfl h2 h2
  refine ⟨⟨h1.ci.laid, h1.ci.vlt, h1.ci.vkeys, h2, ?_, ?_, ?_⟩, ?_⟩
  · intro σ c0
    rw [← hQ, ← h1.sols]
    exact exists_congr (fun R => hirr σ c0 R)
  · intro σ c0 R R' a b
    exact h1.uniq hu σ c0 R R' ((hirr _ _ _).1 a) ((hirr _ _ _).1 b)
  · intro v
    rw [← hV, ← h1.vs, vs_todo_nil h2]
  · rintro (hne | hne)
    · obtain ⟨l, hl⟩ := h1.ext
      rw [hl]; simp [hne]
    · exact h3 hne

theorem load_spec {c : Compiler Op} (hd : Dag p) (hv : VarLeaf p) :
    ∃ free size, c.loadPattern p = .ok { c with freeVars := free, subtreeSize := size } ∧ Tables p p.length free size := by
  obtain ⟨free, size, h1, h2⟩ := loadGo_spec hd hv p [] [] [] (by simp)
    ⟨rfl, rfl, by intro _ _ h; simp at h, by intro _ _ _ h; simp at h⟩
  refine ⟨free, size, ?_, h2⟩
  unfold loadPattern
  rw [h1]
  rfl

/-- Solutions of the empty program with a single register. -/
theorem sols_single {c : Compiler Op} (h1 : c.instrs = []) (h2 : c.v2r = []) (h3 : c.todo = []) {σ : Var → Option Id}
    {c0 : Id} {R : List Id} : Sols eg order p c 1 σ c0 R ↔ R = [c0] ∧ c0 < eg.nodes.length := by
  constructor
  · intro hs
    have := hs.len
    have hr := hs.root
    have hv := hs.valid
    cases R with
    | nil => simp at this
    | cons a l =>
      cases l with
      | cons b l => simp at this
      | nil =>
        simp at hr
        subst hr
        exact ⟨rfl, hv a (by simp)⟩
  · rintro ⟨rfl, hl⟩
    refine ⟨rfl, rfl, by simpa using hl, by rw [h1]; simp, by rw [h2]; simp [AMap.get?], by rw [h3]; simp [AMap.get?]⟩

omit [DecidableEq Op] [Lang Op] in
theorem root_eq {e : List (ENode Op)} (he : e ≠ []) : RecExpr.root e = .ok (e.length - 1) := by
  unfold RecExpr.root
  cases e with
  | nil => exact absurd rfl he
  | cons a l => rfl

/-- Compiling the first pattern. -/
theorem compile_first {ord : Compiler Op → List (Id × Nat)} (ho : OrdOK ord) (h : EGraph.Inv C eg) (hr : Rebuilt eg)
    (hdc : DiscContiguous Op) (hd : Dag p) (hv : VarLeaf p) {t : Term (PatOp Op)} (ht : ExprTerm p t) {f : Nat}
    {b : Option Var} {c' : Compiler Op} (hc' : Compiler.new.compile ord f b p = .ok c') :
    Fin eg order c' (fun σ c0 => PMatch eg σ c0 t ∧ ∀ v, b = some v → ∃ x, σ v = some x ∧ SameClass eg x c0)
      (fun v => Occurs v t ∨ b = some v) ∧ ((∃ o ts, t = .node (.op o) ts) → c'.instrs ≠ []) := by
  have hpl : 0 < p.length := List.length_pos_iff.2 ht.1
  unfold compile at hc'
  obtain ⟨free, size, e1, htab⟩ := load_spec (c := Compiler.new) hd hv
  rw [e1] at hc'
  simp only [ok_bind, root_eq ht.1] at hc'
  generalize hcc : ({ Compiler.new with freeVars := free, subtreeSize := size } : Compiler Op) = c0' at hc'
  have hi : c0'.instrs = [] := by rw [← hcc]; rfl
  have hv2 : c0'.v2r = [] := by rw [← hcc]; rfl
  have htd : c0'.todo = [] := by rw [← hcc]; rfl
  have hnr : c0'.nextReg = 0 := by rw [← hcc]; rfl
  have hci : CI p c0' 1 := by
    refine ⟨by rw [hi]; exact .nil, by rw [← hcc]; exact htab, ?_, by rw [hv2]; simp [AMap.keys], ?_, by rw [htd]; simp [AMap.keys]⟩
    · rw [hv2]; intro v r h; simp [AMap.get?] at h
    · rw [htd]; intro v r m h; simp [AMap.get?] at h
  obtain ⟨c1, e2, ha⟩ := addTodo_spec (eg := eg) (order := order) hd hv hci (show p.length - 1 < p.length by omega) (show 0 < 1 by omega)
  have hanp : c0'.addNewPattern p (p.length - 1) = .ok c1 := by
    unfold addNewPattern
    rw [hi, hnr]
    exact e2
  have hob : ∀ σ R, Ob eg p σ R (p.length - 1) 0 ↔ ∃ y, R[0]? = some y ∧ PMatch eg σ y t := by
    intro σ R
    constructor
    · intro h; exact h _ ht.2
    · intro h s hs; rw [hs.unique ht.2]; exact h
  have hs1 : ∀ σ c0 R, Sols eg order p c1 1 σ c0 R ↔ R = [c0] ∧ PMatch eg σ c0 t := by
    intro σ c0 R
    rw [ha.sols, sols_single hi hv2 htd]
    simp only [List.mem_singleton, forall_eq, hob]
    constructor
    · rintro ⟨⟨rfl, _⟩, y, hy, hm⟩; cases hy; exact ⟨rfl, hm⟩
    · rintro ⟨rfl, hm⟩; exact ⟨⟨rfl, h.pmatch_lt hm⟩, c0, rfl, hm⟩
  have hvs1 : ∀ w, Vs p c1 w ↔ Occurs w t := by
    intro w
    rw [ha.vs, vs_todo_nil htd, hv2]
    simp only [List.mem_singleton, exists_eq_left]
    constructor
    · rintro (⟨r, hr⟩ | ⟨s, hs, ho⟩)
      · simp [AMap.get?] at hr
      · rw [hs.unique ht.2] at ho; exact ho
    · intro ho; exact .inr ⟨t, ht.2, ho⟩
  have htodo : (∃ o ts, t = .node (.op o) ts) → c1.todo ≠ [] := by
    rintro ⟨o, ts, rfl⟩
    have h2 := ht.2
    rw [termOf_iff] at h2
    obtain ⟨n', g1, g2, _⟩ := h2
    unfold addTodo at e2
    rw [getIdx_eq_ok.2 g1] at e2
    simp only [ok_bind, g2] at e2
    cases e2
    exact AMap.insert_ne_nil _ _ _
  have hstart : ∃ c2, c0'.start b p (p.length - 1) = .ok (c2, 1) ∧ CI p c2 1 ∧ c2.todo = c1.todo ∧
      (∀ σ c0 R, Sols eg order p c2 1 σ c0 R ↔ R = [c0] ∧ PMatch eg σ c0 t ∧
        ∀ v, b = some v → ∃ x, σ v = some x ∧ SameClass eg x c0) ∧
      (∀ w, Vs p c2 w ↔ Occurs w t ∨ b = some w) := by
    cases b with
    | none =>
      refine ⟨c1, ?_, ha.ci, rfl, ?_, ?_⟩
      · unfold start
        simp only [hanp, ok_bind]
        rw [ha.next, hnr]
        rfl
      · intro σ c0 R; rw [hs1]; simp
      · intro w; rw [hvs1]; simp
    | some v =>
      obtain ⟨i1, i2, i3⟩ := insertVar_spec (eg := eg) (order := order) ha.ci (v := v) (show 0 < 1 by omega)
        (fun r' hr' => by have := ha.ci.vlt v r' hr'; omega)
      refine ⟨_, ?_, i1, rfl, ?_, ?_⟩
      · unfold start
        simp only [hv2, AMap.get?, hanp, ok_bind]
        rw [ha.next, hnr]
        rfl
      · intro σ c0 R
        rw [i2, hs1]
        constructor
        · rintro ⟨⟨rfl, hm⟩, x, y, g1, g2, g3⟩
          cases g2
          exact ⟨rfl, hm, fun w hw => by cases hw; exact ⟨x, g1, g3⟩⟩
        · rintro ⟨rfl, hm, hx⟩
          obtain ⟨x, g1, g3⟩ := hx v rfl
          exact ⟨⟨rfl, hm⟩, x, c0, g1, rfl, g3⟩
      · intro w
        rw [i3, hvs1]
        simp [eq_comm]
  obtain ⟨c2, e3, hc2, htd2, hs2, hvs2⟩ := hstart
  rw [e3] at hc'
  simp only [ok_bind] at hc'
  rw [bind_eq_ok] at hc'
  obtain ⟨⟨c3, n3⟩, e4, hc'⟩ := hc'
  cases hc'
  obtain ⟨r1, r2⟩ := loop_fin (order := order) ho h hr hdc hd hv hc2 e4
    (fun σ c0 R R' a b => by rw [hs2] at a b; rw [a.1, b.1])
    (Q := fun σ c0 => PMatch eg σ c0 t ∧ ∀ v, b = some v → ∃ x, σ v = some x ∧ SameClass eg x c0)
    (fun σ c0 => by
      constructor
      · rintro ⟨R, hR⟩; exact ((hs2 σ c0 R).1 hR).2
      · intro hh; exact ⟨[c0], (hs2 σ c0 _).2 ⟨rfl, hh⟩⟩) hvs2
  exact ⟨r1, fun ho => r2 (.inr (by rw [htd2]; exact htodo ho))⟩

/-- Compiling a further pattern. -/
theorem compile_more {ord : Compiler Op → List (Id × Nat)} (ho : OrdOK ord) (h : EGraph.Inv C eg) (hr : Rebuilt eg)
    (hdc : DiscContiguous Op) (hd : Dag p) (hv : VarLeaf p) {t : Term (PatOp Op)} (ht : ExprTerm p t)
    (hord : ∀ x, x ∈ order ↔ x < eg.nodes.length ∧ eg.rt x = x) {f : Nat}
    {v : Var} {c c' : Compiler Op} {Q : (Var → Option Id) → Id → Prop} {V : Var → Prop}
    (hf : Fin eg order c Q V) (hne : c.instrs ≠ []) (hc' : c.compile ord f (some v) p = .ok c') :
    Fin eg order c' (fun σ c0 => Q σ c0 ∧ ∃ x, σ v = some x ∧ PMatch eg σ x t)
      (fun w => V w ∨ Occurs w t ∨ w = v) ∧ c'.instrs ≠ [] := by
  have hpl : 0 < p.length := List.length_pos_iff.2 ht.1
  unfold compile at hc'
  obtain ⟨free, size, e1, htab⟩ := load_spec (c := c) hd hv
  rw [e1] at hc'
  simp only [ok_bind, root_eq ht.1] at hc'
  generalize hcc : ({ c with freeVars := free, subtreeSize := size } : Compiler Op) = c1 at hc'
  have hi : c1.instrs = c.instrs := by rw [← hcc]
  have hv2 : c1.v2r = c.v2r := by rw [← hcc]
  have htd : c1.todo = [] := by rw [← hcc]; exact hf.todo
  have hnr : c1.nextReg = c.nextReg := by rw [← hcc]
  have hci : CI p c1 c.nextReg := by
    refine ⟨by rw [hi]; exact hf.laid, by rw [← hcc]; exact htab, by rw [hv2]; exact hf.vlt, by rw [hv2]; exact hf.vkeys,
      ?_, by rw [htd]; simp [AMap.keys]⟩
    rw [htd]; intro v r m h; simp [AMap.get?] at h
  have hirr : ∀ σ c0 R, Sols eg order p c1 c.nextReg σ c0 R ↔ Sols eg order [] c c.nextReg σ c0 R :=
    fun σ c0 R => sols_irrel hi.symm hv2.symm htd hf.todo
  have hob : ∀ σ R r, Ob eg p σ R (p.length - 1) r ↔ ∃ y, R[r]? = some y ∧ PMatch eg σ y t := by
    intro σ R r
    constructor
    · intro h; exact h _ ht.2
    · intro h s hs; rw [hs.unique ht.2]; exact h
  have hstart : ∃ c2 n2, c1.start (some v) p (p.length - 1) = .ok (c2, n2) ∧ CI p c2 n2 ∧ c2.instrs ≠ [] ∧
      (∀ σ c0, (∃ R, Sols eg order p c2 n2 σ c0 R) ↔ Q σ c0 ∧ ∃ x, σ v = some x ∧ PMatch eg σ x t) ∧
      (∀ σ c0 R R', Sols eg order p c2 n2 σ c0 R → Sols eg order p c2 n2 σ c0 R' → R = R') ∧
      (∀ w, Vs p c2 w ↔ V w ∨ Occurs w t ∨ w = v) := by
    cases hvi : c.v2r.get? v with
    | some i =>
      obtain ⟨c2, e2, ha⟩ := addTodo_spec (eg := eg) (order := order) hd hv hci (show p.length - 1 < p.length by omega)
        (hf.vlt v i hvi)
      refine ⟨c2, c.nextReg, ?_, ha.ci, ?_, ?_, ?_, ?_⟩
      · unfold start
        simp only [hv2, hvi, e2, ok_bind]
        rw [ha.next, hnr]
        rfl
      · obtain ⟨l, hl⟩ := ha.ext
        rw [hl, hi]; simp [hne]
      · intro σ c0
        rw [← hf.sols]
        constructor
        · rintro ⟨R, hR⟩
          rw [ha.sols] at hR
          simp only [List.mem_singleton, forall_eq, hob] at hR
          obtain ⟨hR, y, hy, hm⟩ := hR
          obtain ⟨x, y', g1, g2, g3⟩ := hR.vars v i (by rw [hv2]; exact hvi)
          rw [hy] at g2; cases g2
          exact ⟨⟨R, (hirr _ _ _).1 hR⟩, x, g1, h.pmatch_congr g3.symm hm⟩
        · rintro ⟨⟨R, hR⟩, x, hx, hm⟩
          have hR := (hirr _ _ _).2 hR
          refine ⟨R, (ha.sols _ _ _).2 ⟨hR, ?_⟩⟩
          simp only [List.mem_singleton, forall_eq, hob]
          obtain ⟨x', y, g1, g2, g3⟩ := hR.vars v i (by rw [hv2]; exact hvi)
          rw [hx] at g1; cases g1
          exact ⟨y, g2, h.pmatch_congr g3 hm⟩
      · intro σ c0 R R' a b
        exact hf.uniq σ c0 R R' ((hirr _ _ _).1 ((ha.sols _ _ _).1 a).1) ((hirr _ _ _).1 ((ha.sols _ _ _).1 b).1)
      · intro w
        rw [ha.vs, vs_todo_nil htd, hv2, hf.vs]
        simp only [List.mem_singleton, exists_eq_left]
        constructor
        · rintro (hw | ⟨s, hs, hw⟩)
          · exact .inl hw
          · rw [hs.unique ht.2] at hw; exact .inr (.inl hw)
        · rintro (hw | hw | rfl)
          · exact .inl hw
          · exact .inr ⟨t, ht.2, hw⟩
          · exact .inl ((hf.vs w).1 ⟨i, hvi⟩)
    | none =>
      have hcs : CI p { c1 with instrs := c1.instrs ++ [.scan c1.nextReg] } (c.nextReg + 1) := by
        refine ⟨?_, hci.tab, fun v r hv => Nat.lt_succ_of_lt (hci.vlt v r hv), hci.vkeys,
          fun a b k hk => ⟨Nat.lt_succ_of_lt (hci.tlt a b k hk).1, (hci.tlt a b k hk).2⟩, hci.tkeys⟩
        rw [hnr]
        exact hci.laid.append (.scan .nil)
      obtain ⟨c2, e2, ha⟩ := addTodo_spec (eg := eg) (order := order) hd hv hcs (show p.length - 1 < p.length by omega)
        (show c.nextReg < c.nextReg + 1 by omega)
      have hanp : c1.addNewPattern p (p.length - 1) = .ok c2 := by
        unfold addNewPattern
        rw [if_neg (by rw [hi]; simpa using hne), hnr]
        rw [hnr] at e2
        exact e2
      have hv2n : ∀ r', c2.v2r.get? v = some r' → r' = c.nextReg := by
        intro r' hr'
        unfold addTodo at e2
        rw [bind_eq_ok] at e2
        obtain ⟨nd, _, e2⟩ := e2
        split at e2
        · split at e2
          · cases e2
            have hr' : c1.v2r.get? v = some r' := hr'
            rw [hv2, hvi] at hr'; cases hr'
          · cases e2
            have hr' : (c1.v2r.insert _ c.nextReg).get? v = some r' := hr'
            rw [AMap.get?_insert] at hr'
            split at hr'
            · cases hr'; rfl
            · rw [hv2, hvi] at hr'; cases hr'
        · cases e2
          have hr' : c1.v2r.get? v = some r' := hr'
          rw [hv2, hvi] at hr'; cases hr'
      obtain ⟨i1, i2, i3⟩ := insertVar_spec (eg := eg) (order := order) ha.ci (v := v)
        (show c.nextReg < c.nextReg + 1 by omega) hv2n
      -- register contents after the scan
      have hscan : ∀ σ c0 R', Sols eg order p { c1 with instrs := c1.instrs ++ [.scan c1.nextReg] } (c.nextReg + 1) σ c0 R' ↔
          ∃ R x, R' = R ++ [x] ∧ Sols eg order [] c c.nextReg σ c0 R ∧ x ∈ order := by
        intro σ c0 R'
        have hn1 := hf.laid.le
        constructor
        · intro hs
          obtain ⟨x, hx, hxr⟩ := hs.sat (.scan c1.nextReg) (by simp)
          rw [hnr] at hxr
          have hlen := hs.len
          have e : R' = R'.take c.nextReg ++ [x] := by
            conv_lhs => rw [← List.take_append_drop c.nextReg R']
            congr 1
            apply List.ext_getElem?
            intro j
            rw [List.getElem?_drop]
            cases j with
            | zero => simpa using hxr
            | succ j => simp; omega
          have hRl : (R'.take c.nextReg).length = c.nextReg := by simp; omega
          generalize R'.take c.nextReg = R at e hRl
          subst e
          refine ⟨R, x, rfl, (hirr _ _ _).1 ?_, hx⟩
          refine ⟨hRl, ?_, fun x hx => hs.valid x (List.mem_append_left _ hx), ?_, ?_, ?_⟩
          · rw [← hs.root, List.getElem?_append_left (by omega)]
          · intro ins hins
            exact (satI_append hci.laid hRl ins hins).1 (hs.sat ins (List.mem_append_left _ hins))
          · intro v r hv
            obtain ⟨x, z, g1, g2, g3⟩ := hs.vars v r hv
            rw [List.getElem?_append_left (by rw [hRl]; exact hci.vlt v r hv)] at g2
            exact ⟨x, z, g1, g2, g3⟩
          · rw [htd]; intro _ _ _ h; simp [AMap.get?] at h
        · rintro ⟨R, x, rfl, hs, hx⟩
          have hs := (hirr _ _ _).2 hs
          have hlen := hs.len
          refine ⟨by simp [hlen], getElem?_prefix hs.root, ?_, ?_, ?_, ?_⟩
          · intro y hy
            rcases List.mem_append.1 hy with hy | hy
            · exact hs.valid y hy
            · simp at hy; subst hy; exact ((hord _).1 hx).1
          · intro ins hins
            rcases List.mem_append.1 hins with hins | hins
            · exact (satI_append hci.laid hlen ins hins).2 (hs.sat ins hins)
            · simp at hins
              subst hins
              refine ⟨x, hx, ?_⟩
              rw [hnr, ← hlen]; simp
          · intro v r hv
            obtain ⟨x, z, g1, g2, g3⟩ := hs.vars v r hv
            exact ⟨x, z, g1, getElem?_prefix g2, g3⟩
          · show ∀ (id : Id) (reg : Nat) (m : ENode Op), c1.todo.get? (id, reg) = some m → _
            rw [htd]; intro _ _ _ h; simp [AMap.get?] at h
      have hfull : ∀ σ c0 R', Sols eg order p { c2 with v2r := c2.v2r.insert v c.nextReg } (c.nextReg + 1) σ c0 R' ↔
          ∃ R x y, R' = R ++ [x] ∧ Sols eg order [] c c.nextReg σ c0 R ∧ x ∈ order ∧ σ v = some y ∧ SameClass eg y x ∧
            PMatch eg σ x t := by
        intro σ c0 R'
        rw [i2, ha.sols, hscan]
        simp only [List.mem_singleton, forall_eq, hob]
        constructor
        · rintro ⟨⟨⟨R, x, rfl, hs, hx⟩, z, hz, hm⟩, y, y', g1, g2, g3⟩
          have hlen := hs.len
          rw [← hlen] at hz g2
          simp at hz g2
          subst hz; subst g2
          exact ⟨R, x, y, rfl, hs, hx, g1, g3, hm⟩
        · rintro ⟨R, x, y, rfl, hs, hx, g1, g3, hm⟩
          have hlen := hs.len
          refine ⟨⟨⟨R, x, rfl, hs, hx⟩, x, ?_, hm⟩, y, x, g1, ?_, g3⟩ <;> rw [← hlen] <;> simp
      refine ⟨_, c.nextReg + 1, ?_, i1, ?_, ?_, ?_, ?_⟩
      · unfold start
        simp only [hv2, hvi, hanp, ok_bind]
        rw [ha.next]
        simp only [hnr]
        rfl
      · obtain ⟨l, hl⟩ := ha.ext
        show c2.instrs ≠ []
        rw [hl, hi]; simp [hne]
      · intro σ c0
        rw [← hf.sols]
        constructor
        · rintro ⟨R', hR'⟩
          obtain ⟨R, x, y, _, hs, hx, g1, g3, hm⟩ := (hfull _ _ _).1 hR'
          exact ⟨⟨R, hs⟩, y, g1, h.pmatch_congr g3.symm hm⟩
        · rintro ⟨⟨R, hR⟩, y, hy, hm⟩
          have hyl := h.pmatch_lt hm
          have hsame : SameClass eg y (eg.rt y) := h.sameClass_iff.2 ⟨hyl, h.core.rtLt _ hyl, (h.core.rtIdem _).symm⟩
          exact ⟨R ++ [eg.rt y], (hfull _ _ _).2 ⟨R, eg.rt y, y, rfl, hR, (hord _).2 ⟨h.core.rtLt _ hyl, h.core.rtIdem _⟩,
            hy, hsame, h.pmatch_congr hsame hm⟩⟩
      · intro σ c0 R1 R2 a b
        obtain ⟨R, x, y, rfl, hs, hx, g1, g3, hm⟩ := (hfull _ _ _).1 a
        obtain ⟨R', x', y', rfl, hs', hx', g1', g3', hm'⟩ := (hfull _ _ _).1 b
        rw [hf.uniq σ c0 R R' hs hs']
        congr 2
        rw [g1] at g1'; cases g1'
        have := (h.sameClass_iff.1 (g3.symm.trans g3')).2.2
        rw [((hord x).1 hx).2, ((hord x').1 hx').2] at this
        exact this
      · intro w
        rw [i3, ha.vs]
        have : Vs p { c1 with instrs := c1.instrs ++ [.scan c1.nextReg] } w ↔ V w := by
          rw [vs_todo_nil (by exact htd)]
          show (∃ r, c1.v2r.get? w = some r) ↔ _
          rw [hv2]
          exact hf.vs w
        rw [this]
        simp only [List.mem_singleton, exists_eq_left]
        constructor
        · rintro ((hw | ⟨s, hs, hw⟩) | hw)
          · exact .inl hw
          · rw [hs.unique ht.2] at hw; exact .inr (.inl hw)
          · exact .inr (.inr hw)
        · rintro (hw | hw | hw)
          · exact .inl (.inl hw)
          · exact .inl (.inr ⟨t, ht.2, hw⟩)
          · exact .inr hw
  obtain ⟨c2, n2, e3, hc2, hne2, hQ2, hu2, hvs2⟩ := hstart
  rw [e3] at hc'
  simp only [ok_bind] at hc'
  rw [bind_eq_ok] at hc'
  obtain ⟨⟨c3, n3⟩, e4, hc'⟩ := hc'
  cases hc'
  obtain ⟨r1, r2⟩ := loop_fin (order := order) ho h hr hdc hd hv hc2 e4 hu2 hQ2 hvs2
  exact ⟨r1, r2 (.inl hne2)⟩

end Compiler
end Egg
