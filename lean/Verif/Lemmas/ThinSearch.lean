import Verif.Lemmas.ThinHist
import Verif.Lemmas.Run
/-
Searching an e-graph from which e-nodes are missing finds only matches of the complete one.
-/
namespace Egg
variable {Op D : Type} [DecidableEq Op] [Lang Op]

/-! ### The machine on any e-graph -/

theorem matchingNodes_sub {nodes : List (ENode Op)} {node n : ENode Op} (h : n ∈ matchingNodes nodes node) :
    n ∈ nodes ∧ n.op = node.op ∧ n.children.length = node.children.length := by
  have key : ∀ l : List (ENode Op), (∀ m ∈ l, m ∈ nodes) → n ∈ l.filter (fun m => node.matches m) →
      n ∈ nodes ∧ n.op = node.op ∧ n.children.length = node.children.length := by
    intro l hl hn
    obtain ⟨h1, h2⟩ := List.mem_filter.1 hn
    unfold ENode.matches at h2
    simp only [Bool.and_eq_true, decide_eq_true_eq, beq_iff_eq] at h2
    exact ⟨hl n h1, h2.1.symm, h2.2.symm⟩
  unfold matchingNodes at h
  split at h
  · exact key _ (fun _ h => h) h
  · exact key _ (fun m hm => List.mem_of_mem_drop (List.takeWhile_subset _ hm)) h

theorem tryForEach_collects {α : Type} {f : α → MState → Res (MState × Bool)} {g : α → List Subst} {P : MState → Prop} :
    ∀ (l : List α), (∀ a ∈ l, ∀ s s' b, P s → f a s = .ok (s', b) → (∃ x, s'.found = s.found ++ x ∧ ∀ σ ∈ x, σ ∈ g a) ∧ P s') →
    ∀ s s' b, P s → tryForEach f l s = .ok (s', b) → (∃ x, s'.found = s.found ++ x ∧ ∀ σ ∈ x, σ ∈ l.flatMap g) ∧ P s'
  | [], _, s, s', b, hs, h => by
    cases h
    exact ⟨⟨[], by simp, by simp⟩, hs⟩
  | a :: l, hf, s, s', b, hs, h => by
    unfold tryForEach at h
    obtain ⟨⟨s1, b1⟩, h1, h⟩ := bind_eq_ok.1 h
    obtain ⟨⟨x, q1, q2⟩, q3⟩ := hf a (.head _) s s1 b1 hs h1
    dsimp only at h
    split at h
    · obtain ⟨⟨y, p1, p2⟩, p3⟩ := tryForEach_collects l (fun a ha => hf a (.tail _ ha)) s1 s' b q3 h
      refine ⟨⟨x ++ y, by rw [p1, q1, List.append_assoc], fun σ hσ => ?_⟩, p3⟩
      rw [List.flatMap_cons]
      rcases List.mem_append.1 hσ with h | h
      · exact List.mem_append.2 (.inl (q2 σ h))
      · exact List.mem_append.2 (.inr (p2 σ h))
    · cases h
      refine ⟨⟨x, q1, fun σ hσ => ?_⟩, q3⟩
      rw [List.flatMap_cons]
      exact List.mem_append.2 (.inl (q2 σ hσ))

theorem take_longer {R : List Id} {l l' : List Id} {n : Nat} (hR : R.length = n) {k : Nat} (hk : n ≤ k) (h : l.take k = R ++ l') : l.take n = R := by
  have := congrArg (List.take n) h
  rw [List.take_take, Nat.min_eq_left hk] at this
  rw [this, ← hR, List.take_left]

/-- Whatever the e-graph: what a run of the machine collects are substitutions of `runs`. -/
theorem run_collects {eg : EGraph Op D} {order : List Id} {ac : Bool} {subst : List (Var × Nat)} :
    ∀ {instrs : List (Instr Op)} {n n' : Nat}, Laid instrs n n' → ∀ (s s' : MState) (b : Bool), s.reg.length = n →
    Machine.run eg order (yieldFn ac subst) instrs s = .ok (s', b) →
    (∃ x, s'.found = s.found ++ x ∧ ∀ σ ∈ x, σ ∈ (runs eg order instrs s.reg).filterMap (report ac subst)) ∧ s'.reg.take n = s.reg := by
  intro instrs n n' hl
  induction hl with
  | @nil n =>
    intro s s' b hs h
    have h : yieldFn ac subst s = .ok (s', b) := h
    unfold yieldFn at h
    by_cases hc : (!ac && rootAgain s.reg) = true
    · rw [if_pos hc] at h
      cases h
      exact ⟨⟨[], by simp, by simp⟩, List.take_of_length_le (by omega)⟩
    · rw [if_neg hc] at h
      obtain ⟨σ, h1, h⟩ := bind_eq_ok.1 h
      cases h
      refine ⟨⟨[σ], rfl, fun σ' hσ => ?_⟩, List.take_of_length_le (by show s.reg.length ≤ n; omega)⟩
      rw [List.mem_singleton] at hσ
      subst hσ
      refine List.mem_filterMap.2 ⟨s.reg, by simp [runs], ?_⟩
      unfold report
      rw [if_neg hc, h1]
  | @bind node i n n' rest hi hl ih =>
    intro s s' b hs h
    unfold Machine.run at h
    obtain ⟨x, h1, h⟩ := bind_eq_ok.1 h
    obtain ⟨cls, h2, h⟩ := bind_eq_ok.1 h
    have h1 := getIdx_eq_ok.1 h1
    have := tryForEach_collects
      (g := fun m : ENode Op => (runs eg order rest (s.reg ++ m.children)).filterMap (report ac subst))
      (P := fun t => t.reg.take n = s.reg) (matchingNodes cls.nodes node) (by
        intro m hm t t' b' ht htl
        obtain ⟨-, -, hlen⟩ := matchingNodes_sub hm
        obtain ⟨q1, q2⟩ := ih { t with reg := t.reg.take n ++ m.children } t' b'
          (by simp only [ht, List.length_append, hs, hlen]) htl
        simp only [ht] at q1 q2
        exact ⟨q1, take_longer hs (Nat.le_add_right _ _) q2⟩) s s' b (List.take_of_length_le (by omega)) h
    obtain ⟨⟨x', q1, q2⟩, q3⟩ := this
    refine ⟨⟨x', q1, fun σ hσ => ?_⟩, q3⟩
    simp only [runs, h1, h2, List.filterMap_flatMap]
    exact q2 σ hσ
  | @compare i j n n' rest hi hj hl ih =>
    intro s s' b hs h
    unfold Machine.run at h
    obtain ⟨x, h1, h⟩ := bind_eq_ok.1 h
    obtain ⟨y, h2, h⟩ := bind_eq_ok.1 h
    obtain ⟨x', h3, h⟩ := bind_eq_ok.1 h
    obtain ⟨y', h4, h⟩ := bind_eq_ok.1 h
    have h1 := getIdx_eq_ok.1 h1
    have h2 := getIdx_eq_ok.1 h2
    split at h
    · cases h
      exact ⟨⟨[], by simp, by simp⟩, List.take_of_length_le (by omega)⟩
    · next he =>
      have hb : sameB eg x y = true := sameB_iff.2 ⟨x', h3, by rw [h4, not_not.1 he]⟩
      obtain ⟨q1, q2⟩ := ih s s' b hs h
      simp only [runs, h1, h2, hb, if_true]
      exact ⟨q1, q2⟩
  | @lookup term i n n' rest hi ht hl ih =>
    intro s s' b hs h
    unfold Machine.run at h
    obtain ⟨bb, h1, h⟩ := bind_eq_ok.1 h
    cases bb with
    | true =>
      rw [if_pos rfl] at h
      obtain ⟨q1, q2⟩ := ih s s' b hs h
      simp only [runs, h1]
      exact ⟨q1, q2⟩
    | false =>
      cases h
      exact ⟨⟨[], by simp, by simp⟩, List.take_of_length_le (by omega)⟩
  | @scan n n' rest hl ih =>
    intro s s' b hs h
    unfold Machine.run at h
    have := tryForEach_collects
      (g := fun c : Id => (runs eg order rest (s.reg ++ [c])).filterMap (report ac subst))
      (P := fun t => t.reg.take n = s.reg) order (by
        intro m hm t t' b' ht htl
        obtain ⟨q1, q2⟩ := ih { t with reg := t.reg.take n ++ [m] } t' b'
          (by simp only [ht, List.length_append, hs, List.length_singleton]) htl
        simp only [ht] at q1 q2
        exact ⟨q1, take_longer hs (Nat.le_add_right _ _) q2⟩) s s' b (List.take_of_length_le (by omega)) h
    obtain ⟨⟨x', q1, q2⟩, q3⟩ := this
    refine ⟨⟨x', q1, fun σ hσ => ?_⟩, q3⟩
    simp only [runs, List.filterMap_flatMap]
    exact q2 σ hσ

/-! ### Fewer e-nodes, fewer matches -/

section
variable {C : Cfg Op D} {eg g : EGraph Op D}

theorem Thinner.lookup (h : Thinner eg g) (n : ENode Op) : eg.lookup n = g.lookup n := by
  unfold EGraph.lookup EGraph.lookupInternal EGraph.canon
  rw [show eg.find = g.find from funext h.find, h.memo]

theorem Thinner.lookupTerm (h : Thinner eg g) (R : List Id) : ∀ (term : List (ENodeOrReg Op)) (buf : List Id),
    lookupTerm eg R term buf = Egg.lookupTerm g R term buf
  | [], _ => rfl
  | .enode n :: rest, buf => by
    unfold Egg.lookupTerm
    simp only [h.lookup, Thinner.lookupTerm h R rest]
  | .reg r :: rest, buf => by
    unfold Egg.lookupTerm
    simp only [h.find, Thinner.lookupTerm h R rest]

theorem Thinner.lookupOk (h : Thinner eg g) (R : List Id) (term : List (ENodeOrReg Op)) (i : Nat) :
    lookupOk eg R term i = Egg.lookupOk g R term i := by
  unfold Egg.lookupOk
  simp only [h.lookupTerm, h.find]

theorem Thinner.sameB (h : Thinner eg g) (x y : Id) : sameB eg x y = Egg.sameB g x y := by
  unfold Egg.sameB
  rw [h.find, h.find]

theorem Thinner.index_ok (h : Thinner eg g) {x : Id} {k : EClass Op D} (hk : eg.index x = .ok k) :
    ∃ k0, g.index x = .ok k0 ∧ Subclass k k0 := by
  unfold EGraph.index at hk ⊢
  rw [h.find] at hk
  obtain ⟨r, h1, hk⟩ := bind_eq_ok.1 hk
  rw [h1]
  simp only [ok_bind]
  rcases h.get? r with ⟨h2, h3⟩ | ⟨k1, k2, h2, h3, h4⟩
  · rw [h2] at hk; cases hk
  · rw [h2] at hk
    cases hk
    exact ⟨k2, by rw [h3]; rfl, h4⟩

theorem runs_thin (h : Thinner eg g) (hi : EGraph.Inv C g) (hr : Rebuilt g) (hd : DiscContiguous Op) {order order' : List Id}
    (ho : ∀ c ∈ order, c ∈ order') : ∀ (instrs : List (Instr Op)) {R R' : List Id}, R' ∈ runs eg order instrs R → R' ∈ runs g order' instrs R
  | [], R, R', hR => hR
  | .bind node i out :: rest, R, R', hR => by
    simp only [runs] at hR ⊢
    split at hR
    · cases hR
    next x hx =>
    split at hR
    · cases hR
    next cls hcls =>
    obtain ⟨k0, hk0, hk⟩ := h.index_ok hcls
    simp only [hk0]
    obtain ⟨m, hm, hR⟩ := List.mem_flatMap.1 hR
    obtain ⟨m1, m2, m3⟩ := matchingNodes_sub hm
    refine List.mem_flatMap.2 ⟨m, ?_, runs_thin h hi hr hd ho rest hR⟩
    have hsrt := hr.sorted _ k0 (hi.index_iff.1 hk0).2
    exact (mem_matchingNodes hd hsrt).2 ⟨hk.nodes m m1, m2, m3⟩
  | .scan out :: rest, R, R', hR => by
    simp only [runs] at hR ⊢
    obtain ⟨c, hc, hR⟩ := List.mem_flatMap.1 hR
    exact List.mem_flatMap.2 ⟨c, ho c hc, runs_thin h hi hr hd ho rest hR⟩
  | .compare i j :: rest, R, R', hR => by
    simp only [runs] at hR ⊢
    split at hR
    · next x y hx hy =>
      rw [h.sameB] at hR
      split at hR
      · next hb =>
        simp only [hb, if_true]
        exact runs_thin h hi hr hd ho rest hR
      · cases hR
    · cases hR
  | .lookup term i :: rest, R, R', hR => by
    simp only [runs] at hR ⊢
    rw [h.lookupOk] at hR
    split at hR
    · exact runs_thin h hi hr hd ho rest hR
    · cases hR

theorem matchesOf_thin (h : Thinner eg g) (hi : EGraph.Inv C g) (hr : Rebuilt g) (hd : DiscContiguous Op) {order order' : List Id}
    (ho : ∀ c ∈ order, c ∈ order') {ac : Bool} {pr : Program Op} {c : Id} {s : Subst} (hs : s ∈ matchesOf ac eg order pr c) :
    s ∈ matchesOf ac g order' pr c := by
  unfold matchesOf at hs ⊢
  obtain ⟨R, h1, h2⟩ := List.mem_filterMap.1 hs
  exact List.mem_filterMap.2 ⟨R, runs_thin h hi hr hd ho _ h1, h2⟩

/-- Everything a limited search of a list of classes returns satisfies what the search of a class ensures. -/
theorem searchEclasses_all {search : Id → Nat → Res (Option (SearchMatches Op))} {P : SearchMatches Op → Prop} :
    ∀ (cs : List Id) (limit : Nat) (ms : List (SearchMatches Op)), (∀ c ∈ cs, ∀ limit m, search c limit = .ok (some m) → P m) →
    searchEclassesWithLimit search cs limit = .ok ms → ∀ m ∈ ms, P m
  | [], limit, ms, _, h => by cases h; simp
  | c :: cs, limit, ms, hs, h => by
    unfold searchEclassesWithLimit at h
    split at h
    · cases h; simp
    · obtain ⟨o, ho, h⟩ := bind_eq_ok.1 h
      cases o with
      | none => exact searchEclasses_all cs limit ms (fun c hc => hs c (.tail _ hc)) h
      | some m =>
        simp only at h
        split at h
        · obtain ⟨ms', h1, h⟩ := bind_eq_ok.1 h
          cases h
          intro m' hm'
          rcases List.mem_cons.1 hm' with rfl | hm'
          · exact hs c (.head _) _ _ ho
          · exact searchEclasses_all cs _ ms' (fun c hc => hs c (.tail _ hc)) h1 m' hm'
        · cases h

theorem Thinner.visited (h : Thinner eg g) {ord ord' : IterOrd} (ho : ord.OK eg) (ho' : ord'.OK g) {t : Term (PatOp Op)} {c : Id}
    (hc : c ∈ visited eg ord t) : c ∈ Egg.visited g ord' t := by
  have hcls : ∀ c ∈ ord.classes, c ∈ ord'.classes := by
    intro c hc
    obtain ⟨kc, h1, rfl⟩ := List.mem_map.1 (ho.classes.mem_iff.1 hc)
    obtain ⟨kf, h2, h3, h4⟩ := forall₂_mem_left h.classes h1
    exact ho'.classes.mem_iff.2 (List.mem_map.2 ⟨kf, h2, h4.id.symm⟩)
  unfold Egg.visited at hc ⊢
  split at hc
  · split at hc
    · cases hc
    next ids hids =>
    obtain ⟨ids', h1, h2⟩ := h.byOp _ _ hids c ((ho.byOp ids).mem_iff.1 hc)
    rw [h1]
    exact (ho'.byOp ids').mem_iff.2 h2
  · exact hcls c hc

end

section
variable {A : UserAnalysis Op D} {depth : Nat} {allow : Caller Op D} {U : List (UnionRec Op)} {eg g : EGraph Op D} {N M : Analysis Op D}

/-- What searching one class of the smaller e-graph returns. -/
theorem searchEclass_thin (ht : Thinner eg g) {C : Cfg Op D} (hi : EGraph.Inv C g) (hr : Rebuilt g) (hd : DiscContiguous Op)
    {ord ord' : IterOrd} (ho : ∀ c ∈ ord.classes, c ∈ ord'.classes) {p : Pattern Op} {cc : Compiler Op} (hpc : p.program = cc.extract)
    {Q : (Var → Option Id) → Id → Prop} {V : Var → Prop} (hf : Compiler.Fin g ord'.classes cc Q V)
    {c : Id} {limit : Nat} {m : SearchMatches Op} (hs : p.searchEclassWithLimit N eg ord c limit = .ok (some m)) :
    m.eclass = c ∧ m.ast = some p.ast ∧ m.substs ≠ [] ∧ ∀ s ∈ m.substs, s ∈ matchesOf N.allowCycles g ord'.classes p.program c := by
  unfold Pattern.searchEclassWithLimit at hs
  obtain ⟨ss, h1, hs⟩ := bind_eq_ok.1 hs
  split at hs
  · cases hs
  next hne =>
  cases hs
  refine ⟨rfl, rfl, fun h => hne (by simp only at h; rw [h]; rfl), fun s hs => ?_⟩
  unfold Program.runWithLimit at h1
  split at h1
  · cases h1
  split at h1
  · cases h1; cases hs
  obtain ⟨⟨s', b⟩, h2, h1⟩ := bind_eq_ok.1 h1
  cases h1
  rw [hpc] at h2
  obtain ⟨⟨x, q1, q2⟩, -⟩ := run_collects (subst := cc.extract.subst) hf.laid { reg := [c], found := [], limit := limit } s' b rfl h2
  rw [List.nil_append] at q1
  have hs : s ∈ x := by rw [← q1]; exact hs
  rw [hpc]
  exact matchesOf_thin ht hi hr hd ho (q2 s hs)

theorem Thinner.order (h : Thinner eg g) {ord ord' : IterOrd} (ho : ord.OK eg) (ho' : ord'.OK g) : ∀ c ∈ ord.classes, c ∈ ord'.classes := by
  intro c hc
  obtain ⟨kc, h1, rfl⟩ := List.mem_map.1 (ho.classes.mem_iff.1 hc)
  obtain ⟨kf, h2, h3, h4⟩ := forall₂_mem_left h.classes h1
  exact ho'.classes.mem_iff.2 (List.mem_map.2 ⟨kf, h2, h4.id.symm⟩)

/-- The matches found in the smaller e-graph are found in the complete one. -/
theorem found_thin (h : Hist (A.at depth) allow U g) (hc : g.clean = true) (hd : DiscContiguous Op) (ht : Thinner eg g)
    {ord ord' : IterOrd} (ho : ord.OK eg) (ho' : ord'.OK g) {p : Pattern Op} {t : Term (PatOp Op)} (hp : IsPattern p t)
    (hac : N.allowCycles = M.allowCycles) {limit : Nat} {ms : List (SearchMatches Op)} (hs : p.searchWithLimit N eg ord limit = .ok ms) :
    ∃ limit' ms0, p.searchWithLimit M g ord' limit' = .ok ms0 ∧ Part ms ms0 := by
  obtain ⟨ordc, fuel, ast, hoc, hw, hnew, htm⟩ := hp
  have hi := (hist_good h).inv
  have hr := c47_clean_means_rebuilt h hc
  obtain ⟨cc, e1, -, hf⟩ := pattern_fin hi hr hd hoc ord'.classes hw hnew htm
  obtain ⟨v1, v2, v3⟩ := visited_spec hi hr ho' t
  rw [search_eq _ htm] at hs
  have hall := searchEclasses_all (P := fun m => m.eclass ∈ Egg.visited g ord' t ∧ m.ast = some p.ast ∧ m.substs ≠ [] ∧
      ∀ s ∈ m.substs, s ∈ matchesOf N.allowCycles g ord'.classes p.program m.eclass) _ _ _ (by
    intro c hcv limit m hm
    obtain ⟨q1, q2, q3, q4⟩ := searchEclass_thin ht hi hr hd (ht.order ho ho') e1 hf hm
    subst q1
    exact ⟨ht.visited ho ho' hcv, q2, q3, q4⟩) hs
  obtain ⟨ms0, g1, g2, g3, g4⟩ := searchEclasses_spec (Egg.visited g ord' t) (fun c hcv limit =>
    searchEclass_eq hi hr hd hc M ho' e1 hf (hi.find_iff.1 (v2 c hcv)).1 limit)
    ((Egg.visited g ord' t).flatMap (fun c => (matchesOf M.allowCycles g ord'.classes p.program c).map (fun s => (c, s)))).length
  rw [List.take_length] at g2
  refine ⟨_, ms0, by rw [search_eq _ htm]; exact g1, fun m hm => ?_⟩
  obtain ⟨q1, q2, q3, q4⟩ := hall m hm
  have hmem : ∀ s ∈ m.substs, (m.eclass, s) ∈ flat ms0 := by
    intro s hs
    rw [g2]
    exact List.mem_flatMap.2 ⟨_, q1, List.mem_map.2 ⟨s, by rw [← hac]; exact q4 s hs, rfl⟩⟩
  obtain ⟨s0, hs0⟩ := List.exists_mem_of_ne_nil _ q3
  obtain ⟨m0, k1, k2, k3⟩ := mem_flat.1 (hmem s0 hs0)
  refine ⟨m0, k1, k2.symm, by rw [q2, (g4 m0 k1).2], fun s hs => ?_⟩
  obtain ⟨m1, l1, l2, l3⟩ := mem_flat.1 (hmem s hs)
  have : m1 = m0 := List.inj_on_of_nodup_map (g3.nodup v1) l1 k1 (by rw [l2, k2])
  rw [← this]
  exact l3

end

/-! ### Applying -/

section
variable {K : Op → Nat → Prop} {P : D → Prop} {N M : Analysis Op D} {b : Mark}

theorem Thin.addInstGo (hN : HookSim K P N M) (s : Subst) : ∀ (pat : List (ENode (PatOp Op))) (ids : List Id) {eg g : EGraph Op D}, ThinC K P b eg g →
    Sim (ThinR K P b) (EGraph.addInstGo N s eg pat ids) (EGraph.addInstGo M s g pat ids)
  | [], ids, eg, g, h => Sim.ok ⟨h, rfl⟩
  | n :: rest, ids, eg, g, h => by
    unfold EGraph.addInstGo
    split
    · rw [h.thin.find]
      exact Sim.same fun x => Sim.same fun y => Thin.addInstGo hN s rest _ h
    · refine Sim.same fun m => Sim.bind (Thin.addUncanonical hN h m) ?_
      rintro ⟨a, i⟩ ⟨b', j⟩ ⟨h1, h2⟩
      cases h2
      exact Thin.addInstGo hN s rest _ h1

theorem Thin.addInst (hN : HookSim K P N M) (s : Subst) (pat : PatternAst Op) {eg g : EGraph Op D} (h : ThinC K P b eg g) :
    Sim (ThinR K P b) (EGraph.addInstantiationNoncanonical N eg pat s) (EGraph.addInstantiationNoncanonical M g pat s) := by
  unfold EGraph.addInstantiationNoncanonical
  refine Sim.bind (Thin.addInstGo hN s pat [] h) ?_
  rintro ⟨a, i⟩ ⟨b', j⟩ ⟨h1, h2⟩
  cases h2
  exact Sim.same fun x => Sim.ok ⟨h1, rfl⟩

theorem Thin.unionInstantiations (hN : HookSim K P N M) (p q : PatternAst Op) (s : Subst) (rule : Symbol) {eg g : EGraph Op D} (h : ThinC K P b eg g) :
    Sim (ThinR K P b) (EGraph.unionInstantiations N eg p q s rule) (EGraph.unionInstantiations M g p q s rule) := by
  unfold EGraph.unionInstantiations
  refine Sim.bind (Thin.addInst hN s p h) ?_
  rintro ⟨a, i⟩ ⟨b', j⟩ ⟨h1, h2⟩
  cases h2
  refine Sim.bind (Thin.addInst hN s q h1) ?_
  rintro ⟨a, i⟩ ⟨b', j⟩ ⟨h1, h2⟩
  cases h2
  refine Sim.bind (Thin.performUnion hN h1 _ _ _) ?_
  rintro ⟨a, i⟩ ⟨b', j⟩ ⟨h1, h2⟩
  cases h2
  dsimp only at h1 ⊢
  rw [h1.thin.find]
  exact Sim.same fun x => Sim.ok ⟨h1, rfl⟩

theorem Thin.applyPatGo (hN : HookSim K P N M) (s : Subst) : ∀ (pat : List (ENode (PatOp Op))) (k : Nat) (ids : List Id) {eg g : EGraph Op D}, ThinC K P b eg g →
    Sim (ThinR K P b) (Egg.applyPatGo N s eg pat k ids) (Egg.applyPatGo M s g pat k ids)
  | [], k, ids, eg, g, h => Sim.ok ⟨h, rfl⟩
  | n :: rest, k, ids, eg, g, h => by
    unfold Egg.applyPatGo
    split
    · exact Sim.same fun x => Thin.applyPatGo hN s rest _ _ h
    · refine Sim.same fun m => Sim.bind (Thin.add hN h m) ?_
      rintro ⟨a, i⟩ ⟨b', j⟩ ⟨⟨h1, h2⟩, -⟩
      cases h2
      exact Thin.applyPatGo hN s rest _ _ h1

theorem Thin.applyPat (hN : HookSim K P N M) (ids : List Id) (pat : PatternAst Op) (s : Subst) {eg g : EGraph Op D} (h : ThinC K P b eg g) :
    Sim (ThinR K P b) (Egg.applyPat N ids pat eg s) (Egg.applyPat M ids pat g s) := by
  unfold Egg.applyPat
  refine Sim.bind (Thin.applyPatGo hN s pat 0 ids h) ?_
  rintro ⟨a, i⟩ ⟨b', j⟩ ⟨h1, h2⟩
  cases h2
  exact Sim.same fun x => Sim.ok ⟨h1, rfl⟩

theorem Thin.applySubsts (hN : HookSim K P N M) (p : Pattern Op) (sast : Option (PatternAst Op)) (c : Id) (rule : Symbol) :
    ∀ (ss : List Subst) (buf added : List Id) {eg g : EGraph Op D}, ThinC K P b eg g →
      Sim (ThinR K P b) (p.applySubsts N sast c rule eg ss buf added) (p.applySubsts M sast c rule g ss buf added)
  | [], buf, added, eg, g, h => Sim.ok ⟨h, rfl⟩
  | s :: ss, buf, added, eg, g, h => by
    unfold Pattern.applySubsts
    rw [h.thin.explain]
    split
    · refine Sim.same fun ast => Sim.bind (Thin.unionInstantiations hN ast p.ast s rule h) ?_
      rintro ⟨a, i⟩ ⟨b', j⟩ ⟨h1, h2⟩
      cases h2
      exact Thin.applySubsts hN p sast c rule ss _ _ h1
    · refine Sim.bind (Thin.applyPat hN buf p.ast s h) ?_
      rintro ⟨a, i⟩ ⟨b', j⟩ ⟨h1, h2⟩
      cases h2
      refine Sim.bind (Thin.union hN h1 _ _ _) ?_
      rintro ⟨a, i⟩ ⟨b', j⟩ ⟨h1, h2⟩
      cases h2
      exact Thin.applySubsts hN p sast c rule ss _ _ h1

theorem Thin.applyMatchesGo (hN : HookSim K P N M) (p : Pattern Op) (rule : Symbol) :
    ∀ (ms : List (SearchMatches Op)) (buf added : List Id) {eg g : EGraph Op D}, ThinC K P b eg g →
      Sim (ThinR K P b) (p.applyMatchesGo N rule eg ms buf added) (p.applyMatchesGo M rule g ms buf added)
  | [], buf, added, eg, g, h => Sim.ok ⟨h, rfl⟩
  | m :: ms, buf, added, eg, g, h => by
    unfold Pattern.applyMatchesGo
    refine Sim.bind (Thin.applySubsts hN p m.ast m.eclass rule m.substs buf added h) ?_
    rintro ⟨a, i⟩ ⟨b', j⟩ ⟨h1, h2⟩
    cases h2
    exact Thin.applyMatchesGo hN p rule ms _ _ h1

theorem Thin.applyOne (hN : HookSim K P N M) (p : Pattern Op) (c : Id) (s : Subst) (ast : Option (PatternAst Op)) (rule : Symbol)
    {eg g : EGraph Op D} (h : ThinC K P b eg g) :
      Sim (ThinR K P b) (p.applyOne N eg c s ast rule) (p.applyOne M g c s ast rule) := by
  unfold Pattern.applyOne
  refine Sim.bind (Thin.applyPat hN _ p.ast s h) ?_
  rintro ⟨a, i⟩ ⟨b', j⟩ ⟨h1, h2⟩
  cases h2
  dsimp only
  split
  · refine Sim.bind (Thin.unionInstantiations hN _ p.ast s rule h1) ?_
    rintro ⟨a, i⟩ ⟨b', j⟩ ⟨h1, h2⟩
    cases h2
    exact Sim.ok ⟨h1, rfl⟩
  · refine Sim.bind (Thin.union hN h1 _ _ _) ?_
    rintro ⟨a, i⟩ ⟨b', j⟩ ⟨h1, h2⟩
    cases h2
    exact Sim.ok ⟨h1, rfl⟩

theorem Thin.applyEach {f f' : EGraph Op D → Subst → Res (EGraph Op D × List Id)}
    (hf : ∀ eg g s, ThinC K P b eg g → Sim (ThinR K P b) (f eg s) (f' g s)) :
    ∀ (ss : List Subst) (added : List Id) {eg g : EGraph Op D}, ThinC K P b eg g → Sim (ThinR K P b) (Egg.applyEach f eg ss added) (Egg.applyEach f' g ss added)
  | [], added, eg, g, h => Sim.ok ⟨h, rfl⟩
  | s :: ss, added, eg, g, h => by
    unfold Egg.applyEach
    refine Sim.bind (hf eg g s h) ?_
    rintro ⟨a, i⟩ ⟨b', j⟩ ⟨h1, h2⟩
    cases h2
    exact Thin.applyEach hf ss _ h1

theorem Thin.defaultApplyMatches {one one' : EGraph Op D → Id → Subst → Option (PatternAst Op) → Symbol → Res (EGraph Op D × List Id)} (rule : Symbol)
    (hf : ∀ eg g c s ast, ThinC K P b eg g → Sim (ThinR K P b) (one eg c s ast rule) (one' g c s ast rule)) :
    ∀ (ms : List (SearchMatches Op)) (added : List Id) {eg g : EGraph Op D}, ThinC K P b eg g →
      Sim (ThinR K P b) (Egg.defaultApplyMatches one rule eg ms added) (Egg.defaultApplyMatches one' rule g ms added)
  | [], added, eg, g, h => Sim.ok ⟨h, rfl⟩
  | m :: ms, added, eg, g, h => by
    unfold Egg.defaultApplyMatches
    dsimp only
    rw [h.thin.explain]
    refine Sim.bind (Thin.applyEach (fun eg g s h => hf eg g m.eclass s _ h) m.substs added h) ?_
    rintro ⟨a, i⟩ ⟨b', j⟩ ⟨h1, h2⟩
    cases h2
    exact Thin.defaultApplyMatches rule hf ms _ h1

end

end Egg
