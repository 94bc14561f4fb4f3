import Verif.Lemmas.Intersect
import Verif.Props.CopyGraph
/-
`from_enodes`: the e-graph generated by a list of e-nodes over abstract class ids.
-/
namespace Egg
variable {Op D : Type} [DecidableEq Op] [Lang Op]

theorem isCongruence_top : IsCongruence (fun _ _ : Term Op => True) :=
  ⟨fun _ => trivial, fun _ => trivial, fun _ _ => trivial, fun _ {_ _} _ => trivial⟩

namespace EGraph

abbrev topCfg (Op D : Type) [DecidableEq Op] [Lang Op] : Cfg Op D := Cfg.ofR (fun _ _ : Term Op => True) isCongruence_top anyReason

/-- The e-node `m` is the translation of `n`. -/
def Tr (ids : AMap Id Id) (m n : ENode Op) : Prop := m.op = n.op ∧ List.Forall₂ (fun c q => ids.get? q = some c) m.children n.children

structure FInv (E : List (ENode Op × Id)) (eg : EGraph Op D) (ids : AMap Id Id) : Prop where
  good : Good (topCfg Op D) eg
  expl : eg.explain = none
  root : ∀ p c, ids.get? p = some c → c < eg.nodes.length ∧ eg.rt c = c
  inj : ∀ p q c, ids.get? p = some c → ids.get? q = some c → p = q
  node : ∀ i m, eg.nodes[i]? = some m → ∃ x ∈ E, ids.get? x.2 = some (eg.rt i) ∧ Tr ids m x.1
  closed : Closed eg
  nodup : eg.nodes.Nodup

/-- The entry is represented. -/
def Repd (eg : EGraph Op D) (ids : AMap Id Id) (x : ENode Op × Id) : Prop :=
  (∀ c ∈ x.1.children, (ids.get? c).isSome) → ∃ i m, eg.nodes[i]? = some m ∧ ids.get? x.2 = some (eg.rt i) ∧ Tr ids m x.1

variable {E : List (ENode Op × Id)} {eg : EGraph Op D} {ids : AMap Id Id}

theorem Tr.inj (hinj : ∀ p q c, ids.get? p = some c → ids.get? q = some c → p = q) {m n n' : ENode Op}
    (h : Tr ids m n) (h' : Tr ids m n') : n = n' := by
  obtain ⟨op, ch⟩ := n
  obtain ⟨op', ch'⟩ := n'
  have e1 : op = op' := h.1.symm.trans h'.1
  have e2 : List.Forall₂ (fun a b : Id => a = b) ch ch' :=
    forall₂_comp (forall₂_flip h.2) h'.2 (fun q c q' _ _ _ a b => hinj _ _ _ a b)
  rw [@List.forall₂_eq_eq_eq Id] at e2
  have e2 : ch = ch' := e2
  rw [e1, e2]

theorem FInv.canonical (h : FInv E eg ids) {m n : ENode Op} (ht : Tr ids m n) : m.mapChildren eg.rt = m := by
  obtain ⟨op, ch⟩ := m
  simp only [ENode.mapChildren, ENode.mk.injEq, true_and]
  conv_rhs => rw [← List.map_id ch]
  apply List.map_congr_left
  intro c hc
  obtain ⟨q, _, hq⟩ := forall₂_mem_left ht.2 hc
  exact (h.root _ _ hq).2

theorem FInv.lt (h : FInv E eg ids) {m n : ENode Op} (ht : Tr ids m n) : ∀ c ∈ m.children, c < eg.nodes.length := by
  intro c hc
  obtain ⟨q, _, hq⟩ := forall₂_mem_left ht.2 hc
  exact (h.root _ _ hq).1

/-- There are at most as many e-nodes as entries. -/
theorem FInv.bound (h : FInv E eg ids) : eg.nodes.length ≤ E.length := by
  have hsub : eg.nodes ⊆ E.filterMap (fun x => (x.1.children.mapM (fun q => ids.get? q)).map (fun cs => (⟨x.1.op, cs⟩ : ENode Op))) := by
    intro m hm
    obtain ⟨i, hi⟩ := List.mem_iff_getElem?.1 hm
    obtain ⟨x, hx, _, h2, h3⟩ := h.node i m hi
    rw [List.mem_filterMap]
    refine ⟨x, hx, ?_⟩
    have : x.1.children.mapM (fun q => ids.get? q) = some m.children := by
      generalize x.1.children = qs at h3
      clear h2
      generalize m.children = cs at h3
      induction h3 with
      | nil => rfl
      | cons e _ ih => rw [List.mapM_cons, e, ih]; rfl
    rw [this]
    simp [← h2]
  calc eg.nodes.length ≤ _ := (h.nodup.subperm hsub).length_le
    _ ≤ E.length := List.length_filterMap_le _ _

theorem FInv.new : FInv E (EGraph.new : EGraph Op D) [] := by
  refine ⟨good_new _, rfl, ?_, ?_, ?_, ?_, ?_⟩
  · intro p c h; simp [AMap.get?] at h
  · intro p q c h; simp [AMap.get?] at h
  · intro i m h; simp [EGraph.new] at h
  · intro i m h; simp [EGraph.new] at h
  · simp [EGraph.new]

theorem fromEnodesStep_spec {A : UserAnalysis Op D} (hA : TotalQuiet A) (depth : Nat) (allow : Caller Op D)
    (hE : ∀ n p q, (n, p) ∈ E → (n, q) ∈ E → p = q) (h : FInv E eg ids) {x : ENode Op × Id} (hx : x ∈ E) (did : Bool) :
    ∃ eg' ids' did', fromEnodesStep (A.at (depth + 1)) ((eg, ids), did) x = .ok ((eg', ids'), did') ∧ FInv E eg' ids' ∧
      (∃ U, Steps (A.at (depth + 1)) allow eg U eg') ∧
      ((eg' = eg ∧ ids' = ids ∧ did' = did ∧ Repd eg ids x) ∨ (did' = true ∧ eg'.nodes.length = eg.nodes.length + 1)) := by
  obtain ⟨n, p⟩ := x
  have hq : QuietMod (A.at (depth + 1)) := hA.quietMod
  unfold fromEnodesStep
  dsimp only
  by_cases hv : n.children.all (fun c => (ids.get? c).isSome) = true
  swap
  · rw [if_neg hv]
    refine ⟨eg, ids, did, rfl, h, ⟨[], .refl⟩, Or.inl ⟨rfl, rfl, rfl, ?_⟩⟩
    intro hc
    exact absurd (by rw [List.all_eq_true]; exact hc) hv
  rw [if_pos hv]
  rw [List.all_eq_true] at hv
  obtain ⟨m, hm, htr⟩ : ∃ m, n.mapChildrenM (fun c => unwrap (ids.get? c)) = .ok m ∧ Tr ids m n := by
    have : ∀ l : List Id, (∀ c ∈ l, (ids.get? c).isSome = true) → ∃ cs, l.mapM (fun c => unwrap (ids.get? c)) = .ok cs ∧
        List.Forall₂ (fun c q => ids.get? q = some c) cs l := by
      intro l
      induction l with
      | nil => intro _; exact ⟨[], rfl, .nil⟩
      | cons c l ih =>
        intro hl
        obtain ⟨v, hv⟩ := Option.isSome_iff_exists.1 (hl c (by simp))
        obtain ⟨cs, h1, h2⟩ := ih (fun d hd => hl d (by simp [hd]))
        refine ⟨v :: cs, ?_, .cons hv h2⟩
        rw [List.mapM_cons, unwrap_eq_ok.2 hv, ok_bind, h1]; rfl
    obtain ⟨cs, h1, h2⟩ := this n.children hv
    refine ⟨⟨n.op, cs⟩, ?_, rfl, h2⟩
    unfold ENode.mapChildrenM
    rw [h1]; rfl
  rw [hm, ok_bind]
  have hlt := h.lt htr
  have hcanon := h.good.inv.canon hlt
  rw [h.canonical htr] at hcanon
  cases hmem : eg.mem m with
  | some q =>
    have hql := h.good.inv.core.memLt hmem
    have hlook : eg.lookup m = .ok (some (eg.rt q)) := by
      unfold mem at hmem
      simp [lookup, lookupInternal, hcanon, hmem, h.good.inv.find hql]
    rw [hlook, ok_bind]
    refine ⟨eg, ids, did, rfl, h, ⟨[], .refl⟩, Or.inl ⟨rfl, rfl, rfl, ?_⟩⟩
    intro _
    obtain ⟨nj, j1, j2, _⟩ := h.good.inv.core.memo m q hmem
    obtain ⟨x, x1, x2, x3⟩ := h.node q nj j1
    have e : nj = m := by
      have := cong_iff_canon.1 j2
      rwa [h.canonical x3, h.canonical htr] at this
    subst e
    obtain ⟨n', p'⟩ := x
    have e := htr.inj h.inj x3
    dsimp only at e x2
    subst e
    have e := hE _ _ _ hx x1
    subst e
    exact ⟨q, nj, j1, x2, x3⟩
  | none =>
    have hlook : eg.lookup m = .ok none := by
      unfold mem at hmem
      simp [lookup, lookupInternal, hcanon, hmem]
    rw [hlook, ok_bind]
    dsimp only
    rw [hcanon, ok_bind]
    have hnew := addUncanonical_cases (A.at (depth + 1)) h.good.inv hlt
    have hcm : m.mapChildren eg.rt = m := h.canonical htr
    rw [hcm] at hnew
    rcases hnew with ⟨e, j, nj, q1, _⟩ | ⟨e, x, eg1, q1, _⟩ | ⟨_, eg1, q2, q3⟩
    · rw [hmem] at q1; cases q1
    · rw [hmem] at q1; cases q1
    have hpost := addUncanonical_post (hA.hookOK (depth := depth) (hR := isCongruence_top)) h.good hlt
    cases ha : addUncanonical (A.at (depth + 1)) eg m with
    | error e => rw [ha] at hpost; exact False.elim hpost
    | ok r =>
    obtain ⟨eg2, i⟩ := r
    rw [ha] at hpost
    obtain ⟨k1, k2, -⟩ := hpost
    have k1 : Good (topCfg Op D) eg2 := k1
    have hcl2 := (addUncanonical_quiet hq h.good.inv hlt ha).2 h.closed
    have hstep : Step (A.at (depth + 1)) allow eg [] eg2 := .add ha
    obtain ⟨d, hi, hncn, hncrt, hncc, hncx⟩ : ∃ d, i = eg.nodes.length ∧ eg2.nodes = eg.nodes ++ [m] ∧
        (∀ i, eg2.rt i = eg.rt i) ∧ eg2.classes.get? eg.nodes.length = some ⟨eg.nodes.length, [m.mapChildren eg.rt], d, []⟩ ∧
        eg2.explain.isSome = eg.explain.isSome := by
      rw [ha] at q3
      have q3 := q3.symm
      rw [bind_eq_ok] at q3
      obtain ⟨d, _, q3⟩ := q3
      rw [bind_eq_ok] at q3
      obtain ⟨eg3, hmd, q3⟩ := q3
      have := hq _ _ _ hmd
      subst this
      cases q3
      have hnc := (q2 d).2
      exact ⟨d, rfl, hnc.nodes, hnc.rt, by rw [show AMap.get? _ _ = _ from hnc.classes eg.nodes.length, if_pos rfl], hnc.expl⟩
    subst hi
    have hlen : eg2.nodes.length = eg.nodes.length + 1 := by rw [hncn]; simp
    have hlt2 : eg.nodes.length < eg2.nodes.length := by omega
    have hrtnew : eg2.rt eg.nodes.length = eg.nodes.length := by
      rw [hncrt]; exact h.good.inv.core.rtOut _ (le_refl _)
    have hadd : EGraph.add (A.at (depth + 1)) eg m = .ok (eg2, eg.nodes.length) := by
      unfold EGraph.add
      rw [ha, ok_bind]
      dsimp only
      rw [k1.inv.find hlt2, hrtnew]; rfl
    rw [hadd, ok_bind]
    dsimp only
    -- the state after the addition
    have hnd2 : eg2.nodes.Nodup := by
      rw [hncn, List.nodup_append]
      refine ⟨h.nodup, by simp, ?_⟩
      intro a haa b hb
      simp only [List.mem_singleton] at hb
      subst hb
      rintro rfl
      obtain ⟨i, hi⟩ := List.mem_iff_getElem?.1 haa
      obtain ⟨q, h1, _⟩ := h.closed i a hi
      rw [hcm, hmem] at h1; cases h1
    have hx2 : eg2.explain = none := by
      have := hncx
      rw [h.expl] at this
      simpa using this
    have hold : ∀ i k, eg.nodes[i]? = some k → ∃ x ∈ E, ids.get? x.2 = some (eg2.rt i) ∧ Tr ids k x.1 := by
      intro i k hi; rw [hncrt]; exact h.node i k hi
    cases hp : ids.get? p with
    | none =>
      dsimp only
      have hle : ∀ q c, ids.get? q = some c → (ids.insert p eg.nodes.length).get? q = some c := by
        intro q c hqc
        rw [AMap.get?_insert, if_neg (by rintro rfl; rw [hp] at hqc; cases hqc)]
        exact hqc
      have htrm : ∀ {a b : ENode Op}, Tr ids a b → Tr (ids.insert p eg.nodes.length) a b := fun t =>
        ⟨t.1, forall₂_mono_mem t.2 (fun _ _ _ _ e => hle _ _ e)⟩
      refine ⟨_, _, _, rfl, ⟨k1, hx2, ?_, ?_, ?_, hcl2, hnd2⟩, ⟨_, .tail .refl hstep⟩, Or.inr ⟨rfl, hlen⟩⟩
      · intro q c hqc
        rw [AMap.get?_insert] at hqc
        split at hqc
        · cases hqc; exact ⟨by omega, hrtnew⟩
        · obtain ⟨r1, r2⟩ := h.root q c hqc
          exact ⟨by omega, by rw [hncrt]; exact r2⟩
      · intro q q' c hqc hqc'
        rw [AMap.get?_insert] at hqc hqc'
        split at hqc
        · rename_i e
          split at hqc'
          · rename_i e'; rw [← e, ← e']
          · cases hqc
            have := (h.root _ _ hqc').1; omega
        · split at hqc'
          · cases hqc'
            have := (h.root _ _ hqc).1; omega
          · exact h.inj _ _ _ hqc hqc'
      · intro i k hi
        by_cases hil : i < eg.nodes.length
        · rw [hncn, List.getElem?_append_left hil] at hi
          obtain ⟨x, x1, x2, x3⟩ := hold i k hi
          exact ⟨x, x1, hle _ _ x2, htrm x3⟩
        · have hil2 := getElem?_lt hi
          have e : i = eg.nodes.length := by omega
          subst e
          rw [hncn] at hi
          simp at hi
          subst hi
          exact ⟨(n, p), hx, by rw [AMap.get?_insert, if_pos rfl, hrtnew], htrm htr⟩
    | some c =>
      dsimp only
      obtain ⟨c1, c2⟩ := h.root p c hp
      have c1' : c < eg2.nodes.length := by omega
      have hc2 : eg2.rt c = c := by rw [hncrt]; exact c2
      have hne : eg2.rt c ≠ eg2.rt eg.nodes.length := by rw [hrtnew, hc2]; omega
      have hpc := performUnion_cases (N := A.at (depth + 1)) (e1 := c) (e2 := eg.nodes.length) (rule := none)
        (k1.inv.monoW (fun _ _ e => Or.inl e)) c1' hlt2 (fun _ _ _ _ => trivial) (by simp [JustOK, hx2])
      rcases hpc with ⟨e, _⟩ | ⟨_, eg3, a, b, ka, kb, hab, hl, hinv3, hpu, hord⟩
      · exact absurd e hne
      have hbnew : eg2.classes.get? eg.nodes.length = some ⟨eg.nodes.length, [m.mapChildren eg.rt], d, []⟩ := by
        exact hncc
      have hab : a = c ∧ b = eg.nodes.length := by
        rw [hc2, hrtnew] at hab
        rcases hab with h | ⟨ea, eb⟩
        · exact h
        · exfalso
          have h1 := hord (by rw [hc2]; exact eb)
          have h2 := hl.get1
          rw [ea, hbnew] at h2
          cases h2
          simp at h1
      obtain ⟨rfl, rfl⟩ := hab
      have hmod : (A.at (depth + 1)).modify eg3 a = .ok eg3 := by
        show (A.modify a).run (A.at depth) eg3 = _
        rw [hA.quiet]; rfl
      rw [hmod, ok_bind] at hpu
      have hun : EGraph.union (A.at (depth + 1)) eg2 a eg.nodes.length = .ok (eg3, true) := by
        unfold EGraph.union
        rw [hx2]; exact hpu
      rw [hun, ok_bind]
      have hrt3 : ∀ i, i < eg.nodes.length → eg3.rt i = eg.rt i := by
        intro i hi
        rw [hl.rt, hncrt, if_neg]
        have := h.good.inv.core.rtLt i hi; omega
      have hrt3n : eg3.rt eg.nodes.length = a := by rw [hl.rt, hrtnew, if_pos rfl]
      have hn3 : eg3.nodes = eg.nodes ++ [m] := by rw [hl.nodes, hncn]
      have hgood3 : Good (topCfg Op D) eg3 := by
        have := performUnion_good (hA.hookOK (depth := depth) (hR := isCongruence_top)) k1 (e1 := a) (e2 := eg.nodes.length)
          (rule := none) c1' hlt2 (fun _ _ _ _ => trivial) (by simp [JustOK, hx2])
        rw [hpu] at this
        exact this.1
      have hnode3 : ∀ i k, eg3.nodes[i]? = some k → ∃ x ∈ E, ids.get? x.2 = some (eg3.rt i) ∧ Tr ids k x.1 := by
        intro i k hi
        rw [hn3] at hi
        by_cases hil : i < eg.nodes.length
        · rw [List.getElem?_append_left hil] at hi
          obtain ⟨x, x1, x2, x3⟩ := h.node i k hi
          exact ⟨x, x1, by rw [hrt3 i hil]; exact x2, x3⟩
        · have hil2 := getElem?_lt hi
          simp at hil2
          have e : i = eg.nodes.length := by omega
          subst e
          simp at hi
          subst hi
          exact ⟨(n, p), hx, by rw [hrt3n]; exact hp, htr⟩
      refine ⟨eg3, ids, true, rfl, ⟨hgood3, ?_, ?_, h.inj, hnode3, ?_, by rw [hl.nodes]; exact hnd2⟩, ?_, Or.inr ⟨rfl, by rw [hl.nodes]; exact hlen⟩⟩
      · have := hl.expl
        rw [hx2] at this
        simpa using this
      · intro q c' hqc
        obtain ⟨r1, r2⟩ := h.root q c' hqc
        exact ⟨by rw [hl.nodes]; exact lt_trans r1 hlt2, by rw [hrt3 _ r1]; exact r2⟩
      · intro i k hi
        have hi2 : eg2.nodes[i]? = some k := by rw [← hl.nodes]; exact hi
        obtain ⟨q, y1, y2⟩ := hcl2 i k hi2
        refine ⟨q, ?_, by rw [hl.rt, hl.rt, y2]⟩
        obtain ⟨x, _, _, x3⟩ := hnode3 i k hi
        rw [mapChildren_congr (f := eg3.rt) (g := eg2.rt) (fun c' hc' => by
          rw [hrt3 c' (h.lt x3 c' hc'), hncrt])]
        unfold mem at y1 ⊢
        rw [hl.memo]; exact y1
      · obtain ⟨s, hs⟩ := k1.inv.exists_rep (i := a) c1'
        obtain ⟨t, ht⟩ := k1.inv.exists_rep (i := eg.nodes.length) hlt2
        exact ⟨_, .tail (.tail .refl hstep) (.union hs ht hun)⟩

theorem fromEnodes_pass {A : UserAnalysis Op D} (hA : TotalQuiet A) (depth : Nat) (allow : Caller Op D)
    (hE : ∀ n p q, (n, p) ∈ E → (n, q) ∈ E → p = q) : ∀ (l : List (ENode Op × Id)), (∀ x ∈ l, x ∈ E) →
    ∀ (eg : EGraph Op D) (ids : AMap Id Id) (did : Bool), FInv E eg ids →
    ∃ eg' ids' did', l.foldlM (fromEnodesStep (A.at (depth + 1))) ((eg, ids), did) = .ok ((eg', ids'), did') ∧ FInv E eg' ids' ∧
      (∃ U, Steps (A.at (depth + 1)) allow eg U eg') ∧
      ((eg' = eg ∧ ids' = ids ∧ did' = did ∧ ∀ x ∈ l, Repd eg ids x) ∨ (did' = true ∧ eg.nodes.length < eg'.nodes.length)) := by
  intro l
  induction l with
  | nil => intro _ eg ids did h; exact ⟨eg, ids, did, rfl, h, ⟨[], .refl⟩, Or.inl ⟨rfl, rfl, rfl, by simp⟩⟩
  | cons x l ih =>
    intro hl eg ids did h
    obtain ⟨eg1, ids1, did1, h1, h2, ⟨U1, h3⟩, h4⟩ := fromEnodesStep_spec hA depth allow hE h (hl x (by simp)) did
    obtain ⟨eg2, ids2, did2, g1, g2, ⟨U2, g3⟩, g4⟩ := ih (fun y hy => hl y (by simp [hy])) eg1 ids1 did1 h2
    refine ⟨eg2, ids2, did2, by rw [List.foldlM_cons, h1]; exact g1, g2, ⟨_, h3.trans g3⟩, ?_⟩
    rcases h4 with ⟨rfl, rfl, rfl, h4⟩ | ⟨rfl, h4⟩
    · rcases g4 with ⟨rfl, rfl, rfl, g4⟩ | ⟨rfl, g4⟩
      · left
        refine ⟨rfl, rfl, rfl, ?_⟩
        intro y hy
        rcases List.mem_cons.1 hy with rfl | hy
        · exact h4
        · exact g4 y hy
      · exact Or.inr ⟨rfl, g4⟩
    · right
      rcases g4 with ⟨rfl, rfl, rfl, g4⟩ | ⟨rfl, g4⟩
      · exact ⟨rfl, by omega⟩
      · exact ⟨rfl, by omega⟩

theorem fromEnodesLoop_spec {A : UserAnalysis Op D} (hA : TotalQuiet A) (depth : Nat) (allow : Caller Op D)
    (hE : ∀ n p q, (n, p) ∈ E → (n, q) ∈ E → p = q) : ∀ (fuel : Nat) (eg : EGraph Op D) (ids : AMap Id Id), FInv E eg ids →
    E.length < fuel + eg.nodes.length →
    ∃ res ids', fromEnodesLoop (A.at (depth + 1)) E fuel (eg, ids) = .ok res ∧ FInv E res ids' ∧
      (∃ U, Steps (A.at (depth + 1)) allow eg U res) ∧ ∀ x ∈ E, Repd res ids' x := by
  intro fuel
  induction fuel with
  | zero =>
    intro eg ids h hlt
    have := h.bound
    omega
  | succ fuel ih =>
    intro eg ids h hlt
    obtain ⟨eg1, ids1, did1, h1, h2, ⟨U1, h3⟩, h4⟩ := fromEnodes_pass hA depth allow hE E (fun _ h => h) eg ids false h
    unfold fromEnodesLoop
    rw [h1, ok_bind]
    dsimp only
    rcases h4 with ⟨rfl, rfl, rfl, h4⟩ | ⟨rfl, h4⟩
    · exact ⟨eg1, ids1, rfl, h2, ⟨_, h3⟩, h4⟩
    · obtain ⟨res, ids', g1, g2, ⟨U2, g3⟩, g4⟩ := ih eg1 ids1 h2 (by omega)
      exact ⟨res, ids', g1, g2, ⟨_, h3.trans g3⟩, g4⟩

end EGraph
end Egg
