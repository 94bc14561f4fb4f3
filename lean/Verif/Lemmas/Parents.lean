import Verif.Lemmas.Clean
/-
The parent lists of classes: an id occurs in the list of a class as often as its e-node has arguments in that class,
or in no list at all.
-/
namespace Egg
variable {Op D : Type} [DecidableEq Op] [Lang Op]

theorem count_concatVecs {α : Type} [BEq α] (a b : List α) (x : α) : (concatVecs a b).count x = a.count x + b.count x := by
  unfold concatVecs
  split <;> simp [Nat.add_comm]

namespace UF

theorem findMut_of_ok {ps ps' : UF} {i r : Id} (h : WF ps) (hr : findMut ps i = .ok (ps', r)) :
    i < ps.length ∧ Same ps ps' ∧ r = root ps i := by
  by_cases hi : i < ps.length
  · obtain ⟨q, h1, h2⟩ := findMut_ok h hi
    rw [h1] at hr
    cases hr
    exact ⟨hi, h2, rfl⟩
  · unfold findMut findMutLoop at hr
    rw [List.getElem?_eq_none (by omega)] at hr
    cases hr

theorem findMutList_of_ok {ps ps' : UF} {is rs : List Id} (h : WF ps) (hr : findMutList ps is = .ok (ps', rs)) :
    Same ps ps' := by
  induction is generalizing ps rs with
  | nil => cases hr; exact Same.refl h
  | cons i is ih =>
    unfold findMutList at hr
    obtain ⟨⟨p1, r⟩, h1, hr⟩ := bind_eq_ok.1 hr
    obtain ⟨⟨p2, rs'⟩, h2, hr⟩ := bind_eq_ok.1 hr
    cases hr
    obtain ⟨_, s1, _⟩ := findMut_of_ok h h1
    exact s1.trans (ih s1.wf h2)

end UF

namespace EGraph
variable {eg : EGraph Op D} {N : Analysis Op D}

/-- The parent list of a class. -/
def ps (eg : EGraph Op D) (c : Id) : Option (List Id) := (eg.classes.get? c).map EClass.parents

structure ParV (nodes : List (ENode Op)) (rt : Id → Id) (ps : Id → Option (List Id)) : Prop where
  key : ∀ c l, ps c = some l → c < nodes.length ∧ rt c = c
  out : ∀ c l p, ps c = some l → p ∈ l → p < nodes.length
  dag : Dag nodes
  cnt : ∀ (p : Id) n, nodes[p]? = some n → (∀ c l, ps c = some l → p ∉ l) ∨
    (∀ c l, ps c = some l → l.count p = (n.children.map rt).count c)

/-- Parent lists are exact. -/
structure Par (eg : EGraph Op D) : Prop where
  wf : UF.WF eg.uf
  len : eg.nodes.length = eg.uf.length
  v : ParV eg.nodes eg.rt eg.ps

theorem Par.soft (h : Par eg) {eg' : EGraph Op D} (hu : UF.Same eg.uf eg'.uf) (hn : eg'.nodes = eg.nodes) (hp : ∀ c, eg'.ps c = eg.ps c) :
    Par eg' := by
  have hr : eg'.rt = eg.rt := by funext i; exact hu.root i
  have hp' : eg'.ps = eg.ps := funext hp
  refine ⟨hu.wf, by rw [hn, hu.len, h.len], ?_⟩
  rw [hn, hr, hp']
  exact h.v

theorem Par.same (h : Par eg) {uf : UF} (hu : UF.Same eg.uf uf) : Par { eg with uf := uf } := h.soft hu rfl (fun _ => rfl)

theorem count_link {rt : Id → Id} {a b : Id} (hab : a ≠ b) (xs : List Id) (c : Id) :
    ((xs.map fun i => if rt i = b then a else rt i).count c) =
      if c = a then (xs.map rt).count a + (xs.map rt).count b else if c = b then 0 else (xs.map rt).count c := by
  induction xs with
  | nil => simp
  | cons x xs ih =>
    simp only [List.map_cons, List.count_cons, ih, beq_iff_eq]
    by_cases h1 : rt x = b
    · simp only [h1, if_pos]
      by_cases h2 : c = a
      · subst h2; simp [hab, Ne.symm hab]; omega
      · rw [if_neg h2, if_neg h2]
        by_cases h3 : c = b
        · simp [h3, hab]
        · simp [h3, Ne.symm h2, Ne.symm h3]
    · simp only [h1, if_false]
      by_cases h2 : c = a
      · subst h2; simp; omega
      · rw [if_neg h2, if_neg h2]
        by_cases h3 : c = b
        · subst h3; simp [h1]
        · simp [h3]

/-- Merging class `b` into class `a`. -/
theorem Par.link (h : Par eg) {eg' : EGraph Op D} {a b : Id} {la lb : List Id} (ha : eg.ps a = some la) (hb : eg.ps b = some lb) (hab : a ≠ b)
    (hu : eg'.uf = eg.uf.set b a) (hn : eg'.nodes = eg.nodes)
    (hp : ∀ c, eg'.ps c = if c = a then some (concatVecs la lb) else if c = b then none else eg.ps c) : Par eg' := by
  obtain ⟨a1, a2⟩ := h.v.key a la ha
  obtain ⟨b1, b2⟩ := h.v.key b lb hb
  rw [h.len] at a1 b1
  obtain ⟨w1, w2⟩ := UF.union_spec h.wf a1 b1 a2 b2 hab
  have hrt : ∀ i, i < eg.nodes.length → eg'.rt i = if eg.rt i = b then a else eg.rt i := by
    intro i hi
    unfold rt
    rw [hu]
    exact w2 i (by rw [← h.len]; exact hi)
  refine ⟨by rw [hu]; exact w1, by rw [hn, hu, h.len]; simp, ?_⟩
  rw [hn]
  refine ⟨?_, ?_, h.v.dag, ?_⟩
  · intro c l hc
    rw [hp] at hc
    split at hc
    · rename_i hca
      subst hca
      refine ⟨by rw [h.len]; exact a1, ?_⟩
      rw [hrt _ (by rw [h.len]; exact a1), a2, if_neg hab]
    · split at hc
      · cases hc
      · rename_i h1 h2
        obtain ⟨k1, k2⟩ := h.v.key c l hc
        exact ⟨k1, by rw [hrt c k1, k2, if_neg h2]⟩
  · intro c l p hc hl
    rw [hp] at hc
    split at hc
    · cases hc
      rcases mem_concatVecs.1 hl with hl | hl
      · exact h.v.out a la p ha hl
      · exact h.v.out b lb p hb hl
    · split at hc
      · cases hc
      · exact h.v.out c l p hc hl
  · intro p n hpn
    have hm : n.children.map eg'.rt = n.children.map (fun i => if eg.rt i = b then a else eg.rt i) :=
      List.map_congr_left (fun c hc => hrt c (lt_trans (h.v.dag p n hpn c hc) (getElem?_lt hpn)))
    rcases h.v.cnt p n hpn with h1 | h1
    · left
      intro c l hc hl
      rw [hp] at hc
      split at hc
      · cases hc
        rcases mem_concatVecs.1 hl with hl | hl
        · exact h1 a la ha hl
        · exact h1 b lb hb hl
      · split at hc
        · cases hc
        · exact h1 c l hc hl
    · right
      intro c l hc
      rw [hm, count_link hab]
      rw [hp] at hc
      split at hc
      · rename_i hca
        cases hc
        rw [if_pos hca, count_concatVecs, h1 a la ha, h1 b lb hb]
      · split at hc
        · cases hc
        · rename_i g1 g2
          rw [if_neg g1, if_neg g2, h1 c l hc]

/-- A new id whose e-node is entered `count` times into the list of every class. -/
theorem Par.grow (h : Par eg) {eg' : EGraph Op D} {n : ENode Op} (hn : eg'.nodes = eg.nodes ++ [n])
    (hc : ∀ c ∈ n.children, c < eg.nodes.length) (hw : UF.WF eg'.uf) (hl : eg'.uf.length = eg.uf.length + 1)
    (hr : ∀ i, i < eg.nodes.length → eg'.rt i = eg.rt i)
    (hp : (∀ c, eg'.ps c = eg.ps c) ∨ (eg'.rt eg.nodes.length = eg.nodes.length ∧
      ∀ c, eg'.ps c = if c = eg.nodes.length then some [] else (eg.ps c).map (· ++ List.replicate ((n.children.map eg.rt).count c) eg.nodes.length))) :
    Par eg' := by
  have hlen : eg'.nodes.length = eg.nodes.length + 1 := by rw [hn]; simp
  have hcs : ∀ (p : Id) (m : ENode Op), eg.nodes[p]? = some m → m.children.map eg'.rt = m.children.map eg.rt := fun p m hpm =>
    List.map_congr_left (fun c hcm => hr c (lt_trans (h.v.dag p m hpm c hcm) (getElem?_lt hpm)))
  have hcn : n.children.map eg'.rt = n.children.map eg.rt := List.map_congr_left (fun c hcm => hr c (hc c hcm))
  have hget : ∀ p m, eg'.nodes[p]? = some m → eg.nodes[p]? = some m ∧ p < eg.nodes.length ∨ p = eg.nodes.length ∧ m = n := by
    intro p m hpm
    rw [hn] at hpm
    by_cases hlt : p < eg.nodes.length
    · rw [List.getElem?_append_left hlt] at hpm
      exact .inl ⟨hpm, hlt⟩
    · have := getElem?_lt hpm
      simp at this
      have hpe : p = eg.nodes.length := by omega
      subst hpe
      simp at hpm
      exact .inr ⟨rfl, hpm.symm⟩
  have hdag : Dag eg'.nodes := by
    intro p m hpm c hcm
    rcases hget p m hpm with ⟨k, _⟩ | ⟨rfl, rfl⟩
    · exact h.v.dag p m k c hcm
    · exact hc c hcm
  refine ⟨hw, by rw [hlen, hl, h.len], ?_⟩
  rcases hp with hp | ⟨hrn, hp⟩
  · refine ⟨?_, ?_, hdag, ?_⟩
    · intro c l hcl
      rw [hp] at hcl
      obtain ⟨k1, k2⟩ := h.v.key c l hcl
      exact ⟨by omega, by rw [hr c k1, k2]⟩
    · intro c l p hcl hpl
      rw [hp] at hcl
      have := h.v.out c l p hcl hpl
      omega
    · intro p m hpm
      rcases hget p m hpm with ⟨k, _⟩ | ⟨rfl, rfl⟩
      · rw [hcs p m k]
        rcases h.v.cnt p m k with h1 | h1
        · left; intro c l hcl; rw [hp] at hcl; exact h1 c l hcl
        · right; intro c l hcl; rw [hp] at hcl; exact h1 c l hcl
      · left
        intro c l hcl hpl
        rw [hp] at hcl
        exact absurd (h.v.out c l _ hcl hpl) (by omega)
  · have hps : ∀ c l, eg'.ps c = some l → (c = eg.nodes.length ∧ l = []) ∨
        c < eg.nodes.length ∧ ∃ l', eg.ps c = some l' ∧ l = l' ++ List.replicate ((n.children.map eg.rt).count c) eg.nodes.length := by
      intro c l hcl
      rw [hp] at hcl
      split at hcl
      · rename_i hce
        cases hcl
        exact .inl ⟨hce, rfl⟩
      · cases hk : eg.ps c with
        | none => rw [hk] at hcl; cases hcl
        | some l' =>
          rw [hk] at hcl
          cases hcl
          exact .inr ⟨(h.v.key c l' hk).1, l', rfl, rfl⟩
    refine ⟨?_, ?_, hdag, ?_⟩
    · intro c l hcl
      rcases hps c l hcl with ⟨rfl, _⟩ | ⟨k1, l', hk, _⟩
      · exact ⟨by omega, hrn⟩
      · exact ⟨by omega, by rw [hr c k1, (h.v.key c l' hk).2]⟩
    · intro c l p hcl hpl
      rcases hps c l hcl with ⟨_, rfl⟩ | ⟨k1, l', hk, rfl⟩
      · cases hpl
      · rcases List.mem_append.1 hpl with hpl | hpl
        · have := h.v.out c l' p hk hpl; omega
        · rw [List.eq_of_mem_replicate hpl]; omega
    · intro p m hpm
      rcases hget p m hpm with ⟨k, klt⟩ | ⟨rfl, rfl⟩
      · rw [hcs p m k]
        have hne : eg.nodes.length ≠ p := by omega
        rcases h.v.cnt p m k with h1 | h1
        · left
          intro c l hcl hpl
          rcases hps c l hcl with ⟨_, rfl⟩ | ⟨k1, l', hk, rfl⟩
          · cases hpl
          · rcases List.mem_append.1 hpl with hpl | hpl
            · exact h1 c l' hk hpl
            · exact hne (List.eq_of_mem_replicate hpl).symm
        · right
          intro c l hcl
          rcases hps c l hcl with ⟨rfl, rfl⟩ | ⟨k1, l', hk, rfl⟩
          · symm
            simp only [List.count_nil]
            rw [List.count_eq_zero]
            intro hmem
            obtain ⟨ch, g1, g2⟩ := List.mem_map.1 hmem
            have g3 : ch < eg.nodes.length := lt_trans (h.v.dag p m k ch g1) klt
            have g4 : eg.rt ch < eg.uf.length := UF.root_lt h.wf (by rw [← h.len]; exact g3)
            rw [← h.len] at g4
            omega
          · rw [List.count_append, h1 c l' hk, List.count_replicate]
            simp [hne]
      · right
        rw [hcn]
        intro c l hcl
        rcases hps c l hcl with ⟨rfl, rfl⟩ | ⟨k1, l', hk, rfl⟩
        · symm
          simp only [List.count_nil]
          rw [List.count_eq_zero]
          intro hmem
          obtain ⟨ch, g1, g2⟩ := List.mem_map.1 hmem
          have g4 : eg.rt ch < eg.uf.length := UF.root_lt h.wf (by rw [← h.len]; exact hc ch g1)
          rw [← h.len] at g4
          omega
        · rw [List.count_append, List.count_replicate]
          have : l'.count eg.nodes.length = 0 := by
            rw [List.count_eq_zero]
            intro hmem
            exact absurd (h.v.out c l' _ hk hmem) (by omega)
          rw [this]
          simp

/-! ### Operations -/

theorem ps_insert (eg : EGraph Op D) (uf : UF) (r : Id) (k : EClass Op D) (c : Id) :
    ({ eg with uf := uf, classes := eg.classes.insert r k } : EGraph Op D).ps c = if c = r then some k.parents else eg.ps c := by
  unfold ps
  simp only [AMap.get?_insert]
  by_cases h : r = c
  · simp [h]
  · simp [h, Ne.symm h]

theorem ps_data {r : Id} {k : EClass Op D} (hk : eg.classes.get? r = some k) (d : D) (c : Id) :
    ((eg.classes.insert r { k with data := d }).get? c).map EClass.parents = eg.ps c := by
  unfold ps
  simp only [AMap.get?_insert]
  by_cases h : r = c
  · subst h; simp [hk]
  · simp [h]

/-- The hook keeps the parent lists exact. -/
def HookPar (N : Analysis Op D) : Prop := ∀ eg i eg', Par eg → N.modify eg i = .ok eg' → Par eg'

theorem pushParents_ps : ∀ (cs : List Id) (eg eg' : EGraph Op D) (id : Id), UF.WF eg.uf → pushParents eg cs id = .ok eg' →
    UF.Same eg.uf eg'.uf ∧ eg'.nodes = eg.nodes ∧ ∀ c, eg'.ps c = (eg.ps c).map (· ++ List.replicate ((cs.map eg.rt).count c) id) := by
  intro cs
  induction cs with
  | nil =>
    intro eg eg' id hw h
    cases h
    refine ⟨UF.Same.refl hw, rfl, fun c => ?_⟩
    cases eg.ps c <;> simp
  | cons i cs ih =>
    intro eg eg' id hw h
    unfold pushParents at h
    obtain ⟨⟨uf, r⟩, h1, h⟩ := bind_eq_ok.1 h
    obtain ⟨k, h2, h⟩ := bind_eq_ok.1 h
    rw [unwrap_eq_ok] at h2
    obtain ⟨_, s1, hr⟩ := UF.findMut_of_ok hw h1
    obtain ⟨g1, g2, g3⟩ := ih _ _ id s1.wf h
    refine ⟨s1.trans g1, g2, fun c => ?_⟩
    have hrt : ({ eg with uf := uf, classes := eg.classes.insert r { k with parents := k.parents ++ [id] } } : EGraph Op D).rt = eg.rt := by
      funext j; exact s1.root j
    rw [g3 c, hrt, ps_insert]
    have hk : eg.ps r = some k.parents := by unfold ps; rw [h2]; rfl
    have hr' : eg.rt i = r := hr.symm
    simp only [List.map_cons, List.count_cons, beq_iff_eq, hr']
    by_cases hc : c = r
    · subst hc
      rw [if_pos rfl, if_pos rfl, hk]
      simp only [Option.map_some, List.append_assoc, List.singleton_append, List.replicate_succ]
    · rw [if_neg hc, if_neg (Ne.symm hc), Nat.add_zero]

theorem canon_par (hp : Par eg) {n m : ENode Op} (hm : eg.canon n = .ok m) :
    (∀ c ∈ n.children, c < eg.nodes.length) ∧ m.children = n.children.map eg.rt := by
  unfold canon ENode.mapChildrenM at hm
  obtain ⟨cs, hcs, hm⟩ := bind_eq_ok.1 hm
  cases hm
  clear hm
  rw [mapM_eq_ok] at hcs
  have hf : ∀ a b, eg.find a = .ok b → a < eg.nodes.length ∧ eg.rt a = b := fun a b hab => by
    rw [hp.len]; exact (UF.find_ok_iff hp.wf).1 hab
  show _ ∧ cs = _
  revert hcs
  generalize n.children = xs
  intro hcs
  induction hcs with
  | nil => simp
  | cons hab _ ih =>
    obtain ⟨k1, k2⟩ := hf _ _ hab
    refine ⟨?_, by rw [List.map_cons, k2, ← ih.2]⟩
    intro c hc
    rcases List.mem_cons.1 hc with rfl | hc
    · exact k1
    · exact ih.1 c hc

theorem addUncanonical_par (hN : HookPar N) (hp : Par eg) {n : ENode Op} {eg' : EGraph Op D} {i : Id}
    (h : addUncanonical N eg n = .ok (eg', i)) : Par eg' := by
  unfold addUncanonical at h
  obtain ⟨m, hm, h⟩ := bind_eq_ok.1 h
  have hcanon : (∀ c ∈ n.children, c < eg.nodes.length) ∧ m.children = n.children.map eg.rt := canon_par hp hm
  obtain ⟨hch, hmc⟩ := hcanon
  simp only at h
  split at h
  · rename_i existing hex
    obtain ⟨j, hj, h⟩ := bind_eq_ok.1 h
    split at h
    · cases h; exact hp
    · split at h
      · cases h; exact hp
      · obtain ⟨x1, h1, h⟩ := bind_eq_ok.1 h
        obtain ⟨uf, h2, h⟩ := bind_eq_ok.1 h
        obtain ⟨x2, h3, h⟩ := bind_eq_ok.1 h
        cases h
        obtain ⟨j1, j2⟩ := (UF.find_ok_iff hp.wf).1 hj
        have hjr : UF.root eg.uf j = j := by rw [← j2]; exact UF.root_root hp.wf j1
        have hjl : j < eg.uf.length := by rw [← j2]; exact UF.root_lt hp.wf j1
        have h2' : uf = (eg.uf ++ [eg.uf.length]).set eg.uf.length j := by
          unfold UF.union at h2
          split at h2
          · cases h2; rfl
          · cases h2
        · subst h2'
          have w0 := UF.wf_makeSet hp.wf
          obtain ⟨w1, w2⟩ := UF.union_spec w0 (a := j) (b := eg.uf.length) (by simp; omega) (by simp)
            (by rw [UF.root_makeSet hp.wf hjl, hjr]) (UF.root_makeSet_new hp.wf) (by omega)
          refine hp.grow (n := n) rfl hch w1 (by simp) ?_ (.inl fun _ => rfl)
          intro c hc
          rw [hp.len] at hc
          unfold rt
          simp only
          rw [w2 c (by simp; omega), UF.root_makeSet hp.wf hc, if_neg]
          have := UF.root_lt hp.wf hc
          omega
  · obtain ⟨⟨eg1, id⟩, h1, h⟩ := bind_eq_ok.1 h
    obtain ⟨x, h2, h⟩ := bind_eq_ok.1 h
    obtain ⟨eg2, h3, h⟩ := bind_eq_ok.1 h
    cases h
    have hp2 : Par { eg1 with explain := x } := by
      unfold makeNewEClass at h1
      simp only [UF.makeSet] at h1
      obtain ⟨d, hd, h1⟩ := bind_eq_ok.1 h1
      obtain ⟨eg3, h4, h1⟩ := bind_eq_ok.1 h1
      split at h1
      · cases h1
      · cases h1
        have w0 := UF.wf_makeSet hp.wf
        obtain ⟨g1, g2, g3⟩ := pushParents_ps _ _ _ _ w0 h4
        refine hp.grow (n := n) g2 hch g1.wf (by show eg3.uf.length = _; rw [g1.len]; simp) ?_ (.inr ⟨?_, ?_⟩)
        · intro c hc
          rw [hp.len] at hc
          exact (g1.root c).trans (UF.root_makeSet hp.wf hc)
        · rw [hp.len]
          exact (g1.root _).trans (UF.root_makeSet_new hp.wf)
        · intro c
          rw [hp.len]
          show (AMap.get? (AMap.insert eg3.classes eg.uf.length _) c).map EClass.parents = _
          rw [AMap.get?_insert]
          by_cases hc : c = eg.uf.length
          · rw [if_pos hc.symm, if_pos hc]; rfl
          · rw [if_neg (Ne.symm hc), if_neg hc]
            refine (g3 c).trans ?_
            show (eg.ps c).map _ = _
            have hrt : m.children.map (UF.root (eg.uf ++ [eg.uf.length])) = n.children.map eg.rt := by
              rw [hmc, List.map_map]
              refine List.map_congr_left (fun ch hch' => ?_)
              have hlt : ch < eg.uf.length := by rw [← hp.len]; exact hch ch hch'
              show UF.root _ (UF.root eg.uf ch) = UF.root eg.uf ch
              rw [UF.root_makeSet hp.wf (UF.root_lt hp.wf hlt), UF.root_root hp.wf hlt]
            show (eg.ps c).map (· ++ List.replicate ((m.children.map (UF.root (eg.uf ++ [eg.uf.length]))).count c) _) = _
            rw [hrt]
    exact (hN _ _ _ hp2 h3).soft (UF.Same.refl (hN _ _ _ hp2 h3).wf) rfl (fun _ => rfl)

theorem performUnion_par (hN : HookPar N) (hp : Par eg) {e1 e2 : Id} {r : Option Justification} {eg' : EGraph Op D} {b : Bool}
    (h : performUnion N eg e1 e2 r = .ok (eg', b)) : Par eg' := by
  unfold performUnion at h
  rw [bind_eq_ok] at h
  obtain ⟨⟨u1, i1⟩, h1, h⟩ := h
  rw [bind_eq_ok] at h
  obtain ⟨⟨u2, i2⟩, h2, h⟩ := h
  obtain ⟨_, s1, _⟩ := UF.findMut_of_ok hp.wf h1
  obtain ⟨_, s2, _⟩ := UF.findMut_of_ok s1.wf h2
  have hs := s1.trans s2
  simp only at h
  split at h
  · split at h
    · rw [bind_eq_ok] at h
      obtain ⟨x, _, h⟩ := h
      cases h; exact hp.soft hs rfl (fun _ => rfl)
    · cases h; exact hp.soft hs rfl (fun _ => rfl)
  · rename_i hne
    rw [bind_eq_ok] at h
    obtain ⟨c1, _, h⟩ := h
    rw [bind_eq_ok] at h
    obtain ⟨c2, _, h⟩ := h
    have hids : (if c1.parents.length < c2.parents.length then (i2, i1) else (i1, i2)).1 ≠
        (if c1.parents.length < c2.parents.length then (i2, i1) else (i1, i2)).2 := by
      split
      · exact Ne.symm hne
      · exact hne
    generalize (if c1.parents.length < c2.parents.length then (i2, i1) else (i1, i2)) = ids at h hids
    obtain ⟨x, _, h⟩ := bind_eq_ok.1 h
    obtain ⟨uf, hu, h⟩ := bind_eq_ok.1 h
    obtain ⟨k2, hk2, h⟩ := bind_eq_ok.1 h
    obtain ⟨k1, hk1, h⟩ := bind_eq_ok.1 h
    rw [unwrap_eq_ok] at hk1 hk2
    split at h
    · cases h
    · rw [bind_eq_ok] at h
      obtain ⟨eg2, hm, h⟩ := h
      cases h
      refine hN _ _ _ ?_ hm
      rw [AMap.get?_erase, if_neg (Ne.symm hids)] at hk1
      unfold UF.union at hu
      split at hu
      · cases hu
        have hp0 : Par { eg with uf := u2 } := hp.same hs
        refine hp0.link (a := ids.1) (b := ids.2) (la := k1.parents) (lb := k2.parents) ?_ ?_ hids rfl rfl ?_
        · unfold ps; simp only at hk1 ⊢; rw [hk1]; rfl
        · unfold ps; simp only at hk2 ⊢; rw [hk2]; rfl
        · intro c
          unfold ps linkClasses
          simp only [AMap.get?_insert, AMap.get?_erase]
          by_cases hc : c = ids.1
          · simp [hc]
          · rw [if_neg (Ne.symm hc), if_neg hc]
            by_cases hc2 : c = ids.2
            · simp [hc2]
            · rw [if_neg (Ne.symm hc2), if_neg hc2]
      · cases hu

theorem union_par (hN : HookPar N) (hp : Par eg) {a b : Id} {caller : Symbol} {eg' : EGraph Op D} {r : Bool} :
    (union N eg a b caller = .ok (eg', r) → Par eg') ∧ (unionTrusted N eg a b caller = .ok (eg', r) → Par eg') := by
  refine ⟨?_, performUnion_par hN hp⟩
  unfold union
  split
  · exact performUnion_par hN hp
  · exact performUnion_par hN hp

theorem setData_par (hN : HookPar N) (hp : Par eg) {i : Id} {d : D} {eg' : EGraph Op D}
    (h : setAnalysisData N eg i d = .ok eg') : Par eg' := by
  obtain ⟨uf, id, k, h1, h2, hm⟩ := setData_mid h
  obtain ⟨_, s1, _⟩ := UF.findMut_of_ok hp.wf h1
  refine hN _ _ _ ?_ hm
  exact hp.soft s1 rfl (ps_data h2 d)

theorem Prog.run_par (hN : HookPar N) : ∀ (p : Prog Op D) (eg eg' : EGraph Op D), Par eg → p.run N eg = .ok eg' → Par eg' := by
  intro p
  induction p with
  | done => intro eg eg' hp h; cases h; exact hp
  | panic => intro eg eg' hp h; cases h
  | read k ih => intro eg eg' hp h; exact ih eg eg eg' hp h
  | add n k ih =>
    intro eg eg' hp h
    unfold Prog.run at h
    rw [bind_eq_ok] at h
    obtain ⟨⟨eg1, i⟩, h1, h2⟩ := h
    refine ih i eg1 eg' ?_ h2
    unfold add at h1
    rw [bind_eq_ok] at h1
    obtain ⟨⟨eg2, j⟩, h3, h4⟩ := h1
    rw [bind_eq_ok] at h4
    obtain ⟨_, _, h4⟩ := h4
    cases h4
    exact addUncanonical_par hN hp h3
  | union a b caller k ih =>
    intro eg eg' hp h
    unfold Prog.run at h
    rw [bind_eq_ok] at h
    obtain ⟨⟨eg1, r⟩, h1, h2⟩ := h
    exact ih r eg1 eg' ((union_par hN hp).1 h1) h2
  | setData i d k ih =>
    intro eg eg' hp h
    unfold Prog.run at h
    rw [bind_eq_ok] at h
    obtain ⟨eg1, h1, h2⟩ := h
    exact ih eg1 eg' (setData_par hN hp h1) h2

theorem hookPar_at (A : UserAnalysis Op D) : ∀ depth, HookPar (A.at depth) := by
  intro depth
  induction depth with
  | zero => intro eg i eg' _ h; cases h
  | succ depth ih => intro eg i eg' hp h; exact Prog.run_par ih _ _ _ hp h

theorem pendingStep_par (hN : HookPar N) (hp : Par eg) {cls : Id} {eg' : EGraph Op D} {b : Bool}
    (h : pendingStep N eg cls = .ok (eg', b)) : Par eg' := by
  unfold pendingStep at h
  rw [bind_eq_ok] at h
  obtain ⟨n, _, h⟩ := h
  rw [bind_eq_ok] at h
  obtain ⟨⟨uf, cs⟩, h1, h⟩ := h
  have s1 := UF.findMutList_of_ok hp.wf h1
  have hp1 : Par { eg with uf := uf, memo := eg.memo.insert { n with children := cs } cls } := hp.soft s1 rfl (fun _ => rfl)
  dsimp only at h
  split at h
  · cases h; exact hp1
  · exact performUnion_par hN hp1 h

theorem pendingLoop_par (hN : HookPar N) : ∀ (f : Nat) (eg : EGraph Op D) (k : Nat) {r}, Par eg → pendingLoop N f eg k = .ok r → Par r.1 := by
  intro f
  induction f with
  | zero => intro eg k r _ h; cases h
  | succ f ih =>
    intro eg k r hp h
    unfold pendingLoop at h
    split at h
    · cases h; exact hp
    · rw [bind_eq_ok] at h
      obtain ⟨⟨eg1, b⟩, h1, h⟩ := h
      refine ih _ _ (pendingStep_par hN ?_ h1) h
      exact hp.soft (UF.Same.refl hp.wf) rfl (fun _ => rfl)

theorem analysisStep_par (hN : HookPar N) (hp : Par eg) {cls : Id} {eg' : EGraph Op D} (h : analysisStep N eg cls = .ok eg') : Par eg' := by
  unfold analysisStep at h
  obtain ⟨n, _, h⟩ := bind_eq_ok.1 h
  obtain ⟨⟨uf, r⟩, h1, h⟩ := bind_eq_ok.1 h
  obtain ⟨d, _, h⟩ := bind_eq_ok.1 h
  obtain ⟨k, hk, h⟩ := bind_eq_ok.1 h
  rw [unwrap_eq_ok] at hk
  obtain ⟨_, s1, _⟩ := UF.findMut_of_ok hp.wf h1
  simp only at h
  split at h
  · refine hN _ _ _ ?_ h
    exact hp.soft s1 rfl (ps_data hk _)
  · cases h
    exact hp.soft s1 rfl (ps_data hk _)

theorem analysisLoop_par (hN : HookPar N) : ∀ (f : Nat) (eg : EGraph Op D) {r}, Par eg → analysisLoop N f eg = .ok r → Par r := by
  intro f
  induction f with
  | zero => intro eg r _ h; cases h
  | succ f ih =>
    intro eg r hp h
    unfold analysisLoop at h
    split at h
    · cases h; exact hp
    · rw [bind_eq_ok] at h
      obtain ⟨eg1, h1, h⟩ := h
      refine ih _ (analysisStep_par hN ?_ h1) h
      exact hp.soft (UF.Same.refl hp.wf) rfl (fun _ => rfl)

theorem processUnions_par (hN : HookPar N) : ∀ (f : Nat) (eg : EGraph Op D) (k : Nat) {r}, Par eg → processUnions N f eg k = .ok r → Par r.1 := by
  intro f
  induction f with
  | zero => intro eg k r _ h; cases h
  | succ f ih =>
    intro eg k r hp h
    unfold processUnions at h
    split at h
    · cases h; exact hp
    · obtain ⟨⟨eg1, k1⟩, h1, h⟩ := bind_eq_ok.1 h
      obtain ⟨eg2, h2, h⟩ := bind_eq_ok.1 h
      exact ih _ _ (analysisLoop_par hN _ _ (pendingLoop_par hN _ _ _ hp h1) h2) h

theorem canonNodes_same : ∀ (ns : List (ENode Op)) (uf uf' : UF) {ns'}, UF.WF uf → canonNodes uf ns = .ok (uf', ns') → UF.Same uf uf' := by
  intro ns
  induction ns with
  | nil => intro uf uf' ns' hw h; cases h; exact UF.Same.refl hw
  | cons n ns ih =>
    intro uf uf' ns' hw h
    unfold canonNodes at h
    obtain ⟨⟨u1, cs⟩, h1, h⟩ := bind_eq_ok.1 h
    obtain ⟨⟨u2, ns2⟩, h2, h⟩ := bind_eq_ok.1 h
    cases h
    have s1 := UF.findMutList_of_ok hw h1
    exact s1.trans (ih _ _ s1.wf h2)

theorem rebuildClassesGo_par : ∀ (cl : AMap Id (EClass Op D)) (uf : UF) (b : AMap (Lang.Disc Op) (List Id)) (t : Nat) {uf' b' cl' t'},
    UF.WF uf → rebuildClassesGo uf b cl t = .ok (uf', b', cl', t') →
    UF.Same uf uf' ∧ ∀ c, (AMap.get? cl' c).map EClass.parents = (AMap.get? cl c).map EClass.parents := by
  intro cl
  induction cl with
  | nil => intro uf b t uf' b' cl' t' hw h; cases h; exact ⟨UF.Same.refl hw, fun _ => rfl⟩
  | cons kc cl ih =>
    obtain ⟨key, k⟩ := kc
    intro uf b t uf' b' cl' t' hw h
    unfold rebuildClassesGo at h
    obtain ⟨⟨u1, ns⟩, h1, h⟩ := bind_eq_ok.1 h
    obtain ⟨⟨u2, b2, cl2, t2⟩, h2, h⟩ := bind_eq_ok.1 h
    cases h
    have s1 := canonNodes_same _ _ _ hw h1
    obtain ⟨g1, g2⟩ := ih _ _ _ s1.wf h2
    refine ⟨s1.trans g1, fun c => ?_⟩
    unfold AMap.get?
    by_cases hc : key = c
    · simp [hc]
    · simp only [hc, if_false]
      exact g2 c

theorem rebuild_par (hN : HookPar N) (hp : Par eg) {fuel : Nat} {eg' : EGraph Op D} {n : Nat} (h : rebuild N fuel eg = .ok (eg', n)) : Par eg' := by
  unfold rebuild at h
  obtain ⟨⟨eg1, k⟩, h1, h⟩ := bind_eq_ok.1 h
  obtain ⟨⟨eg2, t⟩, h2, h⟩ := bind_eq_ok.1 h
  cases h
  have hp1 := processUnions_par hN _ _ _ hp h1
  unfold rebuildClasses at h2
  obtain ⟨⟨uf, b, cl, t⟩, h3, h2⟩ := bind_eq_ok.1 h2
  cases h2
  obtain ⟨g1, g2⟩ := rebuildClassesGo_par _ _ _ _ hp1.wf h3
  exact hp1.soft g1 rfl g2

theorem Step.par {C : Cfg Op D} {allow : Caller Op D} (hN : HookPar N) {U : List (UnionRec Op)} {eg' : EGraph Op D}
    (hs : Step N allow eg U eg') (hg : Good C eg) (hp : Par eg) : Par eg' := by
  have hset : ∀ x : Option (Explain Op), Par { eg with explain := x } := fun x =>
    hp.soft (UF.Same.refl hp.wf) rfl (fun _ => rfl)
  cases hs with
  | explain he =>
    unfold withExplanationsEnabled at he
    split at he
    · cases he; exact hp
    · split at he
      · cases he
      · cases he; exact hset _
  | restore => exact hp.soft (UF.Same.refl hp.wf) rfl (fun _ => rfl)
  | disable _ => exact hset _
  | noOptimize he =>
    unfold withoutExplanationLengthOptimization at he
    split at he
    · cases he; exact hset _
    · cases he
  | optimize he =>
    unfold withExplanationLengthOptimization at he
    split at he
    · cases he; exact hset _
    · cases he
  | query hx he =>
    obtain ⟨_, _, _, x, x', hx, rfl, _⟩ := explainId_ok hg he
    exact hset _
  | add he => exact addUncanonical_par hN hp he
  | union _ _ he => exact (union_par hN hp).1 he
  | unionTrusted _ _ he => exact (union_par hN hp).2 he
  | setData _ he => exact setData_par hN hp he
  | rebuild he => exact rebuild_par hN hp he

theorem Par.new : Par (EGraph.new : EGraph Op D) := by
  refine ⟨UF.wf_nil, rfl, ?_, ?_, ?_, ?_⟩
  · intro c l h; cases h
  · intro c l p h; cases h
  · intro i n h; cases h
  · intro p n h; cases h

end EGraph
end Egg
