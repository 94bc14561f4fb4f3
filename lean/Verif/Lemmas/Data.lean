import Verif.Lemmas.Rebuild
/-
The invariant about analysis data, and what is assumed of the user's analysis.
-/
namespace Egg
namespace EGraph
variable {Op D : Type} [DecidableEq Op] [Lang Op]
variable {W : Id → Id → Prop} {C : Cfg Op D} {eg : EGraph Op D}

theorem _root_.Egg.Core.covBack {rt : Id → Id} {nodes : List (ENode Op)}
    {mem : ENode Op → Option Id} {pend ap : List Id} {sk : Id → Option (Skel Op)}
    (h : Core W rt nodes mem pend ap sk) {rt' : Id → Id} {nodes' : List (ENode Op)}
    {sk' : Id → Option (Skel Op)} {i : Id} (hi : i < nodes.length)
    (hnn : ∀ n, nodes[i]? = some n → nodes'[i]? = some n)
    (hpar : ∀ c s', sk' c = some s' → i ∈ s'.parents → ∃ c0 s, sk c0 = some s ∧ i ∈ s.parents)
    (hc : Cov rt' nodes' sk' i) : Cov rt nodes sk i := by
  intro n hn
  cases hch : n.children with
  | nil => intro ch h; simp at h
  | cons c0 cs =>
    obtain ⟨s, hs, hp⟩ := hc n (hnn n hn) c0 (by simp [hch])
    obtain ⟨c1, s1, hs1, hp1⟩ := hpar _ _ hs hp
    rw [← hch]
    exact (h.parents c1 s1 hs1 i hp1).2 n hn

/-- The data of the classes of `cs` are `ds`. -/
abbrev CD (rt : Id → Id) (dt : Id → Option D) (cs : List Id) (ds : List D) : Prop :=
  List.Forall₂ (fun c d => dt (rt c) = some d) cs ds

structure DInv (C : Cfg Op D) (rt : Id → Id) (nodes : List (ENode Op)) (cov : Id → Prop) (ap : List Id)
    (dt : Id → Option D) : Prop where
  valid : ∀ (i : Id) d t, dt (rt i) = some d → TermOf nodes i t → C.V d t
  acc : ∀ (i : Id) (n : ENode Op), nodes[i]? = some n → cov i → (i ∈ ap ∧ n.children ≠ []) ∨
    ∀ d ds, dt (rt i) = some d → CD rt dt n.children ds → C.B n.op ds d
  least : ∀ c d, dt c = some d → ∀ u,
    (∀ (i : Id) (n : ENode Op) ds, nodes[i]? = some n → rt i = c → CD rt dt n.children ds → C.B n.op ds u) →
      C.le d u

omit [DecidableEq Op] [Lang Op] in
theorem CD.unique {rt : Id → Id} {dt : Id → Option D} {cs : List Id} {ds ds' : List D}
    (h : CD rt dt cs ds) (h' : CD rt dt cs ds') : ds = ds' := by
  induction h generalizing ds' with
  | nil => cases h'; rfl
  | cons a _ ih =>
    cases h' with
    | cons b h' =>
      rw [a] at b; cases b
      rw [ih h']

namespace DInv
variable {rt rt' : Id → Id} {nodes : List (ENode Op)} {cov cov' : Id → Prop} {ap ap' : List Id}
  {dt dt' : Id → Option D}

omit [DecidableEq Op] [Lang Op] in
theorem boundsBack (h : DInv C rt nodes cov ap dt)
    (hup : ∀ c d, dt (rt c) = some d → ∃ d', dt' (rt' c) = some d' ∧ C.le d d') {c : Id} {u : D}
    (hb : ∀ (i : Id) (n : ENode Op) ds, nodes[i]? = some n → rt' i = c → CD rt' dt' n.children ds → C.B n.op ds u)
    {c0 : Id} {d0 : D} (hc0 : ∀ i, rt i = c0 → rt' i = c) (hd0 : dt c0 = some d0) : C.le d0 u := by
  refine h.least c0 d0 hd0 u ?_
  intro i n ds hn hi hcd
  have : ∃ ds', CD rt' dt' n.children ds' ∧ List.Forall₂ C.le ds ds' := by
    clear hn
    generalize n.children = cs at hcd
    induction hcd with
    | nil => exact ⟨[], .nil, .nil⟩
    | cons a _ ih =>
      obtain ⟨ds', h1, h2⟩ := ih
      obtain ⟨d', h3, h4⟩ := hup _ _ a
      exact ⟨d' :: ds', .cons h3 h1, .cons h4 h2⟩
  obtain ⟨ds', h1, h2⟩ := this
  exact C.bAnti h2 (hb i n ds' hn (hc0 i hi) h1)

omit [DecidableEq Op] [Lang Op] in
/-- Classes are merged and data grow. -/
theorem step (h : DInv C rt nodes cov ap dt)
    (hcov : ∀ i, cov' i → i < nodes.length → cov i)
    (hup : ∀ c d, dt (rt c) = some d → ∃ d', dt' (rt' c) = some d' ∧ C.le d d')
    (hback : ∀ c d', dt' (rt' c) = some d' → ∃ d, dt (rt c) = some d)
    (hq : ∀ (i : Id) (n : ENode Op), nodes[i]? = some n → cov' i → ∀ ch ∈ n.children, ∀ d d', dt (rt ch) = some d →
      dt' (rt' ch) = some d' → i ∈ ap' ∨ C.le d' d)
    (hval : ∀ (i : Id) d t, dt' (rt' i) = some d → TermOf nodes i t → C.V d t)
    (hap : ∀ (i : Id) (n : ENode Op), nodes[i]? = some n → i ∈ ap → n.children ≠ [] → i ∈ ap' ∨
      ∀ d ds, dt' (rt' i) = some d → CD rt' dt' n.children ds → C.B n.op ds d)
    (hleast : ∀ c d, dt' c = some d → ∀ u,
      (∀ (i : Id) (n : ENode Op) ds, nodes[i]? = some n → rt' i = c → CD rt' dt' n.children ds → C.B n.op ds u) →
      C.le d u) : DInv C rt' nodes cov' ap' dt' := by
  refine ⟨hval, ?_, hleast⟩
  intro i n hn hc
  rcases h.acc i n hn (hcov i hc (getElem?_lt hn)) with ⟨h1, h2⟩ | h1
  · rcases hap i n hn h1 h2 with h3 | h3
    · exact Or.inl ⟨h3, h2⟩
    · exact Or.inr h3
  · by_cases hin : i ∈ ap' ∧ n.children ≠ []
    · exact Or.inl hin
    · right
      intro d ds hd hcd
      obtain ⟨d0, hd0⟩ := hback i d hd
      obtain ⟨d', hd', hle⟩ := hup i d0 hd0
      rw [hd] at hd'; cases hd'
      have : ∃ ds0, CD rt dt n.children ds0 ∧ List.Forall₂ C.le ds ds0 := by
        have hq' := hq i n hn hc
        have hin' : n.children ≠ [] → i ∉ ap' := fun h1 h2 => hin ⟨h2, h1⟩
        clear hn h1 hin
        generalize n.children = cs at hcd hq' hin'
        induction hcd with
        | nil => exact ⟨[], .nil, .nil⟩
        | @cons ch d1 cs ds1 a _ ih =>
          have hni : i ∉ ap' := hin' (by simp)
          obtain ⟨ds', h1, h2⟩ := ih (fun ch hch => hq' ch (by simp [hch])) (fun _ => hni)
          obtain ⟨d0', h3⟩ := hback _ _ a
          have h4 := (hq' ch (by simp) _ _ h3 a).resolve_left hni
          exact ⟨d0' :: ds', .cons h3 h1, .cons h4 h2⟩
      obtain ⟨ds0, h2, h3⟩ := this
      exact C.bUp (C.bAnti h3 (h1 d0 ds0 hd0 h2)) hle

omit [DecidableEq Op] [Lang Op] in
/-- Nothing about data changes. -/
theorem frame (h : DInv C rt nodes cov ap dt) (hcov : ∀ i, cov' i → i < nodes.length → cov i)
    (hap : ∀ i ∈ ap, i ∈ ap') : DInv C rt nodes cov' ap' dt := by
  refine ⟨h.valid, ?_, h.least⟩
  intro i n hn hc
  rcases h.acc i n hn (hcov i hc (getElem?_lt hn)) with ⟨h1, h2⟩ | h1
  · exact Or.inl ⟨hap i h1, h2⟩
  · exact Or.inr h1

omit [DecidableEq Op] [Lang Op] in
theorem cd_exists {cs : List Id} (h : ∀ c ∈ cs, (dt (rt c)).isSome) : ∃ ds, CD rt dt cs ds := by
  induction cs with
  | nil => exact ⟨[], .nil⟩
  | cons c cs ih =>
    obtain ⟨ds, hds⟩ := ih (fun c hc => h c (by simp [hc]))
    obtain ⟨d, hd⟩ := Option.isSome_iff_exists.1 (h c (by simp))
    exact ⟨d :: ds, .cons hd hds⟩

omit [DecidableEq Op] [Lang Op] in
theorem cd_congr {cs : List Id} {ds : List D} (h : ∀ c ∈ cs, dt' (rt' c) = dt (rt c)) :
    CD rt' dt' cs ds ↔ CD rt dt cs ds := by
  constructor
  · intro hc; exact forall₂_mono_mem hc (fun c hcm d _ e => by rw [← h c hcm]; exact e)
  · intro hc; exact forall₂_mono_mem hc (fun c hcm d _ e => by rw [h c hcm]; exact e)

theorem new (h : DInv C rt nodes cov ap dt) {n : ENode Op} {d : D} {ds : List D}
    (hd : Dag nodes) (hch : ∀ c ∈ n.children, c < nodes.length)
    (hlt : ∀ i, i < nodes.length → rt i < nodes.length) (hnew : ∀ i, nodes.length ≤ i → rt i = i)
    (hdt : ∀ c, dt' c = if c = nodes.length then some d else dt c)
    (hcov : ∀ i, cov' i → i < nodes.length → cov i)
    (hds : CD rt dt n.children ds) (hmake : MakeOK C n.op ds d) :
    DInv C rt (nodes ++ [n]) cov' ap dt' := by
  have hold : ∀ i, i < nodes.length → dt' (rt i) = dt (rt i) := by
    intro i hi
    rw [hdt, if_neg]
    have := hlt i hi; omega
  have hcd : ∀ {cs ds}, (∀ c ∈ cs, c < nodes.length) → (CD rt dt' cs ds ↔ CD rt dt cs ds) := by
    intro cs ds hcs
    exact cd_congr (fun c hc => hold c (hcs c hc))
  have hget : ∀ {i : Id} {m : ENode Op}, (nodes ++ [n])[i]? = some m →
      (i < nodes.length ∧ nodes[i]? = some m) ∨ (i = nodes.length ∧ m = n) := by
    intro i m hm
    rw [List.getElem?_append] at hm
    split at hm
    · rename_i hi; exact Or.inl ⟨hi, hm⟩
    · rw [List.getElem?_singleton] at hm
      split at hm
      · cases hm; exact Or.inr ⟨by omega, rfl⟩
      · cases hm
  have hnewd : dt' (rt nodes.length) = some d := by rw [hnew _ (le_refl _), hdt, if_pos rfl]
  refine ⟨?_, ?_, ?_⟩
  · intro i e t he ht
    rcases termOf_append_cases hd hch ht with ht' | ⟨ei, ts, rfl, hts⟩
    · rw [hold i ht'.lt] at he
      exact h.valid i e t he ht'
    · subst ei
      rw [hnewd] at he; cases he
      apply hmake.2.2
      exact forall₂_comp (forall₂_flip hds) hts (fun a b c _ _ _ hab hbc => h.valid b a c hab hbc)
  · intro i m hm hc
    rcases hget hm with ⟨hi, hm⟩ | ⟨ei, rfl⟩
    · rcases h.acc i m hm (hcov i hc hi) with h1 | h1
      · exact Or.inl h1
      · right
        intro e es he hes
        rw [hold i hi] at he
        exact h1 e es he ((hcd (fun c hc => lt_trans (hd i m hm c hc) hi)).1 hes)
    · right
      intro e es he hes
      subst ei
      rw [hnewd] at he; cases he
      rw [CD.unique ((hcd hch).1 hes) hds]
      exact hmake.1
  · intro c e he u hu
    rw [hdt] at he
    split at he
    · rename_i ec
      cases he; subst ec
      apply hmake.2.1
      exact hu nodes.length n ds (by simp) (hnew _ (le_refl _)) ((hcd hch).2 hds)
    · refine h.least c e he u ?_
      intro i m es hm hi hes
      have hil := getElem?_lt hm
      exact hu i m es (by rw [List.getElem?_append_left hil]; exact hm) hi
        ((hcd (fun c hc => lt_trans (hd i m hm c hc) hil)).2 hes)

theorem dup (h : DInv C rt nodes cov ap dt) {n ne : ENode Op} {e : Id}
    (hd : Dag nodes) (hch : ∀ c ∈ n.children, c < nodes.length)
    (he : nodes[e]? = some ne) (hcong : Cong rt ne n) (hcove : cov e)
    (hrt' : ∀ i, rt' i = if i = nodes.length then rt e else rt i)
    (hs : SoundRt C.R rt' (nodes ++ [n]))
    (hcov : ∀ i, cov' i → i < nodes.length → cov i)
    (hcovn : n.children ≠ [] → ¬ cov' nodes.length) :
    DInv C rt' (nodes ++ [n]) cov' ap dt := by
  have hel := getElem?_lt he
  have hold : ∀ i, i < nodes.length → rt' i = rt i := by
    intro i hi; rw [hrt', if_neg (by omega)]
  have hcd : ∀ {cs ds}, (∀ c ∈ cs, c < nodes.length) → (CD rt' dt cs ds ↔ CD rt dt cs ds) := by
    intro cs ds hcs
    exact cd_congr (fun c hc => by rw [hold c (hcs c hc)])
  refine ⟨?_, ?_, ?_⟩
  · intro i d t hdt ht
    rcases termOf_append_cases hd hch ht with ht' | ⟨ei, _⟩
    · rw [hold i ht'.lt] at hdt
      exact h.valid i d t hdt ht'
    · subst ei
      obtain ⟨s, hs'⟩ := hd.exists_term e hel
      have e1 : rt' e = rt' nodes.length := by rw [hold e hel, hrt', if_pos rfl]
      rw [← e1, hold e hel] at hdt
      exact C.vResp (hs e nodes.length s t e1 hs'.append ht) (h.valid e d s hdt hs')
  · intro i m hm hc
    rw [List.getElem?_append] at hm
    split at hm
    · rename_i hi
      rcases h.acc i m hm (hcov i hc hi) with h1 | h1
      · exact Or.inl h1
      · right
        intro d ds h2 h3
        rw [hold i hi] at h2
        exact h1 d ds h2 ((hcd (fun c hc => lt_trans (hd i m hm c hc) hi)).1 h3)
    · rename_i hi
      rw [List.getElem?_singleton] at hm
      split at hm
      · cases hm
        have ei : i = nodes.length := by omega
        subst ei
        have hnil : n.children = [] := by
          by_contra hne
          exact hcovn hne hc
        right
        intro d ds h2 h3
        rw [hnil] at h3
        cases h3
        have hnil' : ne.children = [] := by
          have := congrArg List.length hcong.2
          simp only [List.length_map, hnil, List.length_nil] at this
          exact List.length_eq_zero_iff.1 this
        rw [hrt', if_pos rfl] at h2
        rcases h.acc e ne he hcove with ⟨_, h4⟩ | h4
        · exact absurd hnil' h4
        · rw [← hcong.1]
          exact h4 d [] h2 (by rw [hnil']; exact .nil)
      · cases hm
  · intro c d hdt u hu
    refine h.least c d hdt u ?_
    intro i m es hm hi hes
    have hil := getElem?_lt hm
    exact hu i m es (by rw [List.getElem?_append_left hil]; exact hm) (by rw [hold i hil]; exact hi)
      ((hcd (fun c hc => lt_trans (hd i m hm c hc) hil)).2 hes)

end DInv

/-- Data of the class with key `c`. -/
def dt (eg : EGraph Op D) (c : Id) : Option D := (eg.classes.get? c).map (·.data)

abbrev cov (eg : EGraph Op D) : Id → Prop := Cov eg.rt eg.nodes eg.sk

/-- The full invariant. -/
structure Good (C : Cfg Op D) (eg : EGraph Op D) : Prop where
  inv : Inv C eg
  data : DInv C eg.rt eg.nodes eg.cov eg.apending.queue eg.dt

theorem good_new (C : Cfg Op D) : Good C (EGraph.new : EGraph Op D) := by
  refine ⟨inv_new C, ?_, ?_, ?_⟩
  · intro i d t h; simp [dt, EGraph.new, AMap.get?] at h
  · intro i n h; simp [EGraph.new] at h
  · intro c d h; simp [dt, EGraph.new, AMap.get?] at h

/-! ### Hooks -/

/-- What is assumed of the user's analysis: `make`/`remake` read the data of the
children and fail only as `E` allows; `merge` is an upper bound (least for
`least`) whose flags tell when the result may differ from an argument; `modify`
keeps the invariant and only extends the e-graph. -/
structure HookOK (C : Cfg Op D) (E : Err → Prop) (N : Analysis Op D) : Prop where
  make : ∀ eg n i ds, ChildData eg n ds → Post E (N.make eg n i) (MakeOK C n.op ds)
  remake : ∀ eg n i ds, ChildData eg n ds → Post E (N.remake eg n i) (MakeOK C n.op ds)
  mergeV : ∀ {a b t}, C.V a t → C.V b t → C.V (N.merge a b).1 t
  mergeL : ∀ a b, C.le a (N.merge a b).1
  mergeR : ∀ a b, C.le b (N.merge a b).1
  mergeLub : ∀ {a b u}, C.le a u → C.le b u → C.le (N.merge a b).1 u
  flagL : ∀ a b, (N.merge a b).2.1 = false → C.le (N.merge a b).1 a
  flagR : ∀ a b, (N.merge a b).2.2 = false → C.le (N.merge a b).1 b
  modify : ∀ eg i, Good C eg → i < eg.nodes.length →
    Post E (N.modify eg i) (fun eg' => Good C eg' ∧ Ext eg eg')

theorem hookOK_unit (R : Term Op → Term Op → Prop) (hR : IsCongruence R) (J : Symbol → Id → Id → Prop) :
    HookOK (Cfg.ofR R hR J) (fun _ => False) (Analysis.unit : Analysis Op Unit) :=
  ⟨fun _ _ _ _ _ => ⟨trivial, fun _ _ => trivial, fun _ _ => trivial⟩,
   fun _ _ _ _ _ => ⟨trivial, fun _ _ => trivial, fun _ _ => trivial⟩,
   fun _ _ => trivial, fun _ _ => trivial, fun _ _ => trivial, fun _ _ => trivial, fun _ _ _ => trivial,
   fun _ _ _ => trivial, fun eg _ h _ => ⟨h, Ext.refl eg⟩⟩

theorem dt_exists (h : InvW W C eg) {i : Id} (hi : i < eg.nodes.length) :
    (eg.dt (eg.rt i)).isSome := by
  obtain ⟨k, hk⟩ := h.exists_cls hi
  simp [dt, hk]

theorem cd_exists (h : InvW W C eg) {cs : List Id} (hcs : ∀ c ∈ cs, c < eg.nodes.length) :
    ∃ ds, CD eg.rt eg.dt cs ds :=
  DInv.cd_exists (fun c hc => dt_exists h (hcs c hc))

theorem childData_of_cd (h : InvW W C eg) {n : ENode Op} (hcs : ∀ c ∈ n.children, c < eg.nodes.length)
    {ds : List D} (hcd : CD eg.rt eg.dt n.children ds) : ChildData eg n ds := by
  refine forall₂_mono_mem hcd ?_
  intro c hc d _ e
  obtain ⟨k, h1, h2⟩ := h.index (hcs c hc)
  refine ⟨k, h1, ?_⟩
  simp only [dt, h2, Option.map_some, Option.some.injEq] at e
  exact e

theorem dt_same {g : EGraph Op D} (h : g.classes = eg.classes) : g.dt = eg.dt := by
  funext c; simp [dt, h]

theorem sk_same {g : EGraph Op D} (h : g.classes = eg.classes) : g.sk = eg.sk := by
  funext c; simp [sk, h]

/-- States that agree on everything the invariant talks about. -/
theorem Good.frame (h : Good C eg) {g : EGraph Op D} (hi : Inv C g) (hrt : ∀ i, g.rt i = eg.rt i)
    (hn : g.nodes = eg.nodes) (hc : g.classes = eg.classes)
    (hap : ∀ i ∈ eg.apending.queue, i ∈ g.apending.queue) : Good C g := by
  refine ⟨hi, ?_⟩
  have e1 : g.rt = eg.rt := funext hrt
  have e2 := dt_same hc
  have e3 := sk_same hc
  unfold cov
  rw [e1, hn, e2, e3]
  exact h.data.frame (fun i hi _ => hi) hap

theorem Good.setClean (h : Good C eg) (b : Bool) : Good C { eg with clean := b } :=
  h.frame (h.inv.setClean b) (fun _ => rfl) rfl rfl (fun _ h => h)

/-- The new class of `add`. -/
theorem NewCls.good {eg1 : EGraph Op D} {n : ENode Op} {d : D} {ds : List D} (hg : Good C eg)
    (h : NewCls eg eg1 n d) (hi : Inv C eg1) (hch : ∀ c ∈ n.children, c < eg.nodes.length)
    (hds : CD eg.rt eg.dt n.children ds) (hm : MakeOK C n.op ds d) : Good C eg1 := by
  refine ⟨hi, ?_⟩
  have e1 : eg1.rt = eg.rt := funext h.rt
  rw [e1, h.nodes, h.apending]
  refine hg.data.new hg.inv.core.dag hch hg.inv.core.rtLt hg.inv.core.rtOut ?_ ?_ hds hm
  · intro c
    simp only [dt, h.classes]
    split
    · rfl
    · cases eg.classes.get? c <;> rfl
  · intro i hc hil
    refine hg.inv.core.covBack hil ?_ ?_ hc
    · intro m hm
      rw [h.nodes, List.getElem?_append_left hil]; exact hm
    · intro c s' hs' hp
      obtain ⟨k, hk, rfl⟩ := cls_of_sk hs'
      rw [h.classes] at hk
      split at hk
      · cases hk; simp at hp
      · cases hc : eg.classes.get? c with
        | none => rw [hc] at hk; simp at hk
        | some k0 =>
          rw [hc] at hk
          simp only [Option.map_some, Option.some.injEq] at hk
          subst hk
          simp only [List.mem_append, List.mem_replicate] at hp
          rcases hp with hp | ⟨_, hp⟩
          · exact ⟨c, _, sk_eq hc, hp⟩
          · omega

/-- A second copy of a memoised e-node. -/
theorem NewDup.good {eg1 : EGraph Op D} {n : ENode Op} {e : Id} (hg : Good C eg)
    (h : NewDup eg eg1 n e) (hi : Inv C eg1) (hch : ∀ c ∈ n.children, c < eg.nodes.length)
    (hm : eg.mem (n.mapChildren eg.rt) = some e) : Good C eg1 := by
  refine ⟨hi, ?_⟩
  obtain ⟨ne, h1, h2, h3⟩ := hg.inv.core.memo _ _ hm
  have hcanon : Cong eg.rt (n.mapChildren eg.rt) n :=
    (Cong.canon_left (fun c _ => hg.inv.core.rtIdem c)).2 (Cong.refl _)
  have hs := hi.sound
  rw [h.nodes] at hs
  rw [h.nodes, h.apending, dt_same h.classes]
  refine hg.data.dup hg.inv.core.dag hch h1 (h2.trans hcanon) h3 h.rt hs ?_ ?_
  · intro i hc hil
    refine hg.inv.core.covBack hil ?_ ?_ hc
    · intro m hm
      rw [h.nodes, List.getElem?_append_left hil]; exact hm
    · intro c s' hs' hp
      rw [sk_same h.classes] at hs'
      exact ⟨c, s', hs', hp⟩
  · intro hne hc
    obtain ⟨c0, hc0⟩ := List.exists_mem_of_ne_nil _ hne
    obtain ⟨s, hs, hp⟩ := hc n (by rw [h.nodes]; simp) c0 hc0
    rw [sk_same h.classes] at hs
    have := (hg.inv.core.parents _ s hs _ hp).1
    exact lt_irrefl _ this

/-- Merging two classes. -/
theorem Linked.good {N : Analysis Op D} {E : Err → Prop} (hN : HookOK C E N) {eg1 : EGraph Op D} {a b : Id}
    {c1 c2 : EClass Op D} (hgi : InvW W C eg)
    (hg : DInv C eg.rt eg.nodes eg.cov eg.apending.queue eg.dt)
    (h : Linked N eg eg1 a b c1 c2) (hi : Inv C eg1) : Good C eg1 := by
  refine ⟨hi, ?_⟩
  have haL : a < eg.nodes.length := ((hgi.core.clsKey a).1 (by simp [sk, h.get1])).1
  have hbL : b < eg.nodes.length := ((hgi.core.clsKey b).1 (by simp [sk, h.get2])).1
  have hda : eg.dt a = some c1.data := by simp [dt, h.get1]
  have hdb : eg.dt b = some c2.data := by simp [dt, h.get2]
  have hdt' : ∀ c, eg1.dt c = if c = a then some (N.merge c1.data c2.data).1 else if c = b then none else eg.dt c := by
    intro c
    simp only [dt, h.classes, AMap.get?_insert, AMap.get?_erase]
    by_cases e : a = c
    · simp [e]
    · by_cases e' : b = c
      · simp [e, e', Ne.symm e]
      · simp [e, e', Ne.symm e, Ne.symm e']
  have hcase : ∀ i, (eg.rt i = a ∧ eg1.rt i = a) ∨ (eg.rt i = b ∧ eg1.rt i = a) ∨
      (eg.rt i ≠ a ∧ eg.rt i ≠ b ∧ eg1.rt i = eg.rt i) := by
    intro i
    rw [h.rt]
    by_cases e : eg.rt i = b
    · simp [e]
    · by_cases e' : eg.rt i = a
      · simp [e', h.ne]
      · simp [e, e']
  have hapm : ∀ p, (p ∈ eg.apending.queue ∨ ((N.merge c1.data c2.data).2.1 = true ∧ p ∈ c1.parents) ∨
      ((N.merge c1.data c2.data).2.2 = true ∧ p ∈ c2.parents)) → p ∈ eg1.apending.queue := by
    intro p hp
    rw [h.apending]
    have q0 := hgi.apq
    cases f1 : (N.merge c1.data c2.data).2.1 <;> cases f2 : (N.merge c1.data c2.data).2.2 <;>
      simp only [f1, f2, Bool.false_eq_true, if_true, if_false, false_and, true_and, or_false] at hp ⊢
    · exact hp
    · rw [UniqueQueue.mem_extend q0]; simpa using hp
    · rw [UniqueQueue.mem_extend q0]; exact hp
    · rw [UniqueQueue.mem_extend (UniqueQueue.inv_extend q0 _), UniqueQueue.mem_extend q0]; tauto
  have hcovB : ∀ i, eg1.cov i → i < eg.nodes.length → eg.cov i := by
    intro i hc hil
    refine hgi.core.covBack hil ?_ ?_ hc
    · intro m hm; rw [h.nodes]; exact hm
    · intro c s' hs' hp
      obtain ⟨k, hk, rfl⟩ := cls_of_sk hs'
      simp only [h.classes, AMap.get?_insert, AMap.get?_erase] at hk
      split at hk
      · cases hk
        rcases mem_concatVecs.1 hp with hp | hp
        · exact ⟨a, _, sk_eq h.get1, hp⟩
        · exact ⟨b, _, sk_eq h.get2, hp⟩
      · split at hk
        · cases hk
        · exact ⟨c, _, sk_eq hk, hp⟩
  have hup : ∀ c d, eg.dt (eg.rt c) = some d → ∃ d', eg1.dt (eg1.rt c) = some d' ∧ C.le d d' := by
    intro c d hd
    rcases hcase c with ⟨e, e'⟩ | ⟨e, e'⟩ | ⟨e, e', e''⟩
    · rw [e, hda] at hd; cases hd
      exact ⟨_, by rw [e', hdt', if_pos rfl], hN.mergeL _ _⟩
    · rw [e, hdb] at hd; cases hd
      exact ⟨_, by rw [e', hdt', if_pos rfl], hN.mergeR _ _⟩
    · exact ⟨d, by rw [e'', hdt', if_neg e, if_neg e']; exact hd, C.leRefl d⟩
  rw [h.nodes]
  refine hg.step (cov' := eg1.cov) ?_ hup ?_ ?_ ?_ ?_ ?_
  · intro i hc hil
    exact hcovB i hc hil
  · intro c d' hd'
    rcases hcase c with ⟨e, e'⟩ | ⟨e, e'⟩ | ⟨e, e', e''⟩
    · exact ⟨_, by rw [e]; exact hda⟩
    · exact ⟨_, by rw [e]; exact hdb⟩
    · rw [e'', hdt', if_neg e, if_neg e'] at hd'; exact ⟨d', hd'⟩
  · intro i n hn hc ch hch d d' hd hd'
    have hcov := hcovB i hc (getElem?_lt hn)
    obtain ⟨s, hs, hp⟩ := hcov n hn ch hch
    rcases hcase ch with ⟨e, e'⟩ | ⟨e, e'⟩ | ⟨e, e', e''⟩
    · rw [e, hda] at hd; cases hd
      rw [e', hdt', if_pos rfl] at hd'; cases hd'
      rw [e, sk_eq h.get1] at hs; cases hs
      cases f : (N.merge c1.data c2.data).2.1
      · exact Or.inr (hN.flagL _ _ f)
      · exact Or.inl (hapm i (Or.inr (Or.inl ⟨f, hp⟩)))
    · rw [e, hdb] at hd; cases hd
      rw [e', hdt', if_pos rfl] at hd'; cases hd'
      rw [e, sk_eq h.get2] at hs; cases hs
      cases f : (N.merge c1.data c2.data).2.2
      · exact Or.inr (hN.flagR _ _ f)
      · exact Or.inl (hapm i (Or.inr (Or.inr ⟨f, hp⟩)))
    · rw [e'', hdt', if_neg e, if_neg e', hd] at hd'
      cases hd'
      exact Or.inr (C.leRefl _)
  · intro i d t hd ht
    rcases hcase i with ⟨e, e'⟩ | ⟨e, e'⟩ | ⟨e, e', e''⟩
    · rw [e', hdt', if_pos rfl] at hd; cases hd
      refine hN.mergeV (hg.valid i _ t (by rw [e]; exact hda) ht) ?_
      obtain ⟨s, hs⟩ := hgi.core.dag.exists_term b hbL
      refine C.vResp ?_ (hg.valid b _ s (by rw [h.rootB]; exact hdb) hs)
      exact hi.sound b i s t (by rw [e', h.rt, h.rootB, if_pos rfl]) (by rw [h.nodes]; exact hs) (by rw [h.nodes]; exact ht)
    · rw [e', hdt', if_pos rfl] at hd; cases hd
      refine hN.mergeV ?_ (hg.valid i _ t (by rw [e]; exact hdb) ht)
      obtain ⟨s, hs⟩ := hgi.core.dag.exists_term a haL
      refine C.vResp ?_ (hg.valid a _ s (by rw [h.rootA]; exact hda) hs)
      exact hi.sound a i s t (by rw [e', h.rt, h.rootA, if_neg h.ne]) (by rw [h.nodes]; exact hs) (by rw [h.nodes]; exact ht)
    · rw [e'', hdt', if_neg e, if_neg e'] at hd
      exact hg.valid i d t hd ht
  · intro i n hn hin _
    exact Or.inl (hapm i (Or.inl hin))
  · intro c d hd u hu
    have key := fun c0 d0 => hg.boundsBack (rt' := eg1.rt) (dt' := eg1.dt) hup hu (c0 := c0) (d0 := d0)
    rw [hdt'] at hd
    split at hd
    · rename_i e; cases hd; subst e
      refine hN.mergeLub (key c _ ?_ hda) (key b _ ?_ hdb)
      · intro i e; rw [h.rt, e, if_neg h.ne]
      · intro i e; rw [h.rt, e, if_pos rfl]
    · split at hd
      · cases hd
      · rename_i e e'
        refine key c d ?_ hd
        intro i ei; rw [h.rt, ei, if_neg e']

/-- Changing the data of one class. -/
theorem Good.setData (h : Good C eg) {uf : UF} (hs : UF.Same eg.uf uf) {c : Id} {k : EClass Op D}
    (hk : eg.classes.get? c = some k) (d : D) {ap : UniqueQueue Id}
    (hap : ap.Inv) (hapm : ∀ p ∈ ap.queue, p ∈ eg.apending.queue ∨ p ∈ k.parents)
    (hapq : (∀ p ∈ k.parents, p ∈ ap.queue) ∨ C.le d k.data)
    (hle : C.le k.data d)
    (hV : ∀ (i : Id) t, eg.rt i = c → TermOf eg.nodes i t → C.V d t)
    (hlub : ∀ u, C.le k.data u →
      (∀ (i : Id) (n : ENode Op) ds, eg.nodes[i]? = some n → eg.rt i = c →
        CD eg.rt eg.dt n.children ds → C.B n.op ds u) → C.le d u)
    (hpop : ∀ (i : Id) (n : ENode Op), eg.nodes[i]? = some n → i ∈ eg.apending.queue → n.children ≠ [] → i ∈ ap.queue ∨
      (∀ ds, eg.rt i = c ∧ (CD eg.rt eg.dt n.children ds → C.B n.op ds d))) :
    Good C { eg with uf := uf, classes := eg.classes.insert c { k with data := d }, apending := ap } := by
  have hi := h.inv.setData hs hk d hap hapm
  refine ⟨hi, ?_⟩
  generalize hg : ({ eg with uf := uf, classes := eg.classes.insert c { k with data := d }, apending := ap } : EGraph Op D) = g at hi
  have hrt : g.rt = eg.rt := by subst hg; funext i; exact hs.root i
  have hsk : g.sk = eg.sk := by
    subst hg
    funext c'
    simp only [sk, AMap.get?_insert]
    by_cases e : c = c'
    · subst e; simp [hk]
    · simp [e]
  have hnodes : g.nodes = eg.nodes := by subst hg; rfl
  have hdt : ∀ c', g.dt c' = if c' = c then some d else eg.dt c' := by
    intro c'; subst hg
    simp only [dt, AMap.get?_insert]
    by_cases e : c = c'
    · simp [e]
    · simp [e, Ne.symm e]
  have hapg : g.apending = ap := by subst hg; rfl
  have hdc : eg.dt c = some k.data := by simp [dt, hk]
  have hup : ∀ c d, eg.dt (eg.rt c) = some d → ∃ d', g.dt (eg.rt c) = some d' ∧ C.le d d' := by
    intro c' d0 hd0
    rw [hdt]
    split
    · rename_i e
      rw [e, hdc] at hd0; cases hd0
      exact ⟨d, rfl, hle⟩
    · exact ⟨d0, hd0, C.leRefl _⟩
  have hcdBack : ∀ {cs : List Id} {ds : List D}, CD eg.rt eg.dt cs ds →
      ∃ ds', CD eg.rt g.dt cs ds' ∧ List.Forall₂ C.le ds ds' := by
    intro cs ds hcd
    induction hcd with
    | nil => exact ⟨[], .nil, .nil⟩
    | cons a _ ih =>
      obtain ⟨ds', h1, h2⟩ := ih
      obtain ⟨d', h3, h4⟩ := hup _ _ a
      exact ⟨d' :: ds', .cons h3 h1, .cons h4 h2⟩
  unfold cov
  rw [hrt, hsk, hnodes, hapg]
  have hq : ∀ (i : Id) (n : ENode Op), eg.nodes[i]? = some n → eg.cov i → ∀ ch ∈ n.children, ∀ d0 d', eg.dt (eg.rt ch) = some d0 →
      g.dt (eg.rt ch) = some d' → i ∈ ap.queue ∨ C.le d' d0 := by
    intro i n hn hc ch hch d0 d' hd0 hd'
    rw [hdt] at hd'
    split at hd'
    · rename_i e
      cases hd'
      rw [e, hdc] at hd0; cases hd0
      rcases hapq with hq | hq
      · obtain ⟨s, hs, hp⟩ := hc n hn ch hch
        rw [e, sk_eq hk] at hs; cases hs
        exact Or.inl (hq i hp)
      · exact Or.inr hq
    · rw [hd0] at hd'; cases hd'
      exact Or.inr (C.leRefl _)
  refine h.data.step (cov' := eg.cov) (fun i hc _ => hc) hup ?_ hq ?_ ?_ ?_
  · intro c' d' hd'
    rw [hdt] at hd'
    split at hd'
    · rename_i e; exact ⟨_, by rw [e]; exact hdc⟩
    · exact ⟨d', hd'⟩
  · intro i d0 t hd0 ht
    rw [hdt] at hd0
    split at hd0
    · rename_i e; cases hd0
      exact hV i t e ht
    · exact h.data.valid i d0 t hd0 ht
  · intro i n hn hin hne
    rcases hpop i n hn hin hne with h1 | h1
    · exact Or.inl h1
    · by_cases hin' : i ∈ ap.queue
      · exact Or.inl hin'
      · right
        intro d0 ds hd0 hcd
        rw [hdt, if_pos (h1 []).1] at hd0
        cases hd0
        have hci : eg.cov i := (h.inv.core.apOk i hin).2
        have : ∃ ds0, CD eg.rt eg.dt n.children ds0 ∧ List.Forall₂ C.le ds ds0 := by
          have hq' := hq i n hn hci
          clear hn h1 hne
          generalize n.children = cs at hcd hq'
          induction hcd with
          | nil => exact ⟨[], .nil, .nil⟩
          | @cons ch d1 cs ds1 a _ ih =>
            obtain ⟨ds', g1, g2⟩ := ih (fun ch hch => hq' ch (by simp [hch]))
            have : ∃ d0, eg.dt (eg.rt ch) = some d0 := by
              rw [hdt] at a
              split at a
              · rename_i e; exact ⟨_, by rw [e]; exact hdc⟩
              · exact ⟨_, a⟩
            obtain ⟨d0', g3⟩ := this
            have g4 := (hq' ch (by simp) _ _ g3 a).resolve_left hin'
            exact ⟨d0' :: ds', .cons g3 g1, .cons g4 g2⟩
        obtain ⟨ds0, g1, g2⟩ := this
        exact C.bAnti g2 ((h1 ds0).2 g1)
  · intro c' d0 hd0 u hu
    have key := fun c0 d0 => h.data.boundsBack (rt' := eg.rt) (dt' := g.dt) hup hu (c0 := c0) (d0 := d0)
    rw [hdt] at hd0
    split at hd0
    · rename_i e; cases hd0; subst e
      refine hlub u (key c' _ (fun i e => e) hdc) ?_
      intro i n ds hn hi hcd
      obtain ⟨ds', h1, h2⟩ := hcdBack hcd
      exact C.bAnti h2 (hu i n ds' hn hi h1)
    · exact key c' d0 (fun i e => e) hd0

end EGraph
end Egg
