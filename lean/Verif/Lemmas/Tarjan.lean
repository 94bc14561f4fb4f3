import Verif.Lemmas.TreeTables
/-
The off-line computation of lowest common ancestors is right.
-/
namespace Egg
variable {Op : Type} [DecidableEq Op]

namespace Explain
variable {x : Explain Op} {nodes : List (ENode Op)} {conn : Id → Id → Prop} {L : Log}

/-- `d` is below `e`. -/
def Sub (x : Explain Op) (d e : Id) : Prop := ∃ n, (up x)^[n] d = e

theorem Sub.refl (d : Id) : Sub x d d := ⟨0, rfl⟩

theorem Sub.up {d c : Id} (h : Sub x d c) : Sub x d (up x c) := by
  obtain ⟨n, rfl⟩ := h
  exact ⟨n + 1, Function.iterate_succ_apply' _ _ _⟩

theorem dep_iter_le (hw : UF.WF (ptab x.find)) {i : Id} (hi : i < x.find.length) (n : Nat) : dep x ((up x)^[n] i) ≤ dep x i := by
  rw [iter_min hw hi, dep_iter hw _ hi (Nat.min_le_right _ _)]
  omega

/-- A child is not above its parent. -/
theorem not_above (hw : UF.WF (ptab x.find)) {c e : Id} (hc : c < x.find.length) (hu : up x c = e) (hne : c ≠ e) (n : Nat) : (up x)^[n] e ≠ c := by
  intro h
  have he : e < x.find.length := by rw [← hu]; exact up_lt hw hc
  have h1 := dep_iter_le hw he n
  have h2 := dep_up hw hc (by rw [hu]; exact fun h => hne h.symm)
  rw [h, h2, hu] at h1
  omega

/-- Different children have no descendant in common. -/
theorem sub_disjoint (hw : UF.WF (ptab x.find)) {c c' e d : Id} (hc : c < x.find.length) (hu : up x c = e) (hne : c ≠ e)
    (hc' : c' < x.find.length) (hu' : up x c' = e) (hne' : c' ≠ e) (hcc : c ≠ c') (h : Sub x d c) (h' : Sub x d c') : False := by
  have key : ∀ {c c' : Id}, c' < x.find.length → up x c = e → up x c' = e → c' ≠ e → c ≠ c' → ∀ k, (up x)^[k] c ≠ c' := by
    intro c c' hc' hu hu' hne' hcc k
    cases k with
    | zero => exact hcc
    | succ k => rw [Function.iterate_succ_apply, hu]; exact not_above hw hc' hu' hne' k
  obtain ⟨a, rfl⟩ := h
  obtain ⟨b, rfl⟩ := h'
  rcases Nat.le_total a b with hab | hab
  · refine key hc' hu hu' hne' hcc (b - a) ?_
    rw [← Function.iterate_add_apply, Nat.sub_add_cancel hab]
  · refine key hc hu' hu hne (Ne.symm hcc) (a - b) ?_
    rw [← Function.iterate_add_apply, Nat.sub_add_cancel hab]

/-- What always holds of the state. -/
structure TBase (x : Explain Op) (s : Tarjan) : Prop where
  ufLen : s.uf.length = x.find.length
  anc : s.ancestor = List.range x.find.length
  uf : ∀ v, v < x.find.length → s.uf[v]? = some v ∨ s.uf[v]? = some (up x v)
  black : ∀ b ∈ s.black, b < x.find.length
  lca : ∀ l r c, s.common.get? (l, r) = some c → ∃ a b, Lca x l r c a b

/-- The way from `b` up to `c`, `m` steps, has been linked. -/
def Linked (x : Explain Op) (uf : UF) (b c : Id) (m : Nat) : Prop := (up x)^[m] b = c ∧ ∀ j, j < m → uf[(up x)^[j] b]? ≠ some ((up x)^[j] b)

theorem TBase.wf {s : Tarjan} (hw : UF.WF (ptab x.find)) (h : TBase x s) : UF.WF s.uf := by
  obtain ⟨d, hd⟩ := hw
  refine ⟨d, fun i p hp => ?_⟩
  have hi : i < x.find.length := by rw [← h.ufLen]; exact getElem?_lt hp
  have he := List.getElem?_eq_getElem hi
  have := hd i _ (ptab_get he)
  rw [ptab_length] at this
  rcases h.uf i hi with h1 | h1
  · rw [hp] at h1; cases h1
    exact ⟨by rw [h.ufLen]; exact hi, fun h => absurd rfl h⟩
  · rw [hp] at h1; cases h1
    rw [up_of_get he, h.ufLen]
    exact this

theorem find_linked {s : Tarjan} (hw : UF.WF (ptab x.find)) (h : TBase x s) {b c : Id} {m : Nat} (hb : b < x.find.length) (hl : Linked x s.uf b c m)
    (hc : s.uf[c]? = some c) : UF.find s.uf b = .ok c := by
  have key : ∀ (m : Nat) (b : Id), b < x.find.length → Linked x s.uf b c m → UF.RootOf s.uf b c := by
    intro m
    induction m with
    | zero => intro b hb hl; have := hl.1; simp at this; subst this; exact .base hc
    | succ m ih =>
      intro b hb hl
      have h0 := hl.2 0 (by omega)
      simp at h0
      rcases h.uf b hb with h1 | h1
      · exact absurd h1 h0
      · refine .step h1 ?_ (ih (up x b) (up_lt hw hb) ⟨by have := hl.1; rwa [Function.iterate_succ_apply] at this, fun j hj => ?_⟩)
        · intro e; exact h0 (by rw [h1, e])
        · have := hl.2 (j + 1) (by omega)
          rwa [Function.iterate_succ_apply] at this
  have hwf := h.wf hw
  have hb' : b < s.uf.length := by rw [h.ufLen]; exact hb
  rw [UF.find_eq_ok hwf hb', (key m b hb hl).root_eq hwf]

structure TPre (x : Explain Op) (e : Id) (s : Tarjan) : Prop where
  base : TBase x s
  up : ∀ n, s.uf[(up x)^[n] e]? = some ((up x)^[n] e)
  sub : ∀ d, d < x.find.length → Sub x d e → s.uf[d]? = some d
  black : ∀ b ∈ s.black, ∃ m n, Linked x s.uf b ((Explain.up x)^[n] e) m

structure TPost (x : Explain Op) (e : Id) (s s' : Tarjan) : Prop where
  base : TBase x s'
  out : ∀ v, v < x.find.length → ¬ Sub x v e → s'.uf[v]? = s.uf[v]?
  self : s'.uf[e]? = some e
  black : ∀ b ∈ s'.black, b ∈ s.black ∨ ∃ m, Linked x s'.uf b e m

/-- Invariant of the loop over the children. -/
structure TLoop (x : Explain Op) (e : Id) (s0 : Tarjan) (pre : List Id) (s : Tarjan) : Prop where
  base : TBase x s
  out : ∀ v, v < x.find.length → (∀ c ∈ pre, ¬ Sub x v c) → s.uf[v]? = s0.uf[v]?
  black : ∀ b ∈ s.black, b ∈ s0.black ∨ ∃ m, Linked x s.uf b e m

theorem linked_lt (hw : UF.WF (ptab x.find)) {b : Id} (hb : b < x.find.length) (j : Nat) : (up x)^[j] b < x.find.length := iter_lt hw hb j

/-- Old links survive the loop. -/
theorem TLoop.keep {e : Id} {s0 s : Tarjan} {pre : List Id} (hw : UF.WF (ptab x.find)) (h0 : TPre x e s0) (h : TLoop x e s0 pre s)
    (hpre : ∀ c ∈ pre, up x c = e) {b c : Id} {m : Nat} (hb : b < x.find.length) (hl : Linked x s0.uf b c m) : Linked x s.uf b c m := by
  refine ⟨hl.1, fun j hj => ?_⟩
  rw [h.out _ (iter_lt hw hb j) ?_]
  · exact hl.2 j hj
  · intro c hc hs
    exact hl.2 j hj (h0.sub _ (iter_lt hw hb j) (by rw [← hpre c hc]; exact hs.up))

/-- The nodes above are still open. -/
theorem TLoop.open {e : Id} {s0 s : Tarjan} {pre : List Id} (hw : UF.WF (ptab x.find)) (he : e < x.find.length) (h0 : TPre x e s0) (h : TLoop x e s0 pre s)
    (hpre : ∀ c ∈ pre, c < x.find.length ∧ up x c = e ∧ c ≠ e) (n : Nat) : s.uf[(up x)^[n] e]? = some ((up x)^[n] e) := by
  rw [h.out _ (iter_lt hw he n) ?_]
  · exact h0.up n
  · rintro c hc ⟨k, hk⟩
    obtain ⟨h1, h2, h3⟩ := hpre c hc
    rw [← Function.iterate_add_apply] at hk
    exact not_above hw h1 h2 h3 _ hk

theorem tarjanOcla_ok (hw : UF.WF (ptab x.find)) {cs : List Id} (hlt : ∀ i ∈ cs, i < x.find.length) {children : AMap Id (List Id)}
    (hch : ChildTable x cs children) (queries : AMap Id (List Id)) {B : Nat} (hB : ∀ i, i < x.find.length → dep x i ≤ B) :
    ∀ (m : Nat) (e : Id) (s : Tarjan), B - dep x e = m → e ∈ cs → TPre x e s →
      Returns (fun f => tarjanOcla children queries f e s) (TPost x e s) := by
  intro m
  induction m using Nat.strongRecOn with
  | ind m ih =>
    intro e s hm hec hp
    have he := hlt e hec
    refine Returns.succ' ?_
    simp only [tarjanOcla]
    have hset : ∀ (l : List Id), l = List.range x.find.length → setIdx l e e = .ok l := by
      intro l hl
      rw [setIdx, if_pos (by rw [hl]; simpa using he)]
      congr 1
      refine List.ext_getElem? fun i => ?_
      rw [set_getElem? (by rw [hl]; simpa using he)]
      split
      · rename_i e'; subst e'; rw [hl]; simp [he]
      · rfl
    simp only [hset _ hp.base.anc, ok_bind]
    obtain ⟨kids, hk, hkn, hkids⟩ := hch e hec
    simp only [unwrap_eq_ok.2 hk, ok_bind]
    have hkid : ∀ c ∈ kids, c < x.find.length ∧ up x c = e ∧ c ≠ e := fun c hc => ⟨hlt c (hkids c hc).1, (hkids c hc).2⟩
    refine Returns.bind (Returns.foldlM (I := TLoop x e s) kids [] s ⟨hp.base, fun _ _ _ => rfl, fun b hb => .inl hb⟩ ?_) ?_
    · intro pre c post si epc hi
      have epc : kids = pre ++ c :: post := epc
      have hc : c ∈ kids := by rw [epc]; simp
      have hpre : ∀ c' ∈ pre, c' < x.find.length ∧ up x c' = e ∧ c' ≠ e := fun c' hc' => hkid c' (by rw [epc]; simp [hc'])
      obtain ⟨hcl, hcu, hce⟩ := hkid c hc
      have hcp : c ∉ pre := by
        intro h
        rw [epc, List.nodup_append] at hkn
        exact hkn.2.2 c h c (by simp) rfl
      have hdc := dep_up hw hcl (by rw [hcu]; exact fun h => hce h.symm)
      have hBc := hB c hcl
      rw [hcu] at hdc
      have hopen := hi.open hw he hp hpre
      have hsub : ∀ d, d < x.find.length → Sub x d c → si.uf[d]? = some d := by
        intro d hd hdc'
        rw [hi.out d hd ?_]
        · exact hp.sub d hd (by rw [← hcu]; exact hdc'.up)
        · intro c' hc' hdc2
          obtain ⟨g1, g2, g3⟩ := hpre c' hc'
          exact sub_disjoint hw hcl hcu hce g1 g2 g3 (by rintro rfl; exact hcp hc') hdc' hdc2
      have hpc : TPre x c si := by
        refine ⟨hi.base, fun n => ?_, hsub, fun b hb => ?_⟩
        · cases n with
          | zero => exact hsub c hcl (.refl c)
          | succ n => rw [Function.iterate_succ_apply, hcu]; exact hopen n
        · rcases hi.black b hb with h1 | ⟨m', h1⟩
          · obtain ⟨m', n, h2⟩ := hp.black b h1
            refine ⟨m', n + 1, ?_⟩
            rw [Function.iterate_succ_apply, hcu]
            exact hi.keep hw hp (fun c' hc' => (hpre c' hc').2.1) (hi.base.black b hb) h2
          · exact ⟨m', 1, by rw [Function.iterate_one, hcu]; exact h1⟩
      refine Returns.bind (ih (B - dep x c) (by omega) c si rfl (hkids c hc).1 hpc) ?_
      intro s1 h1
      have hcl1 : c < s1.uf.length := by rw [h1.base.ufLen]; exact hcl
      simp only [UF.union, if_pos hcl1, ok_bind]
      have hne : ¬ Sub x e c := by rintro ⟨n, hn⟩; exact not_above hw hcl hcu hce n hn
      have hself : (s1.uf.set c e)[e]? = some e := by
        rw [set_getElem? hcl1, if_neg hce, h1.out e he hne]
        exact hopen 0
      have hb2 : TBase x { s1 with uf := s1.uf.set c e } := by
        refine ⟨by simp [h1.base.ufLen], h1.base.anc, fun v hv => ?_, h1.base.black, h1.base.lca⟩
        show (s1.uf.set c e)[v]? = _ ∨ (s1.uf.set c e)[v]? = _
        rw [set_getElem? hcl1]
        split
        · rename_i ev; subst ev; rw [hcu]; exact .inr rfl
        · exact h1.base.uf v hv
      have hfind : UF.find (s1.uf.set c e) e = .ok e := find_linked hw hb2 he (m := 0) ⟨rfl, by intro j hj; omega⟩ hself
      simp only [hfind, ok_bind, hset _ h1.base.anc]
      refine Returns.ret ⟨⟨hb2.ufLen, h1.base.anc, hb2.uf, hb2.black, hb2.lca⟩, ?_, ?_⟩
      · intro v hv hout
        show (s1.uf.set c e)[v]? = _
        have hvc : ¬ Sub x v c := hout c (by simp)
        rw [set_getElem? hcl1, if_neg (by rintro rfl; exact hvc (.refl _)), h1.out v hv hvc]
        exact hi.out v hv (fun c' hc' => hout c' (by simp [hc']))
      · intro b hb
        have hbl : b < x.find.length := h1.base.black b hb
        have hset2 : ∀ v, v ≠ c → (s1.uf.set c e)[v]? = s1.uf[v]? := by
          intro v hv
          rw [set_getElem? hcl1, if_neg (Ne.symm hv)]
        rcases h1.black b hb with h2 | ⟨m', h2⟩
        · rcases hi.black b h2 with h3 | ⟨m', h3⟩
          · exact .inl h3
          · refine .inr ⟨m', h3.1, fun j hj => ?_⟩
            show (s1.uf.set c e)[_]? ≠ _
            have hnotsub : ¬ Sub x ((up x)^[j] b) c := fun hs => h3.2 j hj (hsub _ (iter_lt hw hbl j) hs)
            rw [hset2 _ (by intro h; exact hnotsub (by rw [h]; exact .refl c)), h1.out _ (iter_lt hw hbl j) hnotsub]
            exact h3.2 j hj
        · refine .inr ⟨m' + 1, ?_, fun j hj => ?_⟩
          · rw [Function.iterate_succ_apply', h2.1, hcu]
          · show (s1.uf.set c e)[_]? ≠ _
            by_cases hjm : j = m'
            · subst hjm
              rw [h2.1, set_getElem? hcl1, if_pos rfl]
              intro h; cases h; exact hce rfl
            · have hlk := h2.2 j (by omega)
              rw [hset2 _ (by intro h; rw [h] at hlk; exact hlk h1.self)]
              exact hlk
    · intro s2 hi
      have hi : TLoop x e s kids s2 := hi
      have hopen := hi.open hw he hp hkid
      have hout : ∀ v, v < x.find.length → ¬ Sub x v e → s2.uf[v]? = s.uf[v]? := by
        intro v hv hve
        refine hi.out v hv (fun c hc hs => hve ?_)
        rw [← (hkid c hc).2.1]; exact hs.up
      cases hq : queries.get? e with
      | none => exact Returns.ret ⟨hi.base, hout, hopen 0, hi.black⟩
      | some others =>
        simp only
        refine (Returns.foldlM' (I := fun s3 : Tarjan => TBase x s3 ∧ s3.uf = s2.uf ∧ s3.black = e :: s2.black) ?_ ?_).mono ?_
        · refine ⟨⟨hi.base.ufLen, hi.base.anc, hi.base.uf, ?_, hi.base.lca⟩, rfl, rfl⟩
          intro b hb
          rcases List.mem_cons.1 hb with rfl | hb
          · exact he
          · exact hi.base.black b hb
        · intro other _ s3 ⟨g1, g2, g3⟩
          split
          · rename_i hob
            have hol := g1.black other hob
            have hlink : ∃ m' n, Linked x s2.uf other ((up x)^[n] e) m' := by
              rw [g3] at hob
              rcases List.mem_cons.1 hob with rfl | hob
              · exact ⟨0, 0, rfl, by intro j hj; omega⟩
              · rcases hi.black other hob with h1 | ⟨m', h1⟩
                · obtain ⟨m', n, h2⟩ := hp.black other h1
                  exact ⟨m', n, hi.keep hw hp (fun c' hc' => (hkid c' hc').2.1) hol h2⟩
                · exact ⟨m', 0, h1⟩
            obtain ⟨m', n, hl⟩ := hlink
            have hf : UF.find s3.uf other = .ok ((up x)^[n] e) :=
              find_linked hw g1 hol (by rw [g2]; exact hl) (by rw [g2]; exact hopen n)
            have hget : getIdx s3.ancestor ((up x)^[n] e) = .ok ((up x)^[n] e) := by
              rw [getIdx_eq_ok, g1.anc, List.getElem?_range (iter_lt hw he n)]
            simp only [hf, ok_bind, hget]
            have hlca : ∃ a b, Lca x other e ((up x)^[n] e) a b := by
              refine lca_of hw hol he hl.1 rfl ?_
              intro a' b' ha hb heq
              have := hl.2 a' ha
              rw [heq] at this
              exact this (hopen b')
            obtain ⟨a, b, hlca⟩ := hlca
            refine Returns.ret ⟨⟨g1.ufLen, g1.anc, g1.uf, g1.black, ?_⟩, g2, g3⟩
            intro l r c hc
            simp only [AMap.get?_insert] at hc
            split at hc
            · rename_i e1; cases hc; cases e1; exact ⟨a, b, hlca⟩
            · split at hc
              · rename_i e1; cases hc; cases e1; exact ⟨b, a, hlca.symm⟩
              · exact g1.lca l r c hc
          · exact Returns.ret ⟨g1, g2, g3⟩
        · rintro s3 ⟨g1, g2, g3⟩
          refine ⟨g1, fun v hv h => by rw [g2]; exact hout v hv h, by rw [g2]; exact hopen 0, fun b hb => ?_⟩
          rw [g3] at hb
          rw [g2]
          rcases List.mem_cons.1 hb with rfl | hb
          · exact .inr ⟨0, rfl, by intro j hj; omega⟩
          · exact hi.black b hb

theorem exists_bound (g : Nat → Nat) (n : Nat) : ∃ B, ∀ i, i < n → g i ≤ B := by
  induction n with
  | zero => exact ⟨0, by intro i hi; omega⟩
  | succ n ih =>
    obtain ⟨B, hB⟩ := ih
    refine ⟨B + g n, fun i hi => ?_⟩
    by_cases e : i = n
    · subst e; omega
    · have := hB i (by omega); omega

/-- The table of congruent neighbors. -/
structure CnOK (x : Explain Op) (nodes : List (ENode Op)) (L : Log) (cn : List (List Id)) : Prop where
  len : cn.length = nodes.length
  sound : ∀ (u : Id) l, cn[u]? = some l → ∀ v ∈ l, CongrIds nodes L u v
  up : ∀ (i : Id) (e : ExplainNode), x.find[i]? = some e → e.parent.justification = .congruence →
    (∃ l, cn[i]? = some l ∧ up x i ∈ l) ∧ ∃ l, cn[up x i]? = some l ∧ i ∈ l

theorem ancestorQueries_ok {cn : List (List Id)} (h : CnOK x nodes L cn) : ∃ q, ancestorQueries nodes cn = .ok q := by
  have key : Returns (fun _ : Nat => ancestorQueries nodes cn) (fun _ => True) := by
    unfold ancestorQueries
    refine Returns.foldlM' trivial ?_
    intro start hs q _
    have hs : start < cn.length := by simpa using hs
    have hg := List.getElem?_eq_getElem hs
    simp only [getIdx_eq_ok.2 hg, ok_bind]
    refine Returns.foldlM' trivial ?_
    intro other ho q _
    obtain ⟨na, nb, g1, g2, _⟩ := h.sound start _ hg other ho
    simp only [getIdx_eq_ok.2 g1, getIdx_eq_ok.2 g2, ok_bind]
    exact Returns.ret trivial
  obtain ⟨f0, q, _, h2⟩ := key
  exact ⟨q, h2 f0 (le_refl _)⟩

theorem calculateCommonAncestor_ok (h : Fo nodes conn L x) (ch : Choices) {classes : List Id} (hn : classes.Nodup)
    (hcl : ∀ c ∈ classes, c < nodes.length) (hd : ∀ c ∈ classes, ∀ c' ∈ classes, Conn L c c' → c = c') {cn : List (List Id)} (hcn : CnOK x nodes L cn) :
    Returns (fun f => x.calculateCommonAncestor ch nodes classes cn f) (fun m => ∀ l r c, m.get? (l, r) = some c → ∃ a b, Lca x l r c a b) := by
  have hw := h.wf
  unfold calculateCommonAncestor
  obtain ⟨q, hq⟩ := ancestorQueries_ok hcn
  simp only [hq, ok_bind]
  obtain ⟨B, hB⟩ := exists_bound (dep x) x.find.length
  have hperm := ch.orderPerm classes
  refine Returns.bind (Returns.foldlM (I := fun (pre : List Id) (s : Tarjan) => TBase x s ∧
    ∀ v, v < nodes.length → (∀ c ∈ pre, ¬ Conn L c v) → s.uf[v]? = some v) (ch.order classes) [] _ ?_ ?_) ?_
  · refine ⟨⟨by simp, rfl, fun v hv => .inl (by simp [hv]), by simp, by intro l r c hc; simp [AMap.get?] at hc⟩, fun v hv _ => ?_⟩
    rw [← h.len] at hv
    simp [hv]
  · rintro pre eclass post s e ⟨h1, h2⟩
    have e : ch.order classes = pre ++ eclass :: post := e
    have hec : eclass ∈ classes := hperm.mem_iff.1 (by rw [e]; simp)
    refine Returns.bind (findAllEnodes_ok h (hcl eclass hec)) ?_
    rintro cs ⟨c1, c2, c3⟩
    have cperm := ch.orderPerm cs
    have hcs : ∀ i ∈ ch.order cs, i < x.find.length ∧ Conn L eclass i ∧ up x i ∈ ch.order cs := by
      intro i hi
      obtain ⟨g1, g2, g3⟩ := c3 i (cperm.mem_iff.1 hi)
      exact ⟨by rw [h.len]; exact g1, g2, cperm.mem_iff.2 g3⟩
    obtain ⟨children, hm, hct⟩ := treeChildren_ok (x := x) (cperm.nodup_iff.2 c1) (fun i hi => (hcs i hi).1) (fun i hi => (hcs i hi).2.2)
    simp only [hm, ok_bind]
    have hhead : ∃ e0, (ch.order cs).head? = some e0 ∧ e0 ∈ ch.order cs := by
      have : eclass ∈ ch.order cs := cperm.mem_iff.2 c2
      cases ho : ch.order cs with
      | nil => rw [ho] at this; simp at this
      | cons a l => exact ⟨a, rfl, by simp⟩
    obtain ⟨e0, he0, he0m⟩ := hhead
    simp only [unwrap_eq_ok.2 he0, ok_bind]
    have hiter : ∀ n, (up x)^[n] e0 ∈ ch.order cs := by
      intro n
      induction n with
      | zero => exact he0m
      | succ n ih => rw [Function.iterate_succ_apply']; exact (hcs _ ih).2.2
    refine Returns.bind (rootLoop_ok hw _ e0 rfl (hcs e0 he0m).1) ?_
    rintro ρ rfl
    have hρ := hiter (dep x e0)
    have hfix := (dep_spec hw (hcs e0 he0m).1).1
    have hnew : ∀ v, Conn L eclass v → ∀ c ∈ pre, ¬ Conn L c v := by
      intro v hv c hc hcv
      have hcc : c ∈ classes := hperm.mem_iff.1 (by rw [e]; simp [hc])
      have := hd c hcc eclass hec (hcv.trans hv.symm)
      subst this
      have hno := hperm.nodup_iff.2 hn
      rw [e, List.nodup_append] at hno
      exact hno.2.2 c hc c (by simp) rfl
    have hp : TPre x ((up x)^[dep x e0] e0) { s with black := [] } := by
      refine ⟨⟨h1.ufLen, h1.anc, h1.uf, by simp, h1.lca⟩, fun n => ?_, ?_, by simp⟩
      · rw [Function.iterate_fixed hfix n]
        exact h2 _ (by rw [← h.len]; exact (hcs _ hρ).1) (hnew _ (hcs _ hρ).2.1)
      · rintro d hdl ⟨n, hn⟩
        have hdl' : d < nodes.length := by rw [← h.len]; exact hdl
        refine h2 d hdl' (hnew d ((hcs _ hρ).2.1.trans ?_))
        rw [← hn]
        exact (h.iter_conn hdl' n).symm
    refine (tarjanOcla_ok hw (fun i hi => (hcs i hi).1) hct q hB _ _ _ rfl hρ hp).mono ?_
    intro s' hs'
    refine ⟨hs'.base, fun v hv hout => ?_⟩
    rw [hs'.out v (by rw [h.len]; exact hv) ?_]
    · exact h2 v hv (fun c hc => hout c (by simp [hc]))
    · rintro ⟨n, hn⟩
      refine hout eclass (by simp) ((hcs _ hρ).2.1.trans ?_)
      rw [← hn]
      exact (h.iter_conn hv n).symm
  · rintro s ⟨h1, _⟩
    exact Returns.ret h1.lca

end Explain
end Egg
