import Verif.Spec.Term
import Mathlib.Data.List.Nodup
/-
Facts about lists, finite maps, the work queue, `Except` and terms.
-/
namespace Egg

/-! ### Except -/

@[simp] theorem ok_bind {α β : Type} (a : α) (f : α → Res β) :
    ((Except.ok a : Res α) >>= f) = f a := rfl

@[simp] theorem error_bind {α β : Type} (e : Err) (f : α → Res β) :
    ((Except.error e : Res α) >>= f) = .error e := rfl

@[simp] theorem pure_eq_ok {α : Type} (a : α) : (pure a : Res α) = .ok a := rfl

theorem bind_eq_ok {α β : Type} {x : Res α} {f : α → Res β} {b : β} :
    (x >>= f) = .ok b ↔ ∃ a, x = .ok a ∧ f a = .ok b := by
  cases x with
  | error e => simp
  | ok a => simp

@[simp] theorem unwrap_some {α : Type} (a : α) : unwrap (some a) = .ok a := rfl

theorem unwrap_eq_ok {α : Type} {o : Option α} {a : α} : unwrap o = .ok a ↔ o = some a := by
  cases o <;> simp [unwrap]

theorem getIdx_eq_ok {α : Type} {l : List α} {i : Nat} {a : α} :
    getIdx l i = .ok a ↔ l[i]? = some a := by
  unfold getIdx
  cases l[i]? <;> simp

theorem getIdx_lt {α : Type} {l : List α} {i : Nat} (h : i < l.length) : getIdx l i = .ok l[i] := by
  rw [getIdx_eq_ok, List.getElem?_eq_getElem h]

theorem mapM_ok {α β : Type} {f : α → Res β} {g : α → β} {l : List α}
    (h : ∀ x ∈ l, f x = .ok (g x)) : l.mapM f = .ok (l.map g) := by
  induction l with
  | nil => rfl
  | cons a l ih =>
    rw [List.mapM_cons, h a (by simp), ok_bind, ih (fun x hx => h x (by simp [hx]))]
    rfl

theorem mapM_eq_ok {α β : Type} {f : α → Res β} {l : List α} {r : List β} :
    l.mapM f = .ok r ↔ List.Forall₂ (fun a b => f a = .ok b) l r := by
  induction l generalizing r with
  | nil =>
    simp [List.mapM_nil]
  | cons a l ih =>
    rw [List.mapM_cons, bind_eq_ok]
    constructor
    · rintro ⟨b, hb, h⟩
      rw [bind_eq_ok] at h
      obtain ⟨bs, hbs, h⟩ := h
      simp at h
      subst h
      exact .cons hb (ih.1 hbs)
    · intro h
      cases h with
      | cons hb hbs => exact ⟨_, hb, by rw [bind_eq_ok]; exact ⟨_, ih.2 hbs, rfl⟩⟩

theorem mapChildrenM_ok {Op : Type} {f : Id → Res Id} {g : Id → Id} {n : ENode Op}
    (h : ∀ c ∈ n.children, f c = .ok (g c)) : n.mapChildrenM f = .ok (n.mapChildren g) := by
  simp [ENode.mapChildrenM, mapM_ok h, ENode.mapChildren]

/-! ### Forall₂ by index -/

theorem forall₂_iff_get? {α β : Type} {R : α → β → Prop} {as : List α} {bs : List β} :
    List.Forall₂ R as bs ↔ as.length = bs.length ∧
      ∀ (k : Nat) (a : α) (b : β), as[k]? = some a → bs[k]? = some b → R a b := by
  constructor
  · intro h
    refine ⟨h.length_eq, ?_⟩
    induction h with
    | nil => intro k a b h; simp at h
    | cons hab _ ih =>
      intro k a b ha hb
      cases k with
      | zero => simp at ha hb; subst ha; subst hb; exact hab
      | succ k => simp at ha hb; exact ih k a b ha hb
  · rintro ⟨hl, h⟩
    induction as generalizing bs with
    | nil => cases bs with
      | nil => exact .nil
      | cons => simp at hl
    | cons a as ih =>
      cases bs with
      | nil => simp at hl
      | cons b bs =>
        exact .cons (h 0 a b rfl rfl) (ih (by simpa using hl) (fun k a b ha hb =>
          h (k + 1) a b (by simpa using ha) (by simpa using hb)))

theorem forall₂_mono_mem {α β : Type} {R S : α → β → Prop} {as : List α} {bs : List β}
    (h : List.Forall₂ R as bs) (hi : ∀ a ∈ as, ∀ b ∈ bs, R a b → S a b) : List.Forall₂ S as bs := by
  induction h with
  | nil => exact .nil
  | cons hab _ ih =>
    exact .cons (hi _ (by simp) _ (by simp) hab)
      (ih (fun a ha b hb => hi a (by simp [ha]) b (by simp [hb])))

theorem forall₂_exists {α β : Type} {R : α → β → Prop} {as : List α}
    (h : ∀ a ∈ as, ∃ b, R a b) : ∃ bs, List.Forall₂ R as bs := by
  induction as with
  | nil => exact ⟨[], .nil⟩
  | cons a as ih =>
    obtain ⟨b, hb⟩ := h a (by simp)
    obtain ⟨bs, hbs⟩ := ih (fun x hx => h x (by simp [hx]))
    exact ⟨b :: bs, .cons hb hbs⟩

theorem forall₂_map_eq {α β γ : Type} {f : α → γ} {g : β → γ} {as : List α} {bs : List β} :
    List.Forall₂ (fun a b => f a = g b) as bs ↔ as.map f = bs.map g := by
  induction as generalizing bs with
  | nil => cases bs <;> simp
  | cons a as ih => cases bs <;> simp [ih]

theorem forall₂_comp {α β γ : Type} {R : α → β → Prop} {S : β → γ → Prop} {T : α → γ → Prop}
    {as : List α} {bs : List β} {cs : List γ} (h1 : List.Forall₂ R as bs)
    (h2 : List.Forall₂ S bs cs) (h : ∀ a b c, a ∈ as → b ∈ bs → c ∈ cs → R a b → S b c → T a c) :
    List.Forall₂ T as cs := by
  induction h1 generalizing cs with
  | nil => cases h2; exact .nil
  | cons hab _ ih =>
    cases h2 with
    | cons hbc h2 =>
      exact .cons (h _ _ _ (by simp) (by simp) (by simp) hab hbc)
        (ih h2 (fun a b c ha hb hc => h a b c (by simp [ha]) (by simp [hb]) (by simp [hc])))

theorem forall₂_flip {α β : Type} {R : α → β → Prop} {as : List α} {bs : List β}
    (h : List.Forall₂ R as bs) : List.Forall₂ (fun b a => R a b) bs as := by
  induction h with
  | nil => exact .nil
  | cons h _ ih => exact .cons h ih

theorem forall₂_mem_left {α β : Type} {R : α → β → Prop} {as : List α} {bs : List β}
    (h : List.Forall₂ R as bs) {a : α} (ha : a ∈ as) : ∃ b ∈ bs, R a b := by
  induction h with
  | nil => simp at ha
  | cons hab _ ih =>
    simp at ha
    rcases ha with rfl | ha
    · exact ⟨_, by simp, hab⟩
    · obtain ⟨b, hb, h⟩ := ih ha
      exact ⟨b, by simp [hb], h⟩

/-! ### finite maps -/

namespace AMap
variable {K V : Type} [DecidableEq K]

theorem get?_insert (m : AMap K V) (k k' : K) (v : V) :
    get? (insert m k v) k' = if k = k' then some v else get? m k' := by
  induction m with
  | nil => simp [insert, get?]
  | cons p m ih =>
    obtain ⟨a, b⟩ := p
    unfold insert
    split
    · rename_i h; subst h
      simp only [get?]
      split <;> rfl
    · rename_i h
      simp only [get?, ih]
      split
      · rename_i h2; subst h2; rw [if_neg (Ne.symm h)]
      · rfl

theorem get?_erase (m : AMap K V) (k k' : K) :
    get? (erase m k) k' = if k = k' then none else get? m k' := by
  induction m with
  | nil => simp [erase, get?]
  | cons p m ih =>
    obtain ⟨a, b⟩ := p
    unfold erase
    split
    · rename_i h; subst h
      rw [ih]
      simp only [get?]
      split <;> rfl
    · rename_i h
      simp only [get?, ih]
      split
      · rename_i h2; subst h2; rw [if_neg (Ne.symm h)]
      · rfl

theorem insert_ne_nil (m : AMap K V) (k : K) (v : V) : m.insert k v ≠ [] := by
  cases m with
  | nil => simp [insert]
  | cons a m =>
    obtain ⟨k', v'⟩ := a
    unfold insert
    split <;> simp

theorem keys_insert (m : AMap K V) (k : K) (v : V) :
    keys (insert m k v) = if k ∈ keys m then keys m else keys m ++ [k] := by
  induction m with
  | nil => simp [insert, keys]
  | cons p m ih =>
    obtain ⟨a, b⟩ := p
    unfold insert
    split
    · rename_i h; subst h; simp [keys]
    · rename_i h
      have h' : ¬ k = a := fun e => h e.symm
      by_cases hk : k ∈ keys m
      · rw [if_pos hk] at ih
        rw [if_pos (by simp only [keys, List.map_cons, List.mem_cons]; exact Or.inr hk)]
        simp only [keys, List.map_cons] at ih ⊢
        rw [ih]
      · rw [if_neg hk] at ih
        rw [if_neg (by
          simp only [keys, List.map_cons, List.mem_cons, not_or]; exact ⟨h', hk⟩)]
        simp only [keys, List.map_cons] at ih ⊢
        rw [ih]; rfl

theorem keys_erase (m : AMap K V) (k : K) :
    keys (erase m k) = (keys m).filter (fun x => decide (x ≠ k)) := by
  induction m with
  | nil => rfl
  | cons p m ih =>
    obtain ⟨a, b⟩ := p
    unfold erase
    split
    · rename_i h; subst h
      rw [ih]; simp [keys]
    · rename_i h
      simp only [keys, List.map_cons] at ih ⊢
      rw [ih, List.filter_cons]
      simp [h]

theorem get?_isSome_iff (m : AMap K V) (k : K) : (get? m k).isSome ↔ k ∈ keys m := by
  induction m with
  | nil => simp [get?, keys]
  | cons p m ih =>
    obtain ⟨a, b⟩ := p
    simp only [get?, keys, List.map_cons, List.mem_cons] at ih ⊢
    split
    · rename_i h; subst h; simp
    · rename_i h
      rw [ih]
      have h' : ¬ k = a := fun e => h e.symm
      simp [h']

theorem get?_eq_none_iff (m : AMap K V) (k : K) : get? m k = none ↔ k ∉ keys m := by
  rw [← get?_isSome_iff]
  cases get? m k <;> simp

theorem mem_of_get? {m : AMap K V} {k : K} {v : V} (h : get? m k = some v) : (k, v) ∈ m := by
  induction m with
  | nil => simp [get?] at h
  | cons p m ih =>
    obtain ⟨a, b⟩ := p
    simp only [get?] at h
    split at h
    · rename_i e; subst e; cases h; simp
    · simp [ih h]

theorem get?_of_mem {m : AMap K V} (hn : (keys m).Nodup) {k : K} {v : V} (h : (k, v) ∈ m) :
    get? m k = some v := by
  induction m with
  | nil => simp at h
  | cons p m ih =>
    obtain ⟨a, b⟩ := p
    simp only [keys, List.map_cons, List.nodup_cons] at hn
    simp only [List.mem_cons, Prod.mk.injEq] at h
    simp only [get?]
    rcases h with ⟨rfl, rfl⟩ | h
    · simp
    · have : a ≠ k := by
        intro e; subst e
        exact hn.1 (List.mem_map.2 ⟨_, h, rfl⟩)
      rw [if_neg this]
      exact ih hn.2 h

theorem mem_iff_get? {m : AMap K V} (hn : (keys m).Nodup) {k : K} {v : V} :
    (k, v) ∈ m ↔ get? m k = some v := ⟨get?_of_mem hn, mem_of_get?⟩

theorem nodup_insert {m : AMap K V} (hn : (keys m).Nodup) (k : K) (v : V) :
    (keys (insert m k v)).Nodup := by
  rw [keys_insert]
  split
  · exact hn
  · rename_i h
    rw [List.nodup_append]
    refine ⟨hn, by simp, ?_⟩
    intro a ha b hb
    simp at hb
    subst hb
    intro e; subst e; exact h ha

theorem nodup_erase {m : AMap K V} (hn : (keys m).Nodup) (k : K) : (keys (erase m k)).Nodup := by
  rw [keys_erase]; exact hn.filter _

theorem length_insert (m : AMap K V) (k : K) (v : V) :
    (insert m k v).length = if k ∈ keys m then m.length else m.length + 1 := by
  have := congrArg List.length (keys_insert m k v)
  by_cases hk : k ∈ keys m
  · rw [if_pos hk] at this ⊢
    simpa [keys] using this
  · rw [if_neg hk] at this ⊢
    simpa [keys] using this

theorem length_erase_of_mem {m : AMap K V} (hn : (keys m).Nodup) {k : K} (hk : k ∈ keys m) :
    (erase m k).length + 1 = m.length := by
  induction m with
  | nil => simp [keys] at hk
  | cons p m ih =>
    obtain ⟨a, b⟩ := p
    simp only [keys, List.map_cons, List.nodup_cons, List.mem_cons] at hn hk
    unfold erase
    split
    · rename_i e; subst e
      have : ∀ (m : AMap K V), a ∉ keys m → erase m a = m := by
        intro m
        induction m with
        | nil => intro _; rfl
        | cons q m ih =>
          intro h
          simp only [keys, List.map_cons, List.mem_cons, not_or] at h
          unfold erase
          rw [if_neg (fun e => h.1 e.symm), ih h.2]
      rw [this m hn.1]
      simp
    · rename_i h
      have h' : ¬ k = a := fun e => h e.symm
      simp only [h', false_or] at hk
      simp only [List.length_cons]
      rw [ih hn.2 hk]

end AMap

/-! ### work queue -/

namespace UniqueQueue
variable {α : Type} [DecidableEq α]

/-- Set and queue hold the same elements, each once. -/
structure Inv (q : UniqueQueue α) : Prop where
  nodup : q.queue.Nodup
  mem : ∀ x, x ∈ q.set ↔ x ∈ q.queue

theorem inv_empty : Inv (empty : UniqueQueue α) := ⟨by simp [empty], by simp [empty]⟩

theorem inv_insert {q : UniqueQueue α} (h : Inv q) (t : α) : Inv (q.insert t) := by
  unfold insert
  split
  · exact h
  · rename_i ht
    refine ⟨?_, ?_⟩
    · rw [List.nodup_append]
      refine ⟨h.nodup, by simp, ?_⟩
      intro a ha b hb
      simp at hb; subst hb
      intro e; subst e
      exact ht ((h.mem _).2 ha)
    · intro x; simp [h.mem x]

theorem mem_insert {q : UniqueQueue α} (h : Inv q) (t x : α) :
    x ∈ (q.insert t).queue ↔ x ∈ q.queue ∨ x = t := by
  unfold insert
  split
  · rename_i ht
    constructor
    · exact Or.inl
    · rintro (hx | rfl)
      · exact hx
      · exact (h.mem _).1 ht
  · simp

theorem inv_extend {q : UniqueQueue α} (h : Inv q) (ts : List α) : Inv (q.extend ts) := by
  unfold extend
  induction ts generalizing q with
  | nil => exact h
  | cons t ts ih => exact ih (inv_insert h t)

theorem mem_extend {q : UniqueQueue α} (h : Inv q) (ts : List α) (x : α) :
    x ∈ (q.extend ts).queue ↔ x ∈ q.queue ∨ x ∈ ts := by
  unfold extend
  induction ts generalizing q with
  | nil => simp
  | cons t ts ih =>
    have := ih (inv_insert h t)
    simp only [List.foldl_cons]
    rw [this, mem_insert h]
    simp only [List.mem_cons]
    tauto

theorem pop_some {q q' : UniqueQueue α} {t : α} (h : Inv q) (hp : q.pop = some (t, q')) :
    Inv q' ∧ q.queue = t :: q'.queue := by
  unfold pop at hp
  split at hp
  · simp at hp
  · rename_i t' rest hq
    simp at hp
    obtain ⟨rfl, rfl⟩ := hp
    have hnd := h.nodup
    rw [hq, List.nodup_cons] at hnd
    refine ⟨⟨hnd.2, ?_⟩, hq⟩
    intro x
    rw [List.mem_filter, h.mem, hq, List.mem_cons, Bool.not_eq_true', decide_eq_false_iff_not]
    constructor
    · rintro ⟨rfl | hx, hne⟩
      · exact absurd rfl hne
      · exact hx
    · intro hx
      refine ⟨Or.inr hx, ?_⟩
      intro e; subst e
      exact hnd.1 hx

theorem pop_none {q : UniqueQueue α} : q.pop = none ↔ q.queue = [] := by
  unfold pop
  split
  · rename_i h; simp [h]
  · rename_i h; simp [h]

theorem isEmpty_iff {q : UniqueQueue α} : q.isEmpty = true ↔ q.queue = [] := by
  simp [isEmpty]

/-- The `debug_assert_eq!` of `is_empty`. -/
theorem isEmpty_set {q : UniqueQueue α} (h : Inv q) : q.isEmpty = q.set.isEmpty := by
  rw [Bool.eq_iff_iff, isEmpty_iff, List.isEmpty_iff]
  constructor
  · intro e
    apply List.eq_nil_iff_forall_not_mem.2
    intro x hx
    rw [h.mem, e] at hx
    simp at hx
  · intro e
    apply List.eq_nil_iff_forall_not_mem.2
    intro x hx
    rw [← h.mem, e] at hx
    simp at hx

end UniqueQueue

theorem mem_concatVecs {α : Type} {a b : List α} {x : α} : x ∈ concatVecs a b ↔ x ∈ a ∨ x ∈ b := by
  unfold concatVecs
  split <;> simp [or_comm]

/-! ### terms -/

variable {Op : Type}

theorem IsCongruence.geq {E : Term Op → Term Op → Prop} : IsCongruence (GEq E) where
  refl := .refl
  symm := .symm
  trans := .trans
  congr op _ _ h := .congr op h.length_eq (forall₂_iff_get?.1 h).2

/-- `GEq E` is the least congruence containing `E`. -/
theorem GEq.least {E R : Term Op → Term Op → Prop} (hR : IsCongruence R)
    (hE : ∀ s t, E s t → R s t) {s t : Term Op} (h : GEq E s t) : R s t := by
  induction h with
  | ax h => exact hE _ _ h
  | refl t => exact hR.refl t
  | symm _ ih => exact hR.symm ih
  | trans _ _ ih1 ih2 => exact hR.trans ih1 ih2
  | congr op hl _ ih => exact hR.congr op (forall₂_iff_get?.2 ⟨hl, ih⟩)

theorem GEq.mono {E E' : Term Op → Term Op → Prop} (h : ∀ s t, E s t → E' s t) {s t : Term Op}
    (hs : GEq E s t) : GEq E' s t := hs.least .geq (fun _ _ h' => .ax (h _ _ h'))

theorem termOf_iff {nodes : List (ENode Op)} {i : Id} {op : Op} {ts : List (Term Op)} :
    TermOf nodes i (.node op ts) ↔ ∃ n, nodes[i]? = some n ∧ n.op = op ∧
      List.Forall₂ (TermOf nodes) n.children ts := by
  constructor
  · intro h
    cases h with
    | mk h1 h2 h3 => exact ⟨_, h1, rfl, forall₂_iff_get?.2 ⟨h2, h3⟩⟩
  · rintro ⟨n, h1, rfl, h2⟩
    exact .mk h1 h2.length_eq (forall₂_iff_get?.1 h2).2

theorem TermOf.unique {nodes : List (ENode Op)} {i : Id} {s t : Term Op} (hs : TermOf nodes i s)
    (ht : TermOf nodes i t) : s = t := by
  induction hs generalizing t with
  | @mk i n ss h1 h2 _ ih =>
    cases ht with
    | @mk _ n' ts h1' h2' h3' =>
      rw [h1] at h1'
      cases h1'
      congr 1
      apply List.ext_getElem?
      intro k
      by_cases hk : k < ss.length
      · obtain ⟨a, ha⟩ : ∃ a, ss[k]? = some a := ⟨_, List.getElem?_eq_getElem hk⟩
        obtain ⟨b, hb⟩ : ∃ b, ts[k]? = some b := ⟨_, List.getElem?_eq_getElem (by omega)⟩
        have hc := List.getElem?_eq_getElem (l := _) (i := k) (h2 ▸ hk)
        rw [ha, hb]
        exact congrArg _ (ih k _ a hc ha (h3' k _ b hc hb))
      · rw [List.getElem?_eq_none (by omega), List.getElem?_eq_none (by omega)]

/-- Node tables whose entries only refer to earlier entries. -/
def Dag (nodes : List (ENode Op)) : Prop :=
  ∀ (i : Id) (n : ENode Op), nodes[i]? = some n → ∀ c ∈ n.children, c < i

theorem Dag.exists_term {nodes : List (ENode Op)} (h : Dag nodes) :
    ∀ i, i < nodes.length → ∃ t, TermOf nodes i t := by
  intro i
  induction i using Nat.strongRecOn with
  | ind i ih =>
    intro hi
    have hn := List.getElem?_eq_getElem hi
    have hc : ∀ c ∈ nodes[i].children, ∃ t, TermOf nodes c t := by
      intro c hc
      have := h i _ hn c hc
      exact ih c this (by omega)
    obtain ⟨ts, hts⟩ := forall₂_exists hc
    exact ⟨_, termOf_iff.2 ⟨_, hn, rfl, hts⟩⟩

theorem TermOf.lt {nodes : List (ENode Op)} {i : Id} {t : Term Op} (h : TermOf nodes i t) :
    i < nodes.length := by
  cases h with
  | mk h _ _ => exact (List.getElem?_eq_some_iff.1 h).1

theorem TermOf.append {nodes ext : List (ENode Op)} {i : Id} {t : Term Op} (h : TermOf nodes i t) :
    TermOf (nodes ++ ext) i t := by
  induction h with
  | mk h1 h2 _ ih =>
    refine .mk ?_ h2 ih
    rw [List.getElem?_append_left (List.getElem?_eq_some_iff.1 h1).1, h1]

theorem TermOf.of_append {nodes ext : List (ENode Op)} (hd : Dag nodes) {i : Id} {t : Term Op}
    (h : TermOf (nodes ++ ext) i t) (hi : i < nodes.length) : TermOf nodes i t := by
  obtain ⟨s, hs⟩ := hd.exists_term i hi
  rw [h.unique hs.append]
  exact hs

/-- Translating the children of an expression node by a table of ids. -/
theorem mapChildrenM_getIdx {n m : ENode Op} {ids : List Id} :
    n.mapChildrenM (getIdx ids) = .ok m ↔ m.op = n.op ∧
      List.Forall₂ (fun c d => ids[c]? = some d) n.children m.children := by
  unfold ENode.mapChildrenM
  rw [bind_eq_ok]
  simp only [mapM_eq_ok, getIdx_eq_ok]
  constructor
  · rintro ⟨cs, h1, h2⟩; cases h2; exact ⟨rfl, h1⟩
  · rintro ⟨h1, h2⟩; exact ⟨m.children, h2, by rw [← h1]; rfl⟩

theorem mapChildrenM_getIdx_total {n : ENode Op} {ids : List Id} (h : ∀ c ∈ n.children, c < ids.length) :
    ∃ m, n.mapChildrenM (getIdx ids) = .ok m := by
  have := mapChildrenM_ok (f := getIdx ids) (g := fun c => ids.getD c 0) (n := n) (by
    intro c hc; rw [getIdx_lt (h c hc)]; simp [List.getD, h c hc])
  exact ⟨_, this⟩

end Egg
