import Verif.Model.Children
/-
C77: the methods of `Language` that traverse children.
-/
namespace Egg

variable {Op σ T E β : Type}

/-- Specification: the function `f`, with state `s`, is called on the ids in turn; the calls return `bs` and leave state `s'`. -/
inductive Calls (f : σ → Id → β × σ) : σ → List Id → List β → σ → Prop where
  | nil {s} : Calls f s [] [] s
  | cons {s id b s' ids bs s''} : f s id = (b, s') → Calls f s' ids bs s'' → Calls f s (id :: ids) (b :: bs) s''

theorem Calls.length {f : σ → Id → β × σ} {s ids bs s'} (h : Calls f s ids bs s') : bs.length = ids.length := by
  induction h <;> simp_all

/-- **C77.**  `for_each` calls the function on each child, in order, once per occurrence. -/
theorem c77_for_each (n : ENode Op) (f : σ → Id → Unit × σ) (s : σ) : ∃ bs, Calls f s n.children bs (n.forEach f s) := by
  unfold ENode.forEach
  generalize n.children = l
  induction l generalizing s with
  | nil => exact ⟨[], .nil⟩
  | cons a l ih =>
    obtain ⟨bs, h⟩ := ih (f s a).2
    exact ⟨_, .cons (b := (f s a).1) (s' := (f s a).2) rfl h⟩

/-- **C77.**  `for_each_mut`, `update_children` and `map_children` call the function on each child in order and put
its results in the place of the children; the operator stays. -/
theorem c77_map_children (n : ENode Op) (f : σ → Id → Id × σ) (s : σ) :
    ∃ ids s', Calls f s n.children ids s' ∧ n.forEachMut f s = (⟨n.op, ids⟩, s') ∧ n.updateChildren f s = (⟨n.op, ids⟩, s') ∧
      n.mapChildrenS f s = (⟨n.op, ids⟩, s') := by
  have key : ∀ (l : List Id) (s : σ), ∃ ids s', Calls f s l ids s' ∧ ENode.forEachMut.go f l s = (ids, s') := by
    intro l
    induction l with
    | nil => exact fun s => ⟨[], s, .nil, rfl⟩
    | cons a l ih =>
      intro s
      obtain ⟨ids, s', h1, h2⟩ := ih (f s a).2
      exact ⟨_, _, .cons (b := (f s a).1) (s' := (f s a).2) rfl h1, by rw [ENode.forEachMut.go]; dsimp only; rw [h2]⟩
  obtain ⟨ids, s', h1, h2⟩ := key n.children s
  have : n.forEachMut f s = (⟨n.op, ids⟩, s') := by unfold ENode.forEachMut; rw [h2]
  exact ⟨ids, s', h1, this, this, this⟩

/-- With a function without state it is `ENode.mapChildren`, which the rest of the model uses. -/
theorem c77_map_children_pure (n : ENode Op) (f : Id → Id) : (n.mapChildrenS (fun (s : Unit) i => (f i, s)) ()).1 = n.mapChildren f := by
  have key : ∀ l : List Id, ENode.forEachMut.go (fun (s : Unit) i => (f i, s)) l () = (l.map f, ()) := by
    intro l
    induction l with
    | nil => rfl
    | cons a l ih => rw [ENode.forEachMut.go]; dsimp only; rw [ih]; rfl
  show (ENode.forEachMut n (fun (s : Unit) i => (f i, s)) ()).1 = _
  unfold ENode.forEachMut
  rw [key]
  rfl

/-- **C77.**  `fold` goes through the children from left to right. -/
theorem c77_fold (n : ENode Op) (init : T) (f : σ → T → Id → T × σ) (s : σ) :
    n.fold init f s = n.children.foldl (fun p id => f p.2 p.1 id) (init, s) := by
  unfold ENode.fold
  generalize n.children = l
  induction l generalizing init s with
  | nil => rfl
  | cons a l ih => rw [ENode.fold.go, List.foldl_cons]; exact ih _ _

/-- **C77.**  `len` is the number of children and `is_leaf` says that there are none. -/
theorem c77_len (n : ENode Op) : n.len = n.children.length ∧ (n.isLeafDefault = true ↔ n.children = []) ∧ n.isLeafDefault = n.isLeaf := by
  have hl : n.isLeafDefault = n.isLeaf := by
    unfold ENode.isLeafDefault ENode.all ENode.isLeaf
    rw [c77_fold]
    cases n.children with
    | nil => rfl
    | cons a l =>
      simp only [List.foldl_cons, if_true, List.isEmpty_cons]
      have : ∀ l : List Id, (l.foldl (fun (p : Bool × Unit) (_ : Id) => if p.1 = true then (false, p.2) else (false, p.2)) (false, ())).1 = false := by
        intro l
        induction l with
        | nil => rfl
        | cons a l ih => simpa using ih
      exact this l
  refine ⟨?_, by rw [hl]; simp [ENode.isLeaf], hl⟩
  unfold ENode.len
  rw [c77_fold]
  have : ∀ (l : List Id) (k : Nat), (l.foldl (fun (p : Nat × Unit) (_ : Id) => (p.1 + 1, p.2)) (k, ())).1 = k + l.length := by
    intro l
    induction l with
    | nil => intro k; rfl
    | cons a l ih => intro k; rw [List.foldl_cons, ih]; simp only [List.length_cons]; omega
  rw [this]; omega

/-- The calls that a loop makes which goes on while the function returns values with `go`. -/
structure Until (f : σ → Id → β × σ) (go : β → Prop) (s : σ) (l : List Id) (done : Prop) (last : β → Prop) (s' : σ) : Prop where
  calls : ∃ pre rest bs, l = pre ++ rest ∧ Calls f s pre bs s' ∧
    ((done ∧ rest = [] ∧ ∀ b ∈ bs, go b) ∨ ∃ bs0 b, bs = bs0 ++ [b] ∧ (∀ b ∈ bs0, go b) ∧ ¬ go b ∧ last b)

theorem until_cons {f : σ → Id → β × σ} {go : β → Prop} {s : σ} {a : Id} {l : List Id} {done : Prop} {last : β → Prop} {s' : σ}
    (h : go (f s a).1) (hu : Until f go (f s a).2 l done last s') : Until f go s (a :: l) done last s' := by
  obtain ⟨pre, rest, bs, rfl, h1, h2⟩ := hu.calls
  refine ⟨a :: pre, rest, (f s a).1 :: bs, rfl, .cons rfl h1, ?_⟩
  rcases h2 with ⟨d, h3, h4⟩ | ⟨bs0, b, rfl, h3, h4, h5⟩
  · exact Or.inl ⟨d, h3, by simpa using ⟨h, h4⟩⟩
  · exact Or.inr ⟨(f s a).1 :: bs0, b, rfl, by simpa using ⟨h, h3⟩, h4, h5⟩

theorem until_stop {f : σ → Id → β × σ} {go : β → Prop} {s : σ} {a : Id} {l : List Id} {done : Prop} {last : β → Prop}
    (h : ¬ go (f s a).1) (hl : last (f s a).1) : Until f go s (a :: l) done last (f s a).2 :=
  ⟨[a], l, [(f s a).1], rfl, .cons rfl .nil, Or.inr ⟨[], _, rfl, by simp, h, hl⟩⟩

/-- **C77.**  `all` calls the predicate on the children in order until it returns false, and returns true if it never did. -/
theorem c77_all (n : ENode Op) (f : σ → Id → Bool × σ) (s : σ) :
    ∃ s' pre rest bs, (n.all f s).2 = s' ∧ n.children = pre ++ rest ∧ Calls f s pre bs s' ∧
      (((n.all f s).1 = true ∧ rest = [] ∧ ∀ b ∈ bs, b = true) ∨
       ((n.all f s).1 = false ∧ ∃ bs0, bs = bs0 ++ [false] ∧ ∀ b ∈ bs0, b = true)) := by
  have stop : ∀ (l : List Id) (s : σ), l.foldl (fun (p : Bool × σ) id => if p.1 = true then f p.2 id else (false, p.2)) (false, s) = (false, s) := by
    intro l
    induction l with
    | nil => exact fun _ => rfl
    | cons a l ih => intro s; rw [List.foldl_cons]; exact ih s
  have key : ∀ (l : List Id) (s : σ), ∃ b s', l.foldl (fun (p : Bool × σ) id => if p.1 = true then f p.2 id else (false, p.2)) (true, s) = (b, s') ∧
      Until f (· = true) s l (b = true) (fun _ => b = false) s' := by
    intro l
    induction l with
    | nil => exact fun s => ⟨true, s, rfl, [], [], [], rfl, .nil, Or.inl ⟨rfl, rfl, by simp⟩⟩
    | cons a l ih =>
      intro s
      rw [List.foldl_cons]
      simp only [if_true]
      cases hb : (f s a).1 with
      | true =>
        obtain ⟨b, s', h1, h2⟩ := ih (f s a).2
        have hf : f s a = (true, (f s a).2) := Prod.ext hb rfl
        rw [hf]
        exact ⟨b, s', h1, until_cons hb h2⟩
      | false =>
        have hf : f s a = (false, (f s a).2) := Prod.ext hb rfl
        rw [hf, stop]
        exact ⟨false, _, rfl, until_stop (by simp [hb]) rfl⟩
  obtain ⟨b, s', h1, ⟨pre, rest, bs, h2, h3, h4⟩⟩ := key n.children s
  have he : n.all f s = (b, s') := by unfold ENode.all; rw [c77_fold]; exact h1
  rw [he]
  refine ⟨s', pre, rest, bs, rfl, h2, h3, ?_⟩
  rcases h4 with h4 | ⟨bs0, c, rfl, h5, h6, h7⟩
  · exact Or.inl h4
  · exact Or.inr ⟨h7, bs0, by rw [Bool.not_eq_true] at h6; rw [h6], h5⟩

/-- **C77.**  `any` calls the predicate on the children in order until it returns true, and returns false if it never did. -/
theorem c77_any (n : ENode Op) (f : σ → Id → Bool × σ) (s : σ) :
    ∃ s' pre rest bs, (n.any f s).2 = s' ∧ n.children = pre ++ rest ∧ Calls f s pre bs s' ∧
      (((n.any f s).1 = false ∧ rest = [] ∧ ∀ b ∈ bs, b = false) ∨
       ((n.any f s).1 = true ∧ ∃ bs0, bs = bs0 ++ [true] ∧ ∀ b ∈ bs0, b = false)) := by
  have stop : ∀ (l : List Id) (s : σ), l.foldl (fun (p : Bool × σ) id => if p.1 = true then (true, p.2) else f p.2 id) (true, s) = (true, s) := by
    intro l
    induction l with
    | nil => exact fun _ => rfl
    | cons a l ih => intro s; rw [List.foldl_cons]; exact ih s
  have key : ∀ (l : List Id) (s : σ), ∃ b s', l.foldl (fun (p : Bool × σ) id => if p.1 = true then (true, p.2) else f p.2 id) (false, s) = (b, s') ∧
      Until f (· = false) s l (b = false) (fun _ => b = true) s' := by
    intro l
    induction l with
    | nil => exact fun s => ⟨false, s, rfl, [], [], [], rfl, .nil, Or.inl ⟨rfl, rfl, by simp⟩⟩
    | cons a l ih =>
      intro s
      rw [List.foldl_cons]
      simp only [Bool.false_eq_true, if_false]
      cases hb : (f s a).1 with
      | false =>
        obtain ⟨b, s', h1, h2⟩ := ih (f s a).2
        have hf : f s a = (false, (f s a).2) := Prod.ext hb rfl
        rw [hf]
        exact ⟨b, s', h1, until_cons hb h2⟩
      | true =>
        have hf : f s a = (true, (f s a).2) := Prod.ext hb rfl
        rw [hf, stop]
        exact ⟨true, _, rfl, until_stop (by simp [hb]) rfl⟩
  obtain ⟨b, s', h1, ⟨pre, rest, bs, h2, h3, h4⟩⟩ := key n.children s
  have he : n.any f s = (b, s') := by unfold ENode.any; rw [c77_fold]; exact h1
  rw [he]
  refine ⟨s', pre, rest, bs, rfl, h2, h3, ?_⟩
  rcases h4 with h4 | ⟨bs0, c, rfl, h5, h6, h7⟩
  · exact Or.inl h4
  · exact Or.inr ⟨h7, bs0, by rw [Bool.not_eq_false] at h6; rw [h6], h5⟩

/-- **C77.**  `try_for_each` calls the function on the children in order until it fails, and returns that error. -/
theorem c77_try_for_each (n : ENode Op) (f : σ → Id → Except E Unit × σ) (s : σ) :
    ∃ s' pre rest bs, (n.tryForEach f s).2 = s' ∧ n.children = pre ++ rest ∧ Calls f s pre bs s' ∧
      (((n.tryForEach f s).1 = .ok () ∧ rest = [] ∧ ∀ b ∈ bs, b = .ok ()) ∨
       (∃ e bs0, (n.tryForEach f s).1 = .error e ∧ bs = bs0 ++ [.error e] ∧ ∀ b ∈ bs0, b = .ok ())) := by
  let g : Except E Unit × σ → Id → Except E Unit × σ := fun p id => match p.1 with
    | .ok _ => f p.2 id
    | .error e => (.error e, p.2)
  have stop : ∀ (l : List Id) (e : E) (s : σ), l.foldl g (.error e, s) = (.error e, s) := by
    intro l
    induction l with
    | nil => exact fun _ _ => rfl
    | cons a l ih => intro e s; rw [List.foldl_cons]; exact ih e s
  have key : ∀ (l : List Id) (s : σ), ∃ b s', l.foldl g (.ok (), s) = (b, s') ∧
      Until f (· = .ok ()) s l (b = .ok ()) (fun c => b = c) s' := by
    intro l
    induction l with
    | nil => exact fun s => ⟨.ok (), s, rfl, [], [], [], rfl, .nil, Or.inl ⟨rfl, rfl, by simp⟩⟩
    | cons a l ih =>
      intro s
      rw [List.foldl_cons]
      have hg : g (.ok (), s) a = f s a := rfl
      rw [hg]
      cases hb : (f s a).1 with
      | ok u =>
        obtain ⟨b, s', h1, h2⟩ := ih (f s a).2
        have hf : f s a = (.ok (), (f s a).2) := Prod.ext hb rfl
        rw [hf]
        exact ⟨b, s', h1, until_cons hb h2⟩
      | error e =>
        have hf : f s a = (.error e, (f s a).2) := Prod.ext hb rfl
        rw [hf, stop]
        exact ⟨.error e, _, rfl, until_stop (by simp [hb]) hb.symm⟩
  obtain ⟨b, s', h1, ⟨pre, rest, bs, h2, h3, h4⟩⟩ := key n.children s
  have he : n.tryForEach f s = (b, s') := by unfold ENode.tryForEach; rw [c77_fold]; exact h1
  rw [he]
  refine ⟨s', pre, rest, bs, rfl, h2, h3, ?_⟩
  rcases h4 with h4 | ⟨bs0, c, rfl, h5, h6, h7⟩
  · exact Or.inl h4
  · cases c with
    | ok u => exact absurd rfl h6
    | error e => exact Or.inr ⟨e, bs0, h7, rfl, h5⟩

/-- The documentation of `all` and `any` says "Does not short circuit", but they do: on an e-node with two children a
predicate that is false (true) on the first is called once. -/
theorem c77_all_short_circuits : ∃ n : ENode Unit, n.len = 2 ∧
    n.all (fun (calls : Nat) _ => (false, calls + 1)) 0 = (false, 1) ∧
    n.any (fun (calls : Nat) _ => (true, calls + 1)) 0 = (true, 1) := ⟨⟨(), [4, 5]⟩, rfl, rfl, rfl⟩

/-- A function that numbers the children. -/
example : (⟨(), [7, 7, 3]⟩ : ENode Unit).mapChildrenS (fun (k : Nat) _ => (k, k + 1)) 10 = (⟨(), [10, 11, 12]⟩, 13) ∧
    (⟨(), [7, 7, 3]⟩ : ENode Unit).all (fun (l : List Nat) i => (i == 7, l ++ [i])) [] = (false, [7, 7, 3]) ∧
    (⟨(), [7, 3, 7]⟩ : ENode Unit).tryForEach (fun (l : List Nat) i => (if i = 7 then .ok () else .error i, l ++ [i])) [] = (.error 3, [7, 3]) :=
  ⟨rfl, rfl, rfl⟩

end Egg
