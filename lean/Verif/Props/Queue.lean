import Verif.Lemmas.Basic
/-
C45: the analysis work queue.
-/
namespace Egg
variable {α : Type} [DecidableEq α]

/-- Calls on a `UniqueQueue`. -/
inductive QOp (α : Type) where
  | insert (t : α)
  | extend (ts : List α)
  | pop

/-- Specification: a waiting line in which everybody stands at most once.  The second
component is what `pop` returns (`none` for the other calls). -/
def lineStep (l : List α) : QOp α → List α × Option α
  | .insert t => (if t ∈ l then l else l ++ [t], none)
  | .extend ts => (ts.foldl (fun l t => if t ∈ l then l else l ++ [t]) l, none)
  | .pop => match l with
    | [] => ([], none)
    | t :: rest => (rest, some t)

def lineRun (l : List α) : List (QOp α) → List α × List (Option α)
  | [] => (l, [])
  | o :: os =>
    let s := lineStep l o
    let r := lineRun s.1 os
    (r.1, s.2 :: r.2)

/-- One call on the model of `UniqueQueue`. -/
def queueStep (q : UniqueQueue α) : QOp α → UniqueQueue α × Option α
  | .insert t => (q.insert t, none)
  | .extend ts => (q.extend ts, none)
  | .pop => match q.pop with
    | none => (q, none)
    | some (t, q) => (q, some t)

def queueRun (q : UniqueQueue α) : List (QOp α) → UniqueQueue α × List (Option α)
  | [] => (q, [])
  | o :: os =>
    let s := queueStep q o
    let r := queueRun s.1 os
    (r.1, s.2 :: r.2)

theorem queueStep_spec {q : UniqueQueue α} (h : q.Inv) (o : QOp α) :
    (queueStep q o).1.Inv ∧ (queueStep q o).1.queue = (lineStep q.queue o).1 ∧
      (queueStep q o).2 = (lineStep q.queue o).2 := by
  have hins : ∀ {q : UniqueQueue α}, q.Inv → ∀ t, (q.insert t).queue = if t ∈ q.queue then q.queue else q.queue ++ [t] := by
    intro q h t
    unfold UniqueQueue.insert
    by_cases ht : t ∈ q.set
    · rw [if_pos ht, if_pos ((h.mem t).1 ht)]
    · rw [if_neg ht, if_neg (fun hc => ht ((h.mem t).2 hc))]
  cases o with
  | insert t => exact ⟨UniqueQueue.inv_insert h t, hins h t, rfl⟩
  | extend ts =>
    refine ⟨UniqueQueue.inv_extend h ts, ?_, rfl⟩
    show (q.extend ts).queue = ts.foldl _ q.queue
    unfold UniqueQueue.extend
    induction ts generalizing q with
    | nil => rfl
    | cons t ts ih =>
      simp only [List.foldl_cons]
      rw [ih (UniqueQueue.inv_insert h t), hins h t]
  | pop =>
    unfold queueStep lineStep
    cases hp : q.pop with
    | none =>
      have := UniqueQueue.pop_none.1 hp
      simp only [this]
      exact ⟨h, trivial, trivial⟩
    | some r =>
      obtain ⟨t, q'⟩ := r
      obtain ⟨h1, h2⟩ := UniqueQueue.pop_some h hp
      simp only [h2]
      exact ⟨h1, trivial, trivial⟩

/-- Whatever calls are made on a new queue, `pop` answers as the waiting line does; the
elements held are exactly those waiting, each once; `is_empty` is right, and the assertion
inside it (that the set is empty too) never fails. -/
theorem c45_fifo (os : List (QOp α)) :
    let q := (queueRun UniqueQueue.empty os).1
    let l := (lineRun [] os).1
    (queueRun UniqueQueue.empty os).2 = (lineRun [] os).2 ∧
    q.queue = l ∧ l.Nodup ∧ (∀ x, x ∈ q.set ↔ x ∈ l) ∧
    q.isEmpty = l.isEmpty ∧ q.set.isEmpty = l.isEmpty := by
  have key : ∀ (os : List (QOp α)) (q : UniqueQueue α), q.Inv → (queueRun q os).1.Inv ∧
      (queueRun q os).1.queue = (lineRun q.queue os).1 ∧ (queueRun q os).2 = (lineRun q.queue os).2 := by
    intro os
    induction os with
    | nil => intro q h; exact ⟨h, rfl, rfl⟩
    | cons o os ih =>
      intro q h
      obtain ⟨h1, h2, h3⟩ := queueStep_spec h o
      obtain ⟨g1, g2, g3⟩ := ih _ h1
      refine ⟨g1, ?_, ?_⟩
      · show (queueRun (queueStep q o).1 os).1.queue = _
        rw [g2, h2]; rfl
      · show (queueStep q o).2 :: (queueRun (queueStep q o).1 os).2 = _
        rw [g3, h2, h3]; rfl
  obtain ⟨h1, h2, h3⟩ := key os UniqueQueue.empty UniqueQueue.inv_empty
  have h2 : (queueRun UniqueQueue.empty os).1.queue = (lineRun [] os).1 := h2
  have he : (queueRun UniqueQueue.empty os).1.isEmpty = (lineRun [] os).1.isEmpty := by
    rw [← h2]; rfl
  refine ⟨h3, h2, by rw [← h2]; exact h1.nodup, fun x => by rw [← h2]; exact h1.mem x, he, ?_⟩
  rw [← UniqueQueue.isEmpty_set h1]; exact he

/-- Every element waiting comes out, in order, by popping as often as there are elements. -/
theorem c45_drain (os : List (QOp α)) :
    let l := (lineRun [] os).1
    (queueRun (queueRun UniqueQueue.empty os).1 (List.replicate l.length .pop)).2 = l.map some := by
  intro l
  obtain ⟨_, h2, h3, h4, _, _⟩ := c45_fifo os
  have key : ∀ (q : UniqueQueue α), q.Inv → (queueRun q (List.replicate q.queue.length .pop)).2 = q.queue.map some := by
    intro q
    induction hn : q.queue.length generalizing q with
    | zero => intro _; rw [List.length_eq_zero_iff.1 hn]; rfl
    | succ n ih =>
      intro h
      cases hp : q.pop with
      | none => rw [UniqueQueue.pop_none.1 hp] at hn; cases hn
      | some r =>
        obtain ⟨t, q'⟩ := r
        obtain ⟨h1, h2⟩ := UniqueQueue.pop_some h hp
        rw [h2] at hn ⊢
        have hn' : q'.queue.length = n := by simpa using hn
        rw [List.replicate_succ]
        show (queueStep q .pop).2 :: (queueRun (queueStep q .pop).1 _).2 = _
        simp only [queueStep, hp]
        rw [ih q' hn' h1]; rfl
  have := key (queueRun UniqueQueue.empty os).1 ⟨by rw [h2]; exact h3, by rw [h2]; exact h4⟩
  rw [h2] at this
  exact this

/-- An inserted element is waiting afterwards. -/
theorem c45_inserted (os : List (QOp α)) (t : α) : t ∈ (lineRun [] (os ++ [.insert t])).1 := by
  have : ∀ (os : List (QOp α)) (l : List α), t ∈ (lineRun l (os ++ [.insert t])).1 := by
    intro os
    induction os with
    | nil =>
      intro l
      show t ∈ (if t ∈ l then l else l ++ [t])
      split
      · assumption
      · simp
    | cons o os ih => intro l; exact ih _
  exact this os []

example : (queueRun UniqueQueue.empty [QOp.insert 1, .insert 2, .pop, .insert 1, .extend [2, 3], .pop, .pop, .pop, .pop]).2 =
    [none, none, some 1, none, none, some 2, some 1, some 3, none] := by decide

end Egg
