import Verif.Spec.Resume
import Verif.Lemmas.Run
/-
Runs commute with prefixing iterations.
-/
namespace Egg
variable {Op D H : Type} [DecidableEq Op] [Lang Op]

/-- The runner with iterations put in front, other roots and limits, and a clock that has been read more often. -/
def Runner.shift (its : List Iteration) (dt : Nat) (lim : RunnerLimits) (ro : List Id) (r : Runner Op D S H) : Runner Op D S H :=
  { r with
    roots := ro
    iterations := its ++ r.iterations.map (.later its.length)
    limits := lim
    tick := dt + r.tick
    stopReason := r.stopReason.map (.later its.length) }

/-- In iteration `i` the limits agree up to the number of the iteration. -/
def SameChecks (n : Nat) (env' env : RunEnv Op D) (lim' lim : RunnerLimits) (i : Nat) : Prop :=
  ∀ t' t eg, lim'.check env' t' (n + i) eg = (lim.check env t i eg).map (.later n)

variable {n dt i : Nat} {env' env : RunEnv Op D} {lim' lim : RunnerLimits} {its : List Iteration} {ro : List Id} {hooks : List (Hook Op D H)}
  {rules : List (Rewrite Op D)}

theorem searchDefault_later (he : RunEnv.Later n env' env) (eg : EGraph Op D) (s : S) (rw : Rewrite Op D) :
    searchDefault env' (n + i) s eg rw = searchDefault env i s eg rw := by
  unfold searchDefault RunEnv.usizeMax
  rw [he.analysis, he.ord, he.bits]

/-- The result of a search, `n` iterations later. -/
def laterMs {α : Type} (n : Nat) : Except StopReason α → Except StopReason α
  | .ok l => .ok l
  | .error e => .error (.later n e)

/-- The result of `search_rewrites` with other numbers. -/
def laterSearch (n dt : Nat) (p : S × Nat × Except StopReason (List (List (SearchMatches Op)))) :
    S × Nat × Except StopReason (List (List (SearchMatches Op))) :=
  (p.1, dt + p.2.1, laterMs n p.2.2)

theorem searchEach_later (hk : SameChecks n env' env lim' lim i) {search : S → EGraph Op D → Rewrite Op D → Res (S × List (SearchMatches Op))}
    (eg : EGraph Op D) : ∀ (rules : List (Rewrite Op D)) (s : S) (t : Nat) (done : List (List (SearchMatches Op))),
    searchEach search env' lim' (n + i) eg s (dt + t) rules done =
      (searchEach search env lim i eg s t rules done).map (laterSearch n dt) := by
  intro rules
  induction rules with
  | nil => intro s t done; rfl
  | cons rw rules ih =>
    intro s t done
    unfold searchEach
    cases hs : search s eg rw with
    | error e => rfl
    | ok p =>
      obtain ⟨s', ms⟩ := p
      simp only [ok_bind]
      rw [hk (dt + t) t eg]
      cases hc : lim.check env t i eg with
      | some e => rfl
      | none =>
        simp only [Option.map_none]
        rw [Nat.add_assoc, ih]

theorem runHooks_blind (hh : BlindHooks hooks) (its its' : List Iteration) : ∀ (h : H) (eg : EGraph Op D),
    Runner.runHooks its hooks h eg = Runner.runHooks its' hooks h eg := by
  induction hooks with
  | nil => intro h eg; rfl
  | cons k hooks ih =>
    intro h eg
    unfold Runner.runHooks
    rw [hh k (by simp) h eg its its']
    cases hk : k h eg its' with
    | error e => rfl
    | ok p =>
      obtain ⟨h', eg', o⟩ := p
      simp only [ok_bind]
      cases o with
      | some m => rfl
      | none => exact ih (fun k hk => hh k (by simp [hk])) _ _

variable {r : Runner Op D Unit H}

theorem shift_check (hk : SameChecks its.length env' env lim' r.limits r.iterations.length) :
    (r.shift its dt lim' ro).check env' = (r.check env).map (.later its.length) := by
  unfold Runner.check Runner.shift
  simp only [List.length_append, List.length_map]
  exact hk _ _ _

theorem hookPhase_shift (hh : BlindHooks hooks) (hk : SameChecks its.length env' env lim' r.limits r.iterations.length) :
    Runner.hookPhase env' hooks (r.shift its dt lim' ro) =
      (Runner.hookPhase env hooks r).map fun p => (p.1.shift its dt lim' ro, p.2.map (.later its.length)) := by
  unfold Runner.hookPhase
  rw [shift_check hk]
  cases hc : r.check env with
  | some s => rfl
  | none =>
    simp only [Option.map_none]
    rw [runHooks_blind hh _ r.iterations]
    show (Runner.runHooks r.iterations hooks r.hookState r.egraph >>= _) = _
    cases hq : Runner.runHooks r.iterations hooks r.hookState r.egraph with
    | error e => rfl
    | ok p =>
      obtain ⟨h, eg, o⟩ := p
      cases o <;> rfl

theorem searchPhase_shift (he : RunEnv.Later its.length env' env) (hk : SameChecks its.length env' env lim' r.limits r.iterations.length)
    (o : Option StopReason) :
    Runner.searchPhase env' simpleScheduler rules (r.shift its dt lim' ro) (o.map (.later its.length)) =
      (Runner.searchPhase env simpleScheduler rules r o).map fun p =>
        (p.1.shift its dt lim' ro, laterMs its.length p.2) := by
  unfold Runner.searchPhase
  cases o with
  | some s => rfl
  | none =>
    simp only [Option.map_none]
    have : (simpleScheduler (Op := Op) (D := D)).searchRewrites env' (r.shift its dt lim' ro).limits (r.shift its dt lim' ro).scheduler
        (r.shift its dt lim' ro).tick (r.shift its dt lim' ro).iterations.length (r.shift its dt lim' ro).egraph rules =
        ((simpleScheduler (Op := Op) (D := D)).searchRewrites env r.limits r.scheduler r.tick r.iterations.length r.egraph rules).map
          (laterSearch its.length dt) := by
      have hlen : (r.shift its dt lim' ro).iterations.length = its.length + r.iterations.length := by simp [Runner.shift]
      rw [hlen]
      show searchEach (searchDefault env' (its.length + r.iterations.length)) env' lim' _ r.egraph r.scheduler (dt + r.tick) rules [] = _
      rw [searchEach_later hk]
      congr 2
      funext s eg rw'
      exact searchDefault_later he eg s rw'
    rw [this]
    cases hq : (simpleScheduler (Op := Op) (D := D)).searchRewrites env r.limits r.scheduler r.tick r.iterations.length r.egraph rules with
    | error e => rfl
    | ok p => rfl

theorem applyEachRule_shift (he : RunEnv.Later its.length env' env) :
    ∀ (l : List (Rewrite Op D × List (SearchMatches Op))) (r : Runner Op D Unit H) (applied : AMap Symbol Nat),
    SameChecks its.length env' env lim' r.limits r.iterations.length →
    Runner.applyEachRule env' simpleScheduler l (r.shift its dt lim' ro) applied =
      (Runner.applyEachRule env simpleScheduler l r applied).map fun p =>
        (p.1.shift its dt lim' ro, p.2.1, p.2.2.map (.later its.length)) := by
  intro l
  induction l with
  | nil => intro r applied _; rfl
  | cons p l ih =>
    obtain ⟨rw', ms⟩ := p
    intro r applied hk
    unfold Runner.applyEachRule
    have : (simpleScheduler (Op := Op) (D := D)).applyRewrite env' (r.shift its dt lim' ro).scheduler
        (r.shift its dt lim' ro).iterations.length (r.shift its dt lim' ro).egraph rw' ms =
        (simpleScheduler (Op := Op) (D := D)).applyRewrite env r.scheduler r.iterations.length r.egraph rw' ms := by
      show applyDefault env' r.scheduler r.egraph rw' ms = applyDefault env r.scheduler r.egraph rw' ms
      unfold applyDefault
      rw [he.analysis]
    rw [this]
    cases hq : (simpleScheduler (Op := Op) (D := D)).applyRewrite env r.scheduler r.iterations.length r.egraph rw' ms with
    | error e => rfl
    | ok p =>
      obtain ⟨s, eg, m⟩ := p
      simp only [ok_bind]
      have hc := shift_check (dt := dt) (ro := ro) (r := { r with scheduler := s, egraph := eg }) (its := its) hk
      have e1 : ({ r.shift its dt lim' ro with scheduler := s, egraph := eg } : Runner Op D Unit H) =
        ({ r with scheduler := s, egraph := eg } : Runner Op D Unit H).shift its dt lim' ro := rfl
      rw [e1, hc]
      cases hc' : ({ r with scheduler := s, egraph := eg } : Runner Op D Unit H).check env with
      | some e => rfl
      | none =>
        simp only [Option.map_none]
        exact ih { r with scheduler := s, egraph := eg, tick := r.tick + 1 } _ hk

theorem quietPhase_shift (applied : AMap Symbol Nat) :
    Runner.quietPhase simpleScheduler applied (r.shift its dt lim' ro) =
      (Runner.quietPhase simpleScheduler applied r).map fun p => (p.1.shift its dt lim' ro, p.2) := by
  unfold Runner.quietPhase
  split <;> rfl

theorem map_saturated (n : Nat) (b : Bool) :
    (if b = true then some StopReason.saturated else none) = Option.map (.later n) (if b = true then some .saturated else none) := by
  cases b <;> rfl

theorem runOne_shift (he : RunEnv.Later its.length env' env) (hh : BlindHooks hooks)
    (hk : SameChecks its.length env' env lim' r.limits r.iterations.length) :
    Runner.runOne env' simpleScheduler hooks rules (r.shift its dt lim' ro) =
      (Runner.runOne env simpleScheduler hooks rules r).map fun p => (p.1.shift its dt lim' ro, p.2.later its.length) := by
  unfold Runner.runOne
  have hst : (r.shift its dt lim' ro).stopReason.isSome = r.stopReason.isSome := by simp [Runner.shift]
  rw [hst]
  split
  · rfl
  rw [hookPhase_shift hh hk]
  cases h1 : Runner.hookPhase env hooks r with
  | error e => rfl
  | ok p1 =>
  obtain ⟨r1, o1⟩ := p1
  obtain ⟨f1, -⟩ := Runner.hookPhase_frame h1
  have hk1 : SameChecks its.length env' env lim' r1.limits r1.iterations.length := by rw [f1.lim, f1.its]; exact hk
  simp only [Except.map, ok_bind]
  rw [searchPhase_shift he hk1]
  cases h2 : Runner.searchPhase env simpleScheduler rules r1 o1 with
  | error e => rfl
  | ok p2 =>
  obtain ⟨r2, ms⟩ := p2
  obtain ⟨f2, -⟩ := Runner.searchPhase_frame h2
  have hk2 : SameChecks its.length env' env lim' r2.limits r2.iterations.length := by rw [f2.lim, f2.its]; exact hk1
  simp only [Except.map, ok_bind]
  have h3 : Runner.applyPhase env' simpleScheduler rules (r2.shift its dt lim' ro)
      (laterMs its.length ms) =
      (Runner.applyPhase env simpleScheduler rules r2 ms).map fun p => (p.1.shift its dt lim' ro, p.2.1, p.2.2.map (.later its.length)) := by
    cases ms with
    | error e => rfl
    | ok mss => exact applyEachRule_shift he _ r2 [] hk2
  rw [h3]
  cases h4 : Runner.applyPhase env simpleScheduler rules r2 ms with
  | error e => rfl
  | ok p3 =>
  obtain ⟨r3, applied, o3⟩ := p3
  simp only [Except.map, ok_bind]
  rw [he.analysis, he.fuel]
  show (r3.egraph.rebuild env.analysis env.fuel >>= _) = _
  cases h5 : r3.egraph.rebuild env.analysis env.fuel with
  | error e => rfl
  | ok p4 =>
  obtain ⟨eg, m⟩ := p4
  simp only [ok_bind]
  have h6 := quietPhase_shift (its := its) (dt := dt) (lim' := lim') (ro := ro) (r := { r3 with egraph := eg }) applied
  have e6 : ({ r3.shift its dt lim' ro with egraph := eg } : Runner Op D Unit H) =
    ({ r3 with egraph := eg } : Runner Op D Unit H).shift its dt lim' ro := rfl
  rw [e6, h6]
  cases h7 : Runner.quietPhase simpleScheduler applied { r3 with egraph := eg } with
  | error e => rfl
  | ok p5 =>
  obtain ⟨r4, q⟩ := p5
  simp only [Except.map, ok_bind]
  show Except.ok _ = Except.ok _
  congr 2
  unfold Iteration.later
  congr 1
  cases o3 with
  | some e => rfl
  | none =>
    simp only [Option.map_none]
    exact map_saturated _ _

/-- The loop of the later run is the loop of the earlier run, shifted. -/
theorem runLoop_shift (he : RunEnv.Later its.length env' env) (hh : BlindHooks hooks) (hk : ∀ i, SameChecks its.length env' env lim' lim i) :
    ∀ (f : Nat) (r : Runner Op D Unit H), r.limits = lim →
    Runner.runLoop env' simpleScheduler hooks rules f (r.shift its dt lim' ro) =
      (Runner.runLoop env simpleScheduler hooks rules f r).map (Runner.shift its dt lim' ro) := by
  intro f
  induction f with
  | zero => intro r _; rfl
  | succ f ih =>
    intro r hr
    unfold Runner.runLoop
    rw [runOne_shift he hh (by rw [hr]; exact hk _)]
    cases h1 : Runner.runOne env simpleScheduler hooks rules r with
    | error e => rfl
    | ok p =>
    obtain ⟨r1, it⟩ := p
    have f1 := Runner.runOne_frame h1
    simp only [Except.map, ok_bind]
    have e1 : ({ r1.shift its dt lim' ro with iterations := (r1.shift its dt lim' ro).iterations ++ [it.later its.length] } : Runner Op D Unit H) =
        ({ r1 with iterations := r1.iterations ++ [it] } : Runner Op D Unit H).shift its dt lim' ro := by
      simp [Runner.shift]
    rw [e1]
    have e2 : (it.later its.length).stopReason = it.stopReason.map (.later its.length) := rfl
    rw [e2]
    cases h2 : it.stopReason with
    | some s =>
      show Except.ok _ = Except.ok _
      congr 1
      simp [Runner.shift]
    | none =>
      simp only [Option.map_none]
      rw [shift_check (by dsimp only; rw [f1.lim, hr]; exact hk _)]
      cases h3 : ({ r1 with iterations := r1.iterations ++ [it] } : Runner Op D Unit H).check env with
      | some s =>
        show Except.ok _ = Except.ok _
        congr 1
        simp [Runner.shift, Nat.add_assoc]
      | none =>
        simp only [Option.map_none]
        refine Eq.trans ?_ (ih { r1 with iterations := r1.iterations ++ [it], tick := r1.tick + 1 } (by rw [← hr]; exact f1.lim))
        congr 1
        simp [Runner.shift, Nat.add_assoc]

theorem StopReason.later_zero (s : StopReason) : s.later 0 = s := by
  cases s <;> simp [StopReason.later]

theorem Option.map_later_zero (o : Option StopReason) : o.map (.later 0) = o := by
  cases o <;> simp [StopReason.later_zero]

theorem Iteration.later_zero (it : Iteration) : it.later 0 = it := by
  unfold Iteration.later
  rw [Option.map_later_zero]

theorem Runner.shift_nil (r : Runner Op D S H) : r.shift [] 0 lim r.roots = { r with limits := lim } := by
  unfold Runner.shift
  have : (Iteration.later 0) = id := funext Iteration.later_zero
  simp [Option.map_later_zero, this]

/-- While the iteration limit is not reached, a larger one makes no difference. -/
theorem runLoop_prefix (hh : BlindHooks hooks) (hlt : lim.iterLimit < lim'.iterLimit)
    (hk : ∀ i < lim.iterLimit, SameChecks 0 env env lim' lim i)
    (hk' : ∀ t t' eg, (∀ s, lim.check env t lim.iterLimit eg = some s → ∃ k, s = .iterationLimit k) → lim'.check env t' lim.iterLimit eg = none) :
    ∀ (f : Nat) (r r' : Runner Op D Unit H) (k : Nat), r.limits = lim → r.iterations.length < lim.iterLimit →
    Runner.runLoop env simpleScheduler hooks rules f r = .ok r' → r'.stopReason = some (.iterationLimit k) →
    r'.iterations.length = lim.iterLimit ∧ ∃ c ≤ f, ∀ f2, Runner.runLoop env simpleScheduler hooks rules (c + f2) { r with limits := lim' } =
      Runner.runLoop env simpleScheduler hooks rules f2 { r' with limits := lim', stopReason := none } := by
  intro f
  induction f with
  | zero => intro r r' k _ _ h; cases h
  | succ f ih =>
    intro r r' k hr hi h hst
    have he : RunEnv.Later 0 env env := ⟨rfl, fun i => by rw [Nat.zero_add], rfl, rfl⟩
    unfold Runner.runLoop at h
    obtain ⟨⟨r1, it⟩, h1, h⟩ := bind_eq_ok.1 h
    have f1 := Runner.runOne_frame h1
    have hs0 := (Runner.runOne_inv h1).1
    have hone : Runner.runOne env simpleScheduler hooks rules { r with limits := lim' } = .ok ({ r1 with limits := lim' }, it) := by
      have := runOne_shift (its := []) (dt := 0) (ro := r.roots) (r := r) (lim' := lim') (rules := rules) he hh (by rw [hr]; exact hk _ hi)
      rw [Runner.shift_nil, h1] at this
      rw [this]
      simp only [Except.map, Iteration.later_zero, List.length_nil]
      rw [← f1.roots, Runner.shift_nil]
    dsimp only at h
    cases h2 : it.stopReason with
    | some s =>
      rw [h2] at h
      cases h
      cases hst
      exfalso
      rcases Runner.runOne_reason simple_limited h1 h2 with ⟨h3, -⟩ | ⟨_, h3, -⟩ | ⟨t, eg, _, h3, -⟩
      · cases h3
      · cases h3
      · rw [hr] at h3
        unfold RunnerLimits.check at h3
        split at h3
        · cases h3
        split at h3
        · cases h3
        split at h3
        · omega
        · cases h3
    | none =>
      rw [h2] at h
      dsimp only at h
      have hstep : ∀ g, Runner.runLoop env simpleScheduler hooks rules (g + 1) { r with limits := lim' } =
          match ({ r1 with limits := lim', iterations := r1.iterations ++ [it] } : Runner Op D Unit H).check env with
          | some s => .ok { r1 with limits := lim', iterations := r1.iterations ++ [it], tick := r1.tick + 1, stopReason := some s }
          | none => Runner.runLoop env simpleScheduler hooks rules g { r1 with limits := lim', iterations := r1.iterations ++ [it], tick := r1.tick + 1 } := by
        intro g
        rw [Runner.runLoop, hone, ok_bind]
        dsimp only
        rw [h2]
        rfl
      have hlen : (r1.iterations ++ [it]).length = r.iterations.length + 1 := by rw [f1.its]; simp
      cases h3 : ({ r1 with iterations := r1.iterations ++ [it] } : Runner Op D Unit H).check env with
      | some s =>
        rw [h3] at h
        cases h
        cases hst
        have h3' : lim.check env r1.tick (r1.iterations ++ [it]).length r1.egraph = some (.iterationLimit k) := by
          rw [← hr, ← f1.lim]; exact h3
        have hn : (r1.iterations ++ [it]).length = lim.iterLimit := by
          have h4 := h3'
          unfold RunnerLimits.check at h4
          split at h4
          · cases h4
          split at h4
          · cases h4
          split at h4
          · omega
          · cases h4
        refine ⟨hn, 1, by omega, fun f2 => ?_⟩
        rw [Nat.add_comm, hstep]
        have h5 : ({ r1 with limits := lim', iterations := r1.iterations ++ [it] } : Runner Op D Unit H).check env = none := by
          show lim'.check env r1.tick (r1.iterations ++ [it]).length r1.egraph = none
          rw [hn] at h3' ⊢
          exact hk' r1.tick _ _ fun s hs => ⟨k, by rw [h3'] at hs; cases hs; rfl⟩
        rw [h5]
        dsimp only
        have : r1.stopReason = none := by rw [f1.stop, hs0]
        rw [← this]
      | none =>
        rw [h3] at h
        have h3' : lim.check env r1.tick (r1.iterations ++ [it]).length r1.egraph = none := by
          rw [← hr, ← f1.lim]; exact h3
        have hn : (r1.iterations ++ [it]).length < lim.iterLimit := by
          have h4 := h3'
          unfold RunnerLimits.check at h4
          split at h4
          · cases h4
          split at h4
          · cases h4
          split at h4
          · cases h4
          · omega
        obtain ⟨h6, c, hc, h7⟩ := ih _ r' k (by rw [← hr]; exact f1.lim) (by exact hn) h hst
        refine ⟨h6, c + 1, by omega, fun f2 => ?_⟩
        rw [show c + 1 + f2 = (c + f2) + 1 by omega, hstep]
        have h5 : ({ r1 with limits := lim', iterations := r1.iterations ++ [it] } : Runner Op D Unit H).check env = none := by
          have := hk _ hn r1.tick r1.tick r1.egraph
          rw [h3', Nat.zero_add] at this
          exact this
        rw [h5]
        exact h7 f2

end Egg
