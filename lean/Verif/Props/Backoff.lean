import Verif.Lemmas.Run
import Verif.ExampleRun
/-
C28: the back-off scheduler.
-/
namespace Egg
variable {Op D : Type} [DecidableEq Op] [Lang Op]
variable {A : UserAnalysis Op D} {depth : Nat} {allow : Caller Op D}
variable {env : RunEnv Op D} {eg : EGraph Op D} {U : List (UnionRec Op)} {b b' : Backoff} {i : Nat}

namespace Backoff

theorem ruleStats_setStats (b : Backoff) (name name' : Symbol) (s : RuleStats) :
    (b.setStats name s).ruleStats name' = if name = name' then s else b.ruleStats name' := by
  unfold ruleStats setStats
  dsimp only
  rw [AMap.get?_insert]
  by_cases h : name = name'
  · simp [h]
  · simp [h]

theorem ruleStats_setStats_self (b : Backoff) (name name' : Symbol) :
    (b.setStats name (b.ruleStats name)).ruleStats name' = b.ruleStats name' := by
  rw [ruleStats_setStats]
  split
  · next h => rw [h]
  · rfl

theorem totalLen_flat (ms : List (SearchMatches Op)) : totalLen ms = (flat ms).length := by
  unfold totalLen flat
  induction ms with
  | nil => rfl
  | cons m ms ih =>
    rw [List.map_cons, List.sum_cons, ih, List.flatMap_cons, List.length_append, List.length_map]

end Backoff

/-- **C28.**  What the search of one rule does.  `F` is the list of all matches of the rule
(as pairs of class and substitution).  Write `st` for what the scheduler knows of the rule.

* If `i < st.bannedUntil` the rule is skipped: no matches, nothing recorded.
* Otherwise, let `T` be the match limit doubled as often as the rule was banned (assuming this
  is representable).  If there are more than `T` matches none is returned, the rule is banned
  until iteration `i + d`, where `d` is the ban length doubled as often as the rule was banned
  (assuming this is representable), and the number of bans increases by one.
* If there are at most `T`, all of them are returned and the rule is not banned.

In each case what is known of other rules is unchanged. -/
theorem c28_search_rule (hN : env.analysis = A.at depth) (hord : (env.ord i eg).OK eg) (hd : DiscContiguous Op)
    (h : Hist (A.at depth) allow U eg) (hc : eg.clean = true) {rw' : Rewrite Op D} {lp : Pattern Op} {tl : Term (PatOp Op)}
    (hl : IsPattern lp tl) (hs : rw'.searcher = lp.searcher) :
    ∃ F : List (Id × Subst),
      (∀ limit, ∃ ms, rw'.searcher.search env.analysis eg (env.ord i eg) limit = .ok ms ∧ flat ms = F.take limit) ∧
      ∀ b : Backoff, ∀ st, b.ruleStats rw'.name = st →
        (i < st.bannedUntil → ∃ b', b.searchRewrite env i eg rw' = .ok (b', []) ∧ ∀ name, b'.ruleStats name = b.ruleStats name) ∧
        (st.bannedUntil ≤ i → st.timesBanned < env.bits → st.matchLimit * 2 ^ st.timesBanned < env.usizeMax →
          (st.matchLimit * 2 ^ st.timesBanned < F.length →
            i + st.banLength * 2 ^ st.timesBanned < 2 ^ env.bits →
            ∃ b', b.searchRewrite env i eg rw' = .ok (b', []) ∧
              b'.ruleStats rw'.name = { st with
                timesBanned := st.timesBanned + 1
                bannedUntil := i + st.banLength * 2 ^ st.timesBanned } ∧
              ∀ name, name ≠ rw'.name → b'.ruleStats name = b.ruleStats name) ∧
          (F.length ≤ st.matchLimit * 2 ^ st.timesBanned →
            ∃ b' ms, b.searchRewrite env i eg rw' = .ok (b', ms) ∧ flat ms = F ∧
              b'.ruleStats rw'.name = { st with timesApplied := st.timesApplied + 1 } ∧
              ∀ name, name ≠ rw'.name → b'.ruleStats name = b.ruleStats name)) := by
  obtain ⟨_, F, hF⟩ := c20_limit_truncates h hc hd hord hl
  refine ⟨F, by rw [hs, hN]; exact hF, fun b st hst => ⟨fun hb => ?_, fun hb ht hm => ?_⟩⟩
  · refine ⟨_, ?_, Backoff.ruleStats_setStats_self b rw'.name⟩
    unfold Backoff.searchRewrite
    rw [hst]
    dsimp only
    rw [if_pos hb]
  · have hlt : st.matchLimit * 2 ^ st.timesBanned < 2 ^ env.bits := by unfold RunEnv.usizeMax at hm; omega
    obtain ⟨ms, k1, k2⟩ := hF (st.matchLimit * 2 ^ st.timesBanned + 1)
    have hk : rw'.searcher.search env.analysis eg (env.ord i eg) (min (st.matchLimit * 2 ^ st.timesBanned + 1) env.usizeMax) = .ok ms := by
      rw [hs, hN, min_eq_left (by omega)]; exact k1
    have hsh : ∀ x, x * 2 ^ st.timesBanned < 2 ^ env.bits → Backoff.shl env.bits x st.timesBanned = .ok (x * 2 ^ st.timesBanned) := by
      intro x hx
      unfold Backoff.shl
      rw [if_pos ht, Nat.mod_eq_of_lt hx]
    constructor
    · intro hlen hfit
      refine ⟨b.setStats rw'.name { st with
        timesBanned := st.timesBanned + 1
        bannedUntil := i + st.banLength * 2 ^ st.timesBanned }, ?_, ?_, ?_⟩
      · unfold Backoff.searchRewrite
        rw [hst]
        dsimp only
        rw [if_neg (by omega), hsh _ hlt, ok_bind, hk, ok_bind, if_pos (by
          rw [Backoff.totalLen_flat, k2, List.length_take]; omega), hsh _ (by omega), ok_bind]
        unfold Backoff.addUsize
        rw [if_pos hfit]
        rfl
      · rw [Backoff.ruleStats_setStats, if_pos rfl]
      · intro name hn
        rw [Backoff.ruleStats_setStats, if_neg (fun e => hn e.symm)]
    · intro hlen
      have hfl : flat ms = F := by rw [k2, List.take_of_length_le (by omega)]
      refine ⟨b.setStats rw'.name { st with timesApplied := st.timesApplied + 1 }, ms, ?_, hfl, ?_, ?_⟩
      · unfold Backoff.searchRewrite
        rw [hst]
        dsimp only
        rw [if_neg (by omega), hsh _ hlt, ok_bind, hk, ok_bind, if_neg (by
          rw [Backoff.totalLen_flat, hfl]; omega)]
        rfl
      · rw [Backoff.ruleStats_setStats, if_pos rfl]
      · intro name hn
        rw [Backoff.ruleStats_setStats, if_neg (fun e => hn e.symm)]

namespace Backoff

/-- No rule has two entries. -/
def WF (b : Backoff) : Prop := (AMap.keys b.stats).Nodup

theorem wf_setStats (h : b.WF) (name : Symbol) (s : RuleStats) : (b.setStats name s).WF := AMap.nodup_insert h _ _

theorem minOf_spec : ∀ {l : List Nat}, (minOf l = none ↔ l = []) ∧ ∀ m, minOf l = some m → m ∈ l ∧ ∀ a ∈ l, m ≤ a := by
  intro l
  induction l with
  | nil => simp [minOf]
  | cons a l ih =>
    unfold minOf
    cases hl : minOf l with
    | none =>
      have := ih.1.1 hl
      subst this
      simp
    | some m0 =>
      obtain ⟨h1, h2⟩ := ih.2 m0 hl
      refine ⟨by simp, fun m hm => ?_⟩
      cases hm
      constructor
      · rcases Nat.le_total a m0 with h | h
        · rw [min_eq_left h]; simp
        · rw [min_eq_right h]; simp [h1]
      · intro x hx
        rcases List.mem_cons.1 hx with rfl | hx
        · omega
        · have := h2 x hx; omega

theorem get?_map_stats {f : Symbol → RuleStats → RuleStats} (l : AMap Symbol RuleStats) (name : Symbol) :
    AMap.get? (l.map (fun ns => (ns.1, f ns.1 ns.2))) name = (AMap.get? l name).map (f name) := by
  induction l with
  | nil => rfl
  | cons x l ih =>
    obtain ⟨k, v⟩ := x
    by_cases h : k = name
    · subst h; simp [AMap.get?]
    · simp only [List.map_cons, AMap.get?, h, if_false]; exact ih

theorem banned_entry (name : Symbol) (h : i < (b.ruleStats name).bannedUntil) : (name, b.ruleStats name) ∈ b.stats := by
  unfold ruleStats at h ⊢
  cases hs : b.stats.get? name with
  | none => rw [hs] at h; simp at h
  | some s => exact AMap.mem_of_get? hs

theorem entry_stats (hw : b.WF) {name : Symbol} {s : RuleStats} (h : (name, s) ∈ b.stats) : b.ruleStats name = s := by
  unfold ruleStats
  rw [AMap.get?_of_mem hw h]

end Backoff

/-- **C28.**  `can_stop` never panics.  It answers true exactly if no rule is banned.
Otherwise it shortens all bans by the same number of iterations, such that at least one rule
that was banned is not banned any more; nothing else changes and no ban is extended.  So bans
are temporary, and a run cannot saturate while a rule is banned. -/
theorem c28_can_stop (hw : b.WF) (i : Nat) :
    ((∀ name, (b.ruleStats name).bannedUntil ≤ i) ∧ b.canStop i = .ok (b, true)) ∨
    ∃ b' delta, b.canStop i = .ok (b', false) ∧ 0 < delta ∧ b'.WF ∧
      (∃ name, i < (b.ruleStats name).bannedUntil ∧ (b'.ruleStats name).bannedUntil = i) ∧
      ∀ name, if i < (b.ruleStats name).bannedUntil
        then i + delta ≤ (b.ruleStats name).bannedUntil ∧
          b'.ruleStats name = { b.ruleStats name with bannedUntil := (b.ruleStats name).bannedUntil - delta }
        else b'.ruleStats name = b.ruleStats name := by
  unfold Backoff.canStop
  dsimp only
  cases hm : Backoff.minOf ((b.stats.filter (fun ns => decide (i < ns.2.bannedUntil))).map (fun ns => ns.2.bannedUntil)) with
  | none =>
    left
    have := Backoff.minOf_spec.1.1 hm
    rw [List.map_eq_nil_iff, List.filter_eq_nil_iff] at this
    refine ⟨fun name => ?_, rfl⟩
    by_contra hn
    exact this _ (Backoff.banned_entry name (i := i) (by omega)) (by simp; omega)
  | some m =>
    right
    obtain ⟨h1, h2⟩ := Backoff.minOf_spec.2 m hm
    obtain ⟨⟨name, s⟩, h3, rfl⟩ := List.mem_map.1 h1
    obtain ⟨h4, h5⟩ := List.mem_filter.1 h3
    dsimp only at h5 h2 ⊢
    simp only [decide_eq_true_eq] at h5
    have hle : ∀ name, i < (b.ruleStats name).bannedUntil → s.bannedUntil ≤ (b.ruleStats name).bannedUntil := by
      intro name' hb
      exact h2 _ (List.mem_map.2 ⟨_, List.mem_filter.2 ⟨Backoff.banned_entry name' hb, by simpa using hb⟩, rfl⟩)
    rw [if_pos (by
      rw [List.any_eq_true]
      exact ⟨(name, s), h3, by simp; omega⟩)]
    have hmap : ∀ name', Backoff.ruleStats { b with stats := b.stats.map (fun ns =>
          if i < ns.2.bannedUntil then (ns.1, { ns.2 with bannedUntil := ns.2.bannedUntil - (s.bannedUntil - i) }) else ns) } name' =
        if i < (b.ruleStats name').bannedUntil
        then { b.ruleStats name' with bannedUntil := (b.ruleStats name').bannedUntil - (s.bannedUntil - i) }
        else b.ruleStats name' := by
      intro name'
      have e : (b.stats.map (fun ns =>
          if i < ns.2.bannedUntil then (ns.1, { ns.2 with bannedUntil := ns.2.bannedUntil - (s.bannedUntil - i) }) else ns)) =
          b.stats.map (fun ns => (ns.1, (fun (_ : Symbol) (st : RuleStats) => if i < st.bannedUntil then
            { st with bannedUntil := st.bannedUntil - (s.bannedUntil - i) } else st) ns.1 ns.2)) := by
        apply List.map_congr_left
        intro ns _
        dsimp only
        split <;> rfl
      unfold Backoff.ruleStats
      dsimp only
      rw [e, Backoff.get?_map_stats (f := fun (_ : Symbol) (st : RuleStats) => if i < st.bannedUntil then
            { st with bannedUntil := st.bannedUntil - (s.bannedUntil - i) } else st)]
      cases b.stats.get? name' <;> simp
    have hs : b.ruleStats name = s := Backoff.entry_stats hw h4
    refine ⟨_, s.bannedUntil - i, rfl, by omega, ?_, ⟨name, by rw [hs]; exact h5, ?_⟩, fun name' => ?_⟩
    · unfold Backoff.WF AMap.keys at hw ⊢
      dsimp only
      rw [List.map_map]
      convert hw using 2
      funext ns
      dsimp only [Function.comp]
      split <;> rfl
    · rw [hmap, hs, if_pos h5]
      dsimp only
      omega
    · split
      · next hb =>
        refine ⟨by have := hle name' hb; omega, ?_⟩
        rw [hmap, if_pos hb]
      · next hb => rw [hmap, if_neg hb]

/-- The rule is one that is never banned. -/
def NeverBanned (env : RunEnv Op D) (b : Backoff) (name : Symbol) : Prop :=
  (b.ruleStats name).matchLimit = env.usizeMax ∧ (b.ruleStats name).timesBanned = 0 ∧ (b.ruleStats name).bannedUntil = 0

/-- **C28.**  A rule named in `do_not_ban` before the run is never banned: every search of it
is the full search, and this remains so whatever is searched and whenever `can_stop` is called. -/
theorem c28_do_not_ban (name : Symbol) :
    ((b.ruleStats name).timesBanned = 0 → (b.ruleStats name).bannedUntil = 0 → NeverBanned env (b.doNotBan env.usizeMax name) name) ∧
    (NeverBanned env b name →
      (∀ i b' x, b.WF → b.canStop i = .ok (b', x) → NeverBanned env b' name) ∧
      ∀ i (eg : EGraph Op D) rw' b' ms, b.searchRewrite env i eg rw' = .ok (b', ms) →
        (∀ ms0, rw'.searcher.search env.analysis eg (env.ord i eg) env.usizeMax = .ok ms0 → (flat ms0).length ≤ env.usizeMax) →
        NeverBanned env b' name ∧
        (rw'.name = name → rw'.searcher.search env.analysis eg (env.ord i eg) env.usizeMax = .ok ms)) := by
  refine ⟨fun h1 h2 => ?_, fun ⟨h1, h2, h3⟩ => ⟨fun i b' x hw hc => ?_, fun i eg rw' b' ms hs hlim => ?_⟩⟩
  · unfold NeverBanned Backoff.doNotBan
    rw [Backoff.ruleStats_setStats, if_pos rfl]
    exact ⟨rfl, h1, h2⟩
  · rcases c28_can_stop hw i with ⟨_, k⟩ | ⟨b1, delta, k, _, _, _, k4⟩
    · rw [k] at hc; cases hc; exact ⟨h1, h2, h3⟩
    · rw [k] at hc; cases hc
      have := k4 name
      rw [if_neg (by omega)] at this
      unfold NeverBanned
      rw [this]
      exact ⟨h1, h2, h3⟩
  · by_cases hn : rw'.name = name
    · rcases Backoff.searchRewrite_inv hs with ⟨k1, _, _⟩ | ⟨th, ms0, _, k2, k3, k4⟩
      · rw [hn, h3] at k1; omega
      · rw [hn, h1, h2] at k2
        have hth : th = env.usizeMax := by
          unfold Backoff.shl at k2
          split at k2
          · injection k2 with k2
            rw [← k2]
            have : 0 < 2 ^ env.bits := Nat.two_pow_pos _
            rw [Nat.pow_zero, Nat.mul_one, Nat.mod_eq_of_lt]
            unfold RunEnv.usizeMax
            omega
          · cases k2
        subst hth
        rw [min_eq_right (by omega)] at k3
        rcases k4 with ⟨k5, _⟩ | ⟨k5, k6, k7⟩
        · have := hlim _ k3
          rw [Backoff.totalLen_flat] at k5
          omega
        · subst k6
          refine ⟨?_, fun _ => k3⟩
          rw [k7, ← hn]
          unfold NeverBanned
          rw [Backoff.ruleStats_setStats, if_pos rfl]
          dsimp only
          rw [hn]
          exact ⟨h1, h2, h3⟩
    · refine ⟨?_, fun h => absurd h hn⟩
      have : b'.ruleStats name = b.ruleStats name := by
        rcases Backoff.searchRewrite_inv hs with ⟨_, _, rfl⟩ | ⟨th, ms0, _, _, _, ⟨_, _, _, _, _, rfl⟩ | ⟨_, _, rfl⟩⟩
        all_goals rw [Backoff.ruleStats_setStats, if_neg hn]
      unfold NeverBanned
      rw [this]
      exact ⟨h1, h2, h3⟩

/-- A configuration call on a new scheduler. -/
inductive BackoffCall where
  | initialMatchLimit (limit : Nat)
  | banLength (len : Nat)
  | ruleMatchLimit (name : Symbol) (limit : Nat)
  | ruleBanLength (name : Symbol) (len : Nat)
  | doNotBan (name : Symbol)

/-- The rule a call is about. -/
def BackoffCall.rule? : BackoffCall → Option Symbol
  | .initialMatchLimit _ => none
  | .banLength _ => none
  | .ruleMatchLimit n _ => some n
  | .ruleBanLength n _ => some n
  | .doNotBan n => some n

def BackoffCall.run (usizeMax : Nat) (b : Backoff) : BackoffCall → Backoff
  | .initialMatchLimit l => b.withInitialMatchLimit l
  | .banLength l => b.withBanLength l
  | .ruleMatchLimit n l => b.ruleMatchLimit n l
  | .ruleBanLength n l => b.ruleBanLength n l
  | .doNotBan n => b.doNotBan usizeMax n

/-- The match limit and the ban length of the rule `name` after some calls (the last call first):
the calls about the rule itself count from the first of them on, before that the defaults. -/
def settingsOf (usizeMax : Nat) (name : Symbol) : List BackoffCall → Nat × Nat
  | [] => (1000, 5)
  | c :: before =>
    let (limit, len) := settingsOf usizeMax name before
    if before.any (fun c => decide (c.rule? = some name)) then
      match c with
      | .ruleMatchLimit n l => if n = name then (l, len) else (limit, len)
      | .ruleBanLength n l => if n = name then (limit, l) else (limit, len)
      | .doNotBan n => if n = name then (usizeMax, len) else (limit, len)
      | _ => (limit, len)
    else
      match c with
      | .initialMatchLimit l => (l, len)
      | .banLength l => (limit, l)
      | .ruleMatchLimit n l => if n = name then (l, len) else (limit, len)
      | .ruleBanLength n l => if n = name then (limit, l) else (limit, len)
      | .doNotBan n => if n = name then (usizeMax, len) else (limit, len)

/-- **C28, configuration.**  After any sequence of configuration calls (last first) every rule has the
match limit and ban length `settingsOf` says, has never been applied or banned; calls about one rule do not
affect others, and the defaults affect exactly the rules that have not been configured before. -/
theorem c28_settings (usizeMax : Nat) (cs : List BackoffCall) (name : Symbol) :
    (cs.foldr (fun c b => c.run usizeMax b) Backoff.default).ruleStats name =
      ⟨0, 0, 0, (settingsOf usizeMax name cs).1, (settingsOf usizeMax name cs).2⟩ := by
  have hkey : ∀ (b : Backoff) (n : Symbol) (s : RuleStats), ((b.setStats n s).stats.get? name).isSome =
      (decide (n = name) || (b.stats.get? name).isSome) := by
    intro b n s
    unfold Backoff.setStats
    dsimp only
    rw [AMap.get?_insert]
    by_cases h : n = name <;> simp [h]
  have hknown : ∀ cs : List BackoffCall, ((cs.foldr (fun c b => c.run usizeMax b) Backoff.default).stats.get? name).isSome =
      cs.any (fun c => decide (c.rule? = some name)) := by
    intro cs
    induction cs with
    | nil => rfl
    | cons c cs ih =>
      rw [List.foldr_cons, List.any_cons, ← ih]
      cases c <;> simp only [BackoffCall.run, Backoff.withInitialMatchLimit, Backoff.withBanLength, Backoff.ruleMatchLimit,
        Backoff.ruleBanLength, Backoff.doNotBan, hkey, BackoffCall.rule?, Option.some.injEq] <;> simp
  have hdef : ∀ cs : List BackoffCall, cs.any (fun c => decide (c.rule? = some name)) = false →
      (cs.foldr (fun c b => c.run usizeMax b) Backoff.default).defaultMatchLimit = (settingsOf usizeMax name cs).1 ∧
      (cs.foldr (fun c b => c.run usizeMax b) Backoff.default).defaultBanLength = (settingsOf usizeMax name cs).2 := by
    intro cs
    induction cs with
    | nil => intro _; exact ⟨rfl, rfl⟩
    | cons c cs ih =>
      intro h
      rw [List.any_cons, Bool.or_eq_false_iff] at h
      obtain ⟨h1, h2⟩ := ih h.2
      rw [List.foldr_cons]
      unfold settingsOf
      dsimp only
      rw [h.2]
      generalize List.foldr (fun c b => BackoffCall.run usizeMax b c) Backoff.default cs = b at h1 h2 ⊢
      have hc := h.1
      cases c <;> simp only [BackoffCall.rule?, Option.some.injEq, decide_eq_false_iff_not] at hc <;>
        simp [BackoffCall.run, Backoff.withInitialMatchLimit, Backoff.withBanLength, Backoff.ruleMatchLimit,
        Backoff.ruleBanLength, Backoff.doNotBan, Backoff.setStats, h1, h2, hc]
  induction cs with
  | nil => rfl
  | cons c cs ih =>
    have hk := hknown cs
    rw [List.foldr_cons]
    unfold settingsOf
    dsimp only
    cases hany : cs.any (fun c => decide (c.rule? = some name)) with
    | true =>
      rw [hany] at hk
      obtain ⟨s, hs⟩ := Option.isSome_iff_exists.1 hk
      rw [if_pos rfl]
      generalize List.foldr (fun c b => BackoffCall.run usizeMax b c) Backoff.default cs = b at ih hs ⊢
      cases c
      case initialMatchLimit l =>
        rw [← ih]
        simp only [BackoffCall.run, Backoff.withInitialMatchLimit, Backoff.ruleStats, hs]
      case banLength l =>
        rw [← ih]
        simp only [BackoffCall.run, Backoff.withBanLength, Backoff.ruleStats, hs]
      case' ruleMatchLimit n l => skip
      case' ruleBanLength n l => skip
      case' doNotBan n => skip
      all_goals
        simp only [BackoffCall.run, Backoff.ruleMatchLimit, Backoff.ruleBanLength, Backoff.doNotBan, Backoff.ruleStats_setStats]
        by_cases hn : n = name
        · simp [hn, ih]
        · simp [hn, ih]
    | false =>
      rw [hany] at hk
      have hs : (cs.foldr (fun c b => c.run usizeMax b) Backoff.default).stats.get? name = none := by
        cases hg : (cs.foldr (fun c b => c.run usizeMax b) Backoff.default).stats.get? name with
        | none => rfl
        | some s => rw [hg] at hk; cases hk
      obtain ⟨d1, d2⟩ := hdef cs hany
      rw [if_neg (by simp)]
      generalize List.foldr (fun c b => BackoffCall.run usizeMax b c) Backoff.default cs = b at ih hs d1 d2 ⊢
      cases c
      case initialMatchLimit l =>
        simp only [BackoffCall.run, Backoff.withInitialMatchLimit, Backoff.ruleStats, hs, d2]
      case banLength l =>
        simp only [BackoffCall.run, Backoff.withBanLength, Backoff.ruleStats, hs, d1]
      case' ruleMatchLimit n l => skip
      case' ruleBanLength n l => skip
      case' doNotBan n => skip
      all_goals
        simp only [BackoffCall.run, Backoff.ruleMatchLimit, Backoff.ruleBanLength, Backoff.doNotBan, Backoff.ruleStats_setStats]
        by_cases hn : n = name
        · simp [hn, ih]
        · simp [hn, ih]

/-- C28: the order of configuration calls matters: the default set after the call about rule 4 does not
concern rule 4. -/
example : ([BackoffCall.initialMatchLimit 7, .ruleBanLength 4 9].foldr (fun c b => c.run 255 b) Backoff.default).ruleStats 4 = ⟨0, 0, 0, 1000, 9⟩ ∧
    ([BackoffCall.initialMatchLimit 7, .ruleBanLength 4 9].foldr (fun c b => c.run 255 b) Backoff.default).ruleStats 5 = ⟨0, 0, 0, 7, 5⟩ :=
  ⟨c28_settings _ _ _, c28_settings _ _ _⟩

/-- C28 on the example: one match, limit 0: the rule is banned until iteration `3 + 5`. -/
example : ∃ b', (Backoff.default.withInitialMatchLimit 0).searchRewrite Ex.renv 3 Ex.e6 Ex.ruleFG = .ok (b', []) ∧
    b'.ruleStats 9 = ⟨0, 8, 1, 0, 5⟩ ∧
    (∃ b'', b'.searchRewrite Ex.renv 4 Ex.e6 Ex.ruleFG = .ok (b'', []) ∧ b''.ruleStats 9 = ⟨0, 8, 1, 0, 5⟩) ∧
    ∃ b'', b'.canStop 4 = .ok (b'', false) ∧ b''.ruleStats 9 = ⟨0, 4, 1, 0, 5⟩ :=
  ⟨_, rfl, rfl, ⟨_, rfl, rfl⟩, _, rfl, rfl⟩

/-- C28: the hypotheses of `c28_search_rule` on the example. -/
example := c28_search_rule (A := Ex.U0) (depth := 1) (allow := .all) (env := Ex.renv) (i := 3) (rw' := Ex.ruleFG) rfl (Ex.ordOK _)
  Ex.discContiguous (Ex.hist6 _) rfl Ex.isPatFx rfl

end Egg
