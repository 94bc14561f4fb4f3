import Verif.Model.Rewrite
import Verif.Model.Hooks
/-
Model of the runner and its schedulers, `src/run.rs`.
-/
namespace Egg
variable {Op D S H : Type} [DecidableEq Op] [Lang Op]

/-- `StopReason`, `src/run.rs:237-250`.  Simplification: durations are natural numbers. -/
inductive StopReason where
  | saturated
  | iterationLimit (n : Nat)
  | nodeLimit (n : Nat)
  | timeLimit (t : Nat)
  | other (msg : String)
deriving DecidableEq, Repr

/-- `RunnerLimits`, `src/run.rs:161-166`, without `start_time` (see `RunEnv.elapsed`). -/
structure RunnerLimits where
  iterLimit : Nat
  nodeLimit : Nat
  timeLimit : Nat

/-- What a run depends on and does not compute itself: the analysis; the iteration order
of the hash tables seen by the searches of iteration `i`; `elapsed k`, the time since
`start_time` at the `k`-th reading of the clock; the number of loop rounds granted to every
`rebuild` (see `Err.fuel`); the number of bits of `usize`. -/
structure RunEnv (Op : Type) [DecidableEq Op] [Lang Op] (D : Type) where
  analysis : Analysis Op D
  ord : Nat → EGraph Op D → IterOrd
  elapsed : Nat → Nat
  fuel : Nat
  bits : Nat

/-- `usize::MAX`. -/
def RunEnv.usizeMax (env : RunEnv Op D) : Nat := 2 ^ env.bits - 1

/-- `RunnerLimits::check_limits`, `src/run.rs:170-190`; `tick` is the number of this
reading of the clock; `none` is `Ok(())`. -/
def RunnerLimits.check (lim : RunnerLimits) (env : RunEnv Op D) (tick iteration : Nat) (eg : EGraph Op D) :
    Option StopReason :=
  if lim.timeLimit < env.elapsed tick then some (.timeLimit (env.elapsed tick))
  else if lim.nodeLimit < eg.totalSize then some (.nodeLimit eg.totalSize)
  else if lim.iterLimit ≤ iteration then some (.iterationLimit iteration)
  else none

/-! ### Schedulers -/

/-- `trait RewriteScheduler`, `src/run.rs:675-768`, as a record of the methods the runner
calls; `S` is the type of the scheduler's own state.  `searchRewrites` also takes and
returns the number of clock readings so far. -/
structure Scheduler (Op : Type) [DecidableEq Op] [Lang Op] (D S : Type) where
  canStop : S → Nat → Res (S × Bool)
  searchRewrites : RunEnv Op D → RunnerLimits → S → Nat → Nat → EGraph Op D → List (Rewrite Op D) →
    Res (S × Nat × Except StopReason (List (List (SearchMatches Op))))
  applyRewrite : RunEnv Op D → S → Nat → EGraph Op D → Rewrite Op D → List (SearchMatches Op) → Res (S × EGraph Op D × Nat)

/-- Default `search_rewrites`, `src/run.rs:738-753`, for a given `search_rewrite`; `done`
are the matches collected so far. -/
def searchEach (search : S → EGraph Op D → Rewrite Op D → Res (S × List (SearchMatches Op)))
    (env : RunEnv Op D) (lim : RunnerLimits) (iteration : Nat) (eg : EGraph Op D) :
    S → Nat → List (Rewrite Op D) → List (List (SearchMatches Op)) →
    Res (S × Nat × Except StopReason (List (List (SearchMatches Op))))
  | s, tick, [], done => .ok (s, tick, .ok done)
  | s, tick, rw :: rest, done => do
    let (s, ms) ← search s eg rw
    match lim.check env tick iteration eg with
    | some r => return (s, tick + 1, .error r)
    | none => searchEach search env lim iteration eg s (tick + 1) rest (done ++ [ms])

/-- Default `apply_rewrite`, `src/run.rs:760-767`. -/
def applyDefault (env : RunEnv Op D) (s : S) (eg : EGraph Op D) (rw : Rewrite Op D) (ms : List (SearchMatches Op)) :
    Res (S × EGraph Op D × Nat) := do
  let (eg, ids) ← rw.applier.applyMatches env.analysis eg ms rw.name
  return (s, eg, ids.length)

/-- Default `search_rewrite`, `src/run.rs:694-701`. -/
def searchDefault (env : RunEnv Op D) (iteration : Nat) (s : S) (eg : EGraph Op D) (rw : Rewrite Op D) :
    Res (S × List (SearchMatches Op)) := do
  let ms ← rw.searcher.search env.analysis eg (env.ord iteration eg) env.usizeMax
  return (s, ms)

/-- `SimpleScheduler`, `src/run.rs:783-790`. -/
def simpleScheduler : Scheduler Op D Unit where
  canStop := fun s _ => .ok (s, true)
  searchRewrites := fun env lim s tick iteration eg rules =>
    searchEach (searchDefault env iteration) env lim iteration eg s tick rules []
  applyRewrite := fun env s _ eg rw ms => applyDefault env s eg rw ms

/-! ### The back-off scheduler -/

/-- `RuleStats`, `src/run.rs:812-818`. -/
structure RuleStats where
  timesApplied : Nat
  bannedUntil : Nat
  timesBanned : Nat
  matchLimit : Nat
  banLength : Nat
deriving DecidableEq, Repr

/-- `BackoffScheduler`, `src/run.rs:805-809`; the order of the association list is that of
the `IndexMap`. -/
structure Backoff where
  defaultMatchLimit : Nat
  defaultBanLength : Nat
  stats : AMap Symbol RuleStats

namespace Backoff

/-- `BackoffScheduler::default`, `src/run.rs:868-876`. -/
def default : Backoff := { defaultMatchLimit := 1000, defaultBanLength := 5, stats := [] }

/-- `with_initial_match_limit`, `src/run.rs:823-826`. -/
def withInitialMatchLimit (b : Backoff) (limit : Nat) : Backoff := { b with defaultMatchLimit := limit }

/-- `with_ban_length`, `src/run.rs:830-833`. -/
def withBanLength (b : Backoff) (len : Nat) : Backoff := { b with defaultBanLength := len }

/-- `rule_stats`, `src/run.rs:835-847`: the entry that is found or inserted. -/
def ruleStats (b : Backoff) (name : Symbol) : RuleStats :=
  match b.stats.get? name with
  | some s => s
  | none =>
    { timesApplied := 0
      bannedUntil := 0
      timesBanned := 0
      matchLimit := b.defaultMatchLimit
      banLength := b.defaultBanLength }

/-- Writing through the reference that `rule_stats` returns. -/
def setStats (b : Backoff) (name : Symbol) (s : RuleStats) : Backoff := { b with stats := b.stats.insert name s }

/-- `do_not_ban`, `src/run.rs:850-853`. -/
def doNotBan (b : Backoff) (usizeMax : Nat) (name : Symbol) : Backoff :=
  b.setStats name { b.ruleStats name with matchLimit := usizeMax }

/-- `rule_match_limit`, `src/run.rs:856-859`. -/
def ruleMatchLimit (b : Backoff) (name : Symbol) (limit : Nat) : Backoff :=
  b.setStats name { b.ruleStats name with matchLimit := limit }

/-- `rule_ban_length`, `src/run.rs:862-865`. -/
def ruleBanLength (b : Backoff) (name : Symbol) (len : Nat) : Backoff :=
  b.setStats name { b.ruleStats name with banLength := len }

/-- `x.checked_shl(k).unwrap()` and `x << k` on `usize`: panics if `k` is at least the
number of bits; bits shifted out are lost.  (In a release build `<<` with too large `k`
does not panic; that case is not reached, because `checked_shl` with the same `k` comes
first.) -/
def shl (bits x k : Nat) : Res Nat := if k < bits then .ok ((x * 2 ^ k) % 2 ^ bits) else .error .panic

/-- `+` on `usize`: panics on overflow (as in a debug build; a release build wraps). -/
def addUsize (bits a b : Nat) : Res Nat := if a + b < 2 ^ bits then .ok (a + b) else .error .panic

/-- `total_len`, `src/run.rs:944`. -/
def totalLen (ms : List (SearchMatches Op)) : Nat := (ms.map (fun m => m.substs.length)).sum

/-- `search_rewrite`, `src/run.rs:925-965`. -/
def searchRewrite (env : RunEnv Op D) (iteration : Nat) (b : Backoff) (eg : EGraph Op D) (rw : Rewrite Op D) :
    Res (Backoff × List (SearchMatches Op)) :=
  let st := b.ruleStats rw.name
  if iteration < st.bannedUntil then .ok (b.setStats rw.name st, [])
  else do
    let threshold ← shl env.bits st.matchLimit st.timesBanned
    let ms ← rw.searcher.search env.analysis eg (env.ord iteration eg) (min (threshold + 1) env.usizeMax)
    if threshold < totalLen ms then do
      let banLength ← shl env.bits st.banLength st.timesBanned
      let u ← addUsize env.bits iteration banLength
      return (b.setStats rw.name { st with timesBanned := st.timesBanned + 1, bannedUntil := u }, [])
    else return (b.setStats rw.name { st with timesApplied := st.timesApplied + 1 }, ms)

/-- The least element of a non-empty list of numbers. -/
def minOf : List Nat → Option Nat
  | [] => none
  | a :: l => match minOf l with
    | none => some a
    | some m => some (min a m)

/-- `can_stop`, `src/run.rs:883-923`. -/
def canStop (b : Backoff) (iteration : Nat) : Res (Backoff × Bool) :=
  let banned := b.stats.filter (fun ns => decide (iteration < ns.2.bannedUntil))
  match minOf (banned.map (fun ns => ns.2.bannedUntil)) with
  | none => .ok (b, true)
  | some minBan =>
    let delta := minBan - iteration
    let stats := b.stats.map (fun ns =>
      if iteration < ns.2.bannedUntil then (ns.1, { ns.2 with bannedUntil := ns.2.bannedUntil - delta }) else ns)
    if banned.any (fun ns => decide (ns.2.bannedUntil - delta = iteration)) then .ok ({ b with stats := stats }, false)
    else .error .panic

/-- `impl RewriteScheduler for BackoffScheduler`, `src/run.rs:878-966`. -/
def scheduler : Scheduler Op D Backoff where
  canStop := canStop
  searchRewrites := fun env lim s tick iteration eg rules =>
    searchEach (searchRewrite env iteration) env lim iteration eg s tick rules []
  applyRewrite := fun env s _ eg rw ms => applyDefault env s eg rw ms

end Backoff

/-! ### The runner -/

/-- `Iteration`, `src/run.rs:301-328`, without the times and the user data. -/
structure Iteration where
  applied : AMap Symbol Nat
  egraphNodes : Nat
  egraphClasses : Nat
  nRebuilds : Nat
  stopReason : Option StopReason

/-- `Runner`, `src/run.rs:138-158`.  The hooks are a parameter of `run`; `hookState` is the
state captured by these closures.  `tick` counts the readings of the clock. -/
structure Runner (Op : Type) [DecidableEq Op] [Lang Op] (D S H : Type) where
  egraph : EGraph Op D
  iterations : List Iteration
  roots : List Id
  stopReason : Option StopReason
  limits : RunnerLimits
  scheduler : S
  hookState : H
  tick : Nat

/-- A hook, `src/run.rs:154-155`.  Simplification: it reads the e-graph and the iterations,
and changes only the e-graph and its own state; it does not assign the other public fields of
the runner.  The answer `some msg` is `Err(msg)`. -/
abbrev Hook (Op : Type) [DecidableEq Op] [Lang Op] (D H : Type) :=
  H → EGraph Op D → List Iteration → Res (H × EGraph Op D × Option String)

namespace Runner

/-- `Runner::new`, `src/run.rs:340-355` (times in milliseconds), for a given scheduler. -/
def new (s : S) (h : H) : Runner Op D S H :=
  { egraph := EGraph.new
    iterations := []
    roots := []
    stopReason := none
    limits := { iterLimit := 30, nodeLimit := 10000, timeLimit := 5000 }
    scheduler := s
    hookState := h
    tick := 0 }

/-- `with_expr`, `src/run.rs:419-423`. -/
def withExpr (N : Analysis Op D) (r : Runner Op D S H) (e : List (ENode Op)) : Res (Runner Op D S H) := do
  let (eg, i) ← r.egraph.addExpr N e
  return { r with egraph := eg, roots := r.roots ++ [i] }

/-- `check_limits`, `src/run.rs:641-644`. -/
def check (env : RunEnv Op D) (r : Runner Op D S H) : Option StopReason :=
  r.limits.check env r.tick r.iterations.length r.egraph

/-- `hooks.iter_mut().try_for_each(..)`, `src/run.rs:537-541`. -/
def runHooks (its : List Iteration) : List (Hook Op D H) → H → EGraph Op D → Res (H × EGraph Op D × Option String)
  | [], h, eg => .ok (h, eg, none)
  | k :: rest, h, eg => do
    let (h, eg, o) ← k h eg its
    match o with
    | some msg => return (h, eg, some msg)
    | none => runHooks its rest h eg

/-- `src/run.rs:530-542`: limits and hooks. -/
def hookPhase (env : RunEnv Op D) (hooks : List (Hook Op D H)) (r : Runner Op D S H) :
    Res (Runner Op D S H × Option StopReason) :=
  match r.check env with
  | some s => .ok ({ r with tick := r.tick + 1 }, some s)
  | none => do
    let (h, eg, o) ← runHooks r.iterations hooks r.hookState r.egraph
    return ({ r with tick := r.tick + 1, hookState := h, egraph := eg }, o.map .other)

/-- `src/run.rs:553-566`: the search (skipped after an error). -/
def searchPhase (env : RunEnv Op D) (sch : Scheduler Op D S) (rules : List (Rewrite Op D)) (r : Runner Op D S H)
    (result : Option StopReason) : Res (Runner Op D S H × Except StopReason (List (List (SearchMatches Op)))) :=
  match result with
  | some s => .ok (r, .error s)
  | none => do
    let (s, tick, ms) ← sch.searchRewrites env r.limits r.scheduler r.tick r.iterations.length r.egraph rules
    return ({ r with scheduler := s, tick := tick }, ms)

/-- Counting the applications of one rule, `src/run.rs:579-586`. -/
def countApplied (applied : AMap Symbol Nat) (name : Symbol) (n : Nat) : AMap Symbol Nat :=
  if 0 < n then
    match applied.get? name with
    | some k => applied.insert name (k + n)
    | none => applied.insert name n
  else applied

/-- `src/run.rs:573-589`: applying the rules one after the other. -/
def applyEachRule (env : RunEnv Op D) (sch : Scheduler Op D S) :
    List (Rewrite Op D × List (SearchMatches Op)) → Runner Op D S H → AMap Symbol Nat →
    Res (Runner Op D S H × AMap Symbol Nat × Option StopReason)
  | [], r, applied => .ok (r, applied, none)
  | (rw, ms) :: rest, r, applied => do
    let (s, eg, n) ← sch.applyRewrite env r.scheduler r.iterations.length r.egraph rw ms
    let applied := countApplied applied rw.name n
    let r := { r with scheduler := s, egraph := eg }
    match r.check env with
    | some reason => return ({ r with tick := r.tick + 1 }, applied, some reason)
    | none => applyEachRule env sch rest { r with tick := r.tick + 1 } applied

/-- `src/run.rs:572-590`: applying (skipped after an error). -/
def applyPhase (env : RunEnv Op D) (sch : Scheduler Op D S) (rules : List (Rewrite Op D)) (r : Runner Op D S H)
    (matches' : Except StopReason (List (List (SearchMatches Op)))) :
    Res (Runner Op D S H × AMap Symbol Nat × Option StopReason) :=
  match matches' with
  | .error s => .ok (r, [], some s)
  | .ok mss => applyEachRule env sch (rules.zip mss) r []

/-- `src/run.rs:608-617` without the comparison of sizes: `applied.is_empty() &&
self.scheduler.can_stop(i)`, where `can_stop` is only called if nothing was applied. -/
def quietPhase (sch : Scheduler Op D S) (applied : AMap Symbol Nat) (r : Runner Op D S H) : Res (Runner Op D S H × Bool) :=
  if applied.isEmpty then do
    let (s, b) ← sch.canStop r.scheduler r.iterations.length
    return ({ r with scheduler := s }, b)
  else return (r, false)

/-- `run_one`, `src/run.rs:525-635`. -/
def runOne (env : RunEnv Op D) (sch : Scheduler Op D S) (hooks : List (Hook Op D H)) (rules : List (Rewrite Op D))
    (r : Runner Op D S H) : Res (Runner Op D S H × Iteration) :=
  if r.stopReason.isSome then .error .panic
  else do
    let nodes := r.egraph.totalSize
    let classes := r.egraph.numberOfClasses
    let (r1, res1) ← hookPhase env hooks r
    let (r2, ms) ← searchPhase env sch rules r1 res1
    let (r3, applied, res3) ← applyPhase env sch rules r2 ms
    let (eg, nRebuilds) ← r3.egraph.rebuild env.analysis env.fuel
    let (r4, quiet) ← quietPhase sch applied { r3 with egraph := eg }
    let saturated := quiet
      && decide (nodes = r1.egraph.totalSize) && decide (classes = r1.egraph.numberOfClasses)
      && decide (nodes = r4.egraph.totalSize) && decide (classes = r4.egraph.numberOfClasses)
    let result := match res3 with
      | some s => some s
      | none => if saturated then some .saturated else none
    return (r4, { applied := applied
                  egraphNodes := nodes
                  egraphClasses := classes
                  nRebuilds := nRebuilds
                  stopReason := result })

/-- The loop of `run`, `src/run.rs:443-453`, for at most `f` iterations. -/
def runLoop (env : RunEnv Op D) (sch : Scheduler Op D S) (hooks : List (Hook Op D H)) (rules : List (Rewrite Op D)) :
    Nat → Runner Op D S H → Res (Runner Op D S H)
  | 0, _ => .error .fuel
  | f + 1, r => do
    let (r, it) ← runOne env sch hooks rules r
    let r := { r with iterations := r.iterations ++ [it] }
    match it.stopReason with
    | some s => return { r with stopReason := some s }
    | none =>
      match r.check env with
      | some s => return { r with tick := r.tick + 1, stopReason := some s }
      | none => runLoop env sch hooks rules f { r with tick := r.tick + 1 }

/-- `run`, `src/run.rs:434-458`.  (`check_rules` only prints warnings.) -/
def run (env : RunEnv Op D) (sch : Scheduler Op D S) (hooks : List (Hook Op D H)) (rules : List (Rewrite Op D))
    (f : Nat) (r : Runner Op D S H) : Res (Runner Op D S H) := do
  let (eg, _) ← r.egraph.rebuild env.analysis env.fuel
  runLoop env sch hooks rules f { r with egraph := eg }

end Runner

/-- `Report`, `src/run.rs:260-272`, without the times. -/
structure Report where
  iterations : Nat
  stopReason : StopReason
  egraphNodes : Nat
  egraphClasses : Nat
  memoSize : Nat
  rebuilds : Nat

/-- `report`, `src/run.rs:508-521`; `unwrap` of the stop reason panics before the run. -/
def Runner.report (r : Runner Op D S H) : Res Report := do
  return { stopReason := ← unwrap r.stopReason
           iterations := r.iterations.length
           egraphNodes := r.egraph.totalNumberOfNodes
           egraphClasses := r.egraph.numberOfClasses
           memoSize := r.egraph.totalSize
           rebuilds := (r.iterations.map (fun it => it.nRebuilds)).sum }

end Egg
