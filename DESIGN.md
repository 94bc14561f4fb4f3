# Formal model of egg in Lean 4 — design

## 1. Approach

The model is a set of total, computable Lean functions over `Nat`, `List`,
`Option`, and structures, one Lean definition per Rust function, each citing
the file and lines it models.  Rust panics (index out of range, `unwrap`,
`assert!`) and loops without a syntactic bound are explicit outcomes:
functions return `Except Err`, with `Err.panic` for a panic and `Err.fuel` for
"the fuel given to the loop did not suffice"; termination theorems show that
some fuel always suffices.

* `Id` (u32 index) is `Nat`: the same program while at most 2^32 e-nodes exist (proved, C93).
* A `Language` value is the pair (operator, list of child ids): `ENode Op`.
  The trait requires that `matches` compares "operator and arity" and that
  `children` exposes the ids; any lawful implementation is isomorphic to such
  a pair.  `discriminant` is an arbitrary function of the operator; the `Ord`
  used to sort classes is an arbitrary total order (with discriminant blocks
  contiguous where the binary-search fast path needs it).
* Hash maps are association lists with unique keys.  Where the real iteration
  order of a hash map can be observed, the order is an extra argument,
  constrained only to be a permutation of the keys, so theorems hold for every
  hash order.
* Terms are a separate inductive type, used by the specification only
  (`Verif/Spec`): ground equational consequence, representation of a term in a
  class, declarative pattern matching, unfolding of a DAG.

Property theorems live in `Verif/Props/*.lean`, one section per property, and
use only the model's public operations and the specification files.

### How callers, hooks and histories are modelled

* A *history* (`Spec/History.lean`) is a sequence of API calls with the values
  they returned: `add` (and `add_uncanonical`, `add_expr` as repeated `add`),
  `union`, `union_trusted`, `set_analysis_data`, `rebuild`, enabling and disabling explanations,
  switching the length optimization, writing and reading with `serde` (`restore`), and explanation requests (`query`, which change the
  memo tables of the proof forest).  `Hist C N allow eg0 eg` says that `eg` is reached from `eg0`
  by such calls; `allow : Caller` restricts the caller (e.g. no
  `set_analysis_data`).  Theorems quantify over all histories.  Not in a history: writing to a class
  through `IndexMut` or `classes_mut` (both hand out `&mut EClass`, whose `nodes` and `data` are public);
  `set_analysis_data` is the modelled way to change a datum.  Dropping e-nodes from a class (pruning) is in the
  histories of C86 (`PruneHist`), which relates them to histories without it.
* A user analysis is `UserAnalysis`: `make`, `merge`, and `modify` as a *program*
  over the API (`Prog`, `Spec/Assumptions.lean`, `Model/Hooks.lean`) that may read
  the state, add e-nodes, union and set data, with its own calls triggering
  further hooks; `U.at depth` bounds the nesting (running out is `Err.fuel`).
  So theorems that hold "for every analysis" include analyses whose hooks change
  the e-graph while it is being rebuilt.
* Closures and trait objects given by the user (conditions, appliers, cost
  functions, schedulers, runner hooks, the clock, the LP solver) are function
  arguments; what a theorem needs of them is a named hypothesis
  (`Honest`, `Thorough`, `CostOK`, ...), shown to hold for the built-in ones.

### How theorems are tested against wrong programs

`tools/seed.py seeded/batchN.py [names]` applies each edit of a batch to the
model in a scratch copy, rebuilds every module that depends on it, and records which theorems are
rejected.  `DEEP=1` replaces rejected lemmas by `sorry` and goes on, to tell
whether the theorem of the property itself falls or only a lemma on the way.
Every attempt is a line of `seeded/LOG.jsonl`; `theorems_tightened` names the
theorems added or strengthened because an edit survived.

## 2. Plan per property

| id | modelled | proof |
|----|----------|-------|
| C01 | add/add_expr/union/rebuild on the full state (union-find, node table, memo, pending, classes, analysis queue) | invariant by induction on the history; completeness by building a term model out of the rebuilt e-graph |
| C02 | same | invariant relative to an arbitrary congruence |
| C03 | union-find with path halving | rank function invariant |
| C04 | perform_union | roots after linking |
| C05 | add_uncanonical, lookup | hashcons invariant |
| C06 | lookup_expr | induction on the expression, congruence invariant |
| C07 | all operations | extension preorder |
| C08 | rebuild | pending empty, class lists fixed points of sort/dedup |
| C09 | process_unions | lexicographic measure |
| C10 | every operation returns `Except` | invariant implies no `panic` |
| C11 | rebuild_classes | invariant on class node lists |
| C12 | classes_by_op | fold invariant |
| C13 | analysis_pending loop | pre/post fixpoint invariant |
| C14 | merge_max/min/option | case analysis over any linear order |
| C15 | id_to_expr(_internal) with its cache | DAG induction |
| C16 | explanations mode of add_uncanonical, uncanon_memo | invariant |
| C17-C20 | Compiler, Machine::run with shared registers, limits | compiler invariant: emitted code denotes the solved part of the pattern |
| C21 | for_each_matching_node | sorted list splitting |
| C22 | compile_from_multi_pat | as C17 |
| C23 | apply_pat/apply_one/apply_matches | induction on pattern AST |
| C24 | Rewrite::new | domain of reported substitutions |
| C25,C26,C27 | Runner::run/run_one/check_limits, clock and hooks as oracles | induction on iterations |
| C28 | BackoffScheduler | arithmetic, state invariants |
| C29-C31 | Extractor | cost invariant, acyclicity by (cost,time), Bellman-Ford bound |
| C32 | LpExtractor: program built from the e-graph, find_cycles, extraction of the selected nodes; the solver is an argument | DFS invariant with colours and an explicit order; selections ↔ solutions of the program; concrete counterexample for feasibility |
| C33-C35 | proof forest, explanation trees, flattening, proof checker, shortest-path optimizer, get_union_equalities | forest invariant with timestamps; termination measure of the search; the tables of the optimizer (Tarjan, distances, Dijkstra) are proved correct, so stored paths never cost more than the path through the forest; concrete counterexample for entries that outlive a change |
| C36 | copy_without_unions | positive under "no stale duplicate", concrete counterexample otherwise |
| C37 | egraph_intersect | injectivity of product ids |
| C38 | egraph_union | C01 applied to the recorded equalities |
| C39 | RecExpr operations | DFS loop invariant |
| C40,C41 | to_sexp, parse_sexp_into, textual printer/parser of src/sexp.rs | structural induction on trees / strings |
| C42,C43,C44,C45 | Subst, Var, alpha_rename, UniqueQueue | induction on operations / strings |
| C46 | map_egraph | map over state |
| C47 | clean flag | invariant between calls; negative witnesses |
| C48 | ConditionalApplier, ConditionEqual | case analysis on the match loop |
| C49 | cost_rec | fold over DAG |
| C50 | modify hooks as programs over the API, nested to any depth | invariant "every class contains what its datum promises, except the class modify is about to be called on" |
| C51 | number_of_classes, return values of union and rebuild | counting roots of the union-find, one per class key |
| C52 | conversions between expressions, patterns, texts | map over the node list; printers and parsers of C40/C43 |
| C53 | equivs, check_goals | lookups of C06/C16 and `find` |
| C54 | the checks that debug builds assert after rebuild | the invariant implies each assertion; each assertion means the property it names |
| C55 | check_each_explain | every edge of the proof forest carries a rule instance (C34) |
| C56 | explain_matches | instantiations are added exactly, then C34 |
| C57 | Runner::run with explanations | the run is a sequence of union_instantiations calls; C34 and C55 |
| C58 | with_expr, run, Extractor | composition of C25 and C29-C31 |
| C59 | make, merge, modify | the invariant of C13 with a meaning `V` of data; constant folding as instance |
| C60 | the macro `define_language!` as data: a declaration is a list of variants, `Decl.Op` the enum it generates | case analysis on variants; the order is lexicographic; C40 for whole expressions |
| C61 | fields marked `serde(skip)` reset (`EGraph.restored`), as a step of histories | the invariant does not mention them; `rebuild_classes` recomputes them |
| C62 | `Applier for MultiPattern` (`applyMulti`), runs with rules of any kind | every union is an instance of the rule read as a Horn clause; the run theorem of C25 over the hypothesis `SoundRule` |
| C63 | `FromStr for MultiPattern` (`Model/MultiText.lean`) | `str::split` is the inverse of joining with a separator; C40, C43 for patterns and variables |
| C64 | `check_proof`, `check_rewrite_at`, `check_rewrite`, `FlatTerm::rewrite`, `make_bindings`, `from_pattern` (`Model/ExplainCheck.lean`) | an accepted comparison yields a substitution under which both sides are instances; converse by C34's lemmas |
| C65 | `id_to_pattern`, `id_to_pattern_internal` with substitutions | it is `id_to_expr` on the node table in which the substituted ids are variables; specification `Cut` (`Spec/Cut.lean`) |
| C66 | the check in `run_with_limit` (`rootAgain`), `allow_ematching_cycles` | registers other than the first hold classes below the root; variables are never in register 0 |
| C67 | `FlatTerm::get_sexp`/`get_string`/`get_recexpr`, `get_flat_string(s)` (`Model/ProofText.lean`) | relation `Shown` = the documented format (`Spec/ProofText.lean`), proved functional in both directions on legible terms; parser round trip C41 |
| C68 | `get_string`, `get_string_with_let`, `find_to_let_bind`, `get_sexp_with_bindings`; explanation search with addresses (`Model/ProofSharing.lean`) | invariant on the generated bindings: each expands to the tree at its address; address-free search simulates the one with addresses |
| C69 | `get_tree_size`, `tree_size`, `get_initial_flat_term`, `get_last_flat_term` | the two hash sets are the visited addresses and the counted pairs; induction on the traversal |
| C70 | explanation requests with and without length optimization | the flat length is one plus the rule steps of the tree (`TreeTerm.proof_length`); a cost relation bounds the rule steps of every path followed by the distance in the logged forest, exactly without optimization |
| C71 | parent lists of classes in every operation; `EClass::parents` (`Model/Classes.lean`) | invariant: an id occurs in the list of each class as often as its e-node has arguments there, or in no list |
| C72 | `EClass::leaves`, `assert_unique_leaves` | from the representation invariant |
| C73 | `Display for Dot`, `Dot::edge`, `with_config_line`, `with_anchors` (`Model/Dot.lean`); running the `dot` program and writing files are not modelled | the lines as data, then the text: a number is read back up to the next character, a line up to the newline |
| C74 | nothing new; programs are lists of calls of `add_expr`, `union`, `union_trusted` and `rebuild` (`Spec/Below.lean`) | invariant relating an e-graph to a rebuilt one, `M`: sound for the equality of `M` and all its expressions are in `M` (`Lemmas/Below.lean`); mutual containment gives the isomorphism (`Lemmas/Same.lean`) |
| C75 | nothing new | the same invariant along a run, with `M` closed under the rules; what a rule application may do is C23 (`Lemmas/ApplySteps.lean`); `M` := the result of the other run, closed by C26 |
| C76 | nothing new; `Solves` and `SameData` in `Spec/Below.lean` | invariant along the history: the data of every class are bounded by the datum any solution gives to the class of each of its terms (`c76_bounded`, an instance of the describing invariant of C59); the solution itself is C13; with C74/C75 for the comparison |
| C77 | the default methods of `Language` (`Model/Children.lean`), closures with a state as functions `σ → Id → β × σ` | induction on the children; the specification `Calls` lists the calls made |
| C78 | `get_num_congr`, `get_explanation_num_nodes` (`Model/Counters.lean`) | the table of congruent neighbors of C46 is sound and is filled in pairs |
| C79 | `rewrite!`, `multi_rewrite!` with literals (`Model/Macros.lean`) | every node of a parsed text denotes a subterm, so the variables of the pattern are those of the term; nested conditional appliers are one conditional applier with the conjunction of the conditions |
| C80 | the run of C25-C27 | an e-graph that stays below the closed one (C75) and has no pending work finds every e-node it adds in the memo and every pair it unites in one class; so no step of `ApplySteps` changes sizes, and the number of effective unions is 0 |
| C81 | the run of C25-C27; `Runner.report` in `Model/Run.lean` | `Recorded P g its g'` chains the records (Spec/Records.lean); classes are counted as the ids that are their own representatives; each step of `ApplySteps` (C23), and `rebuild` (C51), keeps the balance |
| C82 | the run of C25-C27 | `Scheduler.Eager`, `Runner.after` in Spec/Eager.lean; simulation: `Within` is kept by one iteration of each run, because after a full iteration of the eager run the results of all rules on all terms of its start are there (`Runner.runOne_closes`), and the other run adds only such results (`ApplySteps`, C23); when the other run is saturated, the eager one is closed under the rules and C80 applies |
| C83 | the run of C25-C27, `Extractor` of C29-C31 | `RewritesTo`, `RunEqs`, `RunSteps`, `RulesFor` in Spec/Decide.lean; being represented by one class is closed under the rules (C26) and compatible with operators, so it contains all of rewriting, and `GEq` if the rules are symmetric or confluent; the other direction is soundness (C25); optimality from C30 and C58 |
| C84 | `addInstantiation`, `unionInstantiations` (Model/Rewrite.lean) | `BindsAll`, `InstanceIn`; induction over the nodes of the pattern (as for C23); that nothing changes when the instance is present is C80's argument for the rule t => t |
| C85 | `Folding.analysis` (Spec/Fold.lean) after `tests/math.rs:50-106`, `mergeOption` | a failed assertion of `merge` is the datum `clash`, on which `modify` panics; soundness: invariant of C59 with the value under a meaning; completeness: C13 for the flat order of knowledge (`Folding.join`); the constant is in the class by C50; extraction by C29/C30 and C49 |
| C86 | `EGraph.retain`, `PruneProg`, `PruneAnalysis` (Model/Prune.lean); `PruneHist`, `Thinner` (Spec/Prune.lean) | simulation (`Thin`, `ThinC`, Lemmas/Thin.lean) of every operation, rebuild and hooks included, by the same operation on the e-graph that was never pruned; then C01, C02 and C85 of that e-graph |
| C87 | the matcher, rewrites and runner models as for C17, C25; `Pruned`, `BlindRule`, `PruneHooksOK` (Spec/PruneRun.lean), `TermFor` (Spec/Prune.lean) | matches of the pruned e-graph are matches of the complete one (`found_thin`, Lemmas/ThinSearch.lean); every step of a run is simulated by steps on the complete e-graph (`runLoop_preach`, Lemmas/ThinRun.lean); then C01, C02, C17 and C85 of that e-graph; completeness: after a rebuild the classes that were pruned are still sorted and still indexed by operator (`PruneHist.inOrder`, Lemmas/Indexed.lean), and the machine finds what the e-nodes that are left give (Lemmas/ThinComplete.lean) |
| C88 | `Rewrite.search`, `Rewrite.apply`, `Rewrite.run` (Model/Round.lean) and the runner of C25; `Round`, `LeftIn`, `Par`, `ReachedIn` (Spec/Round.lean) | an unlimited search finds every match (`search_full`), applying makes just the unions of the matches (`AppliedAll.result`), so the instances on existing terms are there after the rebuild (`Round.closes`, `Runner.runOne_closes`); parallel steps by induction on terms (`Par.closed`); iterations by induction (`Runner.runLoop_reached`) |
| C89 | the appliers of C23/C48, `condApplier` (C79), closures on data and on e-nodes (Model/Guard.lean); `SoundState`, `Condition.Implies`, `Applier.SoundOn` (Spec/Guard.lean), `SoundRule` of C62 | loop invariant over the default `apply_matches`: the state stays reachable by correct unions (`c89_user_applier`); what is known of the bound terms survives additions because classes only hold equal terms (`known_stays`); nested conditions by induction; data conditions by C59, `ConditionEqual` by C48; runs by `Runner.runLoop_sound` of C62 and C59 |
| C90 | the run of C25-C27, appliers and conditions of C89; `Unchanged`, `Quiescent`, `CanonicalMatch` (Spec/Quiet.lean) | the hash-cons has the same keys and the number of classes is the same at both ends of the last iteration, so no root was lost and no new id is a root (`Ext.root`, `Ext.fresh`), in all states between (`unchanged_between`); the search of the last iteration was complete (C18, C20); loop over the default `apply_matches` (`each_applied`); a concrete run refutes the claim for data |
| C91 | `Setting`, `Builder.set`, `Builder.setAll`, `Builder.run` (Model/Builder.lean) | what a chain asks for is read off the list of calls (Spec/Builder.lean: `lastSet`, `exprsOf`); induction over the chain; C25 and C58 for the run |
| C92 | the builder of C91, the run of C25-C27, `explainEquivalence` of C33 and C34 | adding a present expression again returns an id of its class although the e-graph is no longer clean (`Closed` is kept by adding); then C33 gives the explanation, C34 and C57 its validity; C16 gives its ends |
| C93 | `make_set`, `make_new_eclass`, `add_uncanonical`, `add`, `add_expr` once more with ids modulo `W` (`Model/Word.lean`); programs of calls (`Session`) | a relation between a computation with unbounded ids and one with words ("the number of ids only grows, and if it ends at most at `W` both give the same"), closed under sequencing; hooks by induction on the nesting depth; past the bound: the e-graph of `W` constants given explicitly |
| C94 | the whole loop of `run` with all three kinds of rules, conditions, hooks, schedulers | every phase of an iteration satisfies "ends only in allowed errors, and then keeps the history": search is total (C20, C22), applying found matches is (C24, C62 generalised to a set of allowed errors), rebuild terminates (C09); induction over iterations; invariant of the back-off table for overflow |
| C95 | what rules generate, as an inductive relation on terms (`Generated`), and the whole loop of `run` | invariant "everything in the e-graph is generated" through all steps; each generated pair is present after some number of iterations of every eager run (induction on the derivation); if finitely many terms represent all, finitely many e-nodes over them determine everything, so one stage suffices for all; then C80 |
| C96 | the extractor again, with cost functions of the whole e-node (Model/ExtractBy.lean) | `CostIn` in Spec/ExtractBy.lean: the cost of a term read off the e-graph; invariants as for C29-C31 with `CostIn` in place of the cost of the tree; uniqueness after rebuild from C01 and canonical children |
| C97 | the extractor of C96 on the e-graphs of C86 | the invariants of C96 need only `ClassInv` (roots, class ids, no duplicate keys), which a thinned e-graph shares with the complete one; `CheapLeaf` (Spec/PruneExtract.lean): a term of the complete e-graph is rebuilt with leaves in place of what was dropped |
| C98 | histories in which e-nodes are dropped only from classes whose datum does not satisfy a predicate `P` (Spec/PruneGuard.lean) | the simulation of C86 also carries the set of classes that have lost e-nodes (`Mark`), closed under merging; such a class has a known value, hence by C86 its constant, which is the leaf `CheapLeaf` of C97 asks for |
| C99 | the run of C25-C27; `Runner.resume`, `Runner.followedBy` (Spec/Resume.lean) | `rebuild` of a rebuilt e-graph is the identity: the union-find is not compressed because all children are roots, and clearing and refilling the index restores it key by key (Lemmas/Exact.lean); every phase of an iteration commutes with prefixing iterations (`shift`, Lemmas/Resume.lean); induction over the loop |
| C100 | the run of C25-C28; `AtMost`, `PassesOver`, `Fresh`, `Covers` (Spec/Fair.lean) | one iteration either lets a banned rule wait, bans it, or applies all its matches (`Runner.backoff_step`, Lemmas/Fair.lean); the potential `bannedUntil - i + max 1 L * (2^d - 2^timesBanned)` falls in the first two cases and does not rise in the third (Lemmas/Debt.lean); for saturation: stages counted by the iterations in which all rules are applied (`Climb`), and an iteration that finds nothing new with no rule banned is the last |
| C101 | multi-patterns (C22, C62) on the pruned e-graphs of C86/C87 | soundness: the matches found are found in the complete e-graph that C86 provides (`multi_found_thin`), and applying them there is simulated (`Thin.multiMatches`, Lemmas/ThinMulti.lean); completeness: compiling each further pattern keeps the solution given by the e-nodes left (`compile_first_thin`, `compile_more_thin`, Lemmas/ThinMultiComplete.lean); runs: `Runner.runLoop_psound` follows the run in the complete e-graph |
| C102 | runs with pattern rules and multi-pattern rules (C25, C62), rules read as clauses (`Clause`, `Chase`, Spec/Chase.lean) | completeness: every match of a clause in the terms of the searched e-graph is found (C21, C22) and applied (`PatternRule.performs`, `MultiRule.performs`, Lemmas/Chase.lean), a rebuilt e-graph is closed under `EqHull`, induction over the iterations; exactness: `EqHull` is a partial congruence, its extension `Completion` to all terms is a congruence and conservative (`Completion.exists`), so the soundness invariant can be used with it, together with the existence of the term of each node (`InHull`, Lemmas/ChaseSound.lean); reaching the fixpoint: rules do nothing to an e-graph in which they derive nothing new (`Still`, Lemmas/ChaseStill.lean) |
| C103 | as C102; finiteness of the derivable classes (`FinitelyDerived`, Spec/Chase.lean) | clauses introduce no operators but their own, as `Rewrite::new` rejects unbound variables (`Chase.inSyms`), so the derivable facts follow from finitely many, which are all derived after finitely many rounds (`FinitelyDerived.stage`, Lemmas/ChaseFinite.lean), and then `c102_closes` applies; the converse from `c102_decides` |
| C104 | as C102 and C100 (`Fresh`, `Covers`, `AtMost` of Spec/Fair.lean; `Thorough` of Spec/Run.lean) | one iteration either uses up debt of some rule or performs every clause (`runOne_backoff`, with `Outcome.debt` of C100 and `PatternRule.performs`/`MultiRule.performs` of C102, which need only a limit that was not reached), induction over the loop (`runLoop_backoff`); a saturated iteration searched everything (`runOne_thorough`) and changed no number, so `Equal.back` applies |
| C105 | `test_runner` with its hook (`testRunner`, `goalHook` of Model/TestRunner.lean), without the explanations; `Given`, `Proves` of Spec/TestRunner.lean | adding an expression stays within the hull of what is given (`InHull.addExpr`); a search in one class with a limit of at least one finds something exactly if the class has an instance (`searchEclass_some`, `match_iff`); with C102 and C104; a run stopped by a hook ends with a rebuild of the e-graph the hook saw (`runLoop_final`) |
| C106 | `testRunner` with `explainMatches` (src/egraph.rs:524-551) and `checkProof`; `ProvedBy` in Props/TestExplain.lean | adding nodes to a clean e-graph keeps it closed under congruence, so the added start expression and the added instance are in one class (`Closed.rep_unique`, `Closed.pmatch_det`) and C33 gives the explanation; the additions are rule steps without unions, so C34 gives a proof by the rules; with C56 its ends are known, since a flat proof determines them (`ValidFlat.ends`) |
| C107 | `condApplier`, `conditionalOne`, `Pattern.applyOne`, `Runner.run`, `testRunner`; `GuardedClause`, `Condition.Adds`, `Condition.Within`, `HoldsIn` in Spec/GuardChase.lean, `PCong` in Spec/Chase.lean | conditions add terms of the given notion of equality at most, and if none of them stops the applier, all guards hold for one assignment (`condApplier_within`); `apply_one` of a pattern adds instances of nodes of the two sides and makes one union (`applyOne_inst`); each such step stays inside the given notion of equality (`InHull.applySteps`); induction over substitutions, matches, rules and iterations |
| C108 | nothing new; `EqRule`, `CondsThen`, `EqRule.Closes`, `Entailed`, `IsEqRule` in Spec/GuardLeast.lean | soundness: such a rule holds in every closed notion of equality in the sense of C107 (`EqRule.holdsIn`); completeness: the equality of the final e-graph is itself a closed notion of equality: rules without condition from the matches found and applied in the last iteration (`plain_closed`), the sides of a condition were added when it was checked, and if it said no they are not equal (C90), else the next one was checked (`sides_there`, Lemmas/GuardLeast.lean) |

## 3. Trusted base

* Lean 4.33.0's kernel.
* Axioms: only `propext`, `Classical.choice`, `Quot.sound`.  `AXIOMS.md` lists
  them theorem by theorem (generated by `tools/axioms.py` from
  `#print axioms`).  No `sorry`, `native_decide`, `bv_decide`, no own axioms.
  `decide +kernel` appears in examples and counterexamples only; it is
  evaluated by the kernel.
* The reading of the Rust code expressed by the model.  `tools/coverage.py`
  lists, file by file, the functions that no definition of the model cites.

### Modelled code

| file | modelled |
|---|---|
| `unionfind.rs` | all |
| `util.rs` | `UniqueQueue`, `concat_vecs` |
| `eclass.rs` | the structure; iteration over nodes |
| `egraph.rs` | creation, `add*`, `lookup*`, `union*`, `perform_union`, `set_analysis_data`, `rebuild` with all its parts, `classes_for_op`, `id_to_expr`, `id_to_pattern`, `add_instantiation`, explanation switches and requests, `get_union_equalities`, `copy_without_unions`, `egraph_union`, `egraph_intersect`, `from_enodes`, language mapper, `number_of_classes`, `total_*`, counters of explanations |
| `explain.rs` | proof forest (`add`, `union`, `alternate_rewrite`), explanation trees, flattening, printing (flat, tree, with `let`), sizes, sharing by `Rc`, `check_proof`, unoptimized and optimized explanation search (shortest paths, greedy, common ancestors, memo tables) |
| `language.rs` | `RecExpr` (building, `compact`, `extract`, `join`, `build_recexpr`, `is_dag`), printing and parsing, pretty printing, `DidMerge`, `merge_*`, `Analysis`, `LanguageMapper`, `SymbolLang`, traversal of children (`for_each`, `fold`, `all`, `any`, ...) |
| `pattern.rs`, `machine.rs`, `multipattern.rs` | compilation, the machine, search, application, `alpha_rename`, parsing/printing of patterns |
| `subst.rs` | `Subst`, `Var` |
| `rewrite.rs` | `Rewrite::new`, searching and applying, conditions, `ConditionEqual` |
| `run.rs` | `Runner::run`, `run_one`, `check_limits`, `report` (without times), `SimpleScheduler`, `BackoffScheduler` |
| `extract.rs` | `Extractor`, `AstSize`, `AstDepth`, `cost_rec` |
| `lp_extract.rs` | all except the solver |
| `macros.rs` | `define_language!`: the generated enum, `Language`, `Display`, `FromOp` (`Model/Language.lean`); `rewrite!` and `multi_rewrite!` with literal patterns (`Model/Macros.lean`) |
| `dot.rs` | `Display for Dot`, `with_config_line`, `with_anchors` |
| `sexp.rs` | all (`no_std` printer and parser) |

### Not modelled

* Running the program `dot` and writing files (`dot.rs`), `bench_egraph` and file output in `test.rs` (`test_runner` is modelled, C105), the expansion of macros by `rustc`
  (C60 and C79 model its result), `serde` itself (C61 assumes that the derived code
  returns all fields not skipped), `Debug`/`dump` output, logging.
* Machine integers: ids are unbounded (the code uses `u32`; C93 proves that this makes no difference up to 2^32 e-nodes), counters too;
  exceptions, modelled because overflow changes behaviour: `parse::<u32>` of
  `?#n` variables, `checked_shl` of the back-off scheduler, saturating sums of `AstSize`.
* Floating point: costs of the LP extractor are rational numbers.
* Time is an oracle: a list of clock readings.
* Interior mutability and aliasing (`Rc`, `ThreadRng`): values, except that C68 and C69 model the addresses of `Rc<TreeTerm>`.
* The `std` s-expression crate: `c40_roundtrip` is parametric in its printer and parser.
* Memory exhaustion and stack overflow: recursion of any depth is allowed.

## 4. Findings: claims that are false of the code, with proved witnesses

Each entry is a theorem about the model with a concrete state; the positive
theorem next to it carries the hypothesis that excludes the witness.

* **C05 (explanations, before rebuild).** With explanations on, re-adding an e-node between a union and the
  next rebuild can create a second class for it: `c05_explanations_before_rebuild_counterexample`.
* **C06 (unused nodes).** `lookup_expr` answers `None` if any node of the `RecExpr`, even one the root does not
  use, is missing: `c06_unused_node_counterexample`.
* **C16 (explanations off).** Without explanations `add_expr_uncanonical` may return the id
  of an equal term: `c16_needs_explanations_counterexample`. With explanations on it
  remembers the term exactly (`c16_remembers`, `c16_add_again`).
* **C22 (variable root).** A multi-pattern whose first pattern has a variable root and more than
  one node passes the `[Var]` check of `MultiPattern::new` and the search then
  reads an unwritten register (`c22_variable_first_counterexample`).
* **C62 (saturation).** The applier of a multi-pattern reports a changed id for every match, also if nothing
  changed, so a run with a multi-pattern rule that has a match never stops as saturated:
  `c62_never_saturates_counterexample`.
* **C63 (`=` and `,` in operators).** `(<= ?a ?b)` cannot be written in a multi-pattern, and `?x = a=b` is read as
  two patterns (`c63_equals_counterexample`); a text without clauses gives a multi-pattern that panics when it is
  searched (`c63_empty_counterexample`).
* **C66 (cycles).** `allow_ematching_cycles = false` compares raw ids: it has no effect if a class is searched by an id that is not
  canonical (`c66_noncanonical_counterexample`). For multi-patterns it also drops matches where no cycle exists
  (`c66_multi_counterexample`).
* **C67, C68 (names).** An operator named `Rewrite=>` makes flat explanations ambiguous (`c67_keyword`), and an operator named `v_0` is
  captured by the bindings of `get_string_with_let` (`c68_capture`). The `let` form does not share everything that is shared: a term inside a
  bound term is printed again (`c68_not_maximal`).
* **C69 (size).** `get_tree_size` is documented as the number of rewrites of the let-bound form; a union used in both directions counts
  once, so it is smaller (`c69_both_directions`).
* **C70 (longer explanations).** After a redundant union the length optimization, which is on by default, can give a *longer* explanation
  than no optimization at all (`c70_can_be_longer`: 3 flat terms instead of 2). A redundant union
  adds no edge to the proof forest but is remembered for its two ids, and the unoptimized search uses it when its path meets these ids.
* **C73 (drawing).**  `Display for Dot` prints the argument of an edge without `find`, so on an e-graph that is not
  rebuilt an edge can name a dot node that is not defined (`c73_dangling`).  Operator names are printed between
  quotation marks without escaping: with names containing `"` and newlines two different e-graphs can have the same
  text (`c73_not_escaped`).
* **C77 (`all` and `any` stop early).**  `Language::all` and `Language::any` are documented "Does not short circuit", but `acc && f(id)`
  and `acc || f(id)` do not call `f` once the result is known (`c77_all_short_circuits`).
* **C78 (`get_num_congr`).**  Documented as "the number of congruences between nodes in the egraph"; it is 4 for an e-graph with four
  e-nodes and no congruence, because every root of the proof forest is connected to itself with the justification `Congruence` and is
  counted, and congruences used by `rebuild` are counted twice (`c78_num_congr_counterexample`).
* **C81 (documentation of the records).** `Iteration::egraph_nodes` is documented as the number of e-nodes at the start of the
  iteration; it is `total_size`, the size of the hash-cons with stale entries (example in `Props/Records.lean`: 5 for an e-graph with 3
  e-nodes).  `Iteration::n_rebuilds` is documented as a number of rebuild iterations; it is the number of unions made by `rebuild`.
  The data of `StopReason::IterationLimit`, `NodeLimit` and `TimeLimit` are documented as the limits; they are the values that exceeded
  the limits.  `run` on a runner that has run is not rejected by its type and panics (`c81_second_run`).
* **C90 (saturation does not see analysis data).** `run_one` compares the sizes of the e-graph and the counts of applications; a rule whose applier
  calls `set_analysis_data` changes neither.  With a rule conditional on that datum, the run stops with `Saturated` after one iteration, and running
  once more adds terms (`c90_data_counterexample`).
* **C91 (roots after `with_egraph`).** `Runner::with_egraph` replaces the e-graph but keeps `roots`; ids recorded by an earlier `with_expr` then
  name unrelated classes, or none, of the new e-graph (`c91_replaced_counterexample`).
* **C93 (2^32 e-nodes).**  `Id::from(n: usize)` truncates (`lib.rs:98`), so e-node number 2^32 gets the id 0: `add` of a new
  term returns the id of the first e-node, whose class it overwrites in `classes`; the debug assertion in `make_new_eclass`
  (`egraph.rs:1058`) truncates both sides and does not notice.  Only with explanations enabled the program stops
  (`explain.rs:907`).  `c93_past_counterexample`: two constants become equal without any union.
* **C94 (running twice).**  `run` asserts that no stop reason is set (`run.rs:526`), but never clears it: calling `run` on a
  runner that has already run panics (`c94_twice_panics`), although `Runner` is returned by value and has public fields.
* **C96 (incomparable costs).** `Extractor::new` panics if two e-nodes of one class have costs that `partial_cmp` cannot compare (`c96_incomparable_counterexample`); the documentation of `CostFunction::Cost` says so.
* **C97 (empty classes).** Dropping all e-nodes of one class, which nothing forbids, makes `Extractor::new` panic for the whole e-graph (`c97_empty_panics`), whatever class is to be extracted.
* **C99 (back-off).** Cutting a run in two changes its result under the back-off scheduler, because bans are not handed over (`c99_backoff_counterexample`).
* **C100 (equal names).** Two rules with one name share an entry of the back-off scheduler, so a rule with few matches is banned when its namesake has many; the run prints a warning but goes on (`c100_same_name_counterexample`).
* **C106 (goals that hold from the start).** With explanations enabled `test_runner` asserts that the tree size of each explanation is not zero
  (`src/test.rs:106`). `c106_zero`: if no two expressions were unified, the size is zero. So a test whose goal is already true of the start expression
  panics, although the goal is proved and the proof is accepted by `check_proof`.
* **C24 (unused variables).** `Pattern::vars` lists every variable node of the
  pattern's `RecExpr`, also one that is not reachable from the root. Such a variable
  is not bound by a match, so `Rewrite::new` accepts a rule that then panics:
  `c24_dead_variable_counterexample`. The positive theorem
  `c24_accepted_never_panics` therefore assumes that the variables listed for the
  searched pattern occur in its term (always so for parsed patterns).
* **C26 (ban length 0).** With `ban_length = 0` the backoff scheduler reports that it can stop
  although the banned rule still has matches, so the run ends `Saturated` wrongly:
  `c26_zero_ban_length_counterexample`.
* **C28 (match limit 0).** With `match_limit = 0` every iteration doubles the limit and after
  as many bans as `usize` has bits the `checked_shl` is unwrapped and panics:
  `c28_zero_match_limit_counterexample`.  Also (`c28_settings`): `with_initial_match_limit` and
  `with_ban_length` called after a per-rule call do not affect that rule.
* **C32 (forbidden nodes).** `find_cycles` forbids more e-nodes than needed, and which ones depends on the
  iteration order of the class table; `solve` may panic although the root represents a finite
  term: `c32_order_counterexample`.  On an e-graph that is not rebuilt `find_cycles` indexes
  missing classes and panics.
* **C33 (optimized explanations).** With the optimization of lengths on (default), an explanation request can
  recurse for ever if the e-graph was changed after an earlier optimized request, because
  `shortest_explanation_memo` keeps entries of the earlier request that
  disagree with later ones (without such a change all requests return, `c33_requests`): `c33_optimized_counterexample` (for every fuel the search of the model
  runs out; it depends on the iteration order of a hash map).
* **C34 (checker).** `check_proof` does not compare the parts of two consecutive terms outside the position of
  the rewrite; it accepts a proof of `a = f b` from the rule `a => a`: `c34_checker_unsound_counterexample`.
  Explanations of unions made by a `modify` hook need not be accepted, so `c34_rules` is restricted
  to analyses without one.
* **C36 (copy).** If an e-node is re-added between a union and the next rebuild (explanations on), the node
  table holds duplicates and `copy_without_unions` renames ids, loses terms or panics:
  `c36_copy_counterexample`, `c36_copy_panic_counterexample`.
* **C39 (compact).** `compact` can change the root when an earlier, otherwise unused node denotes the root's term:
  `c39_compact_counterexample`.
* **C40.** The text `(() a)` makes the parser panic (`unreachable!`); the empty expression prints as `()`, which is
  rejected: `c40_panic_counterexample`, `c40_empty_counterexample`.
* **C41.** Atoms with a tab or newline, a leading quote etc. do not survive printing; `List([])` comes back as
  `Empty`; pretty printing drops the quotes of quoted atoms: `c41_counterexamples`,
  `c41_pretty_counterexample`.
* **C43.** `Var::from(Symbol)` makes variables whose text does not parse: `c43_from_symbol_counterexample`.
* **C46.** A language mapper that identifies operators or discriminants, or changes the order of e-nodes, leaves an
  e-graph marked clean that is not congruence closed or whose operator index is wrong:
  `c46_collapse_counterexample`, `c46_index_counterexample`.
* **C47.** `set_analysis_data` can leave analysis work queued with the `clean` flag set; searching an unclean e-graph may silently
  report nothing: `c47_set_data_counterexample`, `c47_dirty_search_counterexample`.
* **C48 (stale ids).** `ConditionEqual` compares ids without `find`; with stale
  bindings it answers false for equal classes: `c48_stale_counterexample`. It is exact
  on a rebuilt e-graph with canonical bindings and no `modify` hook
  (`c48_equal_exact`), and sound always (`c48_equal_sound`).
* **C52 (from an expression).** `Pattern::from(&RecExpr)` compacts (see C39); the expression `[a, b, a]`, which denotes `a`,
  becomes the pattern `b`: `c52_from_expr_counterexample`.
* **C53 (equivs).** For the same reason `equivs` can say that an expression for `f a` equals `b` although they are in
  different classes: `c53_equivs_counterexample`.
* **C55 (equal names).** If two rules have the same name the table of `check_each_explain` keeps one of them and
  the debug assertion of the runner fails although all applications are correct: `c55_same_name_counterexample`.
* **C60 (shadowed variants).** `from_op` takes the first variant that accepts the text, so a node whose text an earlier
  variant accepts is read back as another node: `LangEx.c60_shadowed`.

Notes on claims that hold with less than one may expect:

* C37: `from_enodes` never rebuilds the result; it is congruence closed because both inputs were rebuilt.
* C38: `egraph_union` copies only the terms that occur in recorded unions of the other e-graph.
* C51: with a `modify` hook that merges classes, the number returned by `rebuild` counts only congruence merges.
