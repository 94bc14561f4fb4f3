{"id": "C01", "title": "Equality in a rebuilt e-graph is exactly ground equational consequence", "statement": "After any sequence of add_expr/add/union calls followed by rebuild, two expressions that were added are in the same e-class (find of their ids agree) if and only if their equality follows from the asserted unions by reflexivity, symmetry, transitivity and congruence over ground terms (including derivations that pass through terms never added).", "quantifier": "every language, every finite history of adds and unions ending in rebuild, every pair of added expressions", "why_tests_cant": "The set of histories and of derivations is infinite; a test compares a handful of equalities and can never establish that none is missing (completeness) or spurious (soundness).", "anchors": ["src/egraph.rs: EGraph::add_expr, EGraph::add, EGraph::union, EGraph::rebuild, EGraph::find, process_unions", "src/unionfind.rs"]}
{"id": "C02", "title": "No spurious equality at any moment", "statement": "At every point of every history (also between a union and the next rebuild, and in the middle of rebuilding) whenever find(a)=find(b), the expressions of a and b are equal in every congruence that contains the asserted unions.", "quantifier": "every state reachable by any interleaving of add, union, rebuild, and every congruence relation on terms containing the asserted pairs", "why_tests_cant": "Requires ranging over all intermediate states and all models of the asserted equations.", "anchors": ["src/egraph.rs: perform_union, process_unions, add_uncanonical", "src/explain.rs: Justification"]}
{"id": "C03", "title": "Canonical ids: find is idempotent and unaffected by path compression", "statement": "In every reachable union-find, find terminates, returns an id whose find is itself, and any number of path-compressing finds (find_mut) leaves find of every id unchanged.", "quantifier": "every union-find reachable by make_set, union and compressing finds in any order; every id", "why_tests_cant": "Compression rewrites the parent table in place; tests observe single tables, not every shape of forest.", "anchors": ["src/unionfind.rs: UnionFind::find, find_mut, make_set, union", "src/egraph.rs: EGraph::find"]}
{"id": "C04", "title": "union merges exactly the two classes it is given", "statement": "union(a,b) returns true iff find(a) and find(b) differed before; afterwards find(x)=find(y) holds exactly for the pairs that were equal before or that lie one in each of the two merged classes; nothing else is merged until rebuild and nothing is ever split.", "quantifier": "every reachable e-graph, every pair of valid ids, every pair of observed ids", "why_tests_cant": "Exactness over all pairs of ids in all states is a universal statement.", "anchors": ["src/egraph.rs: EGraph::union, union_trusted, perform_union", "src/unionfind.rs: union"]}
{"id": "C05", "title": "Adding is hash-consed: a present e-node is found, not duplicated", "statement": "Adding an e-node returns an id whose class contains that e-node. Adding or looking up the same e-node again immediately returns the same class and creates no new class, if explanations are off or the e-graph is rebuilt; with explanations on and work pending a second add can create a new id (shown by an example). On a rebuilt e-graph add creates a class only when no congruent e-node exists.", "quantifier": "every reachable e-graph, every e-node over valid ids", "why_tests_cant": "Depends on the relation between the hashcons, the union-find and pending work in every reachable state.", "anchors": ["src/egraph.rs: add, add_uncanonical, lookup, lookup_internal, make_new_eclass"]}
{"id": "C06", "title": "lookup_expr decides representation", "statement": "On a rebuilt e-graph, for an expression all of whose nodes are used by its root, lookup_expr(e) returns Some(c) if and only if e is represented by e-class c (some e-node of c has e's operator and its child classes represent e's children), and then c is canonical; it never changes the e-graph. For an expression with unused nodes it returns Some exactly if in addition every unused node is represented; an example shows that otherwise a represented expression is not found.", "quantifier": "every rebuilt reachable e-graph, every expression", "why_tests_cant": "Infinitely many expressions; completeness (never returning None for a represented term) is not testable.", "anchors": ["src/egraph.rs: lookup_expr, lookup_expr_ids, lookup, process_unions, rebuild_classes"]}
{"id": "C07", "title": "E-graphs only grow", "statement": "No operation ever invalidates an id, separates two ids that were equal, or makes a represented expression unrepresented: after any further adds, unions and rebuilds, every previously valid id is valid, equal ids stay equal, and every term represented in the class of an id is still represented in the class of that id.", "quantifier": "every pair of states where the second is reachable from the first; all ids; all terms", "why_tests_cant": "Monotonicity over arbitrary continuations of a history.", "anchors": ["src/egraph.rs: add, union, rebuild, perform_union, rebuild_classes"]}
{"id": "C08", "title": "rebuild is idempotent", "statement": "Running rebuild on a rebuilt e-graph performs zero unions and changes no class, no equality, no hashcons answer and no operator index.", "quantifier": "every reachable e-graph after rebuild", "why_tests_cant": "Every reachable rebuilt state must be a fixed point.", "anchors": ["src/egraph.rs: rebuild, process_unions, rebuild_classes"]}
{"id": "C09", "title": "rebuild terminates", "statement": "For analyses whose merge reports a change only when the datum strictly climbs in a lattice of finite height (in particular the trivial analysis) and whose modify hook does nothing, rebuild terminates on every reachable e-graph.", "quantifier": "every reachable e-graph (any amount of pending work), every such analysis", "why_tests_cant": "Termination for all inputs is not observable by running finitely many of them.", "anchors": ["src/egraph.rs: process_unions, rebuild", "src/language.rs: Analysis::merge, DidMerge"]}
{"id": "C10", "title": "Well-formed API use never trips an internal panic", "statement": "If the caller only passes ids previously returned by the same e-graph, then add, lookup, union, find and rebuild never panic: no index is out of range, no class is missing, and the internal assertions (fresh hashcons entry on class creation, no memo/class mismatch) hold.", "quantifier": "every reachable e-graph, every call with valid ids", "why_tests_cant": "Panics depend on internal invariants over all histories.", "anchors": ["src/egraph.rs: make_new_eclass (assert memo insert), perform_union (remove/unwrap), Index<Id>, check_memo"]}
{"id": "C11", "title": "Rebuilt e-graph partition invariant", "statement": "After rebuild every class key is its own find, every e-node listed in a class has canonical children, the list is strictly sorted (hence duplicate free), each canonical e-node is listed in exactly one class, and the list of class c consists of exactly the canonical forms of the e-nodes ever added to c.", "quantifier": "every reachable e-graph after rebuild, every class, every e-node", "why_tests_cant": "A universally quantified data-structure invariant after an arbitrary history.", "anchors": ["src/egraph.rs: rebuild_classes, classes, check_memo", "src/eclass.rs: EClass"]}
{"id": "C12", "title": "The operator index is exact after rebuild", "statement": "After rebuild, classes_for_op(d) enumerates, without repetition, exactly the canonical ids of the classes that contain an e-node with discriminant d.", "quantifier": "every rebuilt reachable e-graph, every discriminant", "why_tests_cant": "Pattern search completeness rests on this; tests only see particular graphs.", "anchors": ["src/egraph.rs: classes_for_op, rebuild_classes (classes_by_op)"]}
{"id": "C13", "title": "E-class analysis invariant", "statement": "If merge is a join of a semilattice reporting changes correctly, make is a monotone function of the children's data, and modify does nothing, then after rebuild the data of every class is the least upper bound of make over all e-nodes of the class.", "quantifier": "every such analysis, every reachable e-graph after rebuild, every class", "why_tests_cant": "Fixed point over every propagation schedule, including cyclic e-graphs.", "anchors": ["src/egraph.rs: process_unions (analysis_pending), perform_union (merge), make_new_eclass", "src/language.rs: Analysis"]}
{"id": "C14", "title": "merge_max, merge_min and merge_option honour the DidMerge contract", "statement": "Each stores the max (min, lifted merge) of its arguments, and reports .0 = (result differs from the old first argument) and .1 = (result differs from the second argument).", "quantifier": "every linear order, every pair of values, every inner merge that honours the contract", "why_tests_cant": "Contract over all value pairs and all user supplied inner merges.", "anchors": ["src/language.rs: merge_max, merge_min, merge_option, DidMerge"]}
{"id": "C15", "title": "id_to_expr returns an expression represented by the id", "statement": "For every valid id, id_to_expr(id) returns an expression which is represented in the class of id; on a rebuilt e-graph looking that expression up yields find(id).", "quantifier": "every reachable e-graph, every valid id", "why_tests_cant": "Expressions share sub-terms through a cache and the node table; every table shape matters.", "anchors": ["src/egraph.rs: id_to_expr, id_to_expr_internal, id_to_node"]}
{"id": "C16", "title": "Uncanonical adds remember the exact expression when explanations are on", "statement": "With explanations enabled, id_to_expr(add_expr_uncanonical(e)) denotes exactly the term of e, and remains so after any later operations; adding e a second time returns the same id. Without explanations this fails (shown by an example).", "quantifier": "every reachable e-graph with explanations enabled, every expression, every continuation", "why_tests_cant": "The API documentation promises it for every expression and every prior state.", "anchors": ["src/egraph.rs: add_expr_uncanonical, add_uncanonical, id_to_expr", "src/explain.rs: uncanon_memo"]}
{"id": "C17", "title": "Pattern search is sound", "statement": "Every substitution reported for class c by searching a pattern binds exactly the pattern's variables to ids of the e-graph (canonical ones if c is canonical, as in a search of the whole e-graph), and the pattern matches in c under it; hence every instantiation of the variables by terms represented in the bound classes is a term represented in c.", "quantifier": "every rebuilt e-graph, pattern, class, reported substitution, and choice of represented terms", "why_tests_cant": "Compiled virtual-machine code versus a declarative definition, for all patterns.", "anchors": ["src/machine.rs: Compiler, Machine::run, Program::run_with_limit", "src/pattern.rs: Pattern::search_eclass_with_limit"]}
{"id": "C18", "title": "Pattern search is complete", "statement": "Every substitution of the pattern's variables by classes under which the pattern matches in class c is reported (up to equality of the bound classes) by search_eclass without limit, and search over the e-graph reports it for the canonical id of c with canonical bindings (default setting: e-matching cycles allowed).", "quantifier": "every rebuilt e-graph, pattern, class and matching substitution, whatever order the compiler visits the pattern", "why_tests_cant": "A missed match is silent; saturation claims depend on it for all patterns and graphs.", "anchors": ["src/machine.rs: Compiler::compile, next, Machine::run", "src/pattern.rs: search_with_limit, search_eclass_with_limit", "src/egraph.rs: classes_for_op"]}
{"id": "C19", "title": "Pattern search reports each match once", "statement": "On a rebuilt e-graph the substitutions reported for one class are pairwise different, and each class is reported at most once.", "quantifier": "every rebuilt e-graph, pattern and class", "why_tests_cant": "Counting based back-off scheduling and limits rely on it for all graphs.", "anchors": ["src/machine.rs: run_with_limit", "src/pattern.rs: search_with_limit", "src/egraph.rs: rebuild_classes dedup"]}
{"id": "C20", "title": "A match limit truncates and does nothing else", "statement": "search_eclass_with_limit(l) returns exactly the first min(l,total) substitutions of the unlimited search, and search_with_limit(l) returns at most l substitutions in total, equal to the unlimited result when the total does not exceed l.", "quantifier": "every rebuilt e-graph, pattern, limit (including 0 and the maximum)", "why_tests_cant": "Early exit through a shared mutable register file; all limits and all graphs.", "anchors": ["src/machine.rs: run_with_limit", "src/pattern.rs: search_with_limit", "src/rewrite.rs: search_eclasses_with_limit"]}
{"id": "C21", "title": "The fast path of e-node lookup inside large classes equals the linear scan", "statement": "For a language whose order keeps e-nodes of the same discriminant contiguous, visiting matching e-nodes through binary search on a sorted class visits exactly the matching e-nodes in class order, as the linear scan does.", "quantifier": "every sorted class of every size, every searched e-node", "why_tests_cant": "The path is only taken from 50 e-nodes on and depends on every insertion point.", "anchors": ["src/eclass.rs: for_each_matching_node", "src/language.rs: Language::discriminant, matches"]}
{"id": "C22", "title": "Multi-pattern search is sound and complete", "statement": "Searching a multi-pattern whose first pattern is not a bare variable reports for class c exactly the substitutions that bind all variables and binders such that the first pattern matches in c and every further pattern matches in the class of its binder. If the first pattern is a bare variable, or there is no pattern, searching panics; a first pattern whose root is a variable but which has further, unused nodes passes the check and can panic later although there is a match (shown by an example).", "quantifier": "every rebuilt e-graph, multi-pattern, class and substitution", "why_tests_cant": "Join over arbitrary numbers of patterns sharing variables.", "anchors": ["src/multipattern.rs: MultiPattern", "src/machine.rs: compile_from_multi_pat, Instruction::Scan"]}
{"id": "C23", "title": "Instantiating a pattern adds exactly the instantiated term", "statement": "Applying the right-hand side of a rule to a match adds the pattern instantiated with the bound classes and unions it with the matched class, and reports the class iff something was merged; after rebuild the instantiated term is represented in the matched class.", "quantifier": "every reachable e-graph, pattern, total substitution", "why_tests_cant": "All patterns, all graphs.", "anchors": ["src/pattern.rs: apply_pat, apply_one, apply_matches", "src/egraph.rs: add_instantiation, union_instantiations"]}
{"id": "C24", "title": "Accepted rewrites never use an unbound variable", "statement": "Rewrite::new fails iff the applier mentions a variable that the searcher does not bind; an accepted pattern-to-pattern rewrite never panics on an unbound variable for any match of its searcher, if every variable in the node list of the left pattern occurs in its term (as is the case for parsed patterns). A hand-made left pattern with an unused variable node is accepted and panics when applied (shown by an example).", "quantifier": "every pair of patterns, every e-graph and match", "why_tests_cant": "Panics at application time for any match in any graph.", "anchors": ["src/rewrite.rs: Rewrite::new", "src/subst.rs: Subst::index", "src/pattern.rs: vars, apply_pat"]}
{"id": "C25", "title": "Equality saturation is sound", "statement": "Starting from any e-graph, whatever rules, scheduler, limits and number of iterations, two terms in the same class at the end are equal in every congruence that contains the initial equalities and all instances of the rules' left and right sides.", "quantifier": "every rule set of pattern rewrites, scheduler decision sequence, iteration count, e-graph", "why_tests_cant": "Ranges over all runs and all models of the rule theory.", "anchors": ["src/run.rs: Runner::run, run_one", "src/rewrite.rs: Rewrite::apply", "src/pattern.rs: Applier for Pattern"]}
{"id": "C26", "title": "Saturated means closed under the rules", "statement": "If the runner stops with Saturated, then in the final e-graph, for every unconditional pattern rule and every match of its left side in a class, the instantiated right side is represented in that same class.", "quantifier": "every rule set, e-graph and scheduler that, if it lets the run stop, has searched all rules completely (simple scheduler; back-off scheduler whose ban lengths do not shift to zero, in particular the default one)", "why_tests_cant": "Absence of any further useful match is a universal statement about the final graph.", "anchors": ["src/run.rs: run_one (can_be_saturated), StopReason::Saturated, can_stop", "src/pattern.rs: apply_matches"]}
{"id": "C27", "title": "The runner respects its limits and always says why it stopped", "statement": "run returns with exactly one stop reason; the number of recorded iterations never exceeds max(1, iter_limit); IterationLimit(n), NodeLimit(s) are reported only when n>=iter_limit, s>node_limit; if none of limits, hooks or saturation triggers, it keeps going.", "quantifier": "every configuration, hook and rule behaviour, clock behaviour", "why_tests_cant": "All schedules of clock readings, hooks and rule outcomes.", "anchors": ["src/run.rs: Runner::run, run_one, check_limits, RunnerLimits"]}
{"id": "C28", "title": "Back-off scheduling: bans are exact and temporary", "statement": "A rule is searched in iteration i iff i>=banned_until; it is banned exactly when it produced more matches than match_limit*2^(number of bans), for ban_length*2^(number of bans) iterations; a do_not_ban rule is never banned; can_stop answers true iff no rule is banned at i and otherwise fast-forwards the bans by a common amount such that the earliest one ends. The shifts are those of usize: with match limit 0 a rule is banned so often that the shift panics (shown by an example).", "quantifier": "every scheduler state, iteration number, match count", "why_tests_cant": "Stateful arithmetic over arbitrary histories, including overflow corners.", "anchors": ["src/run.rs: BackoffScheduler, search_rewrite, can_stop, do_not_ban"]}
{"id": "C29", "title": "Extraction returns a represented term of the advertised cost", "statement": "For every cost function that is monotone in, and not smaller than, the children's costs, find_best(c) terminates and returns (cost, term) with term represented in class c and cost equal to the cost function evaluated on the term bottom-up.", "quantifier": "every reachable e-graph, rebuilt or not (including cyclic ones), every cost function that is a function of the operator and the costs of the children, every class", "why_tests_cant": "All e-graphs and all cost functions.", "anchors": ["src/extract.rs: Extractor::new, find_best, find_costs, make_pass, CostFunction::cost_rec"]}
{"id": "C30", "title": "Extraction is optimal", "statement": "No term represented in class c has smaller cost than the one find_best(c) returns.", "quantifier": "every reachable e-graph, rebuilt or not, monotone cost function not smaller than the costs of the children, class, represented term", "why_tests_cant": "Infinitely many represented terms in cyclic e-graphs.", "anchors": ["src/extract.rs: Extractor, find_costs, make_pass, node_total_cost, AstSize, AstDepth"]}
{"id": "C31", "title": "Extraction always succeeds", "statement": "The cost fixpoint computation terminates after at most (number of classes + 1) passes, assigns a cost to every class, and find_best never panics for an id of the e-graph.", "quantifier": "every reachable e-graph, rebuilt or not, cost function as above with a total comparison, iteration order of the class table", "why_tests_cant": "Termination/totality over all e-graphs and hash orders.", "anchors": ["src/extract.rs: find_costs, find_best, find_best_node"]}
{"id": "C32", "title": "Extraction by integer linear programming", "statement": "On a rebuilt e-graph LpExtractor::new and solve terminate: every e-node the extractor forbids lies on a cycle, the remaining e-nodes form no cycle, and whatever solution the solver returns, the result is a well-formed expression with one index per root, whose term is one of the terms of that root, made of one e-node per class. A best solution gives the least total cost (each e-node counted once) among all selections without forbidden e-nodes; the program is solvable exactly if there is such a selection, always so when the e-graph has no cycle. Finding: too many e-nodes can be forbidden, depending on the iteration order of the class table, so solve may panic although the root represents a finite term.", "quantifier": "every rebuilt state of every history, every iteration order of the class table, every cost function (non-negative for optimality), all roots, every solver that returns solutions of the program it was given", "why_tests_cant": "Graph property over all e-graphs and orders, and for every solver.", "anchors": ["src/lp_extract.rs: find_cycles, build_ilp_model, add_constraints, extract_solution"]}
{"id": "C33", "title": "Every equality has an explanation", "statement": "With explanations enabled, for any two ids in the same class a request for an explanation terminates and yields a proof, with the optimization of lengths on or off, and so does every further request until the e-graph is changed; ids that are not equal or explanations off give a panic. Switching explanations off changes nothing else, and once the e-graph is not empty they stay off whatever is called later. Finding: a request can recurse forever if an earlier optimized request was followed by further adds and unions, because it left entries in the shared table of shortest explanations.", "quantifier": "every e-graph with explanations enabled reached by any history of adds, unions, rebuilds and unoptimized requests; all lists of requests about equal ids; every order of hash tables and heaps", "why_tests_cant": "Termination and existence over all proof forests.", "anchors": ["src/explain.rs: Explain::add, union, make_leader, common_ancestor, explain_enodes, explain_adjacent", "src/egraph.rs: explain_equivalence, perform_union"]}
{"id": "C34", "title": "Explanations are valid proofs", "statement": "In every flattened explanation consecutive terms differ by exactly one rewrite at one position, justified by a union the user asserted (with its name and direction); in the tree form steps inside congruence are allowed as well. The first term is the left expression and the last term the right one. If all unions were made by rules between two patterns with distinct names, and no modify hook acts, check_proof with these rules accepts it. check_proof itself accepts some wrong proofs (shown by an example).", "quantifier": "every reachable e-graph with explanations enabled, all equal id pairs", "why_tests_cant": "All proof shapes.", "anchors": ["src/explain.rs: make_flat_explanation, flatten_proof, flatten_explanation, check_proof, check_rewrite_at", "src/egraph.rs: explain_equivalence"]}
{"id": "C35", "title": "The recorded unions suffice to recreate the e-graph's equalities", "statement": "get_union_equalities lists only unions asserted through the API and the congruence closure of the listed ones equals the equality of the rebuilt e-graph.", "quantifier": "every reachable e-graph with explanations enabled", "why_tests_cant": "All histories.", "anchors": ["src/explain.rs: get_union_equalities", "src/egraph.rs: egraph_union, get_union_equalities"]}
{"id": "C36", "title": "copy_without_unions keeps the same expressions under the same ids", "statement": "If different ids of the original stand for different expressions, the copy has the same ids, every id stands for the same expression as before, and no two of its ids are equal. The condition holds whenever e-nodes are only added while no union is waiting for rebuild; without it the copy can lose expressions, rename ids or panic (shown by counterexamples). In every copy different expressions are in different classes.", "quantifier": "every reachable e-graph with explanations enabled", "why_tests_cant": "It must hold for all histories; it fails exactly for those that add an e-node again between a union and rebuild.", "anchors": ["src/egraph.rs: copy_without_unions, add_uncanonical"]}
{"id": "C37", "title": "Intersection of e-graphs is the intersection of equalities", "statement": "For two rebuilt e-graphs (any analyses) and a result analysis without a modify hook, egraph_intersect returns; the result represents exactly the terms represented in both e-graphs, and makes two terms equal iff both e-graphs do, whatever the order in which classes are visited, both before and after the result is rebuilt.", "quantifier": "all pairs of rebuilt e-graphs, all iteration orders, all pairs of terms", "why_tests_cant": "Infinitely many graphs and terms.", "anchors": ["src/egraph.rs: egraph_intersect, intersect_classes, get_product_id"]}
{"id": "C38", "title": "Union of e-graphs is the join of equalities", "statement": "After egraph_union two ids are in the same class iff terms that they represent are equal by ground equational reasoning from the equations that held in either e-graph; ids of the first e-graph keep their terms and equalities; the call returns whenever the other e-graph has explanations enabled.", "quantifier": "all pairs of e-graphs with explanations enabled", "why_tests_cant": "All graphs, all terms.", "anchors": ["src/egraph.rs: egraph_union, union_instantiations, id_to_pattern"]}
{"id": "C39", "title": "RecExpr transformations preserve the denoted term", "statement": "compact, extract, build_recexpr and join_recexprs return an expression whose children precede their parents and that denotes the term specified: build_recexpr the unfolding, extract the sub-term, join_recexprs the joined term; compact keeps the set of denoted terms, makes nodes pairwise different, and keeps the root's term if no earlier node denotes the same term, in particular if every node is used by the root; otherwise it can change it (shown by an example). build_recexpr and extract return pairwise different nodes; join_recexprs copies, and need not.", "quantifier": "every expression (any sharing, dead nodes), every node function without cycles", "why_tests_cant": "All DAG shapes.", "anchors": ["src/language.rs: RecExpr::compact, extract, is_dag, Language::build_recexpr, try_build_recexpr, join_recexprs"]}
{"id": "C40", "title": "Printing and parsing expressions round-trips", "statement": "Parsing the printed s-expression of an expression yields an expression denoting the same term, for languages whose operator printing/parsing round-trips; pretty-printed text is read back as the same s-expression. The parser accepts exactly the texts described, never panics on texts without a list that starts with (), panics on (() a), and does not accept the text () printed for the empty expression (both shown by examples).", "quantifier": "every expression, every such language", "why_tests_cant": "All terms; character-level corner cases.", "anchors": ["src/language.rs: RecExpr::to_sexp, FromStr for RecExpr, parse_sexp_into", "src/sexp.rs"]}
{"id": "C41", "title": "S-expression text round-trip", "statement": "Printing an s-expression and parsing the text returns the same s-expression for every tree whose atoms are printable by the printer (precise condition), and there are atoms (with a tab, newline or quote) for which it does not.", "quantifier": "every s-expression tree", "why_tests_cant": "All strings.", "anchors": ["src/sexp.rs: Display for Sexp, parse, parse_one"]}
{"id": "C42", "title": "Substitutions are finite maps", "statement": "Subst insert/get behave as a finite map: get after insert returns the last inserted value, other variables are unaffected, insert returns the previous value, and iteration lists each variable once.", "quantifier": "every sequence of inserts, every variable", "why_tests_cant": "All sequences.", "anchors": ["src/subst.rs: Subst::insert, get, index, extend"]}
{"id": "C43", "title": "Pattern variables round-trip through text", "statement": "Every variable obtained by parsing prints to a text that parses to the same variable, and texts are accepted exactly when they start with ? (numbers after ?#).", "quantifier": "every string, every variable", "why_tests_cant": "All strings.", "anchors": ["src/subst.rs: FromStr for Var, Display for Var"]}
{"id": "C44", "title": "alpha_rename is a canonical renaming", "statement": "alpha_rename replaces variables by an injective renaming determined by first occurrence; two patterns have equal results iff they are equal up to an injective renaming of variables.", "quantifier": "every pattern, every pair of patterns", "why_tests_cant": "All patterns.", "anchors": ["src/pattern.rs: PatternAst::alpha_rename"]}
{"id": "C45", "title": "The analysis work queue is a duplicate-free FIFO", "statement": "UniqueQueue pops elements in first-insertion order, never holds an element twice, is_empty agrees with the set, and each inserted element is eventually popped.", "quantifier": "every sequence of insert, extend, pop", "why_tests_cant": "All operation sequences.", "anchors": ["src/util.rs: UniqueQueue"]}
{"id": "C46", "title": "Mapping an e-graph to another language preserves structure", "statement": "map_eclass/map_egraph keeps ids, equality of ids, and represented terms (translated operator by operator), and the clean flag, whatever the translation. A rebuilt e-graph is mapped to a rebuilt one if the maps of operators and discriminants are injective and keep the order; examples show that otherwise the result may have duplicate e-nodes or a wrong operator index.", "quantifier": "every e-graph reachable by API calls, every operator and discriminant translation (with the stated conditions for the last part), every later use of the mapped e-graph", "why_tests_cant": "All graphs.", "anchors": ["src/egraph.rs: LanguageMapper::map_egraph, map_eclass"]}
{"id": "C47", "title": "The clean flag means no pending work, and a dirty graph is never searched", "statement": "Between API calls, whenever the clean flag is set there are no pending congruence repairs and all class contents are canonical; searching a class of an unclean graph panics, and searching a whole unclean graph panics or visits no class and reports nothing (it may report nothing silently although a match is represented, because the operator index is stale).", "quantifier": "every reachable e-graph", "why_tests_cant": "All histories (the flag is stale inside modify hooks and after set_analysis_data).", "anchors": ["src/egraph.rs: clean, add_uncanonical, perform_union, set_analysis_data, rebuild", "src/machine.rs: run_with_limit assert"]}
{"id": "C48", "title": "Conditional rewrites fire only when the condition holds", "statement": "A conditional applier changes the e-graph for exactly those matches whose condition returned true. If ConditionEqual holds for a match, then both instantiated sides are in the same class; conversely, on a rebuilt e-graph, with canonical ids in the substitution and no modify hook, it holds if they are. With non-canonical ids in the substitution it can miss an equality (shown by an example).", "quantifier": "every e-graph, condition, match", "why_tests_cant": "All graphs and conditions.", "anchors": ["src/rewrite.rs: ConditionalApplier, ConditionEqual"]}
{"id": "C49", "title": "cost_rec equals the cost of the tree", "statement": "The total cost of an expression computed through its shared nodes equals the cost function folded over the denoted tree; AstSize counts nodes and AstDepth the height (saturating at the maximum).", "quantifier": "every expression, every cost function", "why_tests_cant": "All DAGs.", "anchors": ["src/extract.rs: CostFunction::cost_rec, AstSize, AstDepth"]}
{"id": "C50", "title": "The modify hook has seen the final data", "statement": "Let P(d,t) say that a class with datum d is supposed to contain the term t, and let modify, run on a class, add everything the datum of that class promises (e.g. constant folding adds the literal). Then after every history of add, union, set_analysis_data and rebuild, every e-class contains every term that its current datum promises: no change of a datum is left without a following call of modify on that class, even when modify itself changes the e-graph and triggers nested calls.", "quantifier": "every analysis and promise P with that property, every history of API calls, every class, every promised term", "why_tests_cant": "Data change at many places (new class, union, propagation inside rebuild, set_analysis_data, nested hooks); a missing call shows only for particular schedules of merges and propagations.", "anchors": ["src/egraph.rs: make_new_eclass, add_uncanonical (N::modify)", "src/egraph.rs: perform_union (N::modify)", "src/egraph.rs: process_unions (N::modify)", "src/egraph.rs: set_analysis_data", "src/language.rs: Analysis::modify"]}
{"id": "C51", "title": "What union and rebuild return counts merged classes, and sizes count what they say", "statement": "number_of_classes is the number of equivalence classes of ids. With a modify hook that does nothing, union returns true exactly if the two ids were in different classes and then reduces number_of_classes by one, and rebuild returns exactly the number by which it reduces number_of_classes. is_empty, and a total_size of zero, mean that nothing has been added yet. After rebuild, total_number_of_nodes is the number of e-nodes with canonical children that lookup finds.", "quantifier": "every analysis with trivial modify, every history, every pair of ids", "why_tests_cant": "The number of congruence merges depends on the whole history and the order in which pending parents are processed.", "anchors": ["src/egraph.rs: number_of_classes", "src/egraph.rs: union, perform_union", "src/egraph.rs: process_unions, rebuild"]}
{"id": "C52", "title": "Expressions and texts as patterns", "statement": "Pattern::new, Pattern::from(expr) and parsing a pattern give a pattern that denotes the given term (for an expression: without variables), and converting a pattern back into an expression succeeds exactly if it has no variable, otherwise reporting the first one. Exception (finding): when a node before the last one denotes the term of the whole expression, the pattern can denote another term.", "quantifier": "every well-formed expression and every text; every language with uniform operator parsing; every order in which the compiler visits its work table", "why_tests_cant": "Expressions are arbitrary DAGs with sharing and unused nodes; a test covers a few shapes only.", "anchors": [{"file": "src/pattern.rs", "symbol": "Pattern::new"}, {"file": "src/pattern.rs", "symbol": "From<&RecExpr<L>> for Pattern<L>"}, {"file": "src/pattern.rs", "symbol": "TryFrom<PatternAst<L>> for RecExpr<L>"}, {"file": "src/pattern.rs", "symbol": "FromStr for Pattern<L>"}]}
{"id": "C53", "title": "equivs and check_goals answer by representation", "statement": "On a rebuilt e-graph equivs(e1,e2) returns the one canonical id of the class that represents both expressions, and the empty list if there is none; check_goals(id, goals) returns exactly if every goal pattern has a match in the class of id and panics otherwise.", "quantifier": "every rebuilt e-graph reachable by API calls, every two expressions whose root term is not also denoted by an unused earlier node, every list of goal patterns, every hash order", "why_tests_cant": "The answer must agree with representation for all histories and expressions, not for sampled ones.", "anchors": [{"file": "src/egraph.rs", "symbol": "EGraph::equivs"}, {"file": "src/egraph.rs", "symbol": "EGraph::check_goals"}]}
{"id": "C54", "title": "Self-checks of debug builds never fail", "statement": "Whenever an e-graph is not in need of a rebuild (in particular right after every rebuild), the consistency check that debug builds run at the end of rebuild passes, in whatever order hash maps are iterated, and no class is listed twice under an operator: a debug build never panics where a release build returns. Conversely the check is meaningful: if it passes, every e-node listed in a class is found by the hashcons, in that class.", "quantifier": "all languages, analyses (including ones whose modify hook changes the e-graph), histories of API calls, iteration orders of the hash maps", "why_tests_cant": "The check runs inside tests only on the states the tests happen to reach; that it can never fire is a statement about every history.", "anchors": ["src/egraph.rs: check_memo, rebuild_classes (debug assertion), rebuild"]}
{"id": "C55", "title": "The runner's self-check of explanations never fails for pattern rules with distinct names", "statement": "If every union was made by applying a rule whose two sides are patterns, and the rules have different names, then the check of all recorded explanation steps that a runner makes in debug builds passes, after any history. With two rules of the same name (which the runner only warns about) it can fail, i.e. a debug build panics although nothing is wrong.", "quantifier": "all languages, analyses, lists of rules between two patterns with distinct names, histories whose unions are all made by these rules, recorded steps", "why_tests_cant": "Whether the check passes depends on the whole forest of recorded steps, including re-rooted and reversed ones; tests see a few forests.", "anchors": ["src/explain.rs: check_each_explain, node_to_flat_explanation, check_rewrite", "src/egraph.rs: check_each_explain", "src/run.rs: run_one"]}
{"id": "C56", "title": "Explanations of matches", "statement": "An explanation returned for a match (an expression, a pattern and a substitution) is a valid proof, also when flattened, that starts with the given expression and ends with the instance of the pattern in which each variable is replaced by the expression of the class the substitution gives it; all its steps are unions that were asserted.", "quantifier": "all languages, analyses without a modify hook, histories, expressions, patterns, substitutions, optimization of lengths on or off", "why_tests_cant": "Validity of the proof is a statement about every step of every proof of every e-graph.", "anchors": ["src/egraph.rs: explain_matches"]}
{"id": "C57", "title": "After a run, every explanation is a proof by the rules that were run", "statement": "Take an e-graph with explanations enabled on which no union was requested, and run rewrite rules with distinct names, each made of two patterns (with or without a condition that only adds terms). However the scheduler chooses among the matches, whatever the limits and wherever the run stops, each explanation returned afterwards for two ids is a sequence of terms from the first term to the second in which every step rewrites one position by an instance of the rule it names, in the direction it states; its own check (check_proof with these rules) accepts it; and the self-check of explanations that debug builds assert at the end of each iteration passes.", "quantifier": "All languages, patterns, rules, conditions that only add, schedulers selecting among found matches, limits, clocks, hooks that request no unions, iteration orders, and all pairs of ids explained afterwards.", "why_tests_cant": "The log of unions behind an explanation depends on the whole history of matches, applications, congruences and rebuilds; a test checks one run of one rule set.", "anchors": [{"file": "src/run.rs", "symbol": "Runner::run"}, {"file": "src/run.rs", "symbol": "Runner::run_one"}, {"file": "src/pattern.rs", "symbol": "Pattern::apply_matches"}, {"file": "src/rewrite.rs", "symbol": "ConditionalApplier::apply_one"}, {"file": "src/explain.rs", "symbol": "check_each_explain"}, {"file": "src/explain.rs", "symbol": "explain_equivalence"}]}
{"id": "C58", "title": "Simplification by run and extract is sound and never makes things worse", "statement": "Give an expression to a runner (with_expr), run rules and extract the best expression of the resulting root. Whatever the scheduler selects, whichever limit stops the run and in whatever order tables are iterated, extraction succeeds; the extracted expression denotes a term equal to the input in every congruence that contains the equalities asserted before, all instances of the rules and what hooks and the analysis may unite; it has the reported cost; and no represented term, in particular not the input, is cheaper.", "quantifier": "All languages, expressions, rule sets (with or without conditions), schedulers selecting among found matches, limits, clocks, hooks, analyses sound for the congruence, admissible cost functions, iteration orders and earlier histories.", "why_tests_cant": "It composes adding, searching, applying, rebuilding and extraction over runs of unbounded length; a test sees one expression and one run.", "anchors": [{"file": "src/run.rs", "symbol": "Runner::with_expr"}, {"file": "src/run.rs", "symbol": "Runner::run"}, {"file": "src/extract.rs", "symbol": "Extractor::new"}, {"file": "src/extract.rs", "symbol": "Extractor::find_best"}]}
{"id": "C59", "title": "Analysis data describe every term of their class", "statement": "Let an e-class analysis be a correct abstraction of terms: make of an e-node describes op(ts) when the children data describe ts, merge keeps what both data describe, modify requests only unions and data that are correct given correct data. Then at every moment of every history with correct unions (also between rebuilds, and during and after runs) the datum of each class describes every term the class represents, and terms of one class are equal in the intended meaning, even though modify may act on the data (constant folding). For a join analysis after rebuild the datum is an upper bound of the abstract values of all represented terms.", "quantifier": "All languages, meanings of equality (congruences), meanings of data, analyses correct for them, histories of API calls and runs, and all represented terms, of any size.", "why_tests_cant": "A class may represent infinitely many terms, and data flow through merges, parents and nested modify calls in history-dependent order.", "anchors": [{"file": "src/language.rs", "symbol": "Analysis"}, {"file": "src/egraph.rs", "symbol": "EGraph::perform_union"}, {"file": "src/egraph.rs", "symbol": "EGraph::process_unions"}, {"file": "src/egraph.rs", "symbol": "EGraph::add"}]}
{"id": "C60", "title": "Languages made by define_language! meet the contract of Language and read back their own nodes", "statement": "For every declaration given to define_language! (string variants with or without children, data variants with or without children, children as [Id; N], Id, Vec<Id> or Box<[Id]>), the generated matches compares variant, data and number of children, the derived order is total and keeps values of one variant together, map_children only replaces ids, and Display prints the operator only. from_op returns the value of the first variant in the order of the declaration that accepts the text and the number of children, returns an error exactly if there is none, and never panics. Display followed by from_op gives the node back exactly if no earlier variant accepts its text with that many children (data types reading back what they print); so expressions of such nodes round-trip through text.", "quantifier": "all declarations (any number of variants, any data types with lawful Eq, Ord), all nodes, texts and child lists, all expressions", "why_tests_cant": "A test instantiates the macro with a handful of enums and a few nodes; the contract is about every declaration and every node, and shadowing depends on all pairs of variants.", "anchors": [{"file": "src/macros.rs", "symbol": "define_language"}, {"file": "src/language.rs", "symbol": "LanguageChildren"}, {"file": "src/language.rs", "symbol": "FromOp"}, {"file": "src/language.rs", "symbol": "SymbolLang"}]}
{"id": "C61", "title": "An e-graph read back from serialization is the e-graph that was written", "statement": "Writing an e-graph with serde and reading it back (at any point of its life) gives an e-graph with the same ids, find, lookup, classes, represented terms, recorded unions and explanation state, on which all later operations are as correct as on the original; it is marked unclean, so searching it before rebuild panics instead of giving wrong results. If the e-graph was rebuilt before writing, rebuild after reading performs no union, changes no class, restores the list of classes of every operator, and every search then finds what it found before.", "quantifier": "all languages, analyses, histories before writing and after reading, all patterns", "why_tests_cant": "The repository's test writes one small e-graph and discards the result; whether the skipped fields are recomputed exactly depends on the whole state.", "anchors": [{"file": "src/egraph.rs", "symbol": "EGraph (serde attributes)"}, {"file": "src/explain.rs", "symbol": "Explain (serde attributes)"}, {"file": "src/egraph.rs", "symbol": "EGraph::rebuild_classes"}]}
{"id": "C62", "title": "Rules between multi-patterns are sound and do what they say", "statement": "A rewrite whose left and right sides are multi-patterns (v1 = p1, ... => w1 = q1, ...) performs only unions that follow from the rule: if an intended congruence is closed under the rule read as a Horn clause (a binder on the right that is not bound yet names the new term), every union made by applying its matches is correct. Hence equality saturation with any mixture of pattern rules, multi-pattern rules and other rules sound in this sense only equates terms that are equal in the intended meaning. Applying matches never panics, and afterwards the right-hand sides are present for every match, each binder being in the class of the instances of its patterns. Negative part: a run with such a rule never reports Saturated as long as the rule has a match, because the applier reports a changed id for every match.", "quantifier": "all languages, analyses whose modify is sound for the intended congruence, histories, multi-patterns, matches, run configurations, schedulers, hooks and intended congruences", "why_tests_cant": "Tests apply a few multi-rules to small e-graphs and check one equality; that no wrong union is ever made concerns all rules, all e-graphs and all interleavings of rules.", "anchors": [{"file": "src/multipattern.rs", "symbol": "Applier for MultiPattern (apply_one, apply_matches, vars)"}, {"file": "src/multipattern.rs", "symbol": "Searcher for MultiPattern"}, {"file": "src/rewrite.rs", "symbol": "Rewrite::new, Rewrite::apply"}, {"file": "src/run.rs", "symbol": "Runner::run"}]}
{"id": "C63", "title": "The text of a multi-pattern is read as the clauses it contains", "statement": "MultiPattern::from_str accepts exactly the texts that consist of clauses ?v = p = q ... separated by commas (blank clauses are skipped, white space around clauses, variables and patterns is ignored) and yields one pair (v, p) for each pattern in the order of the text; the patterns are well formed and denote the terms read from their texts. If it returns an error, the error describes the first clause that is not of this form: the variable is examined first, then the patterns in order, then whether there is any pattern. A multi-pattern written as ?v = p, ?w = q whose variable names and patterns contain neither a comma nor = is read back. Negative part: operators that contain = or a comma cannot be used: (<= ?a ?b) is rejected and a=b is silently read as two patterns; a text without clauses is accepted and gives a multi-pattern that panics when searched.", "quantifier": "all texts, all languages and all lists of clauses", "why_tests_cant": "The set of texts is infinite; tests parse a handful of multi-patterns.", "anchors": [{"file": "src/multipattern.rs", "symbol": "FromStr for MultiPattern"}, {"file": "src/multipattern.rs", "symbol": "MultiPatternParseError"}]}
{"id": "C64", "title": "check_proof accepts exactly the explanations whose every step is an instance of its rule", "statement": "Given rules with distinct names and an explanation that is a chain of terms, each with exactly one annotated position that says which rule rewrote it and in which direction, Explanation::check_proof returns normally if and only if every annotated step whose rule has two patterns among the given rules is an instance of that rule at the annotated position (the sides of the rule are matched by the term before and the term after at that position under one assignment of the variables), and it panics otherwise. Steps whose rule is not in the list, or has no patterns, are accepted. For any explanation whatsoever, it returns normally only if the first term is unannotated and every later term carries annotations in exactly one direction. Negative part (c34_checker_unsound_counterexample): the checker does not compare the parts of two consecutive terms outside the annotated position, so for chains that are not already known to agree there it accepts wrong steps.", "quantifier": "all lists of rules with distinct names and well-formed patterns, and all explanations whose consecutive terms differ only at the annotated position", "why_tests_cant": "Tests check a few correct proofs; that no wrong step is accepted quantifies over all rules, terms and positions.", "anchors": [{"file": "src/explain.rs", "symbol": "Explanation::check_proof"}, {"file": "src/explain.rs", "symbol": "Explanation::check_rewrite_at"}, {"file": "src/explain.rs", "symbol": "Explanation::check_rewrite"}, {"file": "src/explain.rs", "symbol": "FlatTerm::rewrite"}, {"file": "src/explain.rs", "symbol": "FlatTerm::make_bindings"}, {"file": "src/explain.rs", "symbol": "FlatTerm::from_pattern"}]}
{"id": "C65", "title": "id_to_pattern cuts a term at the given ids", "statement": "For a valid id and any map of substitutions, id_to_pattern returns a pattern and a substitution, without a panic. The pattern is the term that was added under the id in which every id listed in the map (also the id itself) is a variable ?<id> (different ids give different variables) and nothing below it is visited; the substitution binds exactly the variables that occur in the pattern, each to the id the map gives for it. Putting the terms of the ids back for the variables yields the term of the id, and if the map sends every id to an id of the same class, the pattern matches under the substitution in the class of the id.", "quantifier": "all histories, valid ids and maps of substitutions", "why_tests_cant": "No test calls id_to_pattern with a non-empty map; shared sub-terms, nested and unused substitutions range over all DAGs.", "anchors": [{"file": "src/egraph.rs", "symbol": "EGraph::id_to_pattern"}, {"file": "src/egraph.rs", "symbol": "EGraph::id_to_pattern_internal"}]}
{"id": "C66", "title": "Searching without cycles drops only matches in classes that are below themselves", "statement": "If allow_ematching_cycles returns false, searching a pattern in a class (or in the whole clean e-graph) reports a sub-sequence of what is reported if it returns true. For a class that is not below itself (it is not an argument, directly or through other e-nodes, of one of its own e-nodes) nothing is missing. No reported substitution of a pattern that is not a variable binds a variable to the class in which it was found. Negative parts: searching a class by a non-canonical id reports such substitutions all the same; and for multi-patterns the option drops matches in e-graphs without any cycle, namely those where two clauses match in the same class as the first.", "quantifier": "all histories, clean states, patterns, limits and classes", "why_tests_cant": "The option is not tested at all; which matches it drops depends on the cyclic structure of arbitrary e-graphs.", "anchors": [{"file": "src/machine.rs", "symbol": "Program::run_with_limit"}, {"file": "src/language.rs", "symbol": "Analysis::allow_ematching_cycles"}]}
{"id": "C67", "title": "Printed flat explanations can be read back, in one way only", "statement": "get_flat_string of an explanation of two ids has one line per flat term; every line is read by the s-expression parser, and is the documented rendering (Rewrite=> and Rewrite<= annotations) of exactly one flat term with legible operators, the one at that position. The first line is the text of the expression of the first id; get_recexpr of the last flat term does not panic and is an expression of the term of the second id. Two explanations with the same text are equal. Assumptions: operator and rule names are plain atoms without newlines and no operator is called Rewrite=> or Rewrite<=. Negative part: with such an operator two different flat terms have the same text.", "quantifier": "all languages with legible operators, all e-graph histories with explanations enabled, all explained pairs", "why_tests_cant": "Tests compare a handful of printed explanations with strings; that the text determines the proof is a claim about all proofs.", "anchors": [{"file": "src/explain.rs", "symbol": "FlatTerm::get_string"}, {"file": "src/explain.rs", "symbol": "FlatTerm::get_sexp"}, {"file": "src/explain.rs", "symbol": "Explanation::get_flat_string"}, {"file": "src/explain.rs", "symbol": "Explanation::get_flat_strings"}, {"file": "src/explain.rs", "symbol": "FlatTerm::get_recexpr"}]}
{"id": "C68", "title": "Printed tree explanations, with and without let bindings, show the same proof", "statement": "get_string of an explanation does not panic and is read back as an s-expression (Explanation t1 ... tn) that shows this explanation and no other one with legible names. get_string_with_let does not panic, is read back by the parser, and replacing its let-bound names by what they are bound to gives exactly the s-expression of get_string. Assumption: no operator or rule is named v_N. Negative parts: an operator v_0 is captured by a generated let; and the lets do not share everything that is shared (a term inside a bound term is printed again).", "quantifier": "all languages with legible operators, all e-graph histories with explanations enabled, all explained pairs, all sharing between the sub-proofs", "why_tests_cant": "The generated names and the order of the bindings depend on the pointers shared in an arbitrary proof.", "anchors": [{"file": "src/explain.rs", "symbol": "Explanation::get_string"}, {"file": "src/explain.rs", "symbol": "Explanation::get_string_with_let"}, {"file": "src/explain.rs", "symbol": "Explanation::get_sexp_with_let"}, {"file": "src/explain.rs", "symbol": "Explanation::find_to_let_bind"}, {"file": "src/explain.rs", "symbol": "TreeTerm::get_sexp_with_bindings"}]}
{"id": "C69", "title": "Size and ends of tree explanations", "statement": "get_tree_size of an explanation does not panic and returns the number of different unions the explanation uses (unordered pairs of ids connected by a rule step, each of which is justified by a union of these ids in the annotated direction); without a modify hook it is at most the number of unions asserted. get_initial_flat_term of the first tree term is the expression of the first id and get_last_flat_term of the last tree term that of the second. Negative part: it is not the number of rewrites in the let-bound form as documented, since a union used in both directions counts once.", "quantifier": "all e-graph histories with explanations enabled, all explained pairs", "why_tests_cant": "The count is by hash sets of addresses and of pairs of ids along an arbitrary recursion; tests only check the size of fixed proofs.", "anchors": [{"file": "src/explain.rs", "symbol": "Explanation::get_tree_size"}, {"file": "src/explain.rs", "symbol": "Explanation::tree_size"}, {"file": "src/explain.rs", "symbol": "TreeTerm::get_initial_flat_term"}, {"file": "src/explain.rs", "symbol": "TreeTerm::get_last_flat_term"}]}
{"id": "C70", "title": "Optimizing explanation lengths does not make explanations longer", "statement": "If every union asked for by the caller merged two different classes, then a flat explanation of a and b requested with any setting of the length optimization, after any earlier explanation requests and settings, has at most as many flat terms as the explanation of a and b given with the optimization switched off from the start; and without optimization the explanations of (a, b) and of (b, a) have the same length. Negative part: with redundant unions (of ids that are already equal) an explanation requested with the optimization on, as it is by default, can be longer than the one without.", "quantifier": "all e-graph histories with explanations enabled and without redundant unions, no modify hook, all lists of earlier requests and switches of the setting, all iteration orders of the hash maps, all pairs of equal ids", "why_tests_cant": "The repository tests compare optimized and unoptimized lengths on a few math equalities; the claim quantifies over all histories and all caches left by earlier requests.", "anchors": [{"file": "src/explain.rs", "symbol": "Explain::calculate_shortest_explanations"}, {"file": "src/explain.rs", "symbol": "Explain::greedy_short_explanations"}, {"file": "src/explain.rs", "symbol": "Explain::explain_enodes"}, {"file": "src/explain.rs", "symbol": "Explain::explain_adjacent"}, {"file": "src/explain.rs", "symbol": "Explain::get_neighbor"}, {"file": "src/explain.rs", "symbol": "Explain::set_parent"}, {"file": "src/egraph.rs", "symbol": "with_explanation_length_optimization"}, {"file": "src/egraph.rs", "symbol": "without_explanation_length_optimization"}]}
{"id": "C71", "title": "EClass::parents lists exactly the uses of a class", "statement": "At any moment, an id p is listed by egraph[c].parents() exactly as often as the e-node returned by id_to_node(p) has arguments in the class of c, if it is listed at all; every e-node in any class that has an argument in the class of c is represented in the list by an id of the same class whose e-node is equal up to equality of arguments; so the classes of the listed ids are exactly the classes that contain an e-node with an argument in c.", "quantifier": "all histories of calls, with any analysis and modify hook, rebuilt or not, all classes", "why_tests_cant": "The lists are concatenated by unions in an order that depends on their lengths and never recomputed; only an invariant over all histories shows that no entry is lost or stale.", "anchors": [{"file": "src/eclass.rs", "symbol": "EClass::parents"}, {"file": "src/egraph.rs", "symbol": "make_new_eclass"}, {"file": "src/egraph.rs", "symbol": "perform_union"}]}
{"id": "C72", "title": "EClass::leaves and assert_unique_leaves speak about represented constants", "statement": "At any moment, the leaves of egraph[c] are exactly the childless terms that the class represents, and assert_unique_leaves panics exactly if the class represents two different childless terms.", "quantifier": "all histories of calls, with any analysis and modify hook, rebuilt or not, all classes", "why_tests_cant": "assert_unique_leaves is the consistency check used by the repository tests; that it catches every unsound merge of constants, and never fires without one, is a claim about all e-graphs.", "anchors": [{"file": "src/eclass.rs", "symbol": "EClass::leaves"}, {"file": "src/eclass.rs", "symbol": "EClass::assert_unique_leaves"}]}
{"id": "C73", "title": "The Graphviz output shows exactly the e-graph", "statement": "EGraph::dot().to_string() never panics and draws, in one cluster per e-class, one node per e-node labelled with its operator, and from each node one arrow per argument, in order, to the cluster of the class of that argument, marked so that the position of the argument can be told; nothing else is drawn. Lines given to with_config_line appear in order after the head and change nothing else. In a rebuilt e-graph every arrow ends at a node of the cluster it points to, and the text determines the classes and e-nodes, provided different operators are printed differently and without newlines. (Neither holds without the conditions: before a rebuild arrows can end at nodes that are not drawn, and names are not escaped.)", "quantifier": "all histories of calls, all iteration orders of the class table, all configurations (extra lines, anchors on or off)", "why_tests_cant": "The tests only run the renderer on a few e-graphs and look at nothing; that no argument is lost, misplaced or sent to the wrong class, and that nothing is ambiguous, is a claim about every e-graph.", "anchors": [{"file": "src/dot.rs", "symbol": "Display for Dot"}, {"file": "src/dot.rs", "symbol": "Dot::edge"}, {"file": "src/egraph.rs", "symbol": "EGraph::dot"}]}
{"id": "C74", "title": "The e-graph does not depend on the order of the calls", "statement": "Two programs that start with the same e-graph and make the same calls of add_expr and union (adding the two expressions and uniting them), in any order and any number of times, with calls of rebuild anywhere in between and one at the end, end with e-graphs that are the same up to the numbering of the classes: the classes correspond one to one, corresponding classes represent the same terms and list the same e-nodes (with renamed children), every id of the start ends up in corresponding classes, and the numbers of classes and of e-nodes are equal. More generally the e-graph is the least one: any rebuilt e-graph that represents a term of each class, and in which the terms of each union are equal, contains it.", "quantifier": "all start e-graphs with any history, all lists of calls and all their reorderings and repetitions, with or without explanations, all analyses without a modify hook", "why_tests_cant": "The number of orders is factorial in the number of calls, and each goes through different ids, different union-find trees and different rebuild work; tests compare a few orders of a few calls at most.", "anchors": [{"file": "src/egraph.rs", "symbol": "EGraph::add_expr"}, {"file": "src/egraph.rs", "symbol": "EGraph::union"}, {"file": "src/egraph.rs", "symbol": "EGraph::union_trusted"}, {"file": "src/egraph.rs", "symbol": "EGraph::rebuild"}]}
{"id": "C75", "title": "Saturation is confluent", "statement": "Two runs with the same set of rewrite rules between patterns that start with the same e-graph and both stop with Saturated end with e-graphs that are the same up to the numbering of the classes, in particular with the same equalities between ids of the start, the same numbers of classes and e-nodes and the same cost of the best term of each class, whatever their schedulers, limits, order of the rules, hooks that only look at the e-graph, and hash iteration orders. And a run, however it stops, contains nothing that is not in every rebuilt e-graph that is closed under the rules and contains the start.", "quantifier": "all rules between patterns, all start e-graphs with any history, all schedulers that search completely before stopping, all limits and iteration orders, all analyses without a modify hook", "why_tests_cant": "Different schedulers and rule orders apply the rules in entirely different sequences; tests run one scheduler with one order.", "anchors": [{"file": "src/run.rs", "symbol": "Runner::run"}, {"file": "src/run.rs", "symbol": "RewriteScheduler"}, {"file": "src/pattern.rs", "symbol": "Applier for Pattern"}, {"file": "src/rewrite.rs", "symbol": "Rewrite"}]}
{"id": "C76", "title": "The analysis data are the least solution and do not depend on the order of the calls", "statement": "For an analysis whose merge is the join of an order and whose make is a monotone function of the data of the children, with no modify hook: after rebuild, and after a run however it stopped, the data of the classes are the least solution of the equations \"the datum of a class bounds make of each of its e-nodes\": any assignment of data to classes that satisfies them is at least the data the e-graph stores. Hence two programs with the same calls in different orders (C74), and two runs with the same rules that both end Saturated (C75), give classes with a common term equivalent data. In particular on cyclic classes no datum is justified only by itself.", "quantifier": "all join analyses without a modify hook, all histories, all orders of calls, all runs, cyclic classes included", "why_tests_cant": "Data are propagated incrementally by a work list in whatever order unions happened; a stale or over-approximated datum needs a particular order of unions and a cycle. Tests check a few programs with constant folding.", "anchors": [{"file": "src/egraph.rs", "symbol": "EGraph::rebuild"}, {"file": "src/egraph.rs", "symbol": "EGraph::perform_union"}, {"file": "src/language.rs", "symbol": "Analysis"}, {"file": "src/run.rs", "symbol": "Runner::run"}]}
{"id": "C77", "title": "The methods that traverse the children of an e-node agree with children()", "statement": "With any closure, including one that keeps a state: for_each, for_each_mut, update_children, map_children and fold call it on each child from left to right, once per occurrence; map_children and update_children put the results in the place of the children and keep the operator; len is the number of children; is_leaf holds iff there are none; all (any, try_for_each) call the closure on the children in order up to and including the first that is false (true, an error), and their result is the conjunction (the disjunction, the first error). all and any therefore do stop early, although their documentation says \"Does not short circuit\".", "quantifier": "all e-nodes with any number of children, repeated children included, and all closures with any state", "why_tests_cant": "The order and number of calls is visible only to closures with a state, and e-nodes may have any number of children; tests use pure closures on e-nodes with two children.", "anchors": [{"file": "src/language.rs", "symbol": "Language::for_each"}, {"file": "src/language.rs", "symbol": "Language::fold"}, {"file": "src/language.rs", "symbol": "Language::all"}, {"file": "src/language.rs", "symbol": "Language::any"}, {"file": "src/language.rs", "symbol": "Language::try_for_each"}, {"file": "src/language.rs", "symbol": "Language::map_children"}, {"file": "src/language.rs", "symbol": "Language::len"}, {"file": "src/language.rs", "symbol": "Language::is_leaf"}]}
{"id": "C78", "title": "Counters of an e-graph with explanations", "statement": "With explanations enabled, at any point of any history, get_num_congr returns, and what it counts are pairs of ids whose e-nodes are congruent (same operator, equal children); get_explanation_num_nodes is the number of ids handed out, including those of merged classes. Both panic without explanations. get_num_congr is not the number of congruences: each root of the proof forest counts as congruent to itself, and a congruence that rebuild used counts twice.", "quantifier": "all histories, all analyses, all iteration orders of the hash tables", "why_tests_cant": "The count goes through every class and every edge of the proof forest, whose shape depends on the whole history and on hash order, and stops at a limit.", "anchors": [{"file": "src/egraph.rs", "symbol": "EGraph::get_num_congr"}, {"file": "src/egraph.rs", "symbol": "EGraph::get_explanation_num_nodes"}, {"file": "src/explain.rs", "symbol": "find_congruence_neighbors"}]}
{"id": "C79", "title": "The macros rewrite! and multi_rewrite! make the rules they show", "statement": "rewrite!(name; \"lhs\" => \"rhs\" if c1 if c2 ..): if both texts can be read and every variable of rhs and of the conditions occurs in lhs, it returns the rule with this name, whose searcher denotes the term of lhs and whose applier does what a pattern denoting rhs does, for exactly those matches for which all conditions hold at that moment, checked from left to right up to the first that fails; otherwise it panics. With <=> it returns two such rules, the second from right to left and with -rev appended to the name, and panics unless both sides have the same variables. multi_rewrite! does the same for multi-patterns; a variable on the right may also be bound by an earlier clause on the right.", "quantifier": "all texts, all languages (FromOp implementations that do not look at the ids of children), all lists of conditions, all iteration orders of the pattern compiler; multi_rewrite!: left-hand sides whose first pattern is not a variable, right-hand sides with one clause or whose first pattern is not a variable", "why_tests_cant": "Texts, terms and lists of conditions are unbounded, and what a rule does with a match depends on the e-graph that earlier conditions and matches left; tests use fixed rules with at most one condition.", "anchors": [{"file": "src/macros.rs", "symbol": "rewrite"}, {"file": "src/macros.rs", "symbol": "multi_rewrite"}, {"file": "src/macros.rs", "symbol": "__rewrite"}, {"file": "src/rewrite.rs", "symbol": "Rewrite::new"}, {"file": "src/rewrite.rs", "symbol": "ConditionalApplier"}]}
{"id": "C80", "title": "An e-graph that is closed under the rules is recognised as saturated", "statement": "If the rebuilt e-graph of a runner is closed under the rules (wherever a left side matches, the right side is in the same class under the same assignment), then a run does nothing to it: no iteration reports an application of a rule or a union during its rebuild, number of classes and total size stay the same, and the same terms are equal afterwards. With a scheduler that never refuses to stop, such as SimpleScheduler, and no limit exceeded at the start, the run stops after exactly one iteration with StopReason::Saturated. With other schedulers it does not stop because of the node limit. Hence, running again after a run that ended with Saturated takes one iteration and ends with Saturated.", "quantifier": "all e-graphs reachable by API calls, with or without explanations; all lists of rules between patterns; all schedulers that apply matches they found and report the number of ids the applier returned (SimpleScheduler, BackoffScheduler); all hooks that do not change the e-graph; all analyses with a trivial modify; all iteration orders of hash maps", "why_tests_cant": "Whether adding the right sides finds every e-node in place and every union finds the classes equal depends on the whole e-graph and on congruence closure; e-graphs, rules and schedules are unbounded.", "anchors": [{"file": "src/run.rs", "symbol": "Runner::run"}, {"file": "src/run.rs", "symbol": "Runner::run_one"}, {"file": "src/run.rs", "symbol": "SimpleScheduler"}, {"file": "src/pattern.rs", "symbol": "Pattern::apply_matches"}]}
{"id": "C81", "title": "The records of a run are truthful and its books balance", "statement": "Each iteration appends one record. It shows the size and the number of classes with which the iteration started, which are those with which the one before it ended (the first one starts with the rebuilt e-graph, the last one ends with the final one); its counts are positive and belong to names of rules, each once; only the last record can carry a reason for stopping, the same as the runner. For rules between patterns and an analysis with a trivial modify, the number of classes in each iteration grows exactly by the number of ids created and shrinks exactly by the recorded applications and the recorded unions of the rebuild (at most so with explanations); so it does over the whole run. The report shows the reason, the number of iterations, the sizes of the final e-graph, and the sum of the rebuilds; after rebuild there are at least as many e-nodes as classes and at least as many hash-cons entries as e-nodes. A runner that has run panics if it is run again.", "quantifier": "all runners, rules, hooks and schedulers (for the accounting: rules between patterns, hooks that do not change the e-graph, schedulers that report the number of ids the applier returned); all reachable e-graphs; all iteration orders of hash maps", "why_tests_cant": "The accounting has to hold for every union and every e-node of every iteration, of runs that have no bound.", "anchors": [{"file": "src/run.rs", "symbol": "Iteration"}, {"file": "src/run.rs", "symbol": "Runner::run"}, {"file": "src/run.rs", "symbol": "Runner::run_one"}, {"file": "src/run.rs", "symbol": "Runner::report"}, {"file": "src/run.rs", "symbol": "Report"}]}
{"id": "C82", "title": "The simple scheduler is the fastest, and its iterations do not depend on any order", "statement": "A scheduler that in each iteration searches every rule without limit and applies all matches, as SimpleScheduler does, finds in each iteration everything that any other scheduler finds: of two runs with the same rules (left sides and right sides patterns), the e-graph after k full iterations of the first contains the e-graph after at most k iterations of the second, if it contained it at the start. So if any run at all ends with Saturated after n iterations, a run with SimpleScheduler from the same e-graph makes at most n iterations, and does not stop for the iteration limit if that is more than n. And after equally many iterations of two runs with SimpleScheduler the e-graphs are the same up to the names of classes, whatever the order of the rules and the order in which hash maps are visited; two that saturate do so after equally many iterations.", "quantifier": "all e-graphs with a history, all sets of rules between patterns, in any order and repeated, all honest schedulers for the other run, all hooks that do not change the e-graph, all limits, all iteration orders of hash maps, analyses with a trivial modify", "why_tests_cant": "Compares every possible run with every other; a rule that interferes with the matches of a later rule, or a match lost by a limit, shows only on particular e-graphs and orders.", "anchors": [{"file": "src/run.rs", "symbol": "SimpleScheduler"}, {"file": "src/run.rs", "symbol": "Runner::run"}, {"file": "src/run.rs", "symbol": "Runner::run_one"}, {"file": "src/run.rs", "symbol": "RewriteScheduler"}, {"file": "src/pattern.rs", "symbol": "Pattern::apply_matches"}]}
{"id": "C83", "title": "A saturated run decides equality and gives the optimum", "statement": "When a run ends with Saturated, each class contains every term that can be reached from one of its terms by rewriting with the rules and the equations asserted before, in any number of steps and anywhere in the term. If the rules are given in both directions, the terms of a class are exactly the terms equal to any one of them in the theory of the rules and the asserted equations, so two terms that the e-graph represents are in one class exactly if they are equal. The same is true with rules in one direction, if rewriting with them is confluent. The expression that the extractor then gives for a root is equal to the expression that was added, and no equal term at all (for rules in one direction: no reachable term) has a smaller cost, among infinitely many.", "quantifier": "all e-graphs with a history, all sets of rules between patterns, honest and thorough schedulers (SimpleScheduler, BackoffScheduler with a positive ban length), all hooks that make no unions, all terms, all lawful cost functions, all iteration orders of hash maps, analyses with a trivial modify", "why_tests_cant": "It compares the e-graph with an infinite theory: all derivations of any length and all equal terms.", "anchors": [{"file": "src/run.rs", "symbol": "Runner::run"}, {"file": "src/run.rs", "symbol": "StopReason::Saturated"}, {"file": "src/run.rs", "symbol": "Runner::with_expr"}, {"file": "src/extract.rs", "symbol": "Extractor::find_best"}, {"file": "src/egraph.rs", "symbol": "EGraph::rebuild"}]}
{"id": "C84", "title": "Instantiating patterns by hand: add_instantiation and union_instantiations", "statement": "add_instantiation(pattern, substitution) returns a canonical id whose class matches the pattern under the substitution and represents every instance of the pattern (each variable replaced by any term of the class it is bound to); it makes no union. It panics if a variable of the pattern is not bound and not otherwise. In a rebuilt e-graph where some class already matches, it returns the id of that class and adds no e-node and no class. union_instantiations adds both instances and then makes one union between them, recorded under the given rule name; its flag says whether the two were in different classes, and the id it returns is canonical and its class represents all instances of both patterns.", "quantifier": "all histories of API calls, all analyses (a trivial modify where nothing is to change), all well-formed patterns, all substitutions, with and without explanations", "why_tests_cant": "It quantifies over all e-graphs, patterns, substitutions and instances.", "anchors": [{"file": "src/egraph.rs", "symbol": "EGraph::add_instantiation"}, {"file": "src/egraph.rs", "symbol": "EGraph::add_instantiation_noncanonical"}, {"file": "src/egraph.rs", "symbol": "EGraph::union_instantiations"}]}
{"id": "C85", "title": "Constant folding by an analysis is sound, complete and never trips its assertion", "statement": "With an analysis whose datum is the known value of a class, whose make evaluates an e-node from the data of its children, whose merge is merge_option with an assertion that the values are equal, and whose modify adds the constant and unites it with the class (the idiom of the documentation and the tests): if the asserted equations and the rules are true in some meaning of the operators with which evaluation agrees, then at every moment terms of one class have the same value, a known value is the value of all terms of the class, the class contains the constant, and the assertion never fails (no call panics). After rebuild, the value of every class that represents a term that can be evaluated is known; it is known exactly if some e-node of the class evaluates from what is known of its children; and extraction with AstSize gives a single e-node with that value.", "quantifier": "all operators and ways to evaluate them (monotone in what is known), all meanings, all histories without set_analysis_data, all runs with rules valid in the meaning, all nesting depths of hooks", "why_tests_cant": "Soundness and completeness range over all terms of all classes in all states, with hooks running inside add, union and rebuild.", "anchors": [{"file": "src/language.rs", "symbol": "Analysis::make"}, {"file": "src/language.rs", "symbol": "Analysis::merge"}, {"file": "src/language.rs", "symbol": "Analysis::modify"}, {"file": "src/language.rs", "symbol": "merge_option"}, {"file": "src/egraph.rs", "symbol": "EGraph::process_unions"}, {"file": "tests/math.rs", "symbol": "ConstantFold"}]}
{"id": "C86", "title": "Dropping e-nodes from classes changes nothing but the e-nodes of the classes", "statement": "A caller or an analysis hook may drop e-nodes from a class (egraph[id].nodes.retain, the pruning idiom of tests/math.rs). For every such history, if the hooks do not decide by looking at the e-nodes of classes, the same history without the dropping gives an e-graph with the same ids, equalities, data, hashcons, pending work and explanations; every later add, union and rebuild returns the same result (or fails in the same way) on both. So lookup, the number of classes and data are unaffected, pruning makes no spurious equality and loses none: after rebuild two ids are equal iff their terms are equal by the requested unions, even if classes were emptied. For constant folding that prunes to leaves: soundness as without pruning, the constant is still in the class, and no call panics.", "quantifier": "all histories with pruning at any moment, by the caller and inside modify, of any e-nodes; all analyses that do not look at the e-nodes of classes; all nesting depths of hooks", "why_tests_cant": "Pruning breaks the invariant that a class contains the e-nodes of its hashcons entries; that nothing relies on it must hold at every later moment of every history.", "anchors": [{"file": "src/egraph.rs", "symbol": "IndexMut for EGraph"}, {"file": "src/eclass.rs", "symbol": "EClass::nodes"}, {"file": "src/egraph.rs", "symbol": "EGraph::rebuild"}, {"file": "src/language.rs", "symbol": "Analysis::modify"}, {"file": "tests/math.rs", "symbol": "ConstantFold"}]}
{"id": "C87", "title": "Searching, rewriting and equality saturation on e-graphs with pruned classes", "statement": "On an e-graph from whose classes e-nodes have been dropped at any moments: a match found by searching a pattern binds exactly its variables, and every instance of the pattern by terms of the bound classes is a term of the reported class; and, with a limit that is large enough, every match made of the e-nodes that are left is reported, without a panic; if the operators of the pattern are among those that are never dropped, every instance that is a term of a class is found. A run of rewrite rules, with an analysis and hooks that prune, leads to a state that differs from one of a history without pruning only in the e-nodes of its classes; all unions of the run are instances of rules or made by hooks. So terms of one class are related by every congruence containing these (also if their e-nodes were dropped), and at the end two ids are equal iff their terms are equal by the unions made. With constant folding that prunes to leaves (tests/math.rs) and rules that are true of the values, every class has one value, its datum is that value, the assertion of merge did not fail and the constant is still in the class.", "quantifier": "all histories with pruning, all patterns, all rule sets of patterns with or without conditions that do not look at the e-nodes of classes, all schedulers that select among the found matches, all limits, all hooks (they may prune), all iteration orders", "why_tests_cant": "Searching relies on sorted and complete classes and on the hashcons; pruning breaks the agreement between the two, and it may happen at any moment of a run.", "anchors": [{"file": "src/machine.rs", "symbol": "Machine::run"}, {"file": "src/pattern.rs", "symbol": "Pattern::search_with_limit"}, {"file": "src/run.rs", "symbol": "Runner::run"}, {"file": "src/egraph.rs", "symbol": "IndexMut for EGraph"}, {"file": "tests/math.rs", "symbol": "ConstantFold"}]}
{"id": "C88", "title": "One round of rewriting adds exactly the rule instances on existing terms, and n iterations reach everything within n rewrite steps", "statement": "Search all rules in a rebuilt e-graph, then apply all of them, then rebuild (by hand, with Rewrite::search and Rewrite::apply): every term reached by one parallel rewrite step from a term of the e-graph is then in the class of that term, and two ids are equal exactly if their terms are equal by ground equational reasoning from the unions made before and those instances of the rules whose left sides were terms of the e-graph at the search. A run of n iterations with the SimpleScheduler (or any that searches and applies all rules in each iteration), the last of which is not cut short, contains every term reachable in at most n parallel rewrite steps from a term of the first e-graph, in the class of that term; two terms joinable within n steps are equal.", "quantifier": "all histories, all sets of pattern rules, all iteration orders, all terms, all numbers of iterations, all analyses (for exactness: whose hook requests only sound unions)", "why_tests_cant": "A test can check that some expected term was found in some number of iterations; that nothing within reach is missed, and that nothing else is equal, ranges over all terms.", "anchors": [{"file": "src/rewrite.rs", "symbol": "Rewrite::search"}, {"file": "src/rewrite.rs", "symbol": "Rewrite::apply"}, {"file": "src/rewrite.rs", "symbol": "Rewrite::run"}, {"file": "src/run.rs", "symbol": "Runner::run_one"}, {"file": "src/run.rs", "symbol": "SimpleScheduler"}]}
{"id": "C89", "title": "Conditional rules and user-written appliers are sound when they are correct under what their conditions establish", "statement": "A rule with conditions (rewrite!(..; lhs => rhs if c1 if c2 ..)) keeps an e-graph sound if those instances of the rule are correct for which the conditions hold: when each condition, if it answers true, implies a property of the meanings of the bound terms, it is enough that lhs = rhs is correct under these properties, although conditions, unions and hooks interleave in the same apply phase and matches are stale by then. ConditionEqual implies that the two instances are equal; a condition on the analysis datum of a variable implies that the term is described by a datum that passes the test; a condition on the e-nodes of a class implies that the term equals one with such an operator. A rule with a user-written apply_one (and the default apply_matches) is sound if apply_one makes correct unions only when called on a match in a sound e-graph. Equality saturation with such rules, with an analysis whose modify may rely on its data, only equates terms that are equal, and data keep describing all terms of their classes.", "quantifier": "all histories, all patterns, all lists of conditions and appliers meeting the stated contract, all notions of equality that are congruences, all analyses whose data describe terms, all schedulers that are honest, all runs", "why_tests_cant": "A test runs a conditional rule on some e-graphs; that the condition checked at the time of application (not of the search) protects every instance, for every interleaving with other unions, ranges over all states.", "anchors": [{"file": "src/rewrite.rs", "symbol": "ConditionalApplier"}, {"file": "src/rewrite.rs", "symbol": "Condition"}, {"file": "src/rewrite.rs", "symbol": "ConditionEqual"}, {"file": "src/rewrite.rs", "symbol": "Applier::apply_matches"}, {"file": "src/rewrite.rs", "symbol": "Applier::apply_one"}, {"file": "src/macros.rs", "symbol": "rewrite!"}]}
{"id": "C90", "title": "What Saturated means for conditional rules and user-written appliers", "statement": "If a run stops with the reason Saturated, then for every rule, of whatever kind, and every match of its left-hand side in the final e-graph, the applier of the rule was given this match in the last iteration, in an e-graph that was already like the final one (same canonical ids, same terms in the same classes), and what it did changed nothing. For a rule with conditions (lhs => rhs if c1 if c2 ..), either the right-hand side is in the class of the match, or one of the conditions answered no to this very match in such an e-graph. If ConditionEqual answered no, its two sides are not in one class of the final e-graph: so wherever lhs matches and the two sides of a ConditionEqual are in one class, rhs is in the class of the match, also with modify hooks and although the e-graph is not rebuilt when conditions are checked. If a condition on e-nodes answered no, the class has no term with such an operator. For conditions on analysis data this fails: a run can report Saturated although a condition now holds and the right-hand side is missing, if another rule sets the datum in the last iteration.", "quantifier": "all histories, patterns, conditions that add at most terms, appliers that change e-graphs by API calls only, hooks of that kind, schedulers that are honest and thorough (Simple and Backoff are), limits, analyses with any modify, iteration orders of hash maps, with and without explanations", "why_tests_cant": "It speaks about all matches of all rules in all final e-graphs, and about every state passed during the last iteration; a test only sees the stop reason of some runs.", "anchors": [{"file": "src/run.rs", "symbol": "Runner::run_one"}, {"file": "src/run.rs", "symbol": "StopReason::Saturated"}, {"file": "src/rewrite.rs", "symbol": "ConditionalApplier"}, {"file": "src/rewrite.rs", "symbol": "ConditionEqual"}, {"file": "src/rewrite.rs", "symbol": "Applier::apply_matches"}, {"file": "src/egraph.rs", "symbol": "EGraph::set_analysis_data"}]}
{"id": "C91", "title": "A configured runner does what the chain of builder calls says", "statement": "After any chain of builder calls each limit and the scheduler of a Runner are the last ones given, or else the defaults (30 iterations, 10000 e-nodes, 5 seconds), and the hooks are all those given, in order. A chain without with_egraph only adds to the e-graph; it appends one root per with_expr, in order, whose class represents the expression, and this remains true after run, when the class of a root contains only terms equal to the expression by the rules; roots in one class belong to equal expressions. with_egraph replaces the e-graph and keeps the roots. The e-graph and the roots do not depend on where limits, hooks and schedulers are set. A call panics exactly if it enables explanations on a non-empty e-graph that has none, or changes the optimization of their lengths without explanations.", "quantifier": "all chains of builder calls of any length, all e-graphs with a history given to with_egraph, all expressions, rules, hooks, schedulers, analyses, iteration orders", "why_tests_cant": "There are arbitrarily many chains of calls in arbitrary order; the meaning of roots has to survive every run.", "anchors": [{"file": "src/run.rs", "symbol": "Runner::new"}, {"file": "src/run.rs", "symbol": "Runner::with_iter_limit"}, {"file": "src/run.rs", "symbol": "Runner::with_hook"}, {"file": "src/run.rs", "symbol": "Runner::with_scheduler"}, {"file": "src/run.rs", "symbol": "Runner::with_expr"}, {"file": "src/run.rs", "symbol": "Runner::with_egraph"}, {"file": "src/run.rs", "symbol": "Runner::with_explanations_enabled"}]}
{"id": "C92", "title": "Proving an equation with a runner: the proof exists, connects the two expressions and checks", "statement": "Configure a new Runner with explanations enabled and two expressions among others, and run rules with two patterns (with or without conditions) and distinct names. Whatever the scheduler selected and whatever the reason for stopping: if the roots of the two expressions are in one class, Runner::explain_equivalence for the two expressions returns an explanation that starts with the first expression, ends with the second, in which every step rewrites one position by an instance of the rule it names, forward or backward, and check_proof accepts it. If the roots are in different classes, explain_equivalence panics.", "quantifier": "all chains of builder calls without with_egraph and with_explanations_disabled, all expressions, rules, hooks that unite nothing, schedulers, limits, iteration orders, choices of the heap, analyses with a trivial modify whose make returns", "why_tests_cant": "The proof forest depends on all unions of the run and on congruences found in rebuilding; every pair of equal expressions has to be connected in it.", "anchors": [{"file": "src/run.rs", "symbol": "Runner::explain_equivalence"}, {"file": "src/run.rs", "symbol": "Runner::with_explanations_enabled"}, {"file": "src/run.rs", "symbol": "Runner::run"}, {"file": "src/egraph.rs", "symbol": "EGraph::explain_equivalence"}, {"file": "src/explain.rs", "symbol": "Explanation::check_proof"}]}
{"id": "C93", "title": "32-bit ids: everything holds up to 2^32 e-nodes, and silently fails one e-node later", "statement": "Ids are u32 and Id::from keeps the low 32 bits. Any program of calls (add, add_expr, union, set_analysis_data, rebuild, …, with hooks that call back, every call possibly depending on all that was read before) that would end with at most 2^32 e-nodes if ids were unbounded ends with exactly the same e-graph with 32-bit ids; so does every history of calls, in particular every run. Valid ids then never coincide. One e-node later: adding a term that is not represented to an e-graph with 2^32 e-nodes returns the id of the first e-node ever added (without explanations) or does not return (with explanations). The program that adds 2^32+1 different constants and does nothing else ends with two of them in one class.", "quantifier": "all programs of calls, analyses with hooks, histories, word sizes W (2^32 in the code)", "why_tests_cant": "No test can build 2^32 e-nodes, and agreement has to hold for all programs below the bound.", "anchors": [{"file": "src/lib.rs", "symbol": "Id"}, {"file": "src/unionfind.rs", "symbol": "UnionFind::make_set"}, {"file": "src/egraph.rs", "symbol": "EGraph::make_new_eclass"}, {"file": "src/egraph.rs", "symbol": "EGraph::add_uncanonical"}, {"file": "src/explain.rs", "symbol": "Explain::add"}]}
{"id": "C94", "title": "A run of accepted rules never panics and always ends; running a finished runner again panics", "statement": "Runner::run, started on any e-graph reached by API calls (rebuilt or not), with rules made by Rewrite::new from patterns, from patterns and conditions, or from multi-patterns, does not panic in any iteration, provided the user's own code (analysis, conditions, hooks) does not and the scheduler adds no errors: SimpleScheduler never does, BackoffScheduler does not in runs whose ban lengths fit into usize (the default one: 30 iterations, the default limit). ConditionEqual never panics. If moreover the analysis can improve a datum only finitely often and its modify does nothing, and conditions and hooks return, then the run returns, with a stop reason, after at most as many iterations as the limit allows. A runner that has been run cannot be run again: run panics.", "quantifier": "all languages, analyses, e-graphs reachable by API calls, lists of rules of the three kinds, conditions, hooks, limits, clocks, iteration orders, schedulers that add no errors", "why_tests_cant": "A panic or divergence may need a particular e-graph, rule set, iteration and order; tests see finitely many.", "anchors": [{"file": "src/run.rs", "symbol": "Runner::run"}, {"file": "src/run.rs", "symbol": "Runner::run_one"}, {"file": "src/run.rs", "symbol": "BackoffScheduler"}, {"file": "src/rewrite.rs", "symbol": "Rewrite::new"}, {"file": "src/rewrite.rs", "symbol": "ConditionEqual"}]}
{"id": "C95", "title": "A run saturates exactly if what the rules generate is finite", "statement": "What the rules generate from an e-graph is defined without reference to runs: terms of the e-graph with their equalities, closed under rule instances whose left side is there, subterms, and replacing arguments by equal ones. A run, however it ends, puts nothing else into the e-graph. If a run, with any thorough scheduler, ends with Saturated, two terms are in one class exactly if they are generated as equal, and what is generated has finitely many classes. Conversely, if what is generated has finitely many classes, there is a number N such that no run with SimpleScheduler (or any scheduler that searches and applies everything) on that e-graph makes more than N iterations, whatever the order of rules and hash maps; so with an iteration limit above N it ends with Saturated, unless the node or time limit is exceeded or a hook returns an error.", "quantifier": "all languages, e-graphs reachable by API calls, sets of rewrite rules between patterns, iteration orders, rule orders, schedulers (thorough, resp. eager), limits", "why_tests_cant": "The claim is about all runs on an e-graph, including those that never end, and gives a bound valid for all of them.", "anchors": [{"file": "src/run.rs", "symbol": "Runner::run"}, {"file": "src/run.rs", "symbol": "Runner::run_one"}, {"file": "src/run.rs", "symbol": "SimpleScheduler"}, {"file": "src/egraph.rs", "symbol": "EGraph::rebuild"}]}
{"id": "C96", "title": "Extraction with cost functions that look at the e-graph is optimal too", "statement": "A cost function may look at the e-node it is given and, through a reference to the e-graph, at the ids and analysis data of its children. For every such function (comparable costs, not below the cost of a child, monotone in the costs of the children) Extractor::new returns after at most one pass more than there are classes, and find_best(id) returns a term represented in the class of id that can be read off the e-graph, e-node by e-node, at the cost returned; no term of the class can be read off at a smaller cost, and every represented term can be read off. In a rebuilt e-graph a term has one cost only. For cost functions that look at the operator only this is the extractor of C29-C31. If costs are not comparable (NaN), new may panic.", "quantifier": "all languages, analyses (with modify hooks), histories of API calls (rebuilt or not), cost functions, orders of the class table, ids", "why_tests_cant": "Optimality is a claim about all terms of a class, infinitely many if the class has a cycle, for every e-graph and cost function.", "anchors": [{"file": "src/extract.rs", "symbol": "CostFunction"}, {"file": "src/extract.rs", "symbol": "Extractor::new"}, {"file": "src/extract.rs", "symbol": "Extractor::find_best"}, {"file": "src/extract.rs", "symbol": "Extractor::find_costs"}]}
{"id": "C97", "title": "Extraction on e-graphs from which e-nodes were dropped", "statement": "An analysis hook or the caller may drop e-nodes from classes (constant folding with pruning does). Afterwards: if no class is empty, Extractor::new terminates without panic; if some class is empty, it panics. If a term can still be read off a class, find_best returns such a term, at a cost no other term of the class goes below. If no term can be read off any more, find_best, find_best_cost and find_best_node panic for that class only. If only classes that have a cheapest leaf lost e-nodes, the best cost of every class is the one in the e-graph that was never pruned.", "quantifier": "all languages, analyses whose hooks drop e-nodes, histories of API calls with dropping (rebuilt or not), cost functions (as in C96), orders of the class table, ids", "why_tests_cant": "Which classes lose their last term depends on the whole history of unions, folding and dropping.", "anchors": [{"file": "src/extract.rs", "symbol": "Extractor::new"}, {"file": "src/extract.rs", "symbol": "Extractor::find_best"}, {"file": "src/extract.rs", "symbol": "Extractor::make_pass"}, {"file": "tests/math.rs", "symbol": "ConstantFold::modify"}]}
{"id": "C98", "title": "Constant folding that prunes never loses the best term", "statement": "With an analysis that folds constants and prunes (adds the constant to the class, then drops the other e-nodes), e-nodes are only ever missing from classes whose value is known; that holds after any history of API calls and after runs of rewrite rules. Therefore, with a cost function for which nothing is cheaper than a constant (AstSize, AstDepth) and unions and rules that are correct, no class is ever empty, Extractor::new and find_best never panic, and find_best returns the cheapest of all terms ever proved equal, including those whose e-nodes were dropped, with the same value.", "quantifier": "all languages and foldings, histories of API calls (rebuilt or not), runs with honest schedulers and hooks that drop nothing, cost functions for which constants are cheapest, orders of the class table, ids", "why_tests_cant": "A pruned class must hold its constant in every history, however unions, folding in other classes and deferred analysis work interleave; a test sees one order.", "anchors": [{"file": "tests/math.rs", "symbol": "ConstantFold::modify"}, {"file": "tests/prop.rs", "symbol": "ConstantFold::modify"}, {"file": "src/extract.rs", "symbol": "Extractor::find_best"}, {"file": "src/egraph.rs", "symbol": "EGraph::union"}, {"file": "src/egraph.rs", "symbol": "EGraph::rebuild"}, {"file": "src/run.rs", "symbol": "Runner::run"}]}
{"id": "C99", "title": "A run may be cut into pieces", "statement": "With the simple scheduler: if a run stops because of its iteration limit, and a new Runner takes over its e-graph (with_egraph) and runs the same rules for up to m > 0 more iterations, then both runs together do exactly what a single run does whose iteration limit is m higher: the same final e-graph, the same records of iterations, the same stop reason (up to the count of iterations), or the same panic. In particular the rebuild at the start of the second run changes nothing at all in the e-graph. With the back-off scheduler this fails: the new runner does not know the bans.", "quantifier": "all languages, analyses, histories before the run, pattern rules and conditional rules, hooks that do not read the records of iterations, limits, orders of hash tables; clocks that stay below the time limit", "why_tests_cant": "Equality of two computations for every e-graph, rule set and cut point.", "anchors": [{"file": "src/run.rs", "symbol": "Runner::run"}, {"file": "src/run.rs", "symbol": "Runner::with_egraph"}, {"file": "src/run.rs", "symbol": "Runner::run_one"}, {"file": "src/egraph.rs", "symbol": "EGraph::rebuild"}, {"file": "src/run.rs", "symbol": "SimpleScheduler"}, {"file": "src/run.rs", "symbol": "BackoffScheduler"}]}
{"id": "C100", "title": "Back-off scheduling is fair, and runs with it saturate", "statement": "The back-off scheduler passes over a rule only finitely often: if the rule has match limit m and ban length L, if it never has more than B matches at the start of an iteration, and m doubled d times is at least B, then at most max(1, L) * (2^d - 1) iterations of a run, however long it is and whatever the other rules do, leave out an instance of the rule. Therefore, if what the rules generate from the start e-graph is finite (C95) and the numbers of matches are bounded, every run with the back-off scheduler ends after boundedly many iterations, and with Saturated unless a limit is exceeded or a hook returns an error; the bound is a number N that depends only on the e-graph and the rules, plus the numbers above for all rules. Rules must have distinct names; the warning that a run prints at its start lists exactly the names that more than one rule has, and for such rules the bound fails.", "quantifier": "all languages, analyses without modify, histories before the run, lists of pattern rules with distinct names, settings of the scheduler, hooks that only read, limits, clocks, orders of hash tables, lengths of the run", "why_tests_cant": "A bound on the number of iterations over all runs, scheduler settings and interleavings with other rules.", "anchors": [{"file": "src/run.rs", "symbol": "BackoffScheduler"}, {"file": "src/run.rs", "symbol": "BackoffScheduler::search_rewrite"}, {"file": "src/run.rs", "symbol": "BackoffScheduler::can_stop"}, {"file": "src/run.rs", "symbol": "Runner::run_one"}, {"file": "src/run.rs", "symbol": "Runner::run"}, {"file": "src/run.rs", "symbol": "check_rules"}]}
{"id": "C101", "title": "Multi-patterns, and runs with multi-pattern rules, on e-graphs whose classes are pruned", "statement": "If e-nodes are dropped from classes (by the user, hooks or the analysis, as in C86), searching a clean e-graph for a multi-pattern does not panic. What is reported is true: a match binds exactly the variables and binders, to canonical ids, and for any terms of the bound classes every instance of a pattern is a term of the class of its binder. With a limit that is large enough every match made of the e-nodes that are left is reported; and if only e-nodes with other operators than those of the patterns may be dropped, every instance in terms of terms is reported. Equality saturation with such pruning, with any mix of pattern rules, conditional rules with conditions that do not depend on the dropped e-nodes and multi-pattern rules, is sound for every congruence in which the rules, the unions made before, the hooks and the analysis are correct.", "quantifier": "all languages with DiscContiguous order, analyses that may prune, histories with pruning, multi-patterns whose first pattern is not a variable, limits, orders of hash tables, rules, schedulers, hooks that may prune, runs", "why_tests_cant": "Ranges over all histories of additions, unions, prunings and rebuilds, all multi-patterns and all runs.", "anchors": [{"file": "src/multipattern.rs", "symbol": "MultiPattern::search_eclass_with_limit"}, {"file": "src/multipattern.rs", "symbol": "MultiPattern::apply_matches"}, {"file": "src/machine.rs", "symbol": "Compiler::compile"}, {"file": "src/machine.rs", "symbol": "Machine::run"}, {"file": "src/run.rs", "symbol": "Runner::run"}, {"file": "src/egraph.rs", "symbol": "EGraph::rebuild"}]}
{"id": "C102", "title": "Forward chaining with pattern rules and multi-pattern rules is complete and exact", "statement": "Read the rules as clauses over existing terms: a rewrite says that if an instance of its left side exists, the instance of its right side exists and is equal; a multi-pattern rule says that if all its equations on the left hold between existing terms, those on the right hold, too (new variables on the right name the terms that come into being). Starting from any e-graph, with a scheduler that searches and applies everything and hooks that only read: whatever the clauses derive in k rounds, with equality being closed under symmetry, transitivity and congruence of existing terms, is there after k iterations that are not cut short. If moreover the analysis does not modify the e-graph, whatever is there after a run, with any scheduler and however the run ends, is derived in as many rounds as there are iterations; so after n iterations two terms are both there and in one class exactly if this is derived in n rounds. If the last iteration leaves the numbers of e-nodes and of classes as they are, a fixpoint is reached, although multi-pattern rules never let a run report saturation: then two terms are there and equal exactly if it is derived in any number of rounds. If the rules derive nothing new after k rounds, every run of more than k iterations, however it ends, has this fixpoint, and its last iteration leaves the recorded numbers as they are.", "quantifier": "all languages with DiscContiguous order, initial e-graphs, sets of pattern rules and multi-pattern rules, eager schedulers, reading hooks, orders of hash tables, runs, pairs of terms, numbers of rounds", "why_tests_cant": "The derivable equalities are infinite sets, over all rule sets, starting points, runs and iteration orders.", "anchors": [{"file": "src/run.rs", "symbol": "Runner::run"}, {"file": "src/run.rs", "symbol": "Runner::run_one"}, {"file": "src/multipattern.rs", "symbol": "MultiPattern::search_eclass_with_limit"}, {"file": "src/multipattern.rs", "symbol": "MultiPattern::apply_matches"}, {"file": "src/pattern.rs", "symbol": "Pattern::search_with_limit"}, {"file": "src/pattern.rs", "symbol": "Pattern::apply_matches"}, {"file": "src/egraph.rs", "symbol": "EGraph::rebuild"}]}
{"id": "C103", "title": "Forward chaining reaches a fixpoint exactly if what the rules derive is finite", "statement": "A multi-pattern rule with a match never lets a run report saturation, but runs with such rules reach a fixpoint whenever there is one. Read pattern rules and multi-pattern rules as clauses over existing terms, as in C102. If every term that the rules derive from an e-graph is derivably equal to one of finitely many terms, there is a number N such that every run on that e-graph with more than N iterations, with a scheduler that searches and applies everything, whatever the order of the rules and of the hash tables and however the run ends, contains exactly what can be derived in any number of rounds, and leaves the numbers of e-nodes and of classes as its last iteration recorded them. Conversely, if the last iteration of a run is not cut short and leaves these numbers as they are, what the rules derive has finitely many classes.", "quantifier": "all languages with DiscContiguous order, initial e-graphs, sets of pattern rules and multi-pattern rules, eager schedulers, reading hooks, orders of rules and hash tables, runs, pairs of terms", "why_tests_cant": "The bound must hold for all runs at once, and what can be derived is an infinite set of terms.", "anchors": [{"file": "src/run.rs", "symbol": "Runner::run"}, {"file": "src/run.rs", "symbol": "Runner::run_one"}, {"file": "src/multipattern.rs", "symbol": "MultiPattern::apply_matches"}, {"file": "src/pattern.rs", "symbol": "Pattern::apply_matches"}, {"file": "src/egraph.rs", "symbol": "EGraph::total_size"}, {"file": "src/egraph.rs", "symbol": "EGraph::number_of_classes"}]}
{"id": "C104", "title": "Back-off delays forward chaining by a bounded number of iterations, and Saturated means fixpoint for all rules", "statement": "Pattern rules and multi-pattern rules are read as clauses over existing terms, as in C102. (1) In a run with a new back-off scheduler, let each rule have match limit m, ban length len and never more than B matches, where m doubled d times is at least B. Then bans cost the run at most max(1,len)*(2^d-1) iterations per rule: if the last iteration is not cut short and there are k iterations besides these, every equality that the rules derive in k rounds from the first e-graph holds in the last one. If the rules derive nothing new after k rounds, the last e-graph contains exactly what can be derived; and if what they derive is finite, some number of iterations, besides those lost to bans, suffices for every run. (2) With any scheduler that agrees to stop only after complete searches (the simple one; back-off, if ban lengths do not become zero), a run that stops with the reason Saturated has reached a fixpoint of all rules, multi-pattern rules included: the last e-graph contains exactly what the rules derive from the first, in any number of rounds.", "quantifier": "all languages with DiscContiguous order, initial e-graphs, sets of pattern rules and multi-pattern rules with distinct names, match limits, ban lengths, reading hooks, orders of rules and hash tables, runs, pairs of terms", "why_tests_cant": "Which rules are banned when depends on the numbers of matches in every iteration; the bound must hold for all of them, and what can be derived is an infinite set.", "anchors": [{"file": "src/run.rs", "symbol": "BackoffScheduler::search_rewrite"}, {"file": "src/run.rs", "symbol": "BackoffScheduler::can_stop"}, {"file": "src/run.rs", "symbol": "Runner::run_one"}, {"file": "src/multipattern.rs", "symbol": "MultiPattern::search_eclass_with_limit"}, {"file": "src/multipattern.rs", "symbol": "MultiPattern::apply_matches"}, {"file": "src/pattern.rs", "symbol": "Pattern::apply_matches"}]}
{"id": "C105", "title": "The test harness proves what follows from the rules, and only that", "statement": "`test_runner` (behind `test_fn!`) adds a start expression, runs the rules and panics unless each goal pattern has a match in the class of the start expression. If it returns, then the rules derive, from the equalities of the given e-graph and the existence of the start expression alone, that the start expression is equal to an instance of each goal, in as many rounds as there were iterations. Conversely, if such instances can be derived in k rounds, then it returns after k iterations of an eager scheduler, the last of which is not cut short. With the back-off scheduler, which is the default, a number of further iterations is needed that depends on the match limits and ban lengths of the rules. If the run ends as saturated, it returns exactly if instances can be derived in any number of rounds, and panics otherwise. If the run is stopped early by the hook with \"Proved all goals\", it returns.", "quantifier": "every e-graph a program can build, every start expression, all lists of goal patterns, all rules between patterns and multi-patterns, every honest scheduler (eager for completeness, thorough for saturation), all limits, hooks that only read, with and without a check function, every iteration order of the hash tables", "why_tests_cant": "This is the test harness itself: what a passing or a failing test says about the rules is a statement about all derivations, and no test can examine it.", "anchors": ["src/test.rs: test_runner", "src/egraph.rs: EGraph::check_goals", "src/run.rs: Runner::run, Runner::with_expr, Runner::with_hook"]}
{"id": "C106", "title": "What the test harness has proved can be explained", "statement": "Let `test_runner` return on a runner with explanations enabled, in whose e-graph no union and no length-optimized explanation was requested before. Then for every goal the search in the class of the start expression finds a match, and for each substitution found, `explain_matches` for the start expression, the goal and the substitution returns an explanation. Flattened, it leads from the start expression to an instance of the goal; each step rewrites one position by an instance of the rule it names, forward or backward; and `check_proof` with the rules accepts it. Any explanation that `explain_matches` returns later, length-optimized or not, is such a proof, too.", "quantifier": "every start expression, all lists of goals whose variables occur in them, all rules of two patterns (with or without conditions) with distinct names, every honest scheduler, all limits, hooks that only read, every analysis that always returns and does not change the e-graph in modify, all choices of the search for short proofs, every iteration order of the hash tables", "why_tests_cant": "It concerns every proof of every equality that any set of rules derives; a test checks one proof.", "anchors": ["src/test.rs: test_runner", "src/egraph.rs: EGraph::explain_matches", "src/explain.rs: Explanation::check_proof, Explain::explain_equivalence"]}
{"id": "C107", "title": "Conditional rules derive nothing beyond their guarded instances", "statement": "Let every condition of the rules at most add terms, and let a true answer imply a guard about the terms that the variables stand for. Take any notion of equality of existing terms (symmetric, transitive, a congruence, subterms of existing terms exist) that contains what is there and equal in the first e-graph, in which an instance of a rule holds whenever its left-hand side exists and its guards are true, and in which the terms that a condition adds exist whenever the left-hand side does and the guards before it hold. Then all terms of the e-graph after a run exist in it, and all equalities of the e-graph hold in it. So a conditional rule is never applied where its guard fails, and no term is added that the guarded rules do not derive. If `test_runner` returns with such rules, every goal has an instance that is equal to the start expression in each such notion of equality. A condition on the operators in the class of a variable implies that the term is equal to one with such an operator; a condition on the datum implies that a datum that passes the test describes the term, if the data of the analysis describe terms; `ConditionEqual` implies that the instances of its two patterns are equal, and adds these two.", "quantifier": "all rules of two patterns with any number of conditions that at most add terms, mixed with any multi-pattern rules, all expressions and goals, every honest scheduler, all limits, hooks that only read, every analysis that does not change the e-graph in modify, with or without explanations, every iteration order of the hash tables", "why_tests_cant": "It excludes equalities and terms after every run with every set of conditional rules; a test observes what one run contains.", "anchors": ["src/rewrite.rs: ConditionalApplier::apply_one, Condition::check, ConditionEqual", "src/pattern.rs: Pattern::apply_one", "src/run.rs: Runner::run", "src/test.rs: test_runner", "src/macros.rs: rewrite!"]}
{"id": "C108", "title": "A saturated run with ConditionEqual rules has derived exactly what follows from the rules", "statement": "Rules are lhs => rhs if p1 = q1 if p2 = q2 .., with any number of ConditionEquals, also none. Read them over existing terms: if an instance of lhs exists, the instances of p1 and q1 exist (checking a condition adds them); if these two are equal, those of p2 and q2 exist, and so on; and if all conditions hold, the instance of lhs is equal to that of rhs. If a run stops with the reason Saturated, two terms are both there and in one class exactly if this holds in every notion of equality of existing terms that contains the first e-graph and is closed under the rules. So all saturated runs from e-graphs with the same terms and equalities end with the same terms and equalities, whatever the order of the rules and of the hash tables, the scheduler, the analysis and the hooks. However a run ends, it contains nothing that does not follow.", "quantifier": "all lists of rules of two patterns with any number of ConditionEquals, every reachable first e-graph, every thorough scheduler (simple; back-off if ban lengths do not become zero), hooks that only read, every analysis that does not change the e-graph in modify, with or without explanations, every iteration order of the hash tables", "why_tests_cant": "It characterises all terms and equalities after every saturated run, also those that must not be there; conditions are checked in the middle of an iteration, in an e-graph that is not rebuilt, and only the whole run makes up for their wrong answers.", "anchors": ["src/rewrite.rs: ConditionEqual::check, ConditionalApplier::apply_one", "src/pattern.rs: Pattern::apply_matches, Pattern::apply_one", "src/run.rs: Runner::run, StopReason::Saturated", "src/macros.rs: rewrite!"]}
