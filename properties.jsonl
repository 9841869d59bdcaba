{"id": "C01", "title": "An operation is declared finished only when no work is left", "statement": "When a concurrent library call (cru_built, cru_mapreduced, cru_vertex_count, ...) stops waiting for its workers, every worker is idle and no message is left undelivered, unsent, deferred or half processed, provided pthread_cond_wait wakes only when signalled.", "quantifier": "every number of lanes, every task, every interleaving of the worker threads and the calling thread", "why_tests_cant": "Completion detection races depend on the interleaving of counters and condition variables; a test run samples a handful of schedules.", "anchors": ["src/ports.c:_cru_exchanged,assigned,circulate,blocking_assignment", "src/sync.c:_cru_swell,_cru_dwindled,_cru_undefer,_cru_wait_for_quiescence,_cru_dismiss", "src/crew.c:_cru_crewed"]}
{"id": "C02", "title": "No message is lost, duplicated or misdelivered", "statement": "Every unit of work that a worker sends while an operation is running is processed exactly once (or explicitly deferred and offered again), and only by the worker selected by its hash value, so that equal hash values always meet in the same worker.", "quantifier": "every number of lanes, every task, every interleaving, every prefix of the execution", "why_tests_cant": "Loss or duplication needs a particular window between sending, waking and blocking; tests cannot enumerate the windows.", "anchors": ["src/ports.c:assigned,circulate,_cru_exchanged", "src/scatter.c:_cru_scatter,_cru_scattered,_cru_scatter_out", "src/pods.c:_cru_recycled", "src/ports.h:MOD"]}
{"id": "C03", "title": "Workers never deadlock", "statement": "While an operation is unfinished there is always a thread that can take a step, whatever has happened so far; the calling thread is never left waiting for workers that are all asleep.", "quantifier": "every number of lanes, every task, every reachable state of every interleaving", "why_tests_cant": "A lost wake-up shows only in one interleaving out of astronomically many.", "anchors": ["src/ports.c:blocking_assignment,assigned,circulate", "src/sync.c:_cru_undefer,_cru_dwindled"]}
{"id": "C04", "title": "Every schedule of a non-deferring operation terminates", "statement": "If the total amount of work an operation can generate is finite and no work is deferred, then no scheduling of the threads can make the call run forever, and the only place an execution can stop is the finished state.", "quantifier": "every number of lanes, every task with a decreasing work measure, every infinite schedule", "why_tests_cant": "Termination under all schedules is a liveness property that no finite test can establish.", "anchors": ["src/ports.c", "src/sync.c", "src/launch.c:_cru_launched"]}
{"id": "C05", "title": "Spurious wake-ups are not tolerated", "statement": "POSIX lets pthread_cond_wait return without a signal, but the code waits once without testing its condition again. Hence every concurrent operation, on any number of lanes, has an execution with a single spurious wake-up in which the call never returns, and another in which it returns without having processed anything; some have executions in which part of the work is thrown away. Without spurious wake-ups nothing is thrown away and all work is processed.", "quantifier": "every operation and every number of lanes: existence of an execution with one spurious wake-up; every execution without any, for the positive part", "why_tests_cant": "Spurious wake-ups cannot be provoked on demand by a test.", "anchors": ["src/ports.c:492-525 blocking_assignment", "src/sync.c:221-239 _cru_wait_for_quiescence"]}
{"id": "C06", "title": "cru_built returns exactly the reachable vertices, each once", "statement": "If cru_built succeeds, the vertices of the graph are, up to the user's vertex equality, exactly those reachable from the initial vertex by the connector function, and no two vertices of the graph are equal.", "quantifier": "every connector, every equality that is an equivalence with a compatible hash, every initial vertex, every number of lanes, every interleaving", "why_tests_cant": "Tests build particular graphs under particular schedules; duplicates or omissions depend on racing discoveries of the same vertex.", "anchors": ["src/build.c:_cru_building_task,_cru_reached_new_node,_cru_reach_extant_node", "src/table.c:_cru_collision", "src/entry.c:cru_built"]}
{"id": "C07", "title": "cru_built installs exactly the connector's edges, deduplicated", "statement": "If cru_built succeeds, the outgoing edges of each vertex are exactly the (label, terminus) pairs the connector passed to cru_connect for it, with repetitions of the same label to the same terminus removed, and each edge ends at the graph vertex equal to the terminus that was passed.", "quantifier": "every connector, every number of lanes, every interleaving", "why_tests_cant": "Edge termini are patched asynchronously by other workers, so correctness depends on the schedule.", "anchors": ["src/build.c:unique,_cru_reached_new_node,_cru_reach_extant_node", "src/scatter.c:_cru_scatter_out_or_consume"]}
{"id": "C08", "title": "The built graph does not depend on lanes or scheduling", "statement": "Two successful cru_built calls with the same builder and initial vertex yield graphs with the same vertices and the same labelled edges up to user equality, whatever the numbers of lanes and the interleavings.", "quantifier": "every pair of lane counts, every pair of schedules, every builder whose callbacks respect its own equality", "why_tests_cant": "It compares all pairs of schedules.", "anchors": ["src/build.c", "src/launch.c:_cru_graph_launched"]}
{"id": "C09", "title": "The connector is called exactly once per distinct vertex", "statement": "During a successful cru_built the connector is called exactly once for each distinct reachable vertex and never for anything else.", "quantifier": "every connector, every lanes, every interleaving", "why_tests_cant": "Racing discoveries of one vertex by several workers are schedule dependent.", "anchors": ["src/build.c:_cru_building_task", "man/man7/cru_connector.7.in"]}
{"id": "C10", "title": "Every vertex handed to cru_built is reclaimed exactly once or kept exactly once", "statement": "In a cru_built call, the vertices passed in or created by the connector are, with multiplicity, exactly the vertices kept in the graph plus those passed to the vertex destructor; when the call fails or is killed none is kept and all are destroyed.", "quantifier": "every connector, every lanes, every interleaving, every point at which an error or a kill occurs", "why_tests_cant": "A leak or double free on an error path depends on what is in flight at the time of the error.", "anchors": ["src/build.c:_cru_building_task,_cru_reach_extant_node,unique", "src/pack.c:_cru_free_packets", "src/ports.c:_cru_abort_packets"]}
{"id": "C11", "title": "The vertex limit is enforced per worker", "statement": "With a non-zero vertex_limit, a successful cru_built has at most max(1, limit/lanes) vertices per worker, hence never more than max(lanes, limit) altogether; it can only fail with CRU_INTOVF if some worker is assigned more distinct vertices than its share; with one lane the limit is exact.", "quantifier": "every limit, every lanes, every connector, every interleaving", "why_tests_cant": "The verdict depends on how vertices hash to workers for arbitrary inputs.", "anchors": ["src/build.c:269-287", "man/man7/cru_sig.7.in"]}
{"id": "C12", "title": "A connector error is propagated and no graph is returned", "statement": "If any connector call made by cru_built reports an error then cru_built returns NULL and reports a non-zero error code that was raised by some callback of that run; if no callback reports an error, no limit is exceeded and the job is not killed then it succeeds.", "quantifier": "every connector, every lanes, every interleaving, every set of failing vertices", "why_tests_cant": "Which error is seen first and what other workers do meanwhile depends on the schedule.", "anchors": ["src/build.c:_cru_building_task", "src/sync.c:_cru_throw,error_consumed", "src/crew.c:_cru_node_union", "src/queue.c:_cru_append_nodes"]}
{"id": "C13", "title": "A subconnector is called once per vertex and incident label", "statement": "When a graph is built with a subconnector, the subconnector is called exactly once for the initial vertex with the initial flag, and exactly once for every reachable combination of a vertex and a distinct label on an edge into it; the vertex's outgoing edges are the union of what those calls created.", "quantifier": "every subconnector, every lanes, every interleaving", "why_tests_cant": "Different arrival orders of differently labelled edges exercise different code paths.", "anchors": ["src/build.c:_cru_reach_extant_node,_cru_reached_new_node", "man/man7/cru_subconnector.7.in"]}
{"id": "C14", "title": "Counting is exact and independent of lanes", "statement": "cru_vertex_count, cru_edge_count and cru_terminus_count return the number of vertices, of edges and of vertices without outgoing edges of the graph reachable from its initial vertex, the same for every number of lanes, provided the number fits in a machine word.", "quantifier": "every graph, every lanes, every interleaving", "why_tests_cant": "Parallel counts can double count or miss vertices reached along several paths, depending on the schedule.", "anchors": ["src/count.c", "src/entry.c:cru_vertex_count,cru_terminus_count,cru_edge_count", "src/launch.c:_cru_count_launched", "src/crew.c:_cru_summation"]}
{"id": "C15", "title": "cru_singleton agrees with counting", "statement": "cru_singleton returns non-zero exactly when the graph has one vertex.", "quantifier": "every graph whose vertex list is its reachable set", "why_tests_cant": "It relates two functions on all graphs.", "anchors": ["src/entry.c:cru_singleton"]}
{"id": "C16", "title": "cru_fabricated makes an isomorphic relabelled copy", "statement": "cru_fabricated returns a new graph with one vertex per vertex of the given graph, each with the fabricated vertex value, connected in the same way by the fabricated edge labels, and the given graph is unchanged.", "quantifier": "every graph, every fabricator, every lanes, every interleaving", "why_tests_cant": "The copy is made by racing workers that patch each other's edges.", "anchors": ["src/fab.c", "src/entry.c:cru_fabricated"]}
{"id": "C17", "title": "cru_crossed builds the reachable synchronous product", "statement": "cru_crossed returns a graph whose vertices correspond one to one to the pairs of vertices reachable from the pair of initial vertices by pairs of edges whose labels satisfy the edge predicate, with exactly the corresponding product edges.", "quantifier": "every pair of graphs, every crosser, every lanes, every interleaving", "why_tests_cant": "Products grow quadratically and are discovered concurrently.", "anchors": ["src/cross.c", "src/entry.c:cru_crossed"]}
{"id": "C18", "title": "cru_mapreduced folds every vertex exactly once", "statement": "For an associative and commutative reduction, cru_mapreduced returns the reduction of the mapped values of all vertices in the zone, each exactly once, independently of lanes, scheduling and the order in which worker results are paired. The exception is one lane with no stored attribute and an initial vertex that is first in the graph's list: the code then combines all vertices, whatever the zone, and the vacuous case as well if there is one, contrary to cru_zone(7) and cru_prop(7), so there the claim needs a zone of the whole graph and no vacuous case.", "quantifier": "every graph, every map, every associative commutative reduction, every lanes, every interleaving, every pairing order", "why_tests_cant": "Pairing order of partial results is non-deterministic.", "anchors": ["src/mapreduce.c", "src/maybe.c", "src/crew.c:_cru_maybe_reduction", "man/man7/cru_fold.7.in", "src/entry.c:585-588"]}
{"id": "C19", "title": "cru_induced computes the recursive value on every acyclic graph", "statement": "On an acyclic graph cru_induced returns the value defined by recursion over the graph: the boundary value or vacuous case at vertices without prerequisites and the fold of the map over edges and prerequisite values elsewhere, or else an error raised by a user function for a vertex whose prerequisites have values. No vertex is evaluated twice, or before all of its prerequisites, and if a value is returned every vertex the initial one depends on has been evaluated. The job ends under every schedule in which no thread is starved.", "quantifier": "every acyclic graph, every inducer, every lanes, every interleaving with deferrals", "why_tests_cant": "Evaluation order is chosen by the scheduler and by deferral of packets whose prerequisites are not ready.", "anchors": ["src/induce.c", "src/zones.c:_cru_visitable,all_visited", "src/edges.c:reduced_edges"]}
{"id": "C20", "title": "A constrained mutation visits prerequisites first, every vertex once", "statement": "cru_mutated with a traversal priority on a whole acyclic graph mutates each vertex exactly once. If the mutation depends on prerequisites (the kernel has both a vertex and an edge operator, or a fold over the edges on the side of the prerequisites), each vertex is mutated only after all of its prerequisites, and becomes what the kernel has for it given the new vertices and labels on the side of the prerequisites and the original ones on the other side, so that the result does not depend on lanes, hashes or schedules. Both ends of each edge get the same new labels. The job always ends, and an error is either one raised by a user function or CRU_INTKIL.", "quantifier": "every full duplex graph (acyclic, for order and completeness), every kernel, both priorities, both orientations, every number of lanes, every hash function, every interleaving", "why_tests_cant": "Order depends on the scheduler.", "anchors": ["src/mutate.c:128-233 bound, bounding_task", "src/mutate.c:266-330 permeate, reflect", "src/mutate.c:373-559 mutate, start, all_quiescent, mutating_task", "src/entry.c:955-982 cru_mutated", "man/man7/cru_plan.7.in", "man/man7/cru_mutator.7.in"]}
{"id": "C21", "title": "Mutation of a zone is right only with remote_first", "statement": "According to cru_plan, only vertices in the zone are visited, and those outside are not prerequisites. With remote_first, every vertex in an acyclic zone is mutated once, in order, as the kernel says, and vertices outside the zone are left alone if their worker owns any in the zone. But with local_first and a zone starting from a vertex other than the base vertex, nothing is mutated at all, without an error, if every worker owns a vertex in the zone; a vertex outside the zone is mutated if its worker owns none in the zone and it has no prerequisites; and if no priority is requested, the zone is ignored and the whole graph is mutated. All this is about mutations that aren't refused because of the destructors (see C126).", "quantifier": "every full duplex graph, every zone whose initial vertex is not the base vertex, every kernel depending on prerequisites (any kernel allowed, if there is no priority), every number of lanes, every interleaving", "why_tests_cant": "Depends on how node addresses hash to workers.", "anchors": ["src/mutate.c:128-150 bound", "src/mutate.c:473-497 all_quiescent", "src/zones.c:195-239 initial_node", "src/zones.c:145-184 reachability_analyzing_task", "man/man7/cru_plan.7.in"]}
{"id": "C22", "title": "cru_partition_of groups vertices by their property", "statement": "After cru_partition_of, two vertices are in the same class (cru_class_of gives equal results) exactly when their class properties are equal under the classifier's ordering, and cru_class_size of the class is the number of its vertices.", "quantifier": "every graph with distinct vertices, every classifier, every lanes, every interleaving", "why_tests_cant": "Classes are formed concurrently by hash.", "anchors": ["src/classes.c:classifying_task,_cru_partition_of,cru_class_of,cru_class_size"]}
{"id": "C23", "title": "cru_united maintains the union of classes through any history", "statement": "After any sequence of cru_united and cru_class_of calls, two vertices are in the same class exactly when they are related by the reflexive symmetric transitive closure of the initial classes and the united pairs.", "quantifier": "every initial partition, every finite sequence of operations", "why_tests_cant": "A history property over unboundedly many sequences with path compression.", "anchors": ["src/classes.c:436-518 cru_class_of,cru_united", "man/man3/cru_united.3.in"]}
{"id": "C24", "title": "cru_class_size after cru_united", "statement": "cru_class_size is documented to return the number of vertices in the class. After cru_united the size of the merged class is not recomputed, so the property holds only for partitions that have not been modified.", "quantifier": "existence of a history for the defect; every unmodified partition for the positive part", "why_tests_cant": "It needs all histories.", "anchors": ["src/classes.c:367 cru_class_size", "src/classes.c:471 cru_united"]}
{"id": "C25", "title": "Folds follow the documented calling convention", "statement": "An edge or vertex fold returns the vacuous case for an empty set and otherwise applies the reduction to each map result on the left and the running result on the right; with a left-commutative reduction the result does not depend on the order of the operands; without a vacuous case an empty set is an error.", "quantifier": "every fold, every list of operands, every permutation of it", "why_tests_cant": "All lists and permutations.", "anchors": ["src/edges.c:484-538 reduced_edges", "src/nodes.c:380-501", "man/man7/cru_fold.7.in"]}
{"id": "C26", "title": "Every intermediate fold result is reclaimed exactly once", "statement": "During a fold each map result and each intermediate reduction result is passed to its destructor exactly once and the returned value is not; if a callback fails then nothing is returned and everything created is destroyed.", "quantifier": "every fold, every list, every position at which a callback fails", "why_tests_cant": "Every failing position in lists of every length.", "anchors": ["src/edges.c:525-537", "src/nodes.c:488-500"]}
{"id": "C27", "title": "Edge deduplication keeps exactly one edge per label and terminus", "statement": "Deduplicating an edge list keeps, for every combination of label (up to the edge order) and terminus present in it, exactly one edge, destroys the labels of the others and creates nothing.", "quantifier": "every edge list, every equivalence with a compatible hash", "why_tests_cant": "All lists and equivalences.", "anchors": ["src/brig.c:_cru_deduplicated_brigade,_cru_bundled,_cru_bucketed", "src/edges.c:_cru_deduplicated_edges,_cru_repeating_labels", "src/build.c:unique"]}
{"id": "C28", "title": "Thinning keeps a minimum edge", "statement": "With a thinner predicate that is a strict weak order, the edge kept from a list is one that no other edge precedes; exactly one edge is kept and all others are removed.", "quantifier": "every non-empty edge list, every strict weak order", "why_tests_cant": "All lists.", "anchors": ["src/edges.c:373-392 _cru_minimum_edge", "src/filters.c:individually_filtered", "src/brig.c:_cru_minimum_bucket"]}
{"id": "C29", "title": "cru_filtered keeps exactly the passing, still reachable part", "statement": "cru_filtered without a thinner returns the subgraph of vertices that pass the vertex test and remain reachable from the base vertex through passing edges between passing vertices, with exactly those edges; with an ordering, an edge passes if the fold over all edges of its vertex with equivalent labels isn't NULL. The whole graph is reclaimed if and only if the base vertex fails the test. Errors returned are those raised by the user's functions, errors raised by vertex tests are always returned, and the operation ends.", "quantifier": "every graph with incoming edges, every lawful vertex and edge test and ordering, every number of lanes and placement of vertices, every interleaving without kill requests", "why_tests_cant": "Deletion is done by concurrent workers exchanging disconnection requests.", "anchors": ["src/filters.c", "src/entry.c:cru_filtered", "man/man7/cru_filter.7.in"]}
{"id": "C30", "title": "cru_deduplicated fuses equal vertices and parallel equal edges", "statement": "cru_deduplicated returns a graph having no two equal vertices, all of whose edges are edges of the given graph with their ends replaced by equal vertices. Every vertex of the given graph has an equal one in it, and every edge of the given graph is represented in it exactly once, if and only if edges with equal labels from vertices that are to be fused lead to equal vertices, and edges with equal labels from a vertex that isn't to be fused don't lead to different vertices that are (the documentation says always; see C96). Errors reported are those of the equality predicate.", "quantifier": "every graph, every equality with a compatible hash, every lanes, every interleaving", "why_tests_cant": "Concurrent grafting of edge lists.", "anchors": ["src/duplex.c:_cru_deduplicated,deduplicating_task"]}
{"id": "C31", "title": "Duplexing produces exact reverse edges", "statement": "After the library derives incoming edges in a call that is not killed, vertex m has an incoming edge labelled l from n exactly as often as n has an outgoing edge labelled l to m, for all reachable n; removing them restores the graph. The test for their presence, which looks at one vertex, is right about graphs that have all or none of them, so operations over backwards zones visit the vertices from which the initial one is reachable.", "quantifier": "every graph, every lanes, every interleaving", "why_tests_cant": "Incoming lists are filled concurrently.", "anchors": ["src/duplex.c:49-149", "src/graph.c:269-298", "src/zones.c:216-226", "man/man7/cru_zone.7.in"]}
{"id": "C32", "title": "The merge pruner's flag is true exactly when every class member has the label", "statement": "In cru_merged the pruner is called once for each outgoing edge of a member of a class, with the edge's label and a flag that is non-zero exactly when every vertex of the class has an outgoing edge with an equal label; the edges it rejects disappear and no others do.", "quantifier": "every class, every family of outgoing edge lists, every equivalence on labels", "why_tests_cant": "Quantifies over all classes and multisets of labels.", "anchors": ["src/merge.c:247-283 filter_edges", "src/emu.c:_cru_multimerge", "src/table.c:_cru_multiplicity", "man/man7/cru_pruner.7.in"]}
{"id": "C33", "title": "cru_merged yields the quotient graph", "statement": "cru_merged returns one vertex per class, obtained by reducing the class members, with an edge between two classes exactly when some members are connected, the edges between two classes being reduced to one, or deduplicated when no edge fold is given.", "quantifier": "every graph, every classifier, every kernel, every lanes", "why_tests_cant": "Concurrent fusion of vertices and edges.", "anchors": ["src/merge.c", "man/man7/cru_merger.7.in"]}
{"id": "C34", "title": "One composition pass adds exactly the selected two-step edges", "statement": "A non-destructive cru_composed pass adds to each vertex an edge to the terminus of every edge of every adjacent vertex selected by the predicate, labelled by the labeler, without duplicates, and keeps all existing edges.", "quantifier": "every graph, every composer, every vertex", "why_tests_cant": "All graphs and predicates.", "anchors": ["src/compose.c:193-229 compose,bypassed"]}
{"id": "C35", "title": "Destructive composition deletes by label, not by edge", "statement": "cru_composer documents that a destructive composition deletes the incident edge that was composed. The code deletes every outgoing edge of the vertex that carries the same label pointer, including unrelated edges and the newly created edge when the default labeler is used on scalar labels.", "quantifier": "existence of a graph and composer for the defect; every graph whose vertices have distinct outgoing labels and fresh new labels for the positive part", "why_tests_cant": "Quantifies over all graphs.", "anchors": ["src/compose.c:193-315", "man/man7/cru_composer.7.in"]}
{"id": "C36", "title": "Stretching inserts exactly the requested vertices", "statement": "If no two vertices of the given graph are equal, one pass of cru_stretched yields a graph without equal vertices in which each original vertex still connected keeps its place, each other vertex is one passed to cru_stretch and equal to no original one, and the edges from each vertex are those for which the expander returned zero and, for each call to cru_stretch, one to the new vertex with the first label and one from it with the second. Passes are repeated if and only if st_fix is set and the last one created a vertex. Without callback errors, a pass fails exactly if there is a vertex limit and some worker is in charge of more vertices, original or new, than its share of it, and then with CRU_INTOVF. The exceptions are those of C101 and C102.", "quantifier": "every graph without equal vertices, every expander and property, every number of lanes, every limit, every schedule, any number of passes", "why_tests_cant": "All graphs and expanders.", "anchors": ["src/stretch.c", "man/man7/cru_stretcher.7.in"]}
{"id": "C37", "title": "Splitting replaces each fissile vertex by two, with the selected copies of its edges", "statement": "If it isn't killed, cru_split returns the graph in which each fissile vertex is replaced by the ones made by its ana and cata functions, each outgoing edge of a fissile vertex by the copies from both that the labelers select, and each copy of an edge to a fissile vertex by the copies to both that the labelers select, keeping whatever can still be reached from the base vertex; other vertices and edges stay. If none is fissile, nothing changes; with the default labelers every edge is copied. Every execution ends. The properties given to the labelers are those of the given vertices, except that a vertex made by cata has a property of its own (see C78 and C79).", "quantifier": "every finite graph, splitter, number of lanes, hash of addresses, interleaving", "why_tests_cant": "All graphs, including self-loops and adjacent fissile vertices, whose edges are rewritten concurrently at both ends.", "anchors": ["src/split.c:fan_out", "src/split.c:fan_in", "src/split.c:splitting_task", "src/split.c:_cru_split", "src/props.c:_cru_propped", "src/filters.c:_cru_pruned"]}
{"id": "C38", "title": "cru_split exceeds the vertex limit by one on each lane", "statement": "The vertex limit associated with a graph is documented to abort operations that reach it. If it isn't killed, cru_split fails with CRU_INTOVF if and only if the graph has a vertex limit and on some lane, at least one vertex is added and the vertices there already, with those made by cata for fissile ones, exceed limit/lanes (or one, if that's zero) by more than one. So one vertex too many can be added for each lane, unlike in cru_built.", "quantifier": "every finite graph, splitter, limit, number of lanes, interleaving", "why_tests_cant": "Boundary condition for all limits.", "anchors": ["src/split.c:247-251", "src/split.c:273-275", "src/build.c:284", "src/stretch.c:105-125 grown"]}
{"id": "C39", "title": "Spreading extends only vertices without outgoing edges", "statement": "Given a graph whose vertices differ from one another and a connector, cru_spread either returns an error that the connector raised, CRU_INTOVF if more vertices were created by calls to the connector than fit into a worker's share of the vertex limit, CRU_INTKIL if the kill switch was thrown, or a graph with these properties: it contains all given vertices, and no two equal ones; a vertex that had outgoing edges keeps them and acquires no others; a vertex that had none has the edges that the connector creates for it (repeated ones included); each new vertex is one created by the connector, differs from the given ones, and has the edges the connector creates for it, without repetitions. The connector is called once on each new vertex, never on one that had outgoing edges, and on each of the others once if it creates edges, but otherwise once for each incoming edge. Calls end if there is a vertex limit or if only finitely many different vertices can be created, and apart from repeated edges, the result is independent of the schedule and of the number of lanes. Assumed is that the kill switch isn't thrown before the connector is first called (see C106).", "quantifier": "every graph with distinct vertices, every connector, lawful orders, vertex limit, number of lanes, interleaving, and time of the kill request after the first phase", "why_tests_cant": "New vertices may be equal to existing ones discovered concurrently.", "anchors": ["src/spread.c", "man/man3/cru_spread.3.in"]}
{"id": "C40", "title": "Postponement moves exactly the selected edges", "statement": "For each vertex with both postponable and non-postponable non-loop edges, a cru_postponed pass that isn't killed deletes exactly the postponable edges for which some pair satisfies the predicate and creates, for each such pair, an edge from the non-postponable edge's terminus to the postponable edge's terminus, labelled by the operator. The vertices and the other edges stay, except that repeated edges are reduced to one wherever an edge is created. All vertices stay reachable. A graph with no such pair stays as it is.", "quantifier": "every graph, every postponer", "why_tests_cant": "All graphs and predicates.", "anchors": ["src/postpone.c", "man/man7/cru_postponer.7.in"]}
{"id": "C41", "title": "The first error wins and later callbacks are skipped", "statement": "Once a worker's error code is set, raising further errors does not change it, and guarded user callbacks are not called any more by that worker until the error has been handed over to the result (see C57); destructors still are.", "quantifier": "every sequence of raises and guarded callback invocations", "why_tests_cant": "All sequences.", "anchors": ["src/errs.h:36-58"]}
{"id": "C42", "title": "The job status is the first worker error and is always reported", "statement": "If any worker ends with an error, the call reports a non-zero error; an already recorded router status is never overwritten; an error that cannot be recorded there is kept by the worker and reported globally.", "quantifier": "every set of workers, every order in which they report", "why_tests_cant": "All orders of concurrent reports.", "anchors": ["src/sync.c:39-103", "src/runners.c", "src/crew.c:_cru_status_disjunction"]}
{"id": "C43", "title": "A kill request made before or during an operation takes effect", "statement": "A cru_kill on a switch that is not attached to a running operation is remembered and kills the next one; a cru_kill during an operation sets its kill flag; detaching a switch never kills a later operation by itself.", "quantifier": "every interleaving of cru_kill calls with attach and detach events", "why_tests_cant": "All interleavings of two threads.", "anchors": ["src/killers.c:108-286"]}
{"id": "C44", "title": "A kill request can be lost in a race", "statement": "A cru_kill that observes a running operation and is preempted before it writes the kill flag loses its effect (or writes to a stale operation) if the operation detaches meanwhile and the next one attaches.", "quantifier": "existence of an interleaving", "why_tests_cant": "A two instruction window.", "anchors": ["src/killers.c:260-286"]}
{"id": "C45", "title": "Killed workers notice within 32 messages", "statement": "A worker that keeps processing messages polls the kill flag at least once every 32 messages.", "quantifier": "every starting value of the sample counter and every message sequence", "why_tests_cant": "All counter values including wrap-around.", "anchors": ["src/killers.h:KILLED,PERIOD"]}
{"id": "C46", "title": "The global error log is bounded but its update reads past the end", "statement": "Errors that cannot be returned are logged, at most sixteen distinct consecutive codes. Recording is safe only while the count is at most sixteen; the seventeenth distinct code makes the next update read beyond the array.", "quantifier": "every sequence of recorded codes", "why_tests_cant": "Needs long sequences of internal failures.", "anchors": ["src/errs.c:143-161 _cru_globally_throw"]}
{"id": "C47", "title": "cru_strerror is total and distinguishes every cru error code", "statement": "cru_strerror returns a message for every int except the least one, for which it performs an undefined negation, and each documented error code has a message of its own, different from that of any other int. The messages for undocumented codes from -6305 to -557 contain the code, unless it is one of the nthm library's, which gets the message of that library.", "quantifier": "every integer", "why_tests_cant": "All integers.", "anchors": ["src/errs.c:178-257"]}
{"id": "C48", "title": "The packet reserve never exceeds its limit in one thread, but can when threads race", "statement": "With one thread freeing packets the reserve never holds more than RESERVE_PACKET_LIMIT packets, every packet freed is either kept in reserve or returned to the heap; with several threads the limit test and the push are separate critical sections, so the limit can be exceeded by one packet per additional thread.", "quantifier": "every sequence of allocations and frees; every interleaving of any number of freeing threads", "why_tests_cant": "All interleavings.", "anchors": ["src/pack.c:204-239 _cru_free_packets,_cru_replenish_packets"]}
{"id": "C49", "title": "A shared router is torn down exactly once", "statement": "With any sequence of sharing and freeing, a router is destroyed exactly when the last reference is freed, and a kill that raised no other error is reported as CRU_INTKIL.", "quantifier": "every sequence of share and free operations", "why_tests_cant": "All sequences.", "anchors": ["src/route.c:641-694"]}
{"id": "C50", "title": "The scalar hash is collision free", "statement": "The default hash for scalar vertices and edge labels maps distinct machine words to distinct hash values, so default orders never rely on collision handling.", "quantifier": "all pairs of 64-bit words", "why_tests_cant": "2^128 pairs.", "anchors": ["src/repl.c:45-61 _cru_scalar_hash"]}
{"id": "C51", "title": "Inconsistent specifications are rejected with the documented code before any callback", "statement": "cru_built, cru_crossed, cru_mapreduced, cru_induced, cru_composed, cru_stretched, cru_split, cru_partition_of, cru_merged, cru_mutated, cru_filtered, cru_deduplicated, cru_postponed and cru_fabricated reject a specification exactly when a condition in a fixed decision table over NULL fields and differing destructors holds, with the code of the first such condition, before visiting the graph. The tables are those of the manual pages except that a default map or reduction is inferred only if both destructors are NULL, a filter's edge reduction is required whenever a destructor is given, a missing map of an inducer is not detected until it is needed, and a map together with a bmap (or any bmap of an inducer or of a filter's vertex test) is internal error -820.", "quantifier": "every combination of present and absent fields", "why_tests_cant": "Combinatorially many specification shapes.", "anchors": ["src/infer.c", "src/defo.c", "man/man7"]}
{"id": "C52", "title": "Default orders are inferred only for scalars", "statement": "A missing equality or hash is replaced by the scalar default exactly when no destructor is given, is an error otherwise, and given functions are never replaced.", "quantifier": "every combination of order and destructor fields", "why_tests_cant": "All combinations.", "anchors": ["src/defo.c:48 _cru_full_order", "src/defo.c:218 filled_fold", "src/defo.c:350"]}
{"id": "C53", "title": "Multiset tables count distinct members", "statement": "Recording and merging label tables gives, for every label, the number of merged tables that contained it (numbered from zero), and membership tests agree with it.", "quantifier": "every sequence of record and merge operations, every equivalence with a compatible hash", "why_tests_cant": "All sequences.", "anchors": ["src/table.c:301-435", "src/emu.c:35-110"]}
{"id": "C54", "title": "Result queues are concatenated without loss and keep the first status", "statement": "Joining the node queues of all workers yields a list with every node exactly once, in order, and the first non-zero status; the initial vertex's node is the front of the queue of the worker that owns it.", "quantifier": "every family of queues", "why_tests_cant": "All families.", "anchors": ["src/queue.c", "src/crew.c:366 _cru_node_union"]}
{"id": "C55", "title": "A failing cru_built dereferences a null pointer", "statement": "Callers rely on cru_built to return NULL with an error code when it fails. In fact the attribute is stored through the null pointer first, so the behaviour is undefined exactly when the library is usable, the specification is accepted and the build fails, which happens whenever a callback raises an error or the job is killed. Rejected specifications lead to NULL, the documented code and the destruction of the initial vertex, and builds without errors, limits and kill requests return the graph with its attribute.", "quantifier": "every specification, every execution of the build, failing or not", "why_tests_cant": "The defect is in the error path common to all failing inputs.", "anchors": ["src/entry.c:187-218 cru_built", "src/build.c:314-338"]}
{"id": "C56", "title": "Building terminates", "statement": "If finitely many vertices are reachable up to equality, or a connector is used with a vertex limit, then cru_built always comes to an end: no scheduling of the threads makes it run forever, and it can complete from any point. With a vertex limit this holds even if infinitely many vertices are reachable.", "quantifier": "every builder, every initial vertex, every lanes, every infinite schedule", "why_tests_cant": "Non-termination cannot be observed by a finite test, and schedules are unbounded.", "anchors": ["src/build.c:_cru_building_task", "src/ports.c", "src/launch.c:_cru_graph_launched"]}
{"id": "C57", "title": "Mapreduce callbacks only see values of the right kind", "statement": "A reduction is only ever applied to values returned by the map or the reduction, and a worker whose callback raised an error makes no further callbacks. The code clears a map error on a worker's first vertex, so the worker goes on and the reduction is later given a null pointer the map never returned; the property holds for runs in which no worker's first map fails.", "quantifier": "every graph, map, reduction, lanes and schedule", "why_tests_cant": "All combinations of failing callbacks, graphs and schedules.", "anchors": ["src/mapreduce.c:42-80 visit", "src/mapreduce.c:89-144", "src/maybe.c:36-54"]}
{"id": "C58", "title": "Sets of visited vertices behave as sets under any history", "statement": "After any sequence of insertions and removals, a membership query tells whether the item was inserted and not removed since, and nothing is stored twice. Without Judy arrays, an insertion without a test of an item already present leaves it a member after its removal.", "quantifier": "every sequence of operations", "why_tests_cant": "Histories are unbounded.", "anchors": ["src/table.c:440-640", "src/emu.c:147-268"]}
{"id": "C59", "title": "Vertex maps keep the first class associated with a vertex", "statement": "Whatever associations are made, a vertex is mapped to the class first associated with it, and each class is either kept or freed once. With Judy arrays a vertex given twice is reported as CRU_PARDPV; without them it is ignored.", "quantifier": "every sequence of associations", "why_tests_cant": "Histories are unbounded.", "anchors": ["src/table.c", "src/emu.c:274-351"]}
{"id": "C60", "title": "Built graphs are well formed", "statement": "A graph returned by cru_built consists of exactly the vertices that can be reached by its edges from the base vertex, each represented once, so that later operations that follow edges and those that walk the list of vertices see the same vertices.", "quantifier": "every builder, initial vertex, lanes and schedule", "why_tests_cant": "All graphs and schedules.", "anchors": ["src/build.c", "src/launch.c:314-375", "src/crew.c:365-399"]}
{"id": "C61", "title": "Mapreduction results are destroyed exactly once", "statement": "While workers run, every result of the map or the reduction has been destroyed once or is still held by exactly one worker. When cru_mapreduced is finished, whatever callbacks failed and whether or not it was killed, every result has been destroyed exactly once, except for the one that is returned if there's no error. The same goes for the version without workers that's used with one lane.", "quantifier": "every graph, callbacks that may fail at any call, number of lanes and schedule", "why_tests_cant": "All combinations of failures and schedules.", "anchors": ["src/mapreduce.c:42-80", "src/maybe.c:162-197", "src/crew.c:446-498"]}
{"id": "C62", "title": "cru_partition_of returns a partition although there is an error", "statement": "cru_partition_of is documented to return NULL unless it completes successfully. If it is killed, or the classifier's predicate raises an error, while vertices are being classified, it returns a partition as well as the error code, and that partition can lack vertices of the graph.", "quantifier": "existence of an execution: for every graph in the case of a kill, for one graph in the case of an error", "why_tests_cant": "It depends on when the kill or error happens relative to all workers.", "anchors": ["src/classes.c:342-348 _cru_partition_of", "src/launch.c:84-115 _cru_status_launched", "man/man3/cru_partition_of.3.in"]}
{"id": "C63", "title": "A kill during property setting is lost", "statement": "cru_kill is documented to make the operation end with CRU_INTKIL. If cru_partition_of is killed from another thread while it computes the class properties of vertices, the workers stop early but the request is forgotten: the operation ends without an error, vertices not reached have null properties and are put into the same class although their properties are unequal, and the user's hash function is called with null.", "quantifier": "every number of lanes n, every graph with at least 31n+2 vertices with unequal properties: there is such an execution", "why_tests_cant": "It depends on the time of the kill relative to all workers.", "anchors": ["src/props.c:296 _cru_set_properties", "src/route.c:667 _cru_free_router", "src/route.c:512 _cru_reset", "src/classes.c:342 _cru_partition_of", "man/man3/cru_kill.3.in"]}
{"id": "C64", "title": "Class properties are freed exactly once", "statement": "When cru_partition_of returns, every non-null property returned by the classifier's vertex map has been passed to its destructor exactly once, and none is left in the graph, whether or not the operation was killed or the maps, the predicate or destructors raised errors.", "quantifier": "every graph, classifier, number of lanes, interleaving, error and kill", "why_tests_cant": "Errors and kills can occur at any point of any interleaving.", "anchors": ["src/props.c:56-315", "src/classes.c:314-349"]}
{"id": "C65", "title": "A kill during cru_merged can be lost", "statement": "Using the kill switch while cru_merged is running makes it return CRU_INTKIL. This fails: if the switch is used while properties are being set, cru_merged can return a graph and a zero error code, and the graph has unrelated vertices merged.", "quantifier": "every graph with more than 31 vertices for each lane, every classifier, every kernel", "why_tests_cant": "Depends on when the switch is used relative to the schedule of the workers.", "anchors": ["src/merge.c:477-485 merge", "src/props.c:275-315 _cru_set_properties", "src/route.c:512 _cru_reset", "src/route.c:667-668 _cru_free_router"]}
{"id": "C66", "title": "Compositions depend on the wrong vertex's adjacent property", "statement": "cru_composer(7) and cru_prop_pair(7) document that whether consecutive edges are composed, and with what label, depends on the adjacent property of the intermediate vertex. The code passes the adjacent property of the terminus of the second edge instead, so that edges are added which aren't called for, and others aren't added which are.", "quantifier": "existence of a graph and composers for which every execution disagrees with the manual", "why_tests_cant": "The disagreement has to hold for every schedule and number of lanes.", "anchors": ["src/compose.c:221-226 compose", "man/man7/cru_composer.7.in", "man/man7/cru_prop_pair.7.in"]}
{"id": "C67", "title": "A kill during cru_composed can be lost", "statement": "If the kill switch is used while edges are being composed, workers stop composing, but the flag is cleared before it's tested, so cru_composed returns a graph without an error that lacks edges called for by the predicate.", "quantifier": "every graph with enough vertices and every number of lanes", "why_tests_cant": "The kill has to come in one of several phases.", "anchors": ["src/compose.c:238-277 composing_task", "src/compose.c:435-449 _cru_composed", "src/route.c:512", "src/route.c:667-668"]}
{"id": "C68", "title": "Iterated composition stops at a fixed point if the graph has no duplicate edges", "statement": "With the co_fix flag, if the given graph has no vertex with duplicate edges, cru_composed returns a graph in which every edge called for exists already, which has the existing edges and only edges that follow from them. The number of edges is compared before and after deduplication, so that a graph with duplicates can be returned too early, with an edge called for missing.", "quantifier": "every graph, composer, number of iterations, schedule and number of lanes for the positive part; existence of a graph for the exception", "why_tests_cant": "Any number of iterations.", "anchors": ["src/compose.c:285-315 bypassed", "src/compose.c:435-449 _cru_composed", "man/man7/cru_composer.7.in"]}
{"id": "C69", "title": "An iterated composition killed while pruning goes on with freed nodes", "statement": "If the kill switch is used while the graph is pruned after a pass of an iterated composition, workers free the nodes they have, but pruning is taken to have succeeded, and every execution of the next pass visits a freed node.", "quantifier": "every graph with enough vertices and every number of lanes", "why_tests_cant": "The kill has to come in one of several phases, and undefined behaviour isn't observed reliably.", "anchors": ["src/filters.c:681-687 pruning_task", "src/filters.c:729 _cru_pruned", "src/compose.c:435-449 _cru_composed"]}
{"id": "C70", "title": "Iterated postponement stops at a fixed point", "statement": "If po_fix is set, no vertex has repeated edges, and nothing is killed, the graph returned by cru_postponed is the result of some number of passes, and no edge in it is still to be postponed. If there are repeated edges, the iteration may stop with edges still to be postponed, because it compares numbers of edges after repetitions are removed.", "quantifier": "every graph, postponer, number of lanes and schedule", "why_tests_cant": "All graphs, all iterations and schedules.", "anchors": ["src/postpone.c", "man/man7/cru_postponer.7.in"]}
{"id": "C71", "title": "A kill during postponement can be lost", "statement": "If a kill switch is used while edges are being postponed, cru_postponed may return a graph in which edges to be postponed are still where they were, without CRU_INTKIL, contrary to the manual.", "quantifier": "every graph with more than 31 vertices per lane that have an edge to be postponed", "why_tests_cant": "It depends on when the kill arrives.", "anchors": ["src/postpone.c", "src/route.c", "man/man3/cru_kill.3.in"]}
{"id": "C72", "title": "A kill during iterated postponement can return a graph without some of its vertices", "statement": "If po_fix is set and a kill switch is used while edges are being attached in a pass that isn't the last one, cru_postponed may free some vertices, go on, and return the graph without an error, with the freed vertices missing.", "quantifier": "every graph with more than 31 vertices per lane next to the base vertex, and an edge to be created there", "why_tests_cant": "It depends on when the kill arrives.", "anchors": ["src/postpone.c", "src/route.c", "man/man3/cru_kill.3.in"]}
{"id": "C73", "title": "A killed call can make later calls wrong", "statement": "Operations over a backwards zone derive incoming edges first. If such a call that only reads the graph, for example cru_mapreduced, is killed in that phase, it returns CRU_INTKIL, but the incoming edges derived so far are left in the graph. Later calls test one vertex to find out whether there are any, take them for complete, and return a wrong result with no error. For every number of lanes there are graphs on which this happens.", "quantifier": "every number of lanes and every hash of addresses, every path of more than 31 vertices for each lane; existence of a schedule", "why_tests_cant": "Depends on when a kill request is noticed, and shows up in a later call only.", "anchors": ["src/zones.c:222-226", "src/launch.c:72", "src/graph.c:269-298", "src/duplex.c:80-82", "src/entry.c:582-586"]}
{"id": "C74", "title": "The vertex limit of cru_crossed is enforced the same way on every schedule", "statement": "If cru_crossed isn't killed, it fails with CRU_INTOVF if and only if there is a vertex limit and some worker is sent more than limit/lanes reachable pairs of vertices (or more than one, if that quotient is zero), however the workers are scheduled. A graph it returns has at most as many vertices as the limit, or as lanes if there are more lanes.", "quantifier": "every pair of graphs, every crosser, every limit, every lanes, every interleaving", "why_tests_cant": "Whether an overflow is detected could depend on which worker gets to which pair first.", "anchors": ["src/cross.c:_cru_crossing_task", "src/cross.c:rash"]}
{"id": "C75", "title": "A killed cru_split can return a graph split halfway", "statement": "If a kill request is noticed while vertices are being split, cru_split returns a graph and no error: the vertices split by then are replaced and the others aren't. On every graph whose base vertex has edges, some copies of which are selected, to more than 31 fissile vertices per lane, there is such an execution.", "quantifier": "every number of lanes, hash of addresses, splitter, graph whose base vertex has enough fissile successors; existence of a schedule", "why_tests_cant": "Depends on when a kill request is noticed by each worker.", "anchors": ["src/split.c:290-326", "src/launch.c:84-115", "src/props.c:377"]}
{"id": "C76", "title": "cru_split killed while it computes properties can return a wrong graph", "statement": "If a kill request is noticed while vertex properties are being computed, cru_split goes on with NULL for the properties not computed, and returns a graph with no error. On every graph of more than 31 vertices per lane there is such an execution.", "quantifier": "every number of lanes, hash of addresses, splitter, graph with enough vertices; existence of a schedule", "why_tests_cant": "Depends on when a kill request is noticed by each worker.", "anchors": ["src/props.c:276-315", "src/split.c:305-310", "src/route.c:487-515"]}
{"id": "C77", "title": "cru_split killed at the end can return a graph with dangling edges", "statement": "If a kill request is noticed by some workers but not others while the new graph is being collected, cru_split frees the vertices of those that notice it, and can return a graph with no error in which the base vertex has an edge to a vertex that has been freed.", "quantifier": "every graph whose base vertex is fissile, without edges to it and alone on its lane, with 32 copies of edges to vertices of another lane; existence of a schedule", "why_tests_cant": "Depends on which workers notice a kill request.", "anchors": ["src/filters.c:639-730", "src/route.c:751-780", "src/split.c:325"]}
{"id": "C78", "title": "The graph returned by cru_split depends on the schedule", "statement": "Even with pure functions and no kill requests, two executions of cru_split on the same graph can return different graphs, because the property of a vertex made by cata depends on whether the vertices adjacent to it have been replaced yet. Nothing else depends on the schedule (C37).", "quantifier": "existence of a graph, a splitter and two schedules; all executions in C37", "why_tests_cant": "Tests see one schedule at a time.", "anchors": ["src/split.c:100-104", "src/split.c:113-116"]}
{"id": "C79", "title": "The properties used by cru_split aren't the documented ones", "statement": "cru_splitter(7) says properties are computed for the vertices made by ana and cata, with the incident and outgoing edges of the vertex being replaced. In fact the one made by ana keeps the property of the vertex replaced, and that of the one made by cata is computed without incident edges. There is a case where every execution returns a graph whose edges aren't those documented, for both.", "quantifier": "existence of a graph and a splitter; every number of lanes, hash of addresses and interleaving", "why_tests_cant": "A test passes with properties that don't depend on incident edges.", "anchors": ["src/split.c:100-104", "src/props.c:300-307", "man/man7/cru_splitter.7.in"]}
{"id": "C80", "title": "cru_induced never returns from a graph with a cycle", "statement": "If the initial vertex depends on a vertex that depends on itself, and no user function fails, then cru_induced doesn't return unless it is killed.", "quantifier": "every graph with a reachable cycle, every inducer whose functions don't fail, every lanes, every interleaving", "why_tests_cant": "Non-termination cannot be observed by a test.", "anchors": ["src/induce.c:145-150", "src/zones.c:250-349"]}
{"id": "C81", "title": "Killing cru_induced makes it return null without an error", "statement": "cru_kill says the function terminates with CRU_INTKIL. A kill while vertices are being evaluated is never reported: the call returns null, the value, or the error of a user function. If the initial vertex has more than 31 prerequisites per lane there is an execution that returns null without an error.", "quantifier": "every execution of cru_induced killed during evaluation; for the defect every acyclic graph with such an initial vertex, every lanes and hash", "why_tests_cant": "Needs a kill at the right time.", "anchors": ["src/induce.c:249-251", "src/route.c:487-515 _cru_reset"]}
{"id": "C82", "title": "Killing cru_induced during reachability analysis makes it return a wrong value", "statement": "If the initial vertex isn't the base vertex, a preliminary traversal finds the vertices it depends on. If that is killed, vertices it hasn't found are ignored as prerequisites, and cru_induced may return a value computed from null in place of theirs, without an error.", "quantifier": "existence of a graph, inducer and execution", "why_tests_cant": "Needs a kill at the right time.", "anchors": ["src/zones.c:145-184", "src/zones.c:280", "src/zones.c:227-235"]}
{"id": "C83", "title": "cru_induced disposes of each intermediate value once", "statement": "When cru_induced has ended, the value computed for each vertex other than the initial one has been disposed of exactly once, and no vertex keeps one, also if there was an error or a kill during evaluation.", "quantifier": "every graph, inducer, lanes, interleaving, kill and error of a user function", "why_tests_cant": "Leaks and double disposal depend on the interleaving and on the time of the error.", "anchors": ["src/induce.c:175-220 deducing_task", "src/induce.c:251"]}
{"id": "C84", "title": "Mutation regardless of order is simultaneous", "statement": "If no traversal priority is requested, or the kernel has no vertex operator, or it has neither an edge operator nor folds over edges, cru_mutated replaces every vertex and label of the whole graph, cyclic or not, by what the kernel has for the original ones, so the result does not depend on lanes, hashes or schedules.", "quantifier": "every full duplex graph, every such kernel and plan, every number of lanes, every hash function, every interleaving", "why_tests_cant": "Which vertices are mutated when depends on the scheduler.", "anchors": ["src/mutate.c:128-150 bound", "src/mutate.c:373-559 mutate, start, mutating_task", "src/infer.c:435-491", "man/man7/cru_mutator.7.in"]}
{"id": "C85", "title": "Mutation keeps the shape of the graph", "statement": "Unless it is killed, cru_mutated leaves the vertices' and edges' places alone: the edge lists of each node lead to the same nodes in the same order, the labels of an edge agree at both ends if there is an edge operator, no vertex is mutated twice, and vertices that are not mutated keep their values and labels.", "quantifier": "every full duplex graph, every kernel and plan, with or without a zone, every number of lanes, every interleaving", "why_tests_cant": "Labels are written to the remote ends of edges by several workers at once.", "anchors": ["src/mutate.c:266-330 permeate, reflect", "src/mutate.c:373-415 mutate"]}
{"id": "C86", "title": "Ordered mutation of a cyclic graph skips vertices without an error", "statement": "According to cru_plan, only an unconstrained order is valid for cyclic graphs. If a priority is requested nevertheless, cru_mutated ends without an error, and leaves unmutated every vertex on a cycle or with prerequisites leading back to one.", "quantifier": "every full duplex graph with cycles, every kernel depending on prerequisites, both priorities, every number of lanes, every interleaving", "why_tests_cant": "Termination in presence of cycles must hold for every schedule.", "anchors": ["src/mutate.c:473-559 all_quiescent, mutating_task", "man/man7/cru_plan.7.in"]}
{"id": "C87", "title": "A kill during the first stage of a mutation deletes edges silently", "statement": "According to cru_kill, the function given the switch terminates with CRU_INTKIL. If cru_mutated is killed while it is finding out where to start, it goes on to return a graph without any error, in which vertices have lost their outgoing edges, if more than 31 vertices per lane have any.", "quantifier": "every full duplex graph without loops with more than 31 vertices per lane having outgoing edges, every kernel that does not fail, every plan, every number of lanes (existence of an execution)", "why_tests_cant": "Depends on the moment of the kill.", "anchors": ["src/mutate.c:157-233 bounding_task", "src/scatter.c:303-338 unscatterable", "src/route.c:487-515", "man/man3/cru_kill.3.in"]}
{"id": "C88", "title": "Dependants may be seen modified", "statement": "According to cru_mutator, vertices on the side that is visited later are seen unmodified. If the kernel has no edge operator and folds only over edges on that side, vertices without edges on that side are mutated first, so the result depends on the number of lanes.", "quantifier": "existence of a graph and a kernel, and executions with one and with two lanes", "why_tests_cant": "Depends on how vertices are assigned to workers.", "anchors": ["src/mutate.c:128-150 bound", "src/mutate.c:199-204", "man/man7/cru_mutator.7.in"]}
{"id": "C89", "title": "Thinning keeps the first passing class of edges", "statement": "With a thinner, cru_filtered returns what remains reachable from the base vertex after the edges of each vertex for which the vertex test is NULL or absent are reduced to the class of a passing edge that no other passing edge precedes, or to none if no edge passes, while vertices for which it isn't NULL keep all their edges.", "quantifier": "every graph, every lawful filter with a thinner, every number of lanes, every interleaving without kill requests", "why_tests_cant": "Which edges are left depends on every edge of every vertex, and which vertices on all of them at once.", "anchors": ["src/filters.c", "src/entry.c:cru_filtered", "man/man7/cru_filter.7.in"]}
{"id": "C90", "title": "Forward zones of filters are ignored", "statement": "With a zone that isn't backwards, cru_filtered filters the whole graph from the base vertex on, including vertices and edges that can't be reached from the initial vertex of the zone, contrary to its documentation.", "quantifier": "every graph, every lawful filter without a thinner, every initial vertex, every interleaving", "why_tests_cant": "The claim is about vertices that should not be touched, for every zone.", "anchors": ["src/filters.c", "src/entry.c:cru_filtered", "man/man7/cru_filter.7.in", "src/zones.c:_cru_initial_node"]}
{"id": "C91", "title": "Backward zones confine the filtering of edges", "statement": "With a backward zone and no vertex test, or with a thinner, exactly the edges of the vertices from which the initial vertex of the zone can be reached are filtered or thinned; other vertices keep their edges; and the result is what remains reachable from the base vertex.", "quantifier": "every graph, every lawful filter without a vertex test or with a thinner, every initial vertex, every number of lanes, every interleaving without kill requests", "why_tests_cant": "The zone is explored by workers concurrently with the deletion of edges.", "anchors": ["src/filters.c", "src/entry.c:cru_filtered", "man/man7/cru_filter.7.in"]}
{"id": "C92", "title": "A kill request while vertices are tested can be lost", "statement": "A kill request that arrives while the vertex tests of cru_filtered are running can go unreported, and the graph returned as if complete has vertices that fail the test.", "quantifier": "every number of lanes, every placement of vertices, every graph whose base vertex has more than 31 passing edges per lane to different vertices that fail", "why_tests_cant": "It takes a kill request between certain packets.", "anchors": ["src/filters.c", "src/entry.c:cru_filtered", "man/man7/cru_filter.7.in", "src/launch.c:_cru_status_launched", "src/route.c:_cru_reset"]}
{"id": "C93", "title": "No edge is lost or freed twice by filtering", "statement": "At every moment of the filtering of edges, each edge of each vertex is either still one of its outgoing edges or among those to be freed, and never both, whatever the order of deletion requests, and even if there are errors or kill requests.", "quantifier": "every graph, every lawful filter, every direction, every set of vertices to be deleted, every number of lanes, every interleaving", "why_tests_cant": "Deletion requests race with the filtering of the lists they refer to.", "anchors": ["src/filters.c", "src/entry.c:cru_filtered", "man/man7/cru_filter.7.in", "src/edges.c:_cru_deleted_edge", "src/edges.c:_cru_disconnections"]}
{"id": "C94", "title": "A kill request while a filtered graph is pruned can leave dangling edges", "statement": "A kill request that arrives while cru_filtered collects the vertices that remain reachable can go unreported if there's more than one lane and anything to be freed, and the graph returned then has edges to vertices that have been freed.", "quantifier": "every number of lanes, every graph with a base vertex alone on its lane, at least 32 retained edges from it to one other lane, and one edge from it to be deleted", "why_tests_cant": "It takes a kill request between certain packets.", "anchors": ["src/filters.c", "src/entry.c:cru_filtered", "man/man7/cru_filter.7.in", "src/route.c:_cru_sweep"]}
{"id": "C95", "title": "Backward zones don't confine vertex tests as documented", "statement": "With a backward zone and a vertex test, cru_filtered can return without an error a graph having a vertex in the zone that fails the test, and can return an internal error although no user supplied function has raised one.", "quantifier": "some graphs and vertex tests (witnesses)", "why_tests_cant": "The outcome depends on how deletion spreads through the zone.", "anchors": ["src/filters.c", "src/entry.c:cru_filtered", "man/man7/cru_filter.7.in", "src/edges.c:_cru_disconnections"]}
{"id": "C96", "title": "Deduplication can lose edges and leave repeated ones", "statement": "If two vertices are fused and edges with equal labels lead from them to vertices that aren't equal, cru_deduplicated deletes one of the edges, although the documentation says that every edge of either becomes an edge of the result. If edges with equal labels lead from a vertex that isn't fused to different vertices that are, the result has two edges with equal labels between the same vertices, although the documentation says that they are replaced by a single one.", "quantifier": "every graph having such edges, every number of lanes, every interleaving", "why_tests_cant": "It has to be shown for every order in which the vertices can be received.", "anchors": ["src/duplex.c:graft,deduplicating_task", "src/edges.c:_cru_repeating_labels"]}
{"id": "C97", "title": "Killed deduplications can return graphs with dangling edges", "statement": "With more than one lane, if a deduplication of a sufficiently large graph is killed while the graph is pruned, cru_deduplicated can return a graph without an error in which some edge leads to a vertex that has been freed. With one lane, killed jobs always fail with CRU_INTKIL.", "quantifier": "every regular graph with more than 31 unequal vertices per lane, every number of lanes", "why_tests_cant": "The kill request has to arrive in a small window.", "anchors": ["src/duplex.c:_cru_deduplicated", "src/stretch.c:_cru_pruning_task", "src/route.c:_cru_sweep"]}
{"id": "C98", "title": "Deduplication neither loses nor duplicates edge storage", "statement": "At any time while a graph is deduplicated, also after errors, each edge of the given graph is attached to exactly one vertex, or waiting to be freed, or freed, and only once, so no label is leaked or freed twice.", "quantifier": "every graph, every equality, every lanes, every interleaving", "why_tests_cant": "Edge lists are moved between vertices concurrently.", "anchors": ["src/duplex.c:graft,deduplicating_task", "src/edges.c:_cru_cat_edges,_cru_repeating_labels,_cru_deduplicated_edges"]}
{"id": "C99", "title": "Graphs with equal vertices cannot be stretched", "statement": "If a graph has two equal vertices and the expander never calls cru_stretch, cru_stretched always fails with an internal error code, although no callback raises an error.", "quantifier": "every graph with two equal vertices, every number of lanes, every schedule", "why_tests_cant": "Test graphs made by cru_built have no equal vertices. That every schedule fails can't be seen from examples.", "anchors": ["src/stretch.c:stretching_task"]}
{"id": "C100", "title": "Stretching reports an overflow although no vertex is created", "statement": "cru_stretched fails with CRU_INTOVF whenever some worker is in charge of more of the given vertices than the limit divided by the number of workers, even if the graph has fewer vertices than the limit and the expander never calls cru_stretch.", "quantifier": "every graph without equal vertices, every limit and number of lanes, every schedule", "why_tests_cant": "It depends on the hashes of all vertices and the number of lanes.", "anchors": ["src/stretch.c:stretching_task", "src/stretch.c:grown"]}
{"id": "C101", "title": "Stretching touches freed edges only if requests clash", "statement": "In a pass of cru_stretched, no edge is redirected after it has been freed, unless the expander calls cru_stretch twice for edges of one vertex with equal first labels and equal vertices, which are also equal to an original vertex. In that case it can happen.", "quantifier": "every graph without equal vertices, every expander, every number of lanes, every schedule", "why_tests_cant": "It depends on the order in which messages arrive.", "anchors": ["src/stretch.c:overwrite", "src/stretch.c:graft", "src/edges.c:_cru_deduplicated_edges"]}
{"id": "C102", "title": "Killed stretching can return graphs with dangling edges", "statement": "With more than one lane, if some execution of cru_stretched returns a graph with more than 31 vertices per lane, then an execution that is killed while the graph is pruned can return a graph without an error in which some edge leads to a vertex that has been freed.", "quantifier": "every graph without equal vertices, every expander, every number of lanes above one", "why_tests_cant": "The kill request has to arrive in a small window.", "anchors": ["src/stretch.c:_cru_stretched", "src/stretch.c:_cru_pruning_task", "src/route.c:_cru_sweep"]}
{"id": "C103", "title": "Equal vertices are not tolerated by spreading", "statement": "If two vertices in the graph given to cru_spread with a connector are equal (as can be the case in graphs not directly built by cru_built), and the call succeeds, then the result is not a proper graph in any execution: some edge leads to a vertex that isn't part of it.", "quantifier": "every graph with equal vertices, connector, number of lanes, and interleaving", "why_tests_cant": "Which of the equal vertices is lost depends on the schedule; that there is one in every case doesn't.", "anchors": ["src/spread.c: _cru_prespreading_task", "man/man3/cru_spread.3.in"]}
{"id": "C104", "title": "A single vertex is not spread by a subconnector", "statement": "Given a subconnector and a graph whose base vertex has no outgoing edges, cru_spread fails with internal error 1607 in every execution, and the subconnector isn't called.", "quantifier": "every subconnector, every graph with such a base vertex, number of lanes, and interleaving", "why_tests_cant": "It's about all subconnectors and schedules.", "anchors": ["src/spread.c: break_out", "man/man3/cru_spread.3.in"]}
{"id": "C105", "title": "Subconnectors in spreading", "statement": "With a subconnector, cru_spread doesn't do what cru_spread(3) says: it can add outgoing edges to a vertex that had outgoing edges before, and it doesn't call the subconnector for every incident edge label on a vertex that had none.", "quantifier": "there are a graph and a subconnector", "why_tests_cant": "A counterexample in the model, which shows that the documented property can't be proved.", "anchors": ["src/spread.c: break_out", "src/build.c: _cru_reach_extant_node", "man/man3/cru_spread.3.in"]}
{"id": "C106", "title": "A kill in the first phase of spreading is forgotten", "statement": "If the kill switch is thrown before the connector is first called, cru_spread can succeed and return a graph in which edges are missing and vertices are not reachable, even if the connector creates nothing; it can also corrupt its list of vertices.", "quantifier": "there are a graph and a schedule", "why_tests_cant": "It depends on the time of the kill request.", "anchors": ["src/spread.c: _cru_prespreading_task", "src/route.c: _cru_reset", "man/man3/cru_spread.3.in"]}
{"id": "C107", "title": "Graphs are reclaimed completely even without memory", "statement": "cru_free_now and cru_free_later dispose of every vertex, every label and every node of a graph exactly once and never touch a node that has been freed, for any number of lanes, any schedule, any pattern of allocation failures and any errors raised by destructors, provided *err isn't CRU_BADGPH on entry. Under a fair schedule cru_free_now comes to an end even if no allocation succeeds and no packet is in reserve to begin with.", "quantifier": "every well-formed graph, number of workers, hash function, schedule, sequence of allocation outcomes and of interference with the packet reserve by other operations", "why_tests_cant": "Double frees and leaks here depend on the interleaving of workers and on which of the allocations fail; there are unboundedly many combinations.", "anchors": ["src/graph.c: _cru_freeing_task", "src/graph.c: _cru_free_now", "src/graph.c: _cru_free_later", "src/scatter.c: _cru_unscatterable", "src/pack.c: _cru_buffered", "src/pack.c: _cru_spun", "src/pack.c: _cru_unbuffered", "src/nodes.c: _cru_transplanted_out", "src/entry.c: cru_free_now"]}
{"id": "C108", "title": "A stale error code makes reclamation leak", "statement": "If *err is CRU_BADGPH on entry, from whatever earlier operation, cru_free_now disposes of nothing although the graph is valid, and cru_free_later may do the same.", "quantifier": "every well-formed graph", "why_tests_cant": "It's a statement about all graphs, and leaks aren't detected or reported.", "anchors": ["src/graph.c: _cru_free_now", "src/entry.c: cru_free_now", "man/man3/cru_free_now.3.in"]}
{"id": "C109", "title": "The initial vertex of a zone is found", "statement": "If exactly one vertex in a graph is the initial vertex of a zone or equal to it according to the graph's vertex equality predicate, and the predicate raises no errors, then an operation restricted to the zone starts from that vertex, whatever the number of workers and the schedule. If there is no such vertex, the operation fails with CRU_INCINV. A zone without an offset starts from the graph's initial vertex. The search for the initial vertex always ends, and it fails otherwise only with an error of the predicate, or as in C110.", "quantifier": "every graph, every initial vertex, every equality predicate, every number of workers and every schedule", "why_tests_cant": "The search is done by workers in parallel, and one that finds the vertex stops the others at unpredictable times.", "anchors": ["src/zones.c: base_searching_task, located, _cru_initial_node", "src/launch.c: _cru_maybe_disjunction_launched", "src/crew.c: _cru_maybe_disjunction", "man/man7/cru_zone.7.in"]}
{"id": "C110", "title": "A duplicated initial vertex", "statement": "If several vertices in a graph are equal to the initial vertex of a zone, and comparing them raises no errors, then an operation restricted to the zone starts from one of them when there is only one worker, or when all of them happen to be assigned to the same worker. Otherwise the search may fail with an internal error, even though the initial vertex is in the graph.", "quantifier": "every graph with duplicate vertices, every number of workers and every schedule", "why_tests_cant": "Whether the search fails depends on the addresses of nodes and on which worker is stopped in time.", "anchors": ["src/zones.c: base_searching_task", "src/crew.c: _cru_maybe_disjunction"]}
{"id": "C111", "title": "Graphs stay proper after any history", "statement": "However a non-empty graph was obtained, by any sequence of building, copying, crossing, folding, inducing, partitioning, filtering, mutating, merging, composing, postponing, splitting, stretching, spreading and deduplicating, its vertices are exactly those that can be reached from the base vertex, and either no incoming edges are stored or they are exactly the reverse of the outgoing ones. Therefore it is counted exactly, traversed backwards correctly, and reclaimed completely, each vertex and edge once, and it can be operated on further.", "quantifier": "every finite sequence of successful operations that are not killed, every lawful user function, every number of workers and every schedule of each operation", "why_tests_cant": "A test exercises a few sequences of operations; the claim is about all of them, of any length.", "anchors": ["src/entry.c:cru_built", "src/entry.c:cru_mutated", "src/entry.c:cru_filtered", "src/entry.c:cru_composed", "src/duplex.c:_cru_half_duplex", "src/duplex.c:_cru_full_duplexing_task"]}
{"id": "C112", "title": "Callbacks get the attribute and the kill status of their own job", "statement": "When a library function is called for a graph, cru_get in a callback invoked by one of its workers returns the attribute the graph had when the function was called, and cru_killed returns non-zero exactly if the job has been killed during its present pass, no matter how many other jobs run at the same time, on which threads, or nested in callbacks. cru_connect and cru_stretch are accepted only in builds and spreads, and in stretches, respectively. Contrary to the documentation, there are exceptions: the labeler of cru_composed, the edge operator and pruner of cru_merged, the vertex properties of cru_partition_of, cru_merged, cru_split and cru_stretched, and the comparison of vertices to an initial vertex or by cru_deduplicated get NULL and 0 always; the reduction of the results of the workers of cru_mapreduced can't poll; and the vertex predicate of cru_filtered applied to the base, the vacuous cases and cru_mapreduced in one lane see whatever the calling thread sees, which is NULL and 0 in a thread of the application and the outer job's attribute in a callback.", "quantifier": "all sequences of calls, nested calls, thread creations and exits, attribute changes, kills and callbacks, any number of threads, jobs and graphs", "why_tests_cant": "Whether a callback sees another job's attribute depends on which thread it runs in and on what was stored there before, over all interleavings of concurrent and nested jobs.", "anchors": ["src/entry.c: cru_get", "src/entry.c: cru_killed", "src/entry.c: cru_connect", "src/entry.c: cru_stretch", "src/getset.c: _cru_set_storage, _cru_set_kill_switch, _cru_set_context", "src/route.c: _cru_stored", "src/props.c: property_setting_task", "src/compose.c: composing_task", "src/merge.c: edge_merging_task"]}
{"id": "C113", "title": "Freeing a partition reclaims every class exactly once", "statement": "However a partition is built by concurrent workers, with whatever failures to allocate a class or to record a vertex and whatever duplicate vertices, and however its classes are united afterwards, no class is accessed after it has been reclaimed, the class of every recorded vertex stays valid, and cru_free_partition leaves every class ever allocated reclaimed exactly once, in whatever order the vertices are visited and whether the partition is complete or an abandoned part of one. Until then the stored reference count of a class, on which cru_class_size depends, is one less than the number of vertices recorded with it.", "quantifier": "Any number of workers, any interleaving of their insertions, any vertices, any pattern of allocation failures, any unions of classes of recorded vertices, any order of reclamation.", "why_tests_cant": "Use after free, double free and leaks depend on which allocation fails in which interleaving, and on every number of vertices in a class.", "anchors": ["src/classes.c: _cru_free_class, cru_free_partition, cru_class_size, cru_united", "src/table.c: _cru_associate, _cru_image, _cru_free_vertex_map", "src/emu.c: _cru_associate_nj, _cru_free_vertex_map_nj"]}
{"id": "C114", "title": "A kill while cru_merged merges vertices leads to undefined behaviour", "statement": "If cru_merged is killed while it merges vertices, no error is recorded and it goes on. Vertices that workers receive after noticing the kill are put on a list for deletion, with a mark where a pointer to their class should be. If there are any, and the merger has no pruner, then either the map of the edge fold is to be called for an edge whose terminus is found through the mark, or, if the edge fold has no such map and the operation isn't killed again, some worker follows the mark as a pointer while the merged graph is pruned. Any graph with more than 31 vertices per lane has such an execution. Without a kill there are no such vertices.", "quantifier": "every graph, every classifier with lawful equality and hash, every merger without a pruner, every number of lanes, every interleaving", "why_tests_cant": "The kill request has to arrive in a small window, and many vertices have to be left at that time.", "anchors": ["src/merge.c:vertex_merging_task", "src/merge.c:merge", "src/merge.c:fused_edges", "src/stretch.c:_cru_cull", "src/scatter.c:_cru_scattered_by_hashes", "src/nodes.h:CLASS_OF", "src/route.c:_cru_reset"]}
{"id": "C115", "title": "A kill while cru_merged prunes the merged graph leaves dangling edges", "statement": "If cru_merged has merged vertices without being killed, and more than 31 vertices per lane are reachable in the merged graph, then there is an execution in which it is killed while the merged graph is pruned, no error results, and the graph has an edge to a vertex that is freed.", "quantifier": "every graph, every classifier with lawful equality and hash, every merger, every number of lanes", "why_tests_cant": "The kill request has to arrive in a small window.", "anchors": ["src/merge.c:merge", "src/merge.c:demerging_task", "src/stretch.c:_cru_pruning_task", "src/route.c:_cru_reset"]}
{"id": "C116", "title": "cru_merged destroys everything exactly once, except labels of an edge operation without a destructor", "statement": "Whatever the callbacks and destructors used by cru_merged do and wherever they fail, and whether or not comparisons failed or the operation was killed while vertices were classified: if it succeeds, every vertex and label of the original graph, every property, and everything the vertex and edge operations have made was either passed exactly once to the destructor given for it or belongs to the graph returned, which has no properties left. If it fails with an error other than CRU_BADGPH, everything was passed to its own destructor exactly once. The exception, which is a defect: if the edge operation has no destructor for its results but the original graph has one for labels, then labels computed by the edge operation are passed to that destructor if their class isn't returned, which happens even in a successful merge when a pruner makes a class unreachable.", "quantifier": "every graph, every merger, every schedule of the first traversal including kills and failing comparisons, every result and error of every callback and destructor at every call", "why_tests_cant": "A leak or a double free depends on which of the calls fails, and there are as many cases as calls; in tests nothing fails.", "anchors": ["src/merge.c:fuse_vertices", "src/merge.c:fused_edges", "src/merge.c:filter_edges", "src/merge.c:edge_merging_task", "src/merge.c:demerge_vertices", "src/merge.c:demerge_edges", "src/merge.c:_cru_merged", "src/brig.c:_cru_reduced_brigade", "src/brig.c:_cru_deduplicated_brigade", "src/nodes.c:_cru_free_nodes", "src/infer.c:inferred_merger"]}
{"id": "C117", "title": "Everything passed to cru_connect and cru_stretch is reclaimed once or kept once, unless the expander fails", "statement": "Whatever labels and vertices a connector passes to cru_connect, whatever error codes it passes, whichever allocations fail and whatever errors destructors report, each label and vertex is destroyed exactly once or belongs to exactly one edge of the vertex being connected. A call that reports no error adds exactly one edge; one that reports an error drops all edges requested before by the same callback too. The same accounting holds for labels and vertices that an expander passes to cru_stretch, and for the labels of the edges it's called with, with one exception, which is the defect: if the expander calls cru_stretch and then assigns an error itself, all of its requests are neither destroyed nor inserted. Out of context, cru_connect leaves its arguments to the caller but cru_stretch destroys them; both report CRU_INTOOC and leave other requests alone.", "quantifier": "all sequences of calls by callbacks, all error codes passed, all allocation failures, all errors of destructors, with or without each destructor", "why_tests_cant": "A leak or a double free shows only for one combination of allocation failures, errors and calls, and there are unboundedly many.", "anchors": ["src/entry.c: cru_connect, cru_stretch", "src/edges.c: _cru_edge, _cru_free_edges_and_termini", "src/emap.c: _cru_edge_map, _cru_free_map", "src/stretch.c: scattered", "src/scatter.c: _cru_scatter_and_stretch"]}
{"id": "C118", "title": "Errors of cru_mapreduced come from callbacks or kills", "statement": "If the map or the reduction fails at any call made by a worker, cru_mapreduced reports a non-zero error and no result. A reported error is one that a callback assigned, or CRU_INTKIL if it was killed and no worker's callback failed. With one lane, when there are no workers, it reports a non-zero error and no result if any callback fails at any call, including the vacuous case.", "quantifier": "every graph, callbacks that may fail at any call, with or without returning a result, number of lanes, schedule and kill", "why_tests_cant": "The error travels through a worker's local status, the status of a partial result, which hides it from the worker itself, and the pairing of partial results in any order.", "anchors": ["src/mapreduce.c:42-144", "src/maybe.c:36-197", "src/crew.c:446-498"]}
{"id": "C119", "title": "No storage is lost or freed twice by cru_fabricated, except for a vertex returned along with an error", "statement": "Whatever errors the vertex operator, the edge operator and the destructors assign, whichever allocations fail, and whether or not the computation is killed, each vertex and each label returned by the operators given to cru_fabricated is either freed exactly once by the destructor given for it or belongs to exactly one place in the graph returned; if no graph is returned all of them have been freed and there's an error. A graph is returned if no worker had an error, there was no kill and the graph itself could be allocated. The exception is a defect: a vertex returned by the vertex operator along with an error is never freed.", "quantifier": "every number of lanes, hash function, given graph, operators, destructors, pattern of failing allocations, schedule and time of a kill", "why_tests_cant": "A leak shows only under particular combinations of failing callbacks, failing allocations and schedules, none of which a test can enumerate", "anchors": ["src/fab.c: new_node, fabricating_task, _cru_fabricated", "src/launch.c: _cru_graph_launched", "src/scatter.c: _cru_scatter_out", "src/nodes.c: _cru_free_nodes"]}
{"id": "C120", "title": "No storage is lost or freed twice by cru_crossed", "statement": "Whatever errors the vertex operator, the connecting predicate, the edge operator and the destructors assign, whichever allocations fail, whether or not the limit on the number of vertices is exceeded, and whether or not the computation is killed, each vertex and each label returned by the operators given to cru_crossed is either freed exactly once by the destructor given for it or belongs to exactly one place in the graph returned, even if it was returned along with an error; if no graph is returned all of them have been freed and there's an error. A graph is returned if no worker had an error, there was no kill and the graph itself could be allocated.", "quantifier": "every number of lanes, hash function, pair of given graphs, operators, destructors, limit, pattern of failing allocations, schedule and time of a kill", "why_tests_cant": "A leak shows only under particular combinations of failing callbacks, failing allocations and schedules, none of which a test can enumerate", "anchors": ["src/cross.c: productive_packets_of, reached_new_node, _cru_crossing_task, _cru_cross", "src/launch.c: _cru_graph_launched", "src/nodes.c: _cru_free_nodes"]}
{"id": "C121", "title": "No storage is lost or freed twice by cru_split, except for a vertex returned along with an error", "statement": "Once the vertices of the graph have been collected (before that, see C129 and C130), whatever errors the fissile predicate, the two vertex operators, the property functions, the edge predicates, the labelers and the destructors given to cru_split assign, whichever allocations fail, whether or not the limit on the number of vertices is exceeded, and whether or not the computation is killed, each vertex, label and property that's in the given graph or returned by one of those functions is either freed exactly once by the destructor given for it or belongs to exactly one place in the graph returned, and no edge is looked for that isn't there; if no graph is returned all of them have been freed and there's an error, and if one is returned then no function called by a worker had an error. The exception is a defect: a vertex returned by a vertex operator along with an error is never freed.", "quantifier": "every number of lanes, hash function, given graph, operators and destructors whose results and errors may depend on the time of the call, limit, pattern of failing allocations, schedule and time of a kill", "why_tests_cant": "A leak shows only under particular combinations of failing callbacks, failing allocations and schedules, none of which a test can enumerate", "anchors": ["src/split.c: fan_out, fan_in, splitting_task, _cru_split", "src/nodes.c: _cru_free_nodes", "src/entry.c: cru_split"]}
{"id": "C122", "title": "Allocation limits in test builds are exact", "statement": "In a build with the memory checker enabled, crudev_allocations_performed reports the number of allocations granted so far. crudev_limit_allocations accepts a limit if and only if no more allocations than that have been granted already, and otherwise raises CRU_DEVIAL and leaves the previous limit in effect. If the limit is hard, the number of allocations granted never exceeds the limit in effect, and every request is granted as long as it's below (if the C library grants it). If the limit is soft and the C library never runs out of memory, at most one request is denied in the whole run, and it's denied if and only if the number granted so far isn't below the limit and none has been denied before.", "quantifier": "every sequence of allocations, deallocations, simulated allocations and crudev calls, by any threads in any order, and every choice of limits", "why_tests_cant": "The counters depend on the whole history of the process, over all threads.", "anchors": ["src/wrap.c: _cru_malloc_wrapper, _cru_allocation_allowed, _crudev_limit_allocations, _crudev_allocations_performed"]}
{"id": "C123", "title": "crudev_all_clear reports every excess deallocation and every leak, if memory suffices", "statement": "In a build with the memory checker enabled, crudev_all_clear returns non-zero at any time if and only if nothing has ever been freed in a source file when everything of the same size allocated in that file until then was already freed, and at most as many areas remain in use as there are in reserve; otherwise it raises CRU_DEVDBF in the former case and CRU_DEVMLK in the latter. This is on the conditions that all sizes are within the anticipated range, that no more source files allocate any size than there's room for, and that the C library never runs out of memory. Without the last condition it fails, which is a defect: a request denied by the C library is counted as an area in use, so that an area freed twice and another one never freed go unnoticed.", "quantifier": "every sequence of allocations, deallocations, simulated allocations and crudev calls, by any threads in any order, and every number in reserve", "why_tests_cant": "A test exercises the checker along with the code being checked, and only on the histories that occur in it.", "anchors": ["src/wrap.c: _cru_malloc_wrapper, _cru_free_wrapper, _crudev_all_clear"]}
{"id": "C124", "title": "Storage in cru_postponed of a half duplex graph", "statement": "Given a half duplex graph whose vertices are reachable, cru_postponed with errors of the user's functions and allocation failures at any time either returns a graph whose vertices are all still reachable and that holds every vertex and every label made and not freed, once; or it reports the first error and everything has been freed once; or it has been killed during the last pass and everything has been freed once except the labels of edges that were waiting to be attached. This is the defect: those labels are lost.", "quantifier": "Every graph, every behaviour of the user's functions in the course of time, every pattern of failing allocations, every schedule and every time of a kill, and any number of iterations if po_fix is set.", "why_tests_cant": "What's lost or freed depends on when an error or a kill is noticed by which of the workers, in both passes of any iteration.", "anchors": ["src/postpone.c:bipartition", "src/postpone.c:postponed", "src/postpone.c:postpone", "src/postpone.c:postponing_task", "src/postpone.c:absorbing_task", "src/postpone.c:_cru_postpone", "src/postpone.c:free_now", "src/edges.c:_cru_deduplicated_edges", "src/entry.c:cru_postponed"]}
{"id": "C125", "title": "cru_postponed of a full duplex graph frees labels twice after an error", "statement": "If cru_postponed is given a full duplex graph and removes the incoming edges without an error, it goes on as with a half duplex graph (C124). This is the defect: if there's an error or a kill while incoming edges are removed, or that can't be started for lack of memory, the label of every edge whose terminus still has its incoming edges is freed twice, because those edges are taken for edges waiting to be attached.", "quantifier": "Every full duplex graph, every edge with a label, every schedule and every time of a kill.", "why_tests_cant": "It takes an allocation failure or a kill between two internal steps.", "anchors": ["src/postpone.c:_cru_postpone", "src/postpone.c:free_now", "src/duplex.c:_cru_half_duplexing_task", "src/nodes.h:edges_postponed"]}
{"id": "C126", "title": "Mutation of a zone is refused in the wrong cases", "statement": "According to cru_zone and cru_plan, cru_mutated fails with CRU_TPCMUT if the zone covers less than the whole graph and the mutation changes the destructors. It is the other way around: if the initial vertex isn't the base vertex, the kernel has the same vertex and edge destructors as the graph, and either some vertex is outside of the zone or no traversal priority is requested, cru_mutated fails with CRU_TPCMUT. If the kernel's destructors differ, or the initial vertex is the base vertex, no check is made, and a graph is returned with the new destructors although it has vertices that are not mutated. If a zone with another initial vertex covers the whole graph, a priority is requested and the destructors are the same, the check has no effect. This is the defect.", "quantifier": "every full duplex graph, every zone, every plan, every kernel, all destructors, every number of lanes, every interleaving, with no kill before mutation", "why_tests_cant": "The check depends on which vertices each worker has found, over all graphs and hash values; tests of partial mutation by the authors may never free a graph with mixed vertices.", "anchors": ["src/mutate.c:75-121 coverage_analyzing_task", "src/mutate.c:830-859 _cru_mutated", "src/graph.c:305-323 _cru_compatible", "src/infer.c:394-426 inferred_sig", "man/man7/cru_zone.7.in", "man/man7/cru_plan.7.in"]}
{"id": "C127", "title": "Storage in cru_mutated propagating along the edges", "statement": "Suppose mutation propagates in the direction of the edges (both or neither of the fields backwards and remote_first of the plan are set) and the graph's vertex destructor reports no errors. Whatever the operators return, whenever they or allocations fail: if cru_mutated returns a graph, then no vertex or label is forgotten, and everything made and not freed is held by that graph once, with mutated vertices and the labels of their outgoing edges belonging to the kernel's destructors and the others to the graph's; and if the zone is the whole of a graph without cyclic prerequisites, every vertex is mutated. If it returns no graph, it reports an error and, except after a kill request at the very end, everything has been freed once by the destructor it belongs to, provided that the kernel has an edge operator or the graph has no label destructor (and the zone is the whole graph or the destructors are unchanged). These are the defects: if a kill is requested after the vertices have been mutated, while they are being collected, CRU_INTKIL is reported and nothing in the graph is ever freed; with no edge operator in the kernel, labels of a vertex whose mutation fails are forgotten; and if the graph's vertex destructor reports an error, the mutated vertex is passed to that destructor rather than to the one it belongs to.", "quantifier": "Every graph, zone, kernel, behaviour of operators and destructors in the course of time, pattern of failing allocations, number of workers and schedule.", "why_tests_cant": "What remains to be freed depends on the schedule, on which vertices have been mutated by which workers when an error is noticed, and on which call fails.", "anchors": ["src/mutate.c:mutate", "src/mutate.c:permeate", "src/mutate.c:reflect", "src/mutate.c:undo_reflection", "src/mutate.c:start", "src/mutate.c:mutating_task", "src/mutate.c:retract", "src/mutate.c:unmutate", "src/edges.c:_cru_free_labels", "src/nodes.c:_cru_mapped_node", "src/entry.c:cru_mutated"]}
{"id": "C128", "title": "Storage in cru_mutated propagating against the edges", "statement": "Suppose mutation propagates against the direction of the edges (one of the fields backwards and remote_first of the plan is set but not the other). If cru_mutated returns a graph, then no vertex or label is forgotten, and everything made and not freed is held by the graph once, where labels belong to the kernel's destructor if the vertex at the other end is mutated. If it fails before mutation starts, or in between mutating all vertices and collecting them, everything is freed once. These are the defects: if a kill is requested while they are being collected, CRU_INTKIL is reported and nothing in the graph is ever freed; if the edge operator fails, labels it made before for other edges of the same vertex are forgotten; and if the order is unspecified, labels that haven't been mutated may be passed to the destructor of mutated labels.", "quantifier": "Every full duplex graph, zone, kernel, behaviour of operators and destructors in the course of time, pattern of failing allocations, number of workers and schedule.", "why_tests_cant": "Which labels are replaced or freed by which of two workers sharing an edge depends on the schedule and on which call fails.", "anchors": ["src/mutate.c:mutate", "src/mutate.c:permeate", "src/mutate.c:reflect", "src/mutate.c:undo_reflection", "src/mutate.c:start", "src/mutate.c:mutating_task", "src/mutate.c:retract", "src/mutate.c:unmutate", "src/edges.c:_cru_free_labels", "src/nodes.c:_cru_mapped_node", "src/entry.c:cru_mutated"]}
{"id": "C129", "title": "A graph is taken apart without loss, even without memory", "statement": "Before cru_filtered, cru_split, cru_composed and cru_mutated change a graph, workers collect its vertices. Whatever the schedule is, whichever allocations fail, and whatever errors and kill requests there are meanwhile, they come to an end if scheduled fairly, even if no allocation succeeds and no packet is in reserve to begin with; each vertex has then been collected once, by its own worker, and each label has either been disposed of once or is still attached to an edge. If no worker had an error or noticed a kill request, all edges are as they were. If the function fails at this stage, each vertex, label and node is disposed of once and no node is touched after it's been freed; that's so as well if the workers can't be started, except in cru_split (see C130).", "quantifier": "every well-formed graph, number of workers, hash function, schedule, sequence of allocation outcomes, errors, kill requests and interference with the packet reserve by other operations", "why_tests_cant": "Leaks and double frees here depend on the interleaving of workers and on which of the allocations fail; there are unboundedly many combinations.", "anchors": ["src/filters.c: _cru_populating_task, _cru_filtered", "src/compose.c: guarding_task, _cru_composed", "src/mutate.c: bounding_task, _cru_mutated", "src/split.c: _cru_split", "src/scatter.c: _cru_scattered, _cru_unscatterable", "src/nodes.c: _cru_listed, _cru_half_severed, _cru_transplanted_out", "src/route.c: _cru_sweep"]}
{"id": "C130", "title": "cru_split loses storage if it fails while collecting vertices", "statement": "This is a defect. If cru_split can't start the workers that collect the vertices of the graph, no vertex, label or node of it is ever disposed of, although NULL is returned. If they are started but an allocation fails, then the vertex properties disposed of are exactly those of the vertices whose own workers had an error, that of the vertex that was the first in the graph, and those of vertices after it on its worker's list; all other properties are lost.", "quantifier": "every well-formed graph, number of workers, hash function, schedule and sequence of allocation outcomes", "why_tests_cant": "It takes a failing allocation in one worker but not in another, or a failure to start a thread, to show this.", "anchors": ["src/split.c: _cru_split", "src/props.c: _cru_unset_properties, unprop, _cru_unpropped", "src/filters.c: _cru_populating_task", "src/nodes.c: _cru_half_severed, _cru_pushed_node"]}
{"id": "C131", "title": "Storage in cru_composed", "statement": "Let cru_composed be given a half duplex graph. Whatever the user's functions, destructors and allocations do, and in whatever order the workers take their turns, if it returns a graph then there's no error, the vertices of the graph are those reachable from the base, no vertex property is left, and every vertex and label made and not freed is held by the graph once. If it returns none, there's an error and every vertex, label and vertex property ever made has been freed once, however many iterations preceded. After a pass without an error every vertex is still on one list, and edges lead only to such vertices, so that those that aren't reachable can be pruned. Kill requests noticed while pruning are excepted (C69).", "quantifier": "every half duplex graph, composer, behaviour of user functions and destructors in the course of time, pattern of failing allocations, number of workers, schedule of each pass and number of iterations", "why_tests_cant": "Leaks and double frees depend on which of the calls fails in which pass and on which worker; there are unboundedly many combinations.", "anchors": ["src/compose.c: guard_it, free_props, guarding_task, compose, composing_task, bypassed, decompose, bypassing_task, _cru_composed", "src/nodes.c: _cru_free_nodes", "src/filters.c: _cru_pruned", "src/entry.c: cru_composed"]}
{"id": "C132", "title": "cru_composed frees labels twice if killed while incoming edges are removed", "statement": "If cru_composed is given a full duplex graph, the incoming edges are removed first. If no kill is requested meanwhile, what results is a half duplex graph as in C131. This is the defect: if a kill is requested then, and the workers that compute vertex properties can be started, everything ever made is freed once, but the label of every incoming edge that hasn't been removed is freed once more. If they can't be started, everything is freed once.", "quantifier": "every full duplex graph, composer, behaviour of user functions and destructors, pattern of failing allocations in composing, number of workers and schedule", "why_tests_cant": "A kill must be noticed by a worker while it still has vertices to visit, and what's freed twice depends on how far the workers got.", "anchors": ["src/compose.c: _cru_composed, decompose, bypassed", "src/duplex.c: _cru_half_duplexing_task", "src/launch.c: _cru_launched"]}
{"id": "C133", "title": "Operations whose threads can't all be started", "statement": "If the threads of an operation can't all be created, or there's no storage for its first packet, then nothing is done to the graph whatever the schedule. Provided the calling thread isn't woken up spuriously, the call returns: there's a bound on the number of steps, there's always a step to take until the calling thread has finished, and by then all threads that were created have ended. This is the defect: if some threads but not all have been created, a single spurious wake-up of the calling thread may make it wait forever.", "quantifier": "every number of lanes, number of threads created, operation, initial packet or none, behaviour of other threads and schedule", "why_tests_cant": "A test would have to make thread creation fail at each point and to wake up the caller spuriously between particular steps of the other threads.", "anchors": ["src/crew.c: _cru_crewed", "src/launch.c: _cru_launched", "src/sync.c: _cru_dwindled, _cru_wait_for_quiescence", "src/ports.c: blocking_assignment"]}
{"id": "C134", "title": "Reserve of thread crews", "statement": "The storage for a crew of threads is allocated in advance, for eight operations at a time. Whatever happens, no crew is used by two operations at a time, there are never more than eight in reserve, no internal error is detected, and each crew is freed exactly once by the time of exit if no operation is under way. An API function goes on from its entry only if eight crews are in reserve then. From then on an operation gets a crew even if the heap is exhausted, as long as fewer than eight others have to make do with reserved ones, although an error of ENOMEM is reported all the same.", "quantifier": "every history of operations started and ended and of API calls entered by any number of threads, with every pattern of failing allocations", "why_tests_cant": "The property is about every interleaving of operations by concurrent threads with memory exhausted at arbitrary points.", "anchors": ["src/crew.c: _cru_replenish_crews, _cru_reserved_crews, _cru_close_crew", "src/entry.c: API_ENTRY"]}
{"id": "C135", "title": "Initialization is done once, and all or nothing", "statement": "The static storage of the library is initialized by the first API call. If one of the calls that initialize mutexes, attributes, keys and locks fails, whichever it is, then everything initialized so far is destroyed exactly once, nothing else is destroyed, and every API call ever made fails with the error code of that failure unless it's given another one. Otherwise everything is initialized exactly once, every API call goes on, and everything is destroyed exactly once at exit. If no call fails then initialization succeeds.", "quantifier": "every size of the pool of locks, pattern of failing calls with any error codes, and sequence of API calls with any error codes", "why_tests_cant": "Failures of pthread functions can't be provoked one at a time in a running process, and there are as many as the locks configured.", "anchors": ["src/entry.c: initialization, teardown, TEST_ENTRY", "src/errs.c: _cru_open_errs, _cru_error_checking_mutex_type", "src/getset.c: _cru_open_getset", "src/cthread.c: _cru_open_cthread", "src/crew.c: _cru_open_crew"]}
{"id": "C136", "title": "Workers' final duties and sweeping", "statement": "The code that a worker runs after its last message, which collects results or frees what has been set aside, is run exactly once by each worker before the call returns, and not by any worker before all messages have been handled, unless there's a spurious wake-up. Every schedule ends. In particular, vertices and edges that have been set aside to be freed are freed exactly once, whether or not it's done concurrently, and whichever threads and messages there's no storage for.", "quantifier": "every operation, number of workers and threads created, schedule and pattern of failing allocations, and everything set aside", "why_tests_cant": "It has to hold for every interleaving of workers' ends with each other and with the calling thread, and for every failure of thread creation.", "anchors": ["src/route.c: sweep, sweeping_task, _cru_sweep", "src/ports.c: _cru_ping, _cru_pingback, _cru_exchanged", "src/spread.c: canceling_task", "src/merge.c: demerging_task", "src/crew.c: _cru_crewed"]}
{"id": "C137", "title": "Sizes of copied specifications are distinct in development builds", "statement": "In builds with the memory checker, copies of specifications (builders, filters, and so on) are padded so that those of different types have different sizes, whatever their sizes are without padding, so that a copy freed as another type is detected. The pads are determined in a limited number of steps, and each is the least one that's possible given the ones before.", "quantifier": "every number of types and every size of each", "why_tests_cant": "Sizes depend on the platform, so a test covers only one assignment of sizes.", "anchors": ["src/copy.c: base_size, _cru_open_copy"]}
{"id": "C138", "title": "cru_built frees everything exactly once whatever fails", "statement": "While cru_built runs, and when it's over, each vertex and label allocated so far, including the vertex passed to it and everything passed to cru_connect by the connector or subconnector, has either been freed exactly once by its destructor or is held in one place: by a node, by an edge, or by a vertex on its way to another worker. When it's over, nothing is held except by the graph returned, and there's a graph if and only if there's no error, which is the case if no worker had an error, there was no kill and the graph could be allocated. It makes no difference whether connectors, comparisons, destructors or allocations fail, when they do, whether the vertex limit is exceeded, and whether there's a kill. If the workers can't be started at all, the vertex passed to it is freed.", "quantifier": "every connector or subconnector as a sequence of calls to cru_connect and errors, every outcome of every comparison, destructor and allocation at any time, every hash, limit and number of workers, every schedule, every time of a kill", "why_tests_cant": "an allocation or a comparison can fail at any of the steps between a call to cru_connect and the end of the job, in any worker and schedule, and each such point has its own clean-up code; tests have no control over them", "anchors": ["src/build.c: _cru_building_task, _cru_reached_new_node, _cru_reach_extant_node, unique, _cru_built", "src/scatter.c: _cru_scatter_out_or_consume", "src/table.c: _cru_rallied", "src/brig.c: _cru_bundled", "src/nodes.c: _cru_node_of", "src/queue.c: _cru_enqueued_node", "src/launch.c: _cru_graph_launched", "src/edges.c: _cru_free_edges_and_termini, _cru_deduplicated_edges"]}
{"id": "C139", "title": "cru_spread frees everything exactly once, except termini of failing subconnectors", "statement": "While a graph is being spread by cru_spread with a builder, and when that's over, each vertex and label of the given graph and each one passed to cru_connect has either been freed exactly once or is held in one place, and when it's over, nothing is held except by the graph returned, and there's a graph if and only if there's no error; nodes that weren't reached are freed. It makes no difference whether connectors, comparisons, destructors or allocations fail and when they do, and whether there's a kill. There's one exception, which is a defect: if a subconnector is applied to a vertex that had no outgoing edges and raises an error, or if there's an error when its edges are deduplicated (for lack of memory, in a comparison of labels, or because of a null terminus), then the termini passed to cru_connect in that call are never freed, although their labels are. Nothing else is lost, nothing is lost with a connector, and nothing is lost if a graph is returned.", "quantifier": "every graph given by lists of vertices and labels of edges for each worker, every connector or subconnector, every outcome of every comparison, destructor and allocation at any time, every number of workers, every schedule, every time of a kill", "why_tests_cant": "as for C138; moreover, the leak needs an error in the same call of a subconnector that has created edges, on a vertex that was in the graph before", "anchors": ["src/spread.c: start, break_out, spreading_task, _cru_spread", "src/build.c: _cru_reached_new_node, _cru_reach_extant_node", "src/edges.c: _cru_deduplicated_edges", "src/route.c: _cru_sweep", "src/launch.c: _cru_graph_launched"]}
{"id": "C140", "title": "Every vertex and label is accounted for in stretching, apart from two kinds of leaks", "statement": "Let the vertices of a graph given to cru_stretched differ from one another, and let no user function raise an error and no allocation fail. Then every vertex and every connector (label) of the graph, and every vertex and connector passed to cru_stretch by the expander, is in exactly one of three places when cru_stretched is done: in the graph returned, among those freed (once) by the destructors, or lost. Within a pass, whether it fails or not, no node and no edge is freed twice, nothing freed is referred to by what's kept, and only nodes requested by cru_stretch are freed. Nothing is lost if st_fix isn't set and a graph is returned. There are two ways things get lost, which are the defects. With st_fix, if all edges to a vertex other than the base are deleted in a pass in which some vertex is created, that vertex isn't in the graph any more and is never freed. If the job is killed while the pruning task after the last pass is running, then cru_stretched fails with CRU_INTKIL and never frees the vertices that task has got to, among them the base; with one worker, this can happen to every job that could have returned a graph.", "quantifier": "all graphs with distinct vertices, expanders, property functions, numbers of workers, limits, schedules, kill requests in pruning, and numbers of passes", "why_tests_cant": "Which node is kept and which freed when equal vertices are requested depends on the order in which packets arrive at the workers, and the leaks need a kill at a particular moment or a second pass after a vertex is cut off.", "anchors": ["src/stretch.c: scattered, graft, overwrite, stretching_task, _cru_pruning_task, _cru_stretched", "src/nodes.c: _cru_free_nodes", "src/route.c: _cru_sweep, _cru_free_router"]}
{"id": "C141", "title": "Operations and kill switches give back all the memory, mutexes and conditions they obtain", "statement": "To carry out an operation the library obtains blocks of memory, mutexes and condition variables from the system: some for the operation as a whole, and for every worker a port with its own mutex and conditions. There are five requests, and six for each worker. If none is refused the operation has everything; if any is refused, the error is that of the first refused, whatever had been obtained is given back, and nothing else is (each mutex and condition is destroyed once, before the block it's in is freed). The number of workers is that requested, or that of the processors if it's less or none was requested (at most 1024, and one by default, if the number of processors isn't known). However many stages an operation has, whether they use the operation's workers or others of their own, and whichever requests are refused, when it's over everything obtained for it has been given back. If it reports no error then no worker of any stage had one, no thread failed to start or be joined, no stage with workers of its own was killed, and neither was the last stage of those with the operation's workers. A kill switch is made together with its lock or there's an error and nothing is left, and freeing it gives back both.", "quantifier": "every number of processors and lanes, every list of stages with every outcome, every set of refused requests with every error code", "why_tests_cant": "Which of the requests is refused is up to the system, and there are 5 + 6n of them for every operation.", "anchors": ["src/route.c: router_of, _cru_free_router, _cru_shared, _cru_reset", "src/ports.c: _cru_new_port, _cru_free_port", "src/pods.c: _cru_pod_of, _cru_free_pod", "src/cthread.c: _cru_mutex_init, _cru_cond_init", "src/killers.c: _cru_new_kill_switch, cru_free_kill_switch", "src/launch.c: _cru_launched"]}
{"id": "C142", "title": "Partitions are obtained and given back as a whole, except for a lock", "statement": "A partition made by cru_partition_of consists of a block, a lock in it and an array of maps, of which there are as many as lanes were requested even if there are fewer workers. It's made together with the workers, or neither is, and then there's an error and nothing obtained is left. When it's freed all of it is given back. The exception is the case of no memory for the maps: the block is freed without destroying the lock in it. This is the defect.", "quantifier": "every number of lanes and processors, every set of refused requests", "why_tests_cant": "Which of the requests is refused is up to the system.", "anchors": ["src/classes.c: _cru_partition, cru_free_partition", "src/route.c: _cru_classifying_router"]}
{"id": "C143", "title": "No error is lost in building, spreading, fabricating, crossing, splitting, postponing, mutating, composing or merging", "statement": "If any user-supplied function, predicate, comparison or destructor returns an error code, or any allocation of memory fails, at any time in the course of cru_built, cru_spread, cru_fabricated, cru_crossed, cru_split, cru_postponed, cru_mutated or cru_composed, including while things are being discarded and in the worker threads, then the operation reports a non-zero error and returns no graph. The same goes for cru_merged from the end of the traversal that classifies vertices on, including errors workers have by then. In particular a graph that is returned has been made entirely by successful calls. (Errors of the functions called within cru_connect and cru_stretch are given to the connector that calls them and count if it returns one; a failing allocation of a packet counts even if there is a packet in reserve, but one that isn't needed isn't asked for.)", "quantifier": "every set of failing calls and allocations, every error code, every graph, every number of workers, every schedule, every kill request, every number of passes", "why_tests_cant": "a lost error leaves no trace, and would have to be looked for with every call failing in every schedule", "anchors": ["src/build.c:_cru_built", "src/spread.c:_cru_spread", "src/fab.c:_cru_fabricated", "src/cross.c:_cru_cross", "src/split.c:_cru_split", "src/postpone.c:_cru_postpone", "src/mutate.c:_cru_mutated", "src/compose.c:_cru_composed", "src/errs.h:RAISE", "src/merge.c:merge", "src/launch.c:_cru_launched"]}
{"id": "C144", "title": "Threads sharing the pool of locks don't interfere and don't deadlock, except in nested calls", "statement": "Worker threads of all operations in a process share a pool of 251 read-write locks, each of which protects many places in memory. However places share locks and threads are scheduled, there is no data race at a place that is read and written only by way of the pool, and as long as no user-supplied function waits for locks or threads while it is called by a thread that has a lock, there is never a deadlock: some thread can always go on until all have ended. In particular the workers of cru_mutated come to an end if its operators don't call functions that wait. This is the defect: cru_mutated calls its edge operator (and destructors) while it has a lock of the pool, so if an edge operator calls cru_mutated for another graph, and a vertex there that is mutated without waiting shares its lock with the vertex being mutated, the outer call never returns.", "quantifier": "every number of threads, every assignment of locks to places, all programs of the threads including threads they start and join, every interleaving of single accesses of memory", "why_tests_cant": "Whether locks collide depends on addresses; interleavings of single memory accesses are too many to test, and an absence of deadlocks can't be observed.", "anchors": ["src/cthread.c:25-30, 227-313 lock_pool, _cru_read, _cru_write, _cru_lock_for_writing, _cru_unlock_for_reading", "src/mutate.c:373-415 mutate", "src/mutate.c:473-497 all_quiescent"]}
{"id": "C145", "title": "Mutation of vertices and edges by several threads has no data races and gives the sequential result, except with a fold over dependants only", "statement": "Whatever the number of worker threads, however vertices are assigned to them and locks of the pool to vertices, and however the threads' single accesses of memory interleave, in cru_mutated no two threads are free to access the same vertex, label or mark at the same time with one of them storing something there; a vertex that has been mutated is the result of the vertex operator for its original value, what its prerequisites and the labels from them became, and the original labels and vertices on the other side; each edge's label becomes the result of the edge operator for the mutated vertex, the original label and the original remote vertex, in both copies of the label; and vertices that haven't been mutated keep their vertex and labels. This is the defect: with a kernel that has no edge operator, no fold over edges on the prerequisites' side, and a fold that depends on remote vertices on the other side, a thread loads the vertex of a dependant as another thread stores it, even in a graph of two vertices, and the result depends on which one is faster.", "quantifier": "all graphs in full duplex form, all kernels accepted by cru_mutated other than those named, all numbers of threads, assignments of vertices to threads and of locks to vertices, all lists of nodes that arrive with any repetitions, and every interleaving of single accesses of memory", "why_tests_cant": "Data races don't show up in tests reliably, and the interleavings of single memory accesses are too many to try.", "anchors": ["src/mutate.c:120-150, 199-225 early nodes", "src/mutate.c:280-440 mutation of a node", "src/mutate.c:505-559 mutating_task", "src/cthread.c:227-313 _cru_read, _cru_lock_for_writing, _cru_unlock_for_reading", "src/infer.c:462-475"]}
{"id": "C146", "title": "Vertices and edges moved between linked lists are neither lost nor listed twice", "statement": "The vertices of a graph are in doubly linked lists and edges, messages and buckets in singly linked ones, which are taken apart and put together again by every operation. In terms of the pointers in memory: inserting a vertex anywhere in a list, removing one from whichever list it is in, concatenating lists, and pushing, popping and enqueuing edges have just the effect on the lists concerned that one expects and none on others; a vertex that is in a list already is refused by an insertion, and one that is in none by a removal. If any number of workers concurrently take the vertices of lists they have in common without a lock, each vertex taken by one of them and severed before it is inserted, each worker's list has just what it took in the end, in whatever order they proceed. Concatenating a list with itself makes it cyclic, so that going through it never ends, which is why the lists have to be disjoint.", "quantifier": "all contents of memory, numbers of lists and lengths of them, all positions in a list, and all interleavings of the workers' operations", "why_tests_cant": "The shapes of lists and the interleavings are unlimited in number, and a damaged pointer need not be followed by a test.", "anchors": ["src/nodes.c:205-323 _cru_pushed_node, _cru_severed, _cru_half_severed, _cru_cat_nodes", "src/edges.c:214-340 _cru_push_edge, _cru_enqueue_edge, _cru_cat_edges, _cru_popped_edge", "src/pack.c:349-385 _cru_push_packet, _cru_popped_packet", "src/brig.c:60-75, 286-301 _cru_popped_bucket, _cru_cat_brigades"]}
{"id": "C147", "title": "Packets passed between threads are received whole, in order and once", "statement": "Whatever the worker threads of an operation do with the packets they have, and however their accesses of memory are interleaved, it is as if each list of packets were handed over to another worker, postponed, resumed or received in one indivisible step. No packet is lost, duplicated, or in two lists at once; the list found at a worker's port is always well linked when no one is busy with it; no two threads ever access the same pointer at the same time unless both only read it; and no thread waits for ever for a port's mutex. This depends on receiving under the protection of the mutex: with the alternative code for receiving by an atomic exchange (enabled by CK_F_PR_FAS_PTR, which nothing defines), a packet can be received and stay at the port nevertheless, to be received again.", "quantifier": "all numbers of workers, ports, packets and local lists, all programs of workers in terms of what packets they move where, all well linked initial lists, all interleavings of single loads, stores, and acquisitions and releases of mutexes", "why_tests_cant": "a lost or duplicated packet takes an unlucky interleaving of a few memory accesses, which tests hardly ever get to see", "anchors": ["src/ports.c: assignment, assigned, expose, blocking_assignment", "src/sync.c: _cru_undefer", "src/pods.c: _cru_recycled", "src/pack.c: _cru_push_packet, _cru_popped_packet"]}
{"id": "C148", "title": "Workers of cru_induced don't race for values of vertices, and any result is the right one", "statement": "While several threads evaluate the vertices of a graph on behalf of cru_induced, no two of them ever access the same shared place (the value of a vertex, a thread's set of evaluated vertices or its flag of being disabled) at the same time unless both only read it. A vertex that any thread regards as evaluated has the value that the documented recursion gives it. If a result is returned by any thread, it is the value of the recursion for the initial vertex, so that it doesn't depend on the number of threads, on which of them is responsible for which vertices, on the order of messages or on their speed. This is so even if threads are killed, user functions fail or memory runs out on the way. No thread waits for ever for a lock.", "quantifier": "all graphs, cyclic ones included, all user functions, all numbers of threads, all assignments of vertices to threads, all sequences of messages arriving at each of them, all points of kill requests, errors of user functions and memory failures, and all interleavings of single loads, stores, and acquisitions and releases of locks", "why_tests_cant": "a race between a thread that stores a value and another that reads it takes an interleaving of single accesses of memory, of which a test sees very few", "anchors": ["src/induce.c: visit, _cru_inducing_task", "src/zones.c: all_visited, visited, _cru_visitable", "src/edges.c: _cru_reduced_edges_by_accumulator", "src/cthread.c: _cru_set"]}
{"id": "C149", "title": "Several threads may unite and look up classes of the same partition at the same time", "statement": "If any number of threads call cru_class_of and cru_united for the same partition, where the calls of a thread may depend on the results of its earlier ones, no two of them ever access the same field of a class at the same time unless both only read it. At any time there is an order of the calls made so far in which they would have had the same results one after the other, keeping the order of the calls of each thread, and of a call that begins after another one has returned. When all threads have finished, two vertices have the same class exactly if they had it to begin with or have been put together directly or indirectly by calls of cru_united by any threads, and any class returned for a vertex on the way, however old, is still good for uniting it. In particular, which thread unites which classes, and when, makes no difference to which vertices end up together. No thread waits for ever.", "quantifier": "all partitions, all numbers of threads, all finite sequences of calls by each thread depending on earlier results, and all interleavings of single loads, stores, and acquisitions and releases of the lock", "why_tests_cant": "an interleaving of single accesses of memory that goes wrong would be rare, and tests can see only a few of them", "anchors": ["src/classes.c: cru_class_of, cru_united", "man/man3/cru_united.3.in", "man/man3/cru_class_of.3.in"]}
{"id": "C150", "title": "Graphs carry along the functions that later operations compare them by", "statement": "After any history of building, crossing, fabricating and transforming a graph with specifications that are accepted, an operation that accepts its specification hashes and compares vertices and edge labels only by functions that the user has given or by the defaults for scalars, never by a missing one or a placeholder, and the defaults are found only in graphs whose vertices or labels have no destructor. There are two exceptions. (1) An operation with a zone whose initial vertex has to be searched for needs the vertex equality of the graph, and without one ends with internal error -1765 after having been accepted. The equality is missing exactly if it was missing before, or if the vertices have been merged, mutated to ones with another destructor, or fabricated, and none was given, even if the new vertices are scalars, for which the manual says that a default is inferred. (2) cru_merged needs the edge order of the graph unless edges are reduced and not pruned. Without one it is accepted and ends with internal error -876, -1168 or -1436. The order in the me_orders field, which is the one that is checked, is never used for pruning or deduplicating edges. No default edge order is inferred for a graph merged to scalar labels, contrary to the manual. cru_spread accepts a builder exactly if cru_built would accept it and the orders and destructors it has then are those of the graph; if only the latter fails, it reports CRU_INCSPB.", "quantifier": "all histories of operations on graphs, and all combinations of present and missing functions in every specification", "why_tests_cant": "what goes wrong depends on combinations of fields in the specifications of several operations in a row, of which there are far too many to test", "anchors": ["src/infer.c: _cru_inferred_merger, inferred_sig, _cru_inferred_fabricator, _cru_inferred_stretcher, _cru_deduplicator", "src/entry.c: cru_merged, cru_mutated, cru_spread", "src/graph.c: _cru_identical", "src/zones.c: base_searching_task", "src/merge.c: fused_edges", "man/man7/cru_merger.7.in", "man/man7/cru_mutator.7.in"]}
{"id": "C151", "title": "Rejected specifications are explained", "statement": "If an operation rejects a specification whose functions come from the user, then cru_strerror has a message about the error that it has about no other, and the message is the one about the condition that the operation has found to be violated. The exception is internal error -820, which is reported only if there is a bmap in the specification.", "quantifier": "every specification for every operation on every graph, every creation, crossing and fabrication of a graph", "why_tests_cant": "There are infinitely many specifications, and a test sees the codes it has been written for.", "anchors": ["src/infer.c", "src/defo.c:218-397", "src/graph.c:331-361", "src/errs.c:177-257", "include/cru/error_codes.h"]}
{"id": "C152", "title": "Workers that can not begin neither block a job nor lose storage", "statement": "If any workers of cru_built or cru_spread fail to begin because thread specific storage can not be set, the job still never deadlocks, returns no graph but an error, and everything allocated has been freed exactly once in the end, except for what C139 says about subconnectors. The other workers go on as if nothing happened: the job isn't killed. Defect: in cru_spread, this holds only if the compiler evaluates the arguments of a call in ports.c in one of two permitted orders; in the other order, a null pointer is dereferenced as soon as such a worker gets any packet.", "quantifier": "All numbers of workers, sets of workers that fail, connectors, graphs, schedules, allocation failures and error codes.", "why_tests_cant": "Failures of pthread_setspecific don't happen in tests, and neither the schedules nor the order of evaluation are under their control.", "anchors": ["src/ports.c:_cru_abort_packets", "src/ports.c:_cru_abort_new_packets", "src/build.c:_cru_building_task", "src/spread.c:spreading_task", "src/getset.c:_cru_set_context"]}
{"id": "C153", "title": "Accepted specifications never make the library call a missing function or a placeholder", "statement": "If an operation accepts a specification, then whatever the numbers of edges at vertices are and whatever errors the user's functions raise, its tasks call only functions that the user has given or defaults that do something, never NULL or a placeholder. The only other error its tasks report about the functions in the specification is CRU_UNDVAC, which a fold over edges leads to exactly if it has no vacuous case and there are no edges; mutations never lead to it. There are two exceptions: cru_induced without a map is accepted and fails with CRU_UNDMAP at the first vertex with edges, after at most one call of the vacuous case; and cru_merged without a classifier and a vertex operation raises an undocumented internal error for each class with more than one member.", "quantifier": "All specifications made of functions of the user, signatures of graphs, numbers of edges and vertices, and errors raised by the user's functions.", "why_tests_cant": "There are thousands of combinations of fields that are NULL or not, and which of them are called depends on the graph and on errors.", "anchors": ["src/repl.c", "src/defo.c:_cru_filled_fold", "src/infer.c", "src/edges.c:reduced_edges", "src/nodes.c:mapped_node", "src/nodes.c:_cru_reduced_nodes", "src/mapreduce.c:_cru_mapreducing_task", "src/induce.c:_cru_inducing_task", "src/filters.c:is_deletable", "src/mutate.c:mutate", "src/merge.c:fuse_vertices", "src/merge.c:fused_edges", "src/compose.c", "src/split.c", "src/stretch.c", "src/postpone.c", "src/build.c", "src/spread.c", "src/cross.c", "src/fab.c"]}
{"id": "C154", "title": "cru_merged without a classifier fails if two vertices are the same word", "statement": "If cru_merged is called with neither a classifier nor a vertex operation, to merge only edges, then every vertex is meant to be in a class of its own. This is so, and the graph returned has the same vertices, unless they are pruned, with the edges between any two of them merged, if all vertices differ as words. Defect: if two vertices are the same word, as for equal scalars, then in every execution that isn't killed no graph is returned, but an undocumented internal error is raised, because properties are compared as words before the predicate that is always false is called.", "quantifier": "All graphs, numbers of lanes, schedules and hash functions.", "why_tests_cant": "Graphs are built with unequal vertices, so tests that merge edges of such graphs succeed; the defect takes a graph with equal scalar vertices, and in general all schedules.", "anchors": ["src/infer.c:inferred_merger", "src/merge.c:vertex_merging_task", "src/merge.c:fuse_vertices", "src/repl.c:_cru_false_bpred"]}
{"id": "C155", "title": "Functions left out of a specification have their documented meaning", "statement": "If no reduction is given in a fold of scalars, then a fold over edges yields the least, as unsigned integers, of what the map makes of the edges and of the vacuous case if there is one, and of the labels if there is no map either; with neither edges nor a vacuous case, CRU_UNDVAC is raised. Likewise, cru_mapreduced with no reduction returns the least of the properties of the vertices in the zone, and with nothing specified the least vertex, subject to the exceptions of C18. If cru_filtered is given neither a vertex map nor a thinner, then exactly those vertices are kept for which at least one of the folds over incoming and outgoing edges yields something other than NULL, or all of them if neither fold is given, as far as they're still reachable by way of the edges kept. However, if a fold over incoming edges is given without a vacuous case, and some vertex has no incoming edges, then the call doesn't return a graph.", "quantifier": "All graphs of words, functions, numbers of lanes, schedules and hash functions.", "why_tests_cant": "The least of any number of values combined in any order by any number of workers can't be sampled, nor can all combinations of functions given and left out.", "anchors": ["src/repl.c", "src/defo.c:_cru_filled_fold", "src/edges.c:reduced_edges", "src/nodes.c:mapped_node", "src/filters.c:is_deletable", "man/man7/cru_fold.7.in", "man/man7/cru_filter.7.in"]}
{"id": "C156", "title": "Partitions by properties of incoming edges", "statement": "If the classifier given to cru_partition_of has a fold over incoming edges, and the graph has either all of its incoming edges or none, then a call that isn't killed and raises no error returns the partition wherein two vertices are in the same class exactly when the classifier holds of their properties, with each property computed from all edges into the vertex, and class sizes are the numbers of vertices. However the call ends, all properties have been freed once and the graph is left without incoming edges, except if the call is killed while it derives incoming edges. In that case it returns nothing and CRU_INTKIL, but some of the edges can be left behind. Thereafter, the next call on the same graph can return a wrong partition without any error: on any path of at least 31n+2 vertices with n lanes, the second and the last vertex have incoming edges both but are put in different classes by a classifier that tells vertices with incoming edges from those without.", "quantifier": "All graphs, classifiers with lawful functions, numbers of lanes, memory layouts, schedules and points where the call is killed.", "why_tests_cant": "The fault depends on when the call is killed and where the edges queued between workers are at the time, and shows only in the result of a later call.", "anchors": ["src/props.c:_cru_set_properties", "src/props.c:_cru_unset_properties", "src/classes.c:_cru_partition_of", "src/duplex.c:_cru_full_duplexing_task", "src/duplex.c:_cru_half_duplexing_task", "src/graph.c:_cru_half_duplex"]}
{"id": "C157", "title": "Merging by properties of incoming edges", "statement": "If the classifier given to cru_merged has a fold over incoming edges, then a call that isn't killed and raises no error merges two vertices exactly when the classifier holds of their properties, with each property computed from all edges into the vertex whether or not the given graph has its incoming edges at the time. The result is the quotient described in C33, and has no incoming edges. There is always such an execution if a vertex operation is given.", "quantifier": "All graphs with all of their incoming edges or none, classifiers and label orders with lawful functions, pruners, edge and vertex operations, numbers of lanes, memory layouts and schedules.", "why_tests_cant": "Whether all incoming edges have arrived by the time a property is computed depends on four traversals one after another, each with its own schedule.", "anchors": ["src/merge.c:_cru_merged", "src/merge.c:merge", "src/props.c:_cru_set_properties", "src/duplex.c:_cru_full_duplexing_task", "src/duplex.c:_cru_half_duplexing_task"]}
{"id": "C158", "title": "Compositions with no functions make transitive closures", "statement": "If cru_composed is given a composer with co_fix set, destructive unset, and neither a predicate nor a labeler, on a graph with scalar labels and without duplicate edges, and isn't killed, then the call comes to an end and returns the graph with the same vertices, in which a vertex has an edge with a given label to another vertex if and only if the given graph has a path between them that starts with an edge of this label. In particular, there's an edge if and only if there is a path of at least one edge, so the result is the transitive closure; no edge is there twice. If the given graph has duplicate edges, then the call can end too early: for a cycle of four vertices wherein each edge is there twice, every result lacks edges of the transitive closure.", "quantifier": "All graphs with scalar labels, properties of vertices, numbers of lanes, memory layouts and schedules.", "why_tests_cant": "The number of iterations and the lengths of paths are unbounded, and every iteration has its own schedule.", "anchors": ["src/compose.c:_cru_composed", "src/compose.c:compose", "src/compose.c:bypassed", "src/infer.c:_cru_inferred_composer", "src/repl.c:_cru_true_qpred", "src/repl.c:_cru_identity_qop", "src/repl.c:_cru_equality_bpred", "man/man7/cru_composer.7.in"]}
{"id": "C159", "title": "The words of products and copies", "statement": "Call a sequence of labels a word of a graph if it's spelled by a path from the base. A graph returned by cru_crossed has as its words just those obtained by e_prod.bop, position by position, from a word of the one graph and a word of the other of the same length, provided that the labels at each position satisfy e_prod.bpred; and the vertices where a word ends are the products by v_prod of the vertices where such words end. Hence, with equality as the predicate, the product accepts just those words that both graphs accept. With the predicate left out, any two words of equal length have a product, so a pair of vertices has its product in the result if and only if both can be reached by paths of equal length. The words of a graph returned by cru_fabricated are those of the given graph with every label replaced by the fabricator's operator, ending at the replaced vertices.", "quantifier": "All graphs, crossers and fabricators, words of all lengths, numbers of lanes, memory layouts and schedules.", "why_tests_cant": "The words are unbounded, even for finite graphs, and depend on all pairs of vertices having been reached under every schedule.", "anchors": ["src/cross.c:_cru_cross", "src/cross.c:productive_packets_of", "src/cross.c:reached_new_node", "src/entry.c:cru_crossed", "src/infer.c:_cru_inferred_crosser", "src/repl.c:_cru_true_bpred", "src/fab.c:_cru_fabricated", "man/man7/cru_crosser.7.in"]}
{"id": "C160", "title": "Postponements with functions left out", "statement": "If cru_postponed is given a postponer with just the predicate postponable, on a half duplex graph with scalar labels, and isn't killed, then each edge that's postponable, leads to another vertex, and has a sibling to another vertex that isn't postponable, is removed, and an edge with the same label and terminus is there from the terminus of every such sibling. Vertices and all other edges stay as they were. So in place of a path with the label of the postponable edge, there's one with the label of the sibling first and this label last. If po_fix is set, there were no duplicate edges, and the call comes to an end, then no vertex of the result has both a postponable edge to another vertex and one that's not.", "quantifier": "All half duplex graphs with scalar labels, predicates, numbers of lanes, memory layouts and schedules.", "why_tests_cant": "Whether the replacements for functions that are left out have the effect described depends on all edges of all vertices, under every schedule.", "anchors": ["src/infer.c:_cru_inferred_postponer", "src/repl.c:_cru_true_bpred", "src/repl.c:_cru_identity_bop", "src/repl.c:_cru_equality_bpred", "src/postpone.c:postpone", "src/postpone.c:_cru_postpone", "src/entry.c:cru_postponed", "man/man7/cru_postponer.7.in"]}
{"id": "C161", "title": "Filters with only a thinner", "statement": "If cru_filtered is given a filter with just a thinner that is a strict weak order, on a graph of scalars, and isn't killed, then it returns a graph in which each vertex that had any outgoing edges has one of them left, such that the thinner prefers no other, and no others; vertices that can't be reached any more are removed. So what's left is a single walk from the base, which has one word of each length until it gets to a vertex that had no edges, if it ever does. If an ordering of edges is given as well, with which the thinner is consistent, then all edges with labels equivalent to that of a most preferred one are left to each vertex.", "quantifier": "All graphs of scalars, thinners and orderings, numbers of lanes, memory layouts and schedules.", "why_tests_cant": "Whether the replacements for missing tests have the effect described depends on all edges of all vertices, under every schedule.", "anchors": ["src/infer.c:_cru_inferred_filter", "src/repl.c:_cru_true_top", "src/repl.c:_cru_false_top", "src/repl.c:_cru_minimizing_bop", "src/filters.c:individually_filtered", "src/filters.c:jointly_thinned", "src/entry.c:cru_filtered", "man/man7/cru_filter.7.in"]}
{"id": "C162", "title": "Counts before and after operations", "statement": "If cru_vertex_count, cru_terminus_count or cru_edge_count is called for a graph before an operation and for its result afterwards, on any numbers of lanes, and neither count is too large to represent, then: a copy made by cru_fabricated, and a graph mutated by cru_mutated, have the same count as the original; a graph filtered without a thinner has no more vertices and no more edges; a product made by cru_crossed has no more vertices than the product of the numbers of vertices of its operands, and no more edges than the product of their numbers of edges; a graph merged without a pruner has as many vertices as the properties of its vertices have equivalence classes. No error is reported for any of the counts, as long as they are representable.", "quantifier": "All graphs, functions, kinds of counts, numbers of lanes for each operation, memory layouts and schedules of the operation and of both counts.", "why_tests_cant": "The relation is between separate concurrent calls, and must hold under any combination of schedules and for graphs of any size.", "anchors": ["src/entry.c:cru_vertex_count", "src/entry.c:cru_terminus_count", "src/entry.c:cru_edge_count", "src/entry.c:cru_fabricated", "src/entry.c:cru_crossed", "src/entry.c:cru_filtered", "src/entry.c:cru_mutated", "src/entry.c:cru_merged", "man/man3/cru_vertex_count.3.in"]}
{"id": "C163", "title": "Words of merged and filtered graphs", "statement": "If cru_merged succeeds without an edge operation or a pruner, then for every path from the base of the given graph, the result has a path from its base with equal labels in the same order, which ends at the vertex standing for the class of the one where the original ended; vertices are in the same class if and only if their properties are equal. If furthermore vertices with equal properties always have equally labelled edges to vertices with equal properties, then the result has no other words: the two graphs have the same ones, up to equality of labels, ending at the same classes. If cru_filtered returns a graph and was given no thinner, then its words and where they end are those of the paths in the given graph whose edges pass and lead to vertices that pass; with just a test of edges by their labels, they are the words of the given graph all of whose labels pass.", "quantifier": "All graphs, properties, equality relations, filters, paths of any length, numbers of lanes, memory layouts and schedules.", "why_tests_cant": "Paths can be of any length, and in cyclic graphs there are infinitely many of them.", "anchors": ["src/entry.c:cru_merged", "src/entry.c:cru_filtered", "src/merge.c:_cru_merged", "src/filters.c:individually_filtered", "man/man7/cru_merger.7.in", "man/man7/cru_filter.7.in"]}
{"id": "C164", "title": "A filter may consist of a single test", "statement": "A filter in which the user has given nothing but a map of vertices deletes the whole graph if the map of the base vertex is NULL, and otherwise leaves the edges that lead to vertices whose map isn't NULL. One with nothing but a map of edges, ternary or binary, always returns a graph, and leaves the edges whose map isn't NULL. If an ordering of labels is given as well, but no reduction, then an edge remains only if the maps of all edges from its vertex with equivalent labels aren't NULL. In each case the vertices that remain are the ones that can still be reached from the base. A filter with an ordering and nothing else is refused with CRU_INCFIL.", "quantifier": "every graph, every map that raises no errors, every equivalence of labels and hash that respects it, every number of threads and schedule", "why_tests_cant": "the functions that the user leaves out are filled in by the library, and whether the result does what the manual's examples say depends on how these are combined for every graph and map", "anchors": ["src/infer.c:_cru_inferred_filter", "src/repl.c:_cru_minimizing_bop", "src/repl.c:_cru_disjoining_top", "src/filters.c:individually_filtered", "src/entry.c:cru_filtered", "man/man7/cru_filter.7.in"]}
{"id": "C165", "title": "Splitting with functions left out makes copies", "statement": "If the vertices and labels of a graph are scalars, then cru_split given a splitter with no functions, or with no function but the predicate to say which vertices are to be split, returns a graph with two copies of each vertex that's to be split (all of them without a predicate) and to which an edge leads, and one of each other vertex, including the base unless an edge leads to it; each edge is copied, with its label, from all copies of its origin to all copies of its terminus. A path from the base of the given graph spelling a word to a vertex exists if and only if one spelling the same word exists in the result to each copy of it. The only error is CRU_INTOVF, and only if there's a limit on the number of vertices. If vertices have a destructor, leaving out ana or cata is reported as CRU_UNDANA or CRU_UNDCAT, and if labels have one, leaving out the operator for labels as CRU_UNDCTO. Functions that are given instead are used as they are, each in its own place: fissile, ana and cata are applied to a vertex and its property, in this order, and each labeler to the property of the origin, the label and the property of the terminus.", "quantifier": "every graph, predicate, word, number of threads, layout of memory and schedule", "why_tests_cant": "which functions are filled in, and how they work together in the tasks that split vertices while edges to them are being processed by other threads, matters for graphs of any shape and paths of any length", "anchors": ["src/infer.c:_cru_inferred_splitter", "src/repl.c:_cru_true_bpred", "src/repl.c:_cru_true_tpred", "src/repl.c:_cru_identity_bop", "src/repl.c:_cru_identity_top", "src/split.c:_cru_split", "src/entry.c:cru_split", "man/man7/cru_splitter.7.in"]}
{"id": "C166", "title": "Fabricating with functions left out shares vertices or labels", "statement": "If the specification given to cru_fabricated has no function for vertices, and no destructor for them either, then the graph that's returned is a copy of the given one with the same vertices; likewise for labels. It has no destructor for vertices or labels shared this way, whatever that of the given graph, so that freeing one graph leaves those of the other intact. If functions raise no errors and memory suffices, CRU_INTKIL is the only other error. A destructor without a function is reported as CRU_UNDEFB for labels, and as CRU_UNDVFB for vertices if labels are in order, and no graph is returned.", "quantifier": "every graph, either function given or left out, every signature of the specification and of the graph, number of threads, layout of memory and schedule", "why_tests_cant": "which functions and destructors are filled in depends on combinations of fields in the specification and in the given graph, and the copy is made by concurrent tasks for graphs of any shape", "anchors": ["src/infer.c:_cru_inferred_fabricator", "src/repl.c:_cru_identity_uop", "src/fab.c:_cru_fabricated", "src/entry.c:cru_fabricated", "man/man7/cru_fabricator.7.in"]}
{"id": "C167", "title": "The words of mutated graphs", "statement": "Call a sequence of labels a word of a graph if it's spelled by a path from the base. If the edge operator given to cru_mutated makes something of each label that depends only on the label, and all vertices are mutated (because the order doesn't matter, or because the graph has no cycles), then the words of the graph returned are just those obtained from words of the original by doing this to each of their labels, and they end at the same vertices. If there's no edge operator, the words are the same. If the vertex operator depends only on the vertex, each vertex becomes what it makes of it, and without one each vertex remains the same. This holds for graphs mutated in either direction, with or without a priority.", "quantifier": "every full duplex graph, kernel and plan without a zone, word, number of lanes, hash function and interleaving", "why_tests_cant": "paths can have any length, and labels of different edges on a path are changed by different threads, at one end of the edge or the other depending on the plan, and copied to the other end", "anchors": ["src/mutate.c:_cru_mutated", "src/entry.c:cru_mutated", "man/man7/cru_mutator.7.in", "man/man7/cru_plan.7.in"]}
{"id": "C168", "title": "The words of stretched graphs", "statement": "Call a sequence of labels a word of a graph if it's spelled by a path from the base. If no two vertices of a graph are equal, then the words of the graph returned by cru_stretched without st_fix, and the vertices they end at, are just those, up to equality of labels and vertices, that are spelled by going along edges for which the expander returned zero, edges to vertices passed to cru_stretch with the first label passed, and edges from them with the second one. In particular, if the expander returns non-zero for each edge and calls cru_stretch once for it, with a vertex equal to none in the graph and to none for another edge, then the words ending at a vertex of the given graph are just those obtained from paths to it in the given graph by replacing the label of each edge by the two passed to cru_stretch.", "quantifier": "every graph, word, expander and property function, lawful equality of vertices and of labels, number of lanes, layout of memory and schedule", "why_tests_cant": "paths can have any length, and the edges on a path are taken apart and put together by different threads, where equal vertices are requested by several of them in any order", "anchors": ["src/stretch.c:_cru_stretched", "src/entry.c:cru_stretch", "src/entry.c:cru_stretched", "man/man7/cru_stretcher.7.in"]}
{"id": "C169", "title": "The words of deduplicated graphs", "statement": "Call a sequence of labels a word of a graph if it's spelled by a path from the base. If cru_deduplicated isn't killed and the graph is regular in the sense of C30, then every word of the graph, up to equality of labels, is a word of the graph returned, where it ends at an equal vertex. If equal vertices have equally labelled edges to equal vertices, then conversely every word of the graph returned, up to equality of labels, is one of the given graph ending at an equal vertex, whether the graph is regular or not. So if both is the case, and only identical labels are equal, the two graphs have the same words, ending at equal vertices.", "quantifier": "every graph as described, word, lawful equality of vertices and of labels, hash function, number of lanes, layout of memory and schedule", "why_tests_cant": "paths can have any length, and which of several equal vertices is kept, and which edges lead to it, depends on how messages between the workers are interleaved", "anchors": ["src/duplex.c:_cru_deduplicated", "src/entry.c:cru_deduplicated", "man/man3/cru_deduplicated.3.in"]}
{"id": "C170", "title": "The words of built graphs", "statement": "Call a sequence of labels a word of a graph if it's spelled by a path from the base. Consider the sequences of labels obtained by calling the connector for the given vertex, following any of the edges it makes by cru_connect, calling it for the terminus, and so on. If the connector makes equal edges for equal vertices, these are just the words of the graph returned by cru_built, up to equality of labels, and they end at equal vertices. The sequences obtained from a subconnector, told about the label of the edge followed each time, are words of the graph in the same way if it makes equal edges for equal vertices and labels. There can be others, because a vertex has the edges made for it whatever the label it's reached by: the words are just those obtained by following, from each vertex, any edge made in any call for it or an equal one.", "quantifier": "every connector or subconnector and initial vertex for which a graph is returned, lawful equality of vertices and of labels, word, number of lanes and schedule", "why_tests_cant": "paths can have any length, and the vertices on them are made by different threads, with equal ones made many times over in any order", "anchors": ["src/build.c:_cru_built", "src/entry.c:cru_built", "src/entry.c:cru_connect", "man/man7/cru_builder.7.in"]}
{"id": "C171", "title": "Crossing built graphs makes intersections", "statement": "If two graphs are built with cru_built by connectors that make equal edges for equal vertices, where only identical labels are equal, and they're crossed with cru_crossed by a crosser whose e_prod.bpred is equality of labels and whose e_prod.bop returns the first one, then the sequences of labels spelled by paths from the base of the product are just those made by both connectors, that is, by calling the connector for the initial vertex, following any of the edges it makes, calling it for the terminus, and so on. So graphs can be used as automata, whose products accept the intersection.", "quantifier": "every two connectors and initial vertices for which graphs are returned, word, numbers of lanes, layout of memory, and schedules of both constructions and of the product", "why_tests_cant": "words can have any length, and the result involves three concurrent computations with different schedules", "anchors": ["src/build.c:_cru_built", "src/cross.c:_cru_cross", "src/entry.c:cru_built", "src/entry.c:cru_crossed", "man/man7/cru_crosser.7.in"]}
{"id": "C172", "title": "The words of spread graphs", "statement": "If cru_spread is given a graph without equal vertices and a connector, and returns a graph without having been killed before the connector was first called, then each word (sequence of labels) spelled by a path from the base of the given graph is spelled by a path in the result to the same vertex. Any other word of the result starts with one of the given graph that ends at a vertex without outgoing edges. The words of the result are spelled by following, from each vertex of the given graph, its edges, and from a vertex without any, those made by the connector, and so on for the vertices they lead to, where a vertex equal to one of the given graph stands for it. Conversely, if the connector makes equal edges for equal vertices, each such sequence of labels is a word of the result, up to equality of labels, and ends at an equal vertex.", "quantifier": "every graph without equal vertices, connector, word, vertex limit, number of lanes, layout of memory and schedule for which a graph is returned", "why_tests_cant": "paths can have any length and lead in and out of the part that's created concurrently", "anchors": ["src/spread.c:_cru_spread", "src/entry.c:cru_spread", "man/man3/cru_spread.3.in"]}
{"id": "C173", "title": "The words of composed graphs", "statement": "Non-destructive composition by cru_composed that isn't killed, iterated or not, keeps each word (sequence of labels) spelled by a path from the base of a half duplex graph, up to equality of labels, along with the vertex where it ends. For each path from the base of the result of composition, destructive or not, there's one in the given graph to the same vertex with at least as many edges, and at most twice as many if the composition isn't iterated. If all pairs of edges are selected and it's neither destructive nor iterated, there's a path in the result with half as many edges, rounded up, for each path in the given graph.", "quantifier": "every graph, composer, word, number of lanes, layout of memory and schedule", "why_tests_cant": "paths can have any length, and an iterated composition can take any number of passes, each of which is concurrent", "anchors": ["src/compose.c:_cru_composed", "src/entry.c:cru_composed", "man/man3/cru_composed.3.in"]}
{"id": "C174", "title": "The words of split graphs", "statement": "If cru_split returns a graph without having been killed, then for each path from its base there's one in the given graph with as many edges, to the vertex that the last one was made from by ana or cata, or that it is. If all labelers return the labels of the given edges whenever their predicates hold, then both paths have the same labels, so that no new words are made. Words spelled by paths in the given graph by way of vertices that aren't to be split remain words of the result and end at the same vertices, and if the labelers for vertices made by ana always hold and return the labels of the given edges, all words of the given graph remain, and end at vertices that weren't split or were made by ana.", "quantifier": "every graph, splitter, word, number of lanes, layout of memory and schedule for which a graph is returned", "why_tests_cant": "paths can have any length and pass by any number of vertices split by different threads; the properties on which labelers decide depend on the schedule (C78)", "anchors": ["src/split.c:_cru_split", "src/entry.c:cru_split", "man/man3/cru_split.3.in"]}
{"id": "C175", "title": "Numbers of threads and storage for them", "statement": "Given a non-zero number of lanes, an API function uses that many threads, but no more than there are processors online, and given zero (CONCURRENTLY), as many as there are processors. If the number of processors is configured to be zero, the limit is 1024, and the default is one. On systems with 64 bits, the arrays allocated for threads always have just the size needed. But if sysconf fails, there's no limit, and 4294967295 threads are the default. Partitions returned by cru_partition_of have storage for as many maps as lanes were asked for, rather than for as many as there are threads, which can amount to 32 gigabytes. On systems with 32 bits, the sizes are right as long as fewer than two to the power of 30 lanes are asked for, but there are larger numbers for which the array in a partition is too small for the number of maps that it's said to have, and the overflow isn't detected.", "quantifier": "every number of lanes and result of sysconf", "why_tests_cant": "numbers of processors can't be varied in a test, and large numbers of lanes can't be tried", "anchors": ["src/route.c:router_of", "src/route.c:pointer_array_size", "src/route.c:thread_id_array_size", "src/route.c:_cru_classifying_router", "src/classes.c:map_size", "src/classes.c:_cru_partition", "src/entry.c:cru_partition_of", "src/config.h.in:NPROC"]}
