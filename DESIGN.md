# Formal model of cru

The model is in Lean 4 under `lean/Verif`. `Model/` holds the definitions that model C code (each cites file and
lines), `Spec/` the independent specifications, `Proofs/` helper lemmas and `Props/` the property theorems with a
non-vacuity example beside each.

## Architecture of the model

1. **Net** – the worker protocol (ports.c, sync.c, crew.c, launch.c, pods.c). State: for each lane a port (assigned,
   deferred, waiting, dismissed), a worker program counter with its private queues, and the main thread. One step is one
   critical section (code between lock and unlock) or one piece of thread-private code. Parametric in the task.
2. **Bag** – a machine whose state is the task state and a multiset of pending packets; a step picks any pending packet
   and handles it at the lane selected by its hash. Net refines Bag, so anything proved of Bag for all schedules holds
   for all interleavings and lane counts.
3. **Tasks** – building, counting, fabricating, ... as Bag machines.
4. **Sequential code** – edge lists, folds, tables, queues, partitions, reserves, kill switches, errors, inference.

## Plan per property

- **C01 An operation is declared finished only when no work is left** – Net model (`Model/Net.lean`): workers, ports, main thread; invariant over all interleavings ⇒ at `dismiss` the network is empty.
- **C02 No message is lost, duplicated or misdelivered** – Net model refines the Bag machine (`Model/Bag.lean`): a step of the net is a stutter or handles exactly one pending packet at `dest p`; proved by a simulation.
- **C03 Workers never deadlock** – Net model: every reachable unfinished state has an enabled non-spurious action.
- **C04 Every schedule of a non-deferring operation terminates** – Net model: well-founded measure decreasing at every step for tasks with a decreasing measure.
- **C05 Spurious wake-ups are not tolerated** – Net model with spurious wake-ups as actions. `Once` says that there is exactly one. The two defects are proved for every task and number of lanes by running the protocol to the point where the initial packet is about to be assigned (`exists_start`), by induction on the measure of C04; the positive part is by C01 and C02.
- **C06 cru_built returns exactly the reachable vertices, each once** – Build task as a Bag machine over every schedule: invariants on collision tables; at quiescence the tables hold one node per reachable class.
- **C07 cru_built installs exactly the connector's edges, deduplicated** – Same machine with a log of carrier→node links; final edge relation compared with the connector's.
- **C08 The built graph does not depend on lanes or scheduling** – Corollary of C06/C07: both graphs equal the specification.
- **C09 The connector is called exactly once per distinct vertex** – Call log in the build machine; the log is a permutation of the node set.
- **C10 Every vertex handed to cru_built is reclaimed exactly once or kept exactly once** – Ghost multiset of live vertices in the build machine (created = kept + freed + in flight).
- **C11 The vertex limit is enforced per worker** – Per-worker counter in the build machine.
- **C12 A connector error is propagated and no graph is returned** – err/killed components of the build machine and the collection of queues.
- **C13 A subconnector is called once per vertex and incident label** – Subconnector variant of the build machine.
- **C14 Counting is exact and independent of lanes** – Count tasks as Bag machines; `_cru_summation`.
- **C15 cru_singleton agrees with counting** – List model of the graph's nodes.
- **C16 cru_fabricated makes an isomorphic relabelled copy** – The loop shared by fab.c and cross.c is Model/Spawn.lean, with what is made of a node given by Model/Fab.lean. New nodes are numbered by lane and position in its queue. An invariant relates new nodes, links and carriers to the keys, and Rover gives reachability and termination. Spec/Spawn.lean (Depicts) and Spec/Fab.lean (IsCopy) are the specification; C16_copy, C16_error, C16_terminates in Props/Fab.lean.
- **C17 cru_crossed builds the reachable synchronous product** – As C16 with pairs of nodes as keys (Model/Cross.lean). Spec/Cross.lean gives the edges of the product as a flatMap and the reachable pairs as Covers; C17_product, C17_pairs (there are finitely many), C17_terminates in Props/Cross.lean.
- **C18 cru_mapreduced folds every vertex exactly once** – Map-reduce task, maybe values, arbitrary pairing tree.
- **C19 cru_induced computes the recursive value on every acyclic graph** – `Model/Induce`: `_cru_inducing_task` with deferral and disabled ports, `all_visited`, the reachability analysis. `Spec/Induce`: `Has` is the recursive value as an inductive relation, `Fails`, `Acyclic`, `InOrder`. Invariant over the bag semantics; termination by a rule for fair schedules (`Proofs/FairDone`), because a deferred packet can be retried any number of times. A worker may see an outdated state of other ports (`stale`).
- **C20 A constrained mutation visits prerequisites first, every vertex once** – Model: `bounding`, `handle` (Model/Mutate) as two traversals over the router. Spec: `Becomes` (what the kernel has for a vertex, defined by recursion on prerequisites), `InTurn`, `IsMutated`. Proof: invariant `Whole` (what has been mutated has its final value, prerequisites first, a packet is in flight for each vertex whose prerequisites have all been mutated), termination by a measure on unmutated vertices.
- **C21 Mutation of a zone is right only with remote_first** – Same invariant, with `Omitted` describing exactly which vertices are marked unreachable; `Turn` describes which vertices are mutated then. Positive theorem for remote_first, and theorems for the three ways in which zones do not work.
- **C22 cru_partition_of groups vertices by their property** – Classifying task; classes by property.
- **C23 cru_united maintains the union of classes through any history** – Union-find forest with path lengths; relation = closure, by induction over histories.
- **C24 cru_class_size after cru_united** – Same model; witness and positive part.
- **C25 Folds follow the documented calling convention** – `reduced_edges`, `reduced_nodes` as list functions with error state; foldr spec; permutation theorem.
- **C26 Every intermediate fold result is reclaimed exactly once** – Ghost allocation log of the same functions.
- **C27 Edge deduplication keeps exactly one edge per label and terminus** – `unique`, deduplicated brigade as list functions.
- **C28 Thinning keeps a minimum edge** – `_cru_minimum_edge` as a list function.
- **C29 cru_filtered keeps exactly the passing, still reachable part** – `Model/Filter.lean`, `Props/Filter.lean`: the three tasks (testing vertices, testing and cutting edges, pruning) on the packet machine. The edge filtering task is a `Rover` after packets that can't occur are ignored, and a ledger counts, for every edge to a deleted vertex, the copies not cut yet and the requests and visits in transit.
- **C30 cru_deduplicated fuses equal vertices and parallel equal edges** – `Model/Dedup.lean`, `Spec/Dedup.lean`, `Proofs/Dedup.lean`, `Proofs/DedupEnd.lean`: edges are objects that are moved and redirected by the workers; an invariant says that vertices stored are unequal, that the edges of a stored vertex cover the labels of all vertices fused with it, and that each edge has a packet pending or leads to a stored vertex. `C30_complete_iff` characterizes the graphs for which the documented result is obtained.
- **C31 Duplexing produces exact reverse edges** – Model/Duplex.lean has both tasks, the test and the preparation of a zone. Proved with the traversal lemmas (Proofs/Rover.lean) and a conservation law for edges delivered and in flight (`full_mail`), for runs without a kill (Proofs/Quiet.lean).
- **C32 The merge pruner's flag is true exactly when every class member has the label** – `Model/Merge.lean`: `gather`, `flag`, `prune`; the tables are those of C53.
- **C33 cru_merged yields the quotient graph** – `Model/Merge.lean`: vertex merging and the collection of survivors as traversals, edge merging as a function of each class.  The specification is `Spec/Merge.lean`.
- **C34 One composition pass adds exactly the selected two-step edges** – `Model/Compose.lean`: guarding as an unkillable traversal, composing and bypassing as functions of each node, pruning as a traversal. The result is a transversal of the existing edges and those called for (`Spec/Compose.lean`).
- **C35 Destructive composition deletes by label, not by edge** – The same model with labels as pointers. Three theorems about the defect, one about distinct labels.
- **C36 Stretching inserts exactly the requested vertices** – `Model/Stretch.lean`, `Spec/Stretch.lean` (Expands, Grows, Ends, Crowded), `Proofs/Stretch*.lean`: edges and new nodes are objects; new nodes are grafted on stored equal nodes and overwritten by original ones. The invariant `Inv` says where each edge is and to which class it leads, `Full` adds what is pending. `C36_stretched` covers any number of passes, `C36_overflow` is the exact condition for a failure.
- **C37 Splitting replaces each fissile vertex by two, with the selected copies of its edges** – Model/Split.lean: property setting, splitting and pruning on the worker protocol, with vertices, edges and properties of nodes and their dopplegangers as memory. A conservation law says that the edges of a node with those due to it on account of packets on the way are the copies called for (Proofs/Split.lean). Spec/Split.lean is by edges (`origins`, `termini`, `copies`). C37_split, C37_wf, C37_intact, C37_default, C37_terminates, C37_exists in Props/Split.lean.
- **C38 cru_split exceeds the vertex limit by one on each lane** – The counter of a lane is the number of nodes held and creations received. C38_overflow is the exact condition, C38_extra a case of exceeding the limit.
- **C39 Spreading extends only vertices without outgoing edges** – Both tasks of spread.c are tasks of the network model (Model/Spread). An invariant of the first says which nodes are in which table and list. An invariant of the second describes tables, lists, created edges, their termini, pending packets, calls, and errors, with a list of new vertices for each worker. It implies `Spreads` and `Called` (Spec/Spread) at the end. Termination by a weight made of workers not started, vertices without edges, and vertices yet to be found.
- **C40 Postponement moves exactly the selected edges** – Modelled in Model/Postpone.lean: both traversals run on the worker protocol, with the edges being moved as messages. Proofs/Rover.lean extends the traversal argument to tasks that send other messages, and shows that what's delivered is what was sent by the nodes visited. Spec/Postpone.lean says what the result should be (`Moved`). `C40_postponed`, `C40_idle`; both traversals terminate (`C40_terminates`).
- **C41 The first error wins and later callbacks are skipped** – Small state machine of RAISE/PASSED/APPLY.
- **C42 The job status is the first worker error and is always reported** – Router status machine.
- **C43 A kill request made before or during an operation takes effect** – Kill switch machine, two threads, atomic steps at lock granularity.
- **C44 A kill request can be lost in a race** – Same machine with the unlocked read as its own step; witness.
- **C45 Killed workers notice within 32 messages** – Counter arithmetic on the sample.
- **C46 The global error log is bounded but its update reads past the end** – Array with explicit out-of-bounds outcome.
- **C47 cru_strerror is total and distinguishes every cru error code** – The switch as a function of the code, with undefined behaviour as a possible outcome.
- **C48 The packet reserve never exceeds its limit in one thread, but can when threads race** – Reserve machine; sequential invariant, concurrent bound limit+threads−1 and witness.
- **C49 A shared router is torn down exactly once** – Reference counting machine.
- **C50 The scalar hash is collision free** – BitVec 64 model of the murmur finalizer; explicit inverse.
- **C51 Inconsistent specifications are rejected with the documented code before any callback** – Decision functions over option fields.
- **C52 Default orders are inferred only for scalars** – Decision functions over option fields.
- **C53 Multiset tables count distinct members** – Bucketed tables with hash/equality; counting spec.
- **C54 Result queues are concatenated without loss and keep the first status** – Lists of nodes and statuses.
- **C55 A failing cru_built dereferences a null pointer** – Outcome type with a null-dereference outcome; an equivalence says when it occurs.
- **C56 Building terminates** – Well-founded measure over bag executions; any schedule of the worker protocol.
- **C57 Mapreduce callbacks only see values of the right kind** – The visit function with the error cell explicit; a defect witness.
- **C58 Sets of visited vertices behave as sets under any history** – Fold of operations against a set-membership spec.
- **C59 Vertex maps keep the first class associated with a vertex** – Fold of associations against "first of".
- **C60 Built graphs are well formed** – From the vertex and edge theorems of the builder.
- **C61 Mapreduction results are destroyed exactly once** – Ledger invariant over bag executions and over the reduction phase.
- **C62 cru_partition_of returns a partition although there is an error** – Classifying task with failing callbacks and kills; witnesses.
- **C63 A kill during property setting is lost** – Property setting as a traversal, then classification; an execution killed at the start leaves vertices without properties.
- **C64 Class properties are freed exactly once** – Ledger of properties made, freed and held over setting and unsetting.
- **C65 A kill during cru_merged can be lost** – As C63, with `Model/Merge.lean`.
- **C66 Compositions depend on the wrong vertex's adjacent property** – The same model, compared with the edges the manual calls for.
- **C67 A kill during cru_composed can be lost** – The same model with a kill at the beginning of composing, and a counting argument.
- **C68 Iterated composition stops at a fixed point if the graph has no duplicate edges** – Induction over passes and a counting argument for the positive part; a graph of four vertices for the exception.
- **C69 An iterated composition killed while pruning goes on with freed nodes** – The same model with a kill at the beginning of pruning, and a counting argument.
- **C70 Iterated postponement stops at a fixed point** – `C70_fixed`, by induction on the passes; `C70_stops_early` is a graph with a repeated edge where every execution stops too early.
- **C71 A kill during postponement can be lost** – `C71_kill_lost`: an execution for each such graph, by an invariant that says a killed worker visits at most 31 vertices.
- **C72 A kill during iterated postponement can return a graph without some of its vertices** – `C72_freed`: an execution of the first pass for each such graph, and any continuation without another kill; an example beside it shows a complete one.
- **C73 A killed call can make later calls wrong** – Defect. Proved for paths of any length over 31 per lane: a run killed at the beginning notices after 31 packets per worker, so the second vertex has incoming edges and the last one does not; then C18 gives the result of the next call.
- **C74 The vertex limit of cru_crossed is enforced the same way on every schedule** – The counter of a worker is the length of its collision table. An overflow implies an unseen reachable key beyond the limit; none implies every reachable key was seen. C74_verdict, C74_bound in Props/Cross.lean.
- **C75 A killed cru_split can return a graph split halfway** – An execution killed at the start in which every lane receives at most 31 nodes (Proofs/SplitKill.lean); C75_kill_lost.
- **C76 cru_split killed while it computes properties can return a wrong graph** – The same for property setting; C76_kill_lost.
- **C77 cru_split killed at the end can return a graph with dangling edges** – An execution of pruning killed at the start, in which a lane that receives 32 packets stops, and one that receives few doesn't (Proofs/TravKill.lean); C77_dangling.
- **C78 The graph returned by cru_split depends on the schedule** – Two concrete prefixes of runs of three lanes, each continued to the end by an invariant (Proofs/Rush.lean); C78_race in Props/SplitRace.lean.
- **C79 The properties used by cru_split aren't the documented ones** – A case in which C37_split determines the result; C79_properties.
- **C80 cru_induced never returns from a graph with a cycle** – From the invariant of C19: a run that ends without kill or error yields a value, and only acyclic graphs have values.
- **C81 Killing cru_induced makes it return null without an error** – The flag is cleared by `_cru_reset` before intermediate values are disposed of. Counter-example by a run under a round-robin schedule from a state with the flag set.
- **C82 Killing cru_induced during reachability analysis makes it return a wrong value** – A concrete execution with one lane, in which 33 is returned instead of 35.
- **C83 cru_induced disposes of each intermediate value once** – `deduction` models `deducing_task` as a traversal; invariant relating what has been freed to the nodes seen.
- **C84 Mutation regardless of order is simultaneous** – Same invariant with `Directly` in place of `Becomes`; everything is in `survivors`.
- **C85 Mutation keeps the shape of the graph** – Same invariant for arbitrary kernels, without order.
- **C86 Ordered mutation of a cyclic graph skips vertices without an error** – `Turn` excludes vertices from which a cycle can be reached backwards.
- **C87 A kill during the first stage of a mutation deletes edges silently** – Invariant `Spare`: at most 31 vertices per lane keep outgoing edges when the kill flag is set from the start; bounding still visits everything if there are no loops.
- **C88 Dependants may be seen modified** – Concrete executions with one and two lanes, computed by the kernel, with different results.
- **C89 Thinning keeps the first passing class of edges** – `Props/Filter.lean`: as C29 with empty sets of deleted vertices; the effect on one vertex is that of C28.
- **C90 Forward zones of filters are ignored** – `Props/Filter.lean`: from C29, which holds for any initial vertex.
- **C91 Backward zones confine the filtering of edges** – `Props/Filter.lean`: an invariant of the edge filtering task without deleted vertices, in either direction.
- **C92 A kill request while vertices are tested can be lost** – `Props/Filter.lean`: an execution killed at the start visits at most 31 vertices on each lane.
- **C93 No edge is lost or freed twice by filtering** – `Proofs/Filter.lean`: an invariant of the edge filtering task.
- **C94 A kill request while a filtered graph is pruned can leave dangling edges** – `Props/Filter.lean`: as C77.
- **C95 Backward zones don't confine vertex tests as documented** – `Props/Filter.lean`: concrete executions, checked by the kernel.
- **C96 Deduplication can lose edges and leave repeated ones** – As C30; `C96_lossy` and `C96_redundant` hold for all executions, with examples for any number of lanes.
- **C97 Killed deduplications can return graphs with dangling edges** – As C30, with the execution killed at the beginning of pruning (`Trav.killed_few`).
- **C98 Deduplication neither loses nor duplicates edge storage** – A multiset equation invariant under all steps (`Proofs/DedupEnd.lean`, `conserved`).
- **C99 Graphs with equal vertices cannot be stretched** – An invariant for runs without requests (`Proofs/StretchEqual.lean`): the table of a worker has one node of each class, so an equal one hits the test of `changed`.
- **C100 Stretching reports an overflow although no vertex is created** – Corollary of `C36_stretched`.
- **C101 Stretching touches freed edges only if requests clash** – The model records whether an edge is redirected that has been freed. `bad_clash` derives the clash from the invariant. `C101_freed` is a concrete execution.
- **C102 Killed stretching can return graphs with dangling edges** – As C97, on the pruning task after the stretching task.
- **C103 Equal vertices are not tolerated by spreading** – If the result were a proper graph, all given nodes would be listed, by induction on paths, but the tables of the first task hold no two equal vertices, and only nodes in them are listed.
- **C104 A single vertex is not spread by a subconnector** – An invariant of the second task: the initial packet is pending and nothing has been done, or the error has been raised and nothing is pending.
- **C105 Subconnectors in spreading** – Concrete executions of one worker, evaluated by the kernel.
- **C106 A kill in the first phase of spreading is forgotten** – Concrete executions of one worker, evaluated by the kernel; a chain and a wheel, whose sizes exceed the polling interval of 32.
- **C107 Graphs are reclaimed completely even without memory** – A job on the Net machine whose state has an oracle for allocations and the size of the packet reserve, both subject to change by other threads at any time. Invariants: nodes not yet recorded can be reached from a pending packet by the edges that are left; labels disposed of plus labels left is constant. Termination by a lexicographic measure (edges left, unrecorded nodes, pending packets, unused buffers) and the rule for fair schedules.
- **C108 A stale error code makes reclamation leak** – The same model; the outcome is evaluated for this error code.
- **C109 The initial vertex of a zone is found** – Model/Locate has the searching task, polling of the kill flag every 32 packets included, the join of the workers' results, and the choice of the initial node. Proved by the traversal invariant (Walker) with a second invariant on what each worker has found, and by induction over the join.
- **C110 A duplicated initial vertex** – Same model. The positive half follows from the classification of errors, the negative half is an execution on a graph of four vertices.
- **C111 Graphs stay proper after any history** – `Model/History.lean` puts the models of all operations together in an inductive relation `Made`: a graph is made by an operation from graphs that are made. Proved by induction on the history, from the theorem of each operation that its result is well formed, and C31 and C85 for the incoming edges. `cru_spread` with a subconnector, `cru_stretched` and `cru_spread` on graphs with equal vertices, and killed operations are left out.
- **C112 Callbacks get the attribute and the kill status of their own job** – A transition system of threads with thread-specific values, jobs and graphs; a table of what each task stores and of where each callback is invoked, from the code; an invariant on the values held by each thread and on its stack of callbacks (Model/Local, Props/Local).
- **C113 Freeing a partition reclaims every class exactly once** – `Model/Reclaim.lean` has a heap of numbered classes with reference counts, a list of freed ones and a flag for uses after that. A history is any sequence of insertions by workers, each of whose allocations may fail, and of unions. The invariant is that every class allocated is freed or has one more entry in the maps than references. Freeing uses up the entries in any order. Overflow of the reference count is left out.
- **C114 A kill while cru_merged merges vertices leads to undefined behaviour** – The vertex merging task with culling of nodes after kills is modelled as a traversal that visits everything and divides nodes between classes and lists for deletion; class fields are pointers or marks. Invariant of the traversal, then a path from the initial vertex to a culled one crosses from a class to a culled node.
- **C115 A kill while cru_merged prunes the merged graph leaves dangling edges** – As C97, on the pruning task of cru_merged: executions killed at the start visit at most 31 nodes per lane.
- **C116 cru_merged destroys everything exactly once, except labels of an edge operation without a destructor** – `Model/MergeAcc.lean` follows vertices, labels and properties through the passes after the first traversal, in the world of `Model/Fold.lean`, where storage is logged with its destructor. A balance is carried through every function (`Proofs/MergeAcc.lean`); the nodes workers have at the end of the first traversal come from `Model/MergeKill.lean`, with comparisons that may fail. The exception is proved for every discarded label, with a concrete run.
- **C117 Everything passed to cru_connect and cru_stretch is reclaimed once or kept once, unless the expander fails** – `Model/Request.lean`: `cru_connect`, `cru_stretch` and everything they call as functions on a log of storage made and freed, with allocations and destructors that may fail at any time; the loop of `scattered` with an arbitrary expander. Proof: a ledger for each function (`Bal`), by induction over lists of calls, edge maps and edges.
- **C118 Errors of cru_mapreduced come from callbacks or kills** – Invariant relating each worker's log of callbacks to the status it leaves, and induction on the reduction phase with errors.
- **C119 No storage is lost or freed twice by cru_fabricated, except for a vertex returned along with an error** – Model/SpawnAcc.lean: the task of cru_fabricated as a network task over a heap with the vertices and labels of all nodes in the queues of the workers, a clock, and ledgers of what has been made and freed; callbacks, destructors and allocations may fail at any time. Invariant by induction over executions: what has been made is what has been freed plus what is held. The end frees the queues of workers with errors, or everything in case of an error, a failing allocation or a kill. The defect is proved for every finished execution in which the operator fails at the base vertex. Where edges lead to is left out (see Model/Spawn.lean).
- **C120 No storage is lost or freed twice by cru_crossed** – As C119 with `reachedNewNode` for cru_crossed, without any condition on the operators.
- **C121 No storage is lost or freed twice by cru_split, except for a vertex returned along with an error** – `Model/SplitAcc.lean` models the splitting task with each result and error of a function given by the time of the call, failing allocations and packets from the reserve; edges have identities, so that an edge that isn't found is a distinct outcome (`bad`). The ledger of `MergeAcc` is kept as an invariant over bags of packets, which carries over to every execution by C02. `C121_lost` is the defect.
- **C122 Allocation limits in test builds are exact** – `Model/Wrap.lean` models the functions of wrap.c, each a step because it holds a lock throughout; a history is the list of calls with their results (`Hist`), and the counters are shown to be functions of it by induction.
- **C123 crudev_all_clear reports every excess deallocation and every leak, if memory suffices** – The rows of the tracker are shown to hold the number of areas in use per file while nothing has been freed in excess (`Right`). `C123_masked` is the defect.
- **C124 Storage in cru_postponed of a half duplex graph** – Model/PostponeAcc has both passes with a log of what's made and freed, on Net; Model/DedupAcc has `_cru_deduplicated_edges` with allocation failures. Invariants: a ledger for both passes; all nodes are linked to the base node by edges, waiting edges and edges on their way; in the second pass nodes visited without error are closed.
- **C125 cru_postponed of a full duplex graph frees labels twice after an error** – The conversion is that of Model/Duplex, where `post` has the incoming edges. The effect of `free_now` on what's left of them is proved for any graph.
- **C126 Mutation of a zone is refused in the wrong cases** – Model/Coverage has the check as a traversal (Model/Trav) of the whole graph reading the sets left by the analysis; `Revises` is cru_mutated with it, based on the model of C20 and C21 (`Mutates`). Proved by an invariant of the traversal: errors come from vertices missing from the sets only, and without one every vertex seen is in the set of its worker. The sets are within the zone, and equal to it without a kill.
- **C127 Storage in cru_mutated propagating along the edges** – Model/MutateAcc.lean adds storage, errors and allocation failures to mutation: `mutate`, `start`, `mutating_task`, `retract`, `unmutate` and the rest function by function, over the network of Model/Net.lean; `Ends` has every way for the call to end. Spec/MutateAcc.lean says what a node holds depending on whether it's mutated. Proofs/MutateAcc.lean has the invariant that what's made is what's freed, forgotten or held, Proofs/MutateDone.lean that without errors nothing is forgotten and everything is mutated. Partial queues after a memory failure in the queuing phase are left out. A node is mutated in one step: others only read its mark, and its edges only after it's marked.
- **C128 Storage in cru_mutated propagating against the edges** – The same model with edges relabelled through the lists of their remote ends (`reflect`). Proofs/MutateBack.lean has the invariant as long as there's no error. After an error during mutation itself it's false: C128_lost and C128_mismatch exhibit executions.
- **C129 A graph is taken apart without loss, even without memory** – The job of C107 with a kill flag for each worker, the two tests for recorded nodes, and a first attempt to scatter edges without severing them. The invariant of C107 is applied to a view of the state in which nodes that were scattered intact have no edges; another one relates the labels left in the real state to those disposed of. Termination by the measure of C107.
- **C130 cru_split loses storage if it fails while collecting vertices** – What is freed after a failure is computed from the final state of C129's job. Which properties are freed is characterised by membership; a run in which one of two workers fails is the witness.
- **C131 Storage in cru_composed** – Model/ComposeAcc.lean adds storage, errors and allocation failures to composing. Collecting the nodes is a run of the job of C129. The passes by which edges are composed and bypassed, in which workers go through their own lists without communicating, are given by any interleaving of turns (`Runs`). Proofs/ComposeAcc.lean shows for each step that only one node is changed and that what it holds is accounted for, Proofs/ComposeAccEnd.lean the same for nodes being freed, Proofs/ComposeAccPass.lean for the passes and pruning. By induction on the iterations.
- **C132 cru_composed frees labels twice if killed while incoming edges are removed** – The removal of incoming edges is the job of C31. The balances of C131 are stated with the labels of other edges included, which gives what's freed in excess. The witness is a graph with 32 parallel edges, because kills are noticed at every 32nd packet.
- **C133 Operations whose threads can't all be started** – `Model/Launch.lean` is the worker protocol of C01 with only k threads created, and with or without a first packet. An invariant gives the phase of the calling thread and the number of threads dismissed. A measure that every step decreases, other than those of the environment, gives the bound. The hang is shown by a schedule for every k and n, and an invariant from there on. With k = n and a packet the model is that of C01, which is proved too.
- **C134 Reserve of thread crews** – `Model/Crew.lean` is the list of crews with its counter and who uses which. It's proved by an invariant over histories. Critical sections are single steps.
- **C135 Initialization is done once, and all or nothing** – `Model/Startup.lean` follows the labels of the `goto` statements one by one. What's held is a multiset. Opening functions are proved to hold either all or none of what they're responsible for and closing ones to undo that, compositionally.
- **C136 Workers' final duties and sweeping** – `Model/Sweep.lean` extends the system of `Model/Launch.lean` by the code following the loop of each worker as a further step that the calling thread waits for. An invariant says who has got there; C01 gives the order; the well-founded relation of C04 is extended lexicographically. Sweeping is an instance, with the vertices and labels freed as a multiset.
- **C137 Sizes of copied specifications are distinct in development builds** – `Model/Pad.lean` is the loop with one iteration as a step. The invariant says that sizes skipped are in use, so that by counting, a pad is at most the number of types before.
- **C138 cru_built frees everything exactly once whatever fails** – `Model/BuildAcc.lean` has the building task with errors in the world of `Model/Fold.lean`: the user's functions are arbitrary functions of time, so that every outcome of every call is covered. `unique`, `_cru_rallied`, `_cru_bundled`, `_cru_scatter_out_or_consume`, `_cru_reached_new_node`, `_cru_reach_extant_node` and the task are modelled function by function, run by the worker protocol of `Model/Net.lean`. `C138_account`, `C138_end`, `C138_status`, `C138_unstarted` (`Props/BuildAcc.lean`), by induction over the reachable states of the bag of packets: everything made is freed, held by a node or in a packet.
- **C139 cru_spread frees everything exactly once, except termini of failing subconnectors** – The same model with nodes given beforehand, packets that refer to them, `start`, `break_out` and the sweep at the end. `C139_account`, `C139_end`, `C139_unstarted` say that everything is accounted for except the vertices in a list of lost ones; `C139_kept` that it's empty with a connector or if a graph is returned; `C139_leak` and `C139_lost` are the defect. Prespreading (C106) and where edges lead to are left out.
- **C140 Every vertex and label is accounted for in stretching, apart from two kinds of leaks** – `Model/StretchAcc.lean` adds to the model of the passes (C36) what's freed in them, when the router is, and what's lost when the lists of survivors are overwritten or the job is killed. An invariant over the steps of a pass says that the edges freed and those of stored nodes are the edges that stored and discarded nodes had at first, so at the end every node and edge is stored or freed. Storage is compared by values, and nodes and edges by identity in `C140_once`. Allocation failures and errors of user functions are left out.
- **C141 Operations and kill switches give back all the memory, mutexes and conditions they obtain** – A ledger of live resources (a multiset of blocks and the locks in them) and a system that refuses any requests it likes with any codes. `routerOf`, `newPort`, `podOf`, `freeRouter` and friends are modelled call by call; releasing something not live, or a lock after the block it's in, sets a flag (`wrong`), and a lock not destroyed before its block is freed stays in the ledger. All-or-nothing is proved by a triple (`Made`) composed along the sequence of requests, and operations by an invariant over their stages.
- **C142 Partitions are obtained and given back as a whole, except for a lock** – Same ledger; the leak of the lock is a theorem for every system that grants the first two requests and refuses the third.
- **C143 No error is lost in building, spreading, fabricating, crossing, splitting, postponing, mutating, composing or merging** – The history of the models with storage and errors (`World`, Model/Fold.lean) has a ghost field `upset`, set whenever a user function, a destructor or an allocation fails, and never otherwise, irrespective of what becomes of the error code. `Says w w'` (Spec/Says.lean) says that between two histories no error has been lost. It's proved of every function in Model/{BuildAcc,SpawnAcc,SplitAcc,DedupAcc,PostponeAcc,MutateAcc,ComposeAcc}.lean (Proofs/Says*.lean); along every execution, if anything has failed there's a worker with an error (`Told`); and the end of each operation reports the errors of all workers. Not modelled: as with the properties about the storage of these operations (C119 to C139).
- **C144 Threads sharing the pool of locks don't interfere and don't deadlock, except in nested calls** – `Model/Pool.lean` is a machine of threads that load, store, lock for reading or writing, unlock, start threads and join them, one instruction at a time, with the library's operations on the pool made of those; `Model/PoolMutate.lean` has the workers of `cru_mutated` in terms of it, with user functions in continuation passing style, so that they can be any code. Who holds what is an invariant for threads that never wait while they have a lock, from which it follows that someone can go on; the multiset of what threads have left to do decreases in a well-founded order, so executions are finite. For a place accessed only with its lock, whoever is about to access it has the lock. For nested calls, an invariant says that the outer thread is going to wait, or waits, for one that can't end without its lock.
- **C145 Mutation of vertices and edges by several threads has no data races and gives the sequential result, except with a fold over dependants only** – the machine and the workers of C144, with pure operators. `Final` is the sequential result, defined by induction on prerequisites in terms of the memory to begin with only. Each thread is in a phase (idle, examining prerequisites, prepared, in the critical section with known contents of its node's memory, leaving it), `Safe` says what code may do in each phase and what it may assume about the values that it loads, and the invariant relates phases to the memory and to who has locks; the workers' code is shown to be safe by induction on its lists of nodes and edges. A thread's node is unmarked and its own, all of its prerequisites are marked if the kernel needs it, and the vertex of a dependant of it can't be in a critical section therefore. The exception is shown to be a race by an execution of five steps for any kernel of that sort, and to have different results by two executions.
- **C146 Vertices and edges moved between linked lists are neither lost nor listed twice** – `Model/Links.lean` has the pointers in memory, including the pointers back to pointers, and each function as assignments to them in the order of the code; loops are a relation, which doesn't hold if they don't end. `Chain` relates a pointer to the list that begins there, and `Has` says which lists are in memory and that other nodes are on their own. Workers that take nodes are a sequence of operations with an invariant that says nothing about nodes that haven't been severed yet, whose pointers dangle. An insertion is taken to be one step there, which is no restriction because it accesses only the node and the worker's own list.
- **C147 Packets passed between threads are received whole, in order and once** – Threads are sequences of loads, stores and operations on locks (the model of C144). A client says what a worker does with packets: move the first packet of a local list to another one, hand a list over to a field of a port, take or wait for the list of a port, resume deferred packets. `Mail.compile` gives the accesses and locks of each such action as in the code. The specification `Mail.act` is the same on lists, one action at a time. `C147_refines` and `C147_ended` show that every execution amounts to a sequence of such actions, by an invariant that says where each worker is within an action; `C147_race_free` follows from every access being to a packet of the worker's own or to a field whose mutex it has; `C147_ends` from C144. `C147_fetch` is the execution that goes wrong with an atomic exchange. Left out: the flags and counters concerned with waiting and dismissal, which C01 to C05 are about, and allocation of packets.
- **C148 Workers of cru_induced don't race for values of vertices, and any result is the right one** – Threads are sequences of loads, stores and operations on locks (the model of C144). `PoolInduce.arrivals` is the loop of the inducing task with the function it calls, for any packets that arrive. The values are those of the recursion `Induce.Has`, which C19 is about as well. The invariant consists of what each worker is entitled to: the lock it has, the nodes it knows to be visited, the contents of its own set, and the node whose value it has just stored. It's proved that the code does only what it's entitled to, by induction over packets and edges, that each step by an entitled worker keeps the invariant, and that no two workers are entitled to conflicting accesses. Coming to an end is a consequence of C144. Where C19 has the evaluation of a node as one step, this justifies it.
- **C149 Several threads may unite and look up classes of the same partition at the same time** – Threads are sequences of loads, stores and operations on locks (the model of C144), with `PoolClasses.classOf` and `PoolClasses.united` for the two functions from the lock to the unlock, and `PoolClasses.Prog` for what a user's thread does. It's proved that the threads simulate calls one at a time of the sequential functions of C23, each of which takes effect when its lock is released: the invariant says that a thread that has the lock, if it were left alone, would come to the point of releasing it with the memory that the sequential function leads to. The lock makes sure that nothing changes meanwhile. This justifies taking the bodies of the functions as atomic in C23.
- **C150 Graphs carry along the functions that later operations compare them by** – `Orders.perform` gives for each operation the signature of the graph afterwards and the hash functions and equality predicates that its tasks call, as found in the router, on top of the inferences of C51 and C52. `Carried` describes the signatures that graphs can have by induction on their histories. The invariant (`Sound`) says that placeholders are never in the order of vertices, and in the order of labels only if these have a destructor, and that defaults are there only without a destructor. Each operation is then gone through. The exceptions are shown to be exact, and to be reachable by examples of histories.
- **C151 Rejected specifications are explained** – `Model/Infer`, `Model/Orders.perform` and `Model/Errs.strerror` together. By the decision tables of C51, all of whose codes are documented ones or -820, and by C47. The named codes are paired with their messages by evaluation.
- **C152 Workers that can not begin neither block a job nor lose storage** – Model/Abort wraps any task so that workers with a non-zero code dispose of packets and send nothing, and Model/BuildAcc is wrapped in this way. The invariants of C138 and C139 are preserved by steps of such workers (Proofs/Abort). The general theorems C03 and C04 apply. The order of evaluation in ports.c:213 is a parameter of a model of that loop. Which workers fail is given beforehand; other internal errors are left out.
- **C153 Accepted specifications never make the library call a missing function or a placeholder** – Model/Calls has the sequences of fields called by each task for a vertex, an edge, a bucket or a class, with the internal errors raised instead of calls of NULL fields, over the completed specifications of Model/Infer. Completion of folds is shown to leave only functions that can be called (Proofs/Calls). Functions of orders are in C150. Destructors, errors of memory and values are left out. That classes of a merger without a classifier can have more than one member is C154.
- **C154 cru_merged without a classifier fails if two vertices are the same word** – Model/Classless has the classifier inferred by infer.c:347-355 (C154_inferred relates it to Model/Infer), to be used with Model/Merge. The predicate that is always false is shown to lead to the same executions as equality of words, so C33's lemmas apply. The error is that of fuse_vertices in Model/MergeAcc.
- **C155 Functions left out of a specification have their documented meaning** – Model/Repl has the replacement functions of repl.c on 64-bit words, and evaluates the folds and properties that come out of Model/Infer with them, as edges.c:484-538 and nodes.c:380-414 do. The results are used as the operations of Model/MapReduce and as the vertex test of Model/Filter, so the theorems follow from C18 and C29, the minimum being associative and commutative. The user's functions are pure and raise no errors here.
- **C156 Partitions by properties of incoming edges** – Model/SetProps has the phases of cru_partition_of with a classifier that looks at incoming edges: deriving them (Model/Duplex), setting the properties (Model/Partition), removing the edges again (props.c:300-307) or freeing them after an error, and the classification and freeing of properties (Model/Partition). The grouping follows from C22 applied to the graph with the incoming edges as derived, which are exact by C31, if the property doesn't depend on their order. What is left follows from C31 and C64. The defect is that of C73: a killed derivation leaves edges on a long path, which are then taken for the complete ones.
- **C157 Merging by properties of incoming edges** – Model/MergeBy puts the phases together: half duplex conversion (merge.c:523-528), derivation of incoming edges if needed, property setting, removal of incoming edges (Model/SetProps), and merging (Model/Merge). C33 applies to the graph with the incoming edges as derived, which are exact by C31, and merging doesn't use them.
- **C158 Compositions with no functions make transitive closures** – Model/Closure has the replacement functions of repl.c for composers, and makes a composer of Model/Compose out of a specification completed by Model/Infer. The closure is shown by induction on the iterations from C34, with paths of the given graph and those of the next one being the same. The iterations end because edges are never lost, there are no duplicates, and labels and termini come from a finite set. The failure with duplicate edges is a concrete graph on which the first pass doesn't change any number of edges, on any number of lanes.
- **C159 The words of products and copies** – Spec/Words defines words by induction on paths, with no reference to products. Model/Product makes a crosser of Model/Cross out of a specification completed by Model/Infer. A graph that depicts something has the words of what it depicts, and those of the pairs of C17 are shown to be pairs of words by induction on paths.
- **C160 Postponements with functions left out** – Model/Delay has the replacement functions of repl.c for postponers, and makes a postponer of Model/Postpone out of a specification completed by Model/Infer. The theorems follow from C40 and C70 by working out which edges are kept and created.
- **C161 Filters with only a thinner** – Model/Thin makes a filter of Model/Filter out of a specification completed by Model/Infer, with the tests computed by Model/Repl. Any edge passes the test filled in, and so does any class, whose reduction is the minimum of equal words. The rest follows from C89. That a single walk is left is shown by induction on paths.
- **C162 Counts before and after operations** – No new model: C14 gives the value returned by any count of a well formed graph, and C16, C17, C29, C85 and C33 the shape of the results. Numbers of edges are sums over vertices; a list of distinct vertices contained in another is part of a permutation of it.
- **C163 Words of merged and filtered graphs** – Uses Spec/Words as C159. By induction on paths from C157 (quotients) and C29 (filtered graphs): an edge of a member is an edge of its class by the transversal of all edges, and the converse needs the partition to be stable.
- **C164 A filter may consist of a single test** – Model/Thin's `FilteredBy` (inference of the filter followed by the tasks of Model/Filter) for the specifications with a single test; the inferred specification is computed, and C29 is applied to it. The minimum over a class isn't NULL just if none of its members is, by induction over the class.
- **C165 Splitting with functions left out makes copies** – Model/Cleave composes the inference of the splitter (Model/Infer) with the tasks of Model/Split, looking up the functions filled in (repl.c). The completed splitter is computed, and C37 applied to it; membership by induction on reachability, and words by induction on their length.
- **C166 Fabricating with functions left out shares vertices or labels** – Model/Forge composes the inference of the fabricator (Model/Infer) with the tasks of Model/Fab, looking up the identity function filled in (repl.c). The completed fabricator is computed by cases on each half, and C16 applied to it.
- **C167 The words of mutated graphs** – No further model is needed: the labels on one side are given by C84 and C20, and on the other because the new graph is full duplex (C85). Words by induction on their length.
- **C168 The words of stretched graphs** – No further model is needed: Spec/Walk defines paths by way of requested edges, which C36 shows to be those in the result, by induction on words. For subdivisions, by induction on the length of the word, two labels at a time.
- **C169 The words of deduplicated graphs** – No further model is needed: C30 gives the edges of the result, and words follow by induction on their length.
- **C170 The words of built graphs** – No further model is needed: C06 and C07 give the vertices and edges, and words follow by induction on their length.
- **C171 Crossing built graphs makes intersections** – The theorems about words of built graphs (C170) and of products (C159) are put together; well-formedness of the operands is C60.
- **C172 The words of spread graphs** – Paths by way of given edges and those made by the connector are defined inductively (Spec/Trail.lean), and compared to those of the result as described by C39 by induction on paths. Subconnectors aren't covered (C105).
- **C173 The words of composed graphs** – By induction on paths and on passes, where each pass is described by C34.
- **C174 The words of split graphs** – By induction on paths, from the description of the result in C37, whatever the properties of vertices made by cata are.
- **C175 Numbers of threads and storage for them** – The number of threads and the size computations modulo powers of two (Model/Lanes.lean) are functions of natural numbers; the theorems are arithmetic. That the number of processors might change between two calls of sysconf is left out.

## Trusted base

Lean 4.33.0's kernel; axioms at most `propext`, `Classical.choice`, `Quot.sound`; and the correspondence of each model
definition with the cited C lines, which is by reading. No axioms are added, no `sorry`, no `native_decide`.

Modelled as assumptions: memory allocation succeeds unless a model says otherwise; mutexes and condition variables
behave as POSIX says (spurious wake-ups are a separate, explicit action); critical sections are atomic; user callbacks
are deterministic functions of their arguments that may fail.

Mutation (Model/Mutate): a vertex is mutated in one step of the model, while in the code other workers run meanwhile. This makes no difference
for the kernels that C20, C21, C84 and C86 are about. A worker mutating a vertex reads the vertices and labels on both sides of it, writes the
vertex, the labels on its dependants' side, and their counterparts at the dependants. With a kernel depending on prerequisites, all
prerequisites have been marked by then, which is the last thing done to them (mutate.c:405-412), no dependant is written to by anyone
but its own prerequisites before it is marked, and distinct prerequisites write to distinct edges of it. With the kernels that C84 is about,
nothing that is written is read by any other worker. For the remaining kernels (C88) reads and writes do race; C88 only exhibits executions in
which one worker is active at a time, and C85 does not depend on values read.

<!-- generated: trusted base -->
### Axioms of each theorem

Generated with `#print axioms` for every theorem in MANIFEST.json (the prefix `Cru.` is left out).

- **no axioms**: `Infer.C51_no_classifier`, `Infer.C51_fabricator`, `Infer.C51_map_not_inferred`, `Infer.C51_reduction_not_inferred`, `Infer.C51_filter_reduction`, `Infer.C51_filter_bmap`, `Infer.C51_inducer_boundary`, `Pool.C144_polite`, `Pool.C144_guarded`, `Links.C146_unlisted`

- **propext**: `Count.C15_singleton`, `Errs.C41_first_error_sticks`, `Kill.C44_request_lost`, `Kill.C44_wrong_operation_killed`, `Kill.C44_write_after_free`, `Kill.C45_bound_is_exact`, `Errs.C47_int_min_undefined`, `Router.C49_destroyed_by_last`, `Infer.C51_mapreducer`, `Infer.C52_stretcher`, `Infer.C52_classifier`, `Infer.C52_fold`, `Infer.C52_fold_map`, `Infer.C52_merger_vertices`, `Infer.C52_merger_edges`, `Infer.C52_fabricator`, `Infer.C52_filter_vertices`, `Queue.C54_queueOf`, `Free.C108_leak`, `Free.C108_later`, `Locate.C109_base`, `Local.C112_places`, `Mutate.C126_unchecked`, `Gather.C130_leak`, `Links.C146_refused`, `Links.C146_catenated`, `Links.C146_joined`, `Links.C146_cyclic`, `Links.C146_edge_pushed`, `Links.C146_edge_popped`, `Infer.C150_fabricated`, `Infer.C150_merge`, `Infer.C150_merge_order`, `Infer.C150_merge_default`, `Infer.C150_search_default`, `Infer.C153_fabricated`, `Infer.C153_classless`, `Fab.C166_undefined`

- **propext, Quot.sound**: `Net.C05_spurious_wakeup_loses_packets`, `Net.C05_spurious_wakeup_hangs`, `Classes.C24_unmodified`, `Fold.C25_edge_fold`, `Fold.C25_no_vacuous_case`, `Fold.C25_order_irrelevant`, `Fold.C25_vertex_map`, `Fold.C25_vertex_fold`, `Fold.C26_vacuous_case_returned_with_error`, `C27_deduplicated_edges_no_judy`, `C28_minimum_edge`, `C28_individually_filtered`, `C28_jointly_filtered`, `Duplex.C31_backwards`, `Errs.C41_first_error_wins`, `Errs.C41_destructors_always_called`, `Errs.C42_router_status`, `Errs.C42_no_error_lost`, `Errs.C42_reported`, `Errs.C42_reported_containers`, `Errs.C42_success`, `Kill.C43_remembered`, `Kill.C43_during`, `Errs.C46_reads_past_the_end`, `Errs.C46_defect_reachable`, `Errs.C47_total`, `Errs.C47_distinct`, `Errs.C47_documented`, `Errs.C47_named`, `Pack.C48_counter`, `Pack.C48_packet_kept_or_returned`, `Router.C49_kill_reported`, `Hash.C50_injective`, `Infer.C51_builder`, `Infer.C51_crosser`, `Infer.C51_inducer`, `Infer.C51_composer`, `Infer.C51_stretcher`, `Infer.C51_splitter`, `Infer.C51_classifier`, `Infer.C51_merger`, `Infer.C51_mutator`, `Infer.C51_filter`, `Infer.C51_deduplicator`, `Infer.C51_postponer`, `Infer.C51_inducer_bmap`, `Infer.C52_builder`, `Infer.C52_crosser`, `Infer.C52_postponer`, `Infer.C52_mutator_edges`, `Infer.C52_mutator_vertices`, `Infer.C52_filter_thinner`, `Infer.C52_filter_order`, `Table.C53_multiplicity`, `Table.C53_recorded`, `Table.C53_index_irrelevant`, `Queue.C54_append`, `Queue.C54_enqueued`, `Queue.C54_nodesOf`, `Entry.C55_undefined_iff`, `Entry.C55_rejected`, `Table.C59_image`, `Table.C59_duplicates_reported`, `Table.C59_classes_accounted`, `Induce.C82_wrong`, `Local.C112_attribute`, `Local.C112_polled`, `Local.C112_deprived`, `Local.C112_caller`, `Local.C112_nested`, `Local.C112_connect`, `Local.C112_stretch`, `MergeAcc.C116_wrong_destructor`, `MergeAcc.C116_wrong_happens`, `Request.C117_connect_call`, `Request.C117_stretch_once`, `Request.C117_stretch_lost`, `MapReduce.C118_sequential`, `SpawnAcc.C119_status`, `SpawnAcc.C120_status`, `Wrap.C122_performed`, `Wrap.C122_accepted`, `Wrap.C123_masked`, `Mutate.C126_destructors`, `ComposeAcc.C131_before`, `Launch.C133_usual`, `Crew.C134_internal`, `Crew.C134_exclusive`, `Sweep.C136_once`, `BuildAcc.C138_status`, `BuildAcc.C139_leak`, `BuildAcc.C139_lost`, `Resource.C141_workers`, `Pool.C145_differs`, `Links.C146_pushed`, `Links.C146_enqueued`, `Mail.C147_fetch`, `Infer.C150_present`, `Infer.C150_created`, `Infer.C150_scalars`, `Infer.C150_search`, `Infer.C150_spread`, `Infer.C150_lost`, `Infer.C150_mutation_default`, `Infer.C150_merge_crossed`, `Infer.C151_explained`, `Infer.C151_bmap`, `Infer.C151_created`, `Infer.C151_fabricated`, `Infer.C151_texts`, `Abort.C152_read_first`, `Abort.C152_removed_first`, `Infer.C153_mutated`, `Infer.C153_created`, `Infer.C153_vacuous`, `Infer.C153_mapless`, `Repl.C155_edges`, `Repl.C164_inconsistent`, `Repl.C165_undefined`, `Repl.C165_given`, `Lanes.C175_threads`, `Lanes.C175_failed`, `Lanes.C175_small`

- **propext, Classical.choice, Quot.sound**: `Net.C01_finished_only_when_idle`, `Net.C02_refines_bag`, `Net.C02_nothing_lost_or_duplicated`, `Net.C02_all_handled_at_end`, `Net.C03_no_deadlock`, `Net.C04_every_schedule_terminates`, `Net.C04_completion_reachable`, `Net.C05_any_operation_hangs`, `Net.C05_any_operation_does_nothing`, `Net.C05_no_loss_without_spurious_wakeups`, `Build.C06_vertices`, `Build.C06_connector_vertices`, `Build.C07_edges`, `Build.C07_connector_edges`, `Build.C08_same_graph`, `Build.C09_called_at_most_once`, `Build.C09_called_exactly_once`, `Build.C10_vertices_accounted_for`, `Build.C10_labels_accounted_for`, `Build.C11_limit_respected`, `Build.C11_overflow_only_if_exceeded`, `Build.C11_exact_with_one_lane`, `Build.C12_error_has_a_cause`, `Build.C12_callback_error_fails`, `Build.C12_no_error_succeeds`, `Build.C13_subconnector_calls`, `Build.C13_edges_are_the_union`, `Count.C14_count`, `Count.C14_returns`, `Build.C14_built`, `Count.C15_singleton_count`, `Fab.C16_copy`, `Fab.C16_killed`, `Fab.C16_error`, `Fab.C16_terminates`, `Cross.C17_product`, `Cross.C17_pairs`, `Cross.C17_terminates`, `MapReduce.C18_concurrent`, `MapReduce.C18_terminates`, `MapReduce.C18_returns`, `MapReduce.C18_vacuous_case_counts`, `MapReduce.C18_zone_ignored`, `MapReduce.C18_lanes_disagree`, `MapReduce.C18_zones_disagree`, `Induce.C19_value`, `Induce.C19_once`, `Induce.C19_ends`, `Induce.C19_exists`, `Mutate.C20_order`, `Mutate.C20_determined`, `Mutate.C20_once`, `Mutate.C20_error`, `Mutate.C20_ends`, `Mutate.C20_exists`, `Mutate.C21_remote_first`, `Mutate.C21_stall`, `Mutate.C21_escape`, `Mutate.C21_ignored`, `Classify.C22_groups`, `Classify.C22_terminates`, `Partition.C22_partition`, `Classes.C23_united`, `Classes.C24_stale`, `Classes.C24_wrong`, `Fold.C25_edge_reduction`, `Fold.C25_order_irrelevant_reduction`, `Fold.C26_edge_fold`, `Fold.C26_vertex_fold`, `Fold.C26_vertex_map`, `C27_deduplicated_edges`, `C27_connections`, `C28_individually_thinned`, `C28_jointly_thinned`, `C28_filtered_complete`, `Filter.C29_filtered`, `Filter.C29_nodes`, `Filter.C29_pass`, `Filter.C29_wf`, `Filter.C29_reclaimed`, `Filter.C29_error`, `Filter.C29_error_reported`, `Filter.C29_correct`, `Filter.C29_terminates`, `Filter.C29_exists`, `Dedup.C30_fused`, `Dedup.C30_complete_iff`, `Dedup.C30_error`, `Dedup.C30_error_reported`, `Dedup.C30_correct`, `Dedup.C30_terminates`, `Dedup.C30_exists`, `Duplex.C31_exact`, `Duplex.C31_duplex`, `Duplex.C31_removed`, `Duplex.C31_restored`, `Duplex.C31_terminates`, `Duplex.C31_recognized`, `Duplex.C31_prepared`, `Merge.C32_flag`, `Merge.C32_pruner`, `Merge.C33_quotient`, `Merge.C33_terminates`, `Compose.C34_extends`, `Compose.C34_terminates`, `Compose.C35_by_label`, `Compose.C35_default_labeler`, `Compose.C35_unrelated_deleted`, `Compose.C35_distinct`, `Stretch.C36_stretched`, `Stretch.C36_pass`, `Stretch.C36_overflow`, `Stretch.C36_terminates`, `Stretch.C36_exists`, `Split.C37_split`, `Split.C37_wf`, `Split.C37_intact`, `Split.C37_default`, `Split.C37_terminates`, `Split.C37_exists`, `Split.C38_overflow`, `Split.C38_extra`, `Spread.C39_spread`, `Spread.C39_succeeds`, `Spread.C39_calls`, `Spread.C39_complete`, `Spread.C39_same_graph`, `Spread.C39_idle`, `Spread.C39_terminates`, `Spread.C39_exists`, `Postpone.C40_postponed`, `Postpone.C40_idle`, `Postpone.C40_terminates`, `Kill.C43_no_spurious_kill`, `Kill.C45_noticed_within_32`, `Kill.C45_not_without_cause`, `Errs.C46_global_log`, `Errs.C47_numbered`, `Pack.C48_bound`, `Pack.C48_one_thread`, `Pack.C48_bound_reached`, `Pack.C48_every_packet_kept_or_returned`, `Router.C49_lives`, `Router.C49_destroyed_exactly`, `Table.C53_record`, `Table.C53_merge`, `Queue.C54_union`, `Queue.C54_union_base`, `Entry.C55_failure_undefined`, `Entry.C55_success`, `Build.C56_finite_builds_terminate`, `Build.C56_limited_builds_terminate`, `MapReduce.C57_operands`, `MapReduce.C57_error_cleared`, `Table.C58_member`, `Table.C58_testAndSet`, `Table.C58_no_duplicates`, `Table.C58_setMembership`, `Table.C58_setMembership_twice`, `Build.C60_built_wf`, `MapReduce.C61_held`, `MapReduce.C61_end`, `MapReduce.C61_sequential`, `Classify.C62_killed`, `Classify.C62_predicate`, `Partition.C63_kill_lost`, `Partition.C64_freed`, `Merge.C65_kill_lost`, `Compose.C66_adjacent_property`, `Compose.C67_kill_lost`, `Compose.C68_closed`, `Compose.C68_stops_early`, `Compose.C69_freed_visited`, `Postpone.C70_fixed`, `Postpone.C70_stops_early`, `Postpone.C71_kill_lost`, `Postpone.C72_freed`, `Duplex.C73_stale`, `Cross.C74_within`, `Cross.C74_beyond`, `Cross.C74_verdict`, `Cross.C74_bound`, `Split.C75_kill_lost`, `Split.C76_kill_lost`, `Split.C77_dangling`, `Split.C78_race`, `Split.C79_properties`, `Induce.C80_cyclic`, `Induce.C81_unreported`, `Induce.C81_kill_lost`, `Induce.C83_disposal`, `Mutate.C84_simultaneous`, `Mutate.C84_determined`, `Mutate.C85_shape`, `Mutate.C85_full`, `Mutate.C86_cyclic`, `Mutate.C87_kill_lost`, `Mutate.C88_modified`, `Filter.C89_thinned`, `Filter.C89_sub`, `Filter.C89_correct`, `Filter.C90_ignored`, `Filter.C91_edges`, `Filter.C91_thinned`, `Filter.C92_kill_lost`, `Filter.C93_conserved`, `Filter.C94_dangling`, `Filter.C95_survivor`, `Filter.C95_internal`, `Dedup.C96_lossy`, `Dedup.C96_redundant`, `Dedup.C97_dangling`, `Dedup.C97_single`, `Dedup.C98_conserved`, `Stretch.C99_equal`, `Stretch.C100_overflow`, `Stretch.C101_safe`, `Stretch.C101_freed`, `Stretch.C102_dangling`, `Spread.C103_equal`, `Spread.C104_lone`, `Spread.C105_more_edges`, `Spread.C105_label_skipped`, `Spread.C106_kill_lost`, `Spread.C106_undefined`, `Free.C107_now`, `Free.C107_later`, `Free.C107_ends`, `Free.C107_resumes`, `Free.C107_exists`, `Locate.C109_unique`, `Locate.C109_none`, `Locate.C109_found`, `Locate.C109_error`, `Locate.C109_ends`, `Locate.C109_exists`, `Locate.C110_same`, `Locate.C110_alone`, `Locate.C110_fails`, `History.C111_history`, `History.C111_counted`, `History.C111_freed`, `History.C111_backwards`, `History.C111_mutable`, `Local.C112_polled_during`, `Reclaim.C113_safe`, `Reclaim.C113_references`, `Reclaim.C113_freed`, `Merge.C114_map`, `Merge.C114_follow`, `Merge.C114_happens`, `Merge.C114_only`, `Merge.C115_dangling`, `MergeAcc.C116_once`, `Request.C117_connect`, `Request.C117_stretch`, `Request.C117_context`, `MapReduce.C118_reported`, `MapReduce.C118_cause`, `SpawnAcc.C119_account`, `SpawnAcc.C119_lost`, `SpawnAcc.C120_account`, `SplitAcc.C121_account`, `SplitAcc.C121_status`, `SplitAcc.C121_lost`, `Wrap.C122_hard`, `Wrap.C122_soft`, `Wrap.C123_clear`, `PostponeAcc.C124_graph`, `PostponeAcc.C124_failed`, `PostponeAcc.C124_killed`, `PostponeAcc.C124_lost`, `PostponeAcc.C125_converted`, `PostponeAcc.C125_twice`, `PostponeAcc.C125_unstarted`, `Mutate.C126_refused`, `Mutate.C126_covered`, `Mutate.C126_exists`, `Mutate.C126_mistaken`, `MutateAcc.C127_returned`, `MutateAcc.C127_whole`, `MutateAcc.C127_failed`, `MutateAcc.C127_abandoned`, `MutateAcc.C127_late`, `MutateAcc.C127_lost`, `MutateAcc.C127_unsafe`, `MutateAcc.C128_returned`, `MutateAcc.C128_killed`, `MutateAcc.C128_abandoned`, `MutateAcc.C128_unstarted`, `MutateAcc.C128_lost`, `MutateAcc.C128_mismatch`, `Gather.C129_gathered`, `Gather.C129_intact`, `Gather.C129_ends`, `Gather.C129_resumes`, `Gather.C129_disposed`, `Gather.C129_unstarted`, `Gather.C130_properties`, `ComposeAcc.C131_returned`, `ComposeAcc.C131_failed`, `ComposeAcc.C131_divided`, `ComposeAcc.C132_converted`, `ComposeAcc.C132_twice`, `ComposeAcc.C132_which`, `ComposeAcc.C132_unstarted`, `ComposeAcc.C132_doubled`, `Launch.C133_untouched`, `Launch.C133_returns`, `Launch.C133_ended`, `Launch.C133_hangs`, `Crew.C134_closed`, `Crew.C134_entry`, `Crew.C134_ample`, `Startup.C135_all_or_nothing`, `Startup.C135_torn_down`, `Startup.C135_once`, `Startup.C135_succeeds`, `Sweep.C136_order`, `Sweep.C136_returns`, `Sweep.C136_swept`, `Sweep.C136_ping`, `Pad.C137_distinct`, `BuildAcc.C138_account`, `BuildAcc.C138_end`, `BuildAcc.C138_unstarted`, `BuildAcc.C139_account`, `BuildAcc.C139_end`, `BuildAcc.C139_unstarted`, `BuildAcc.C139_kept`, `Stretch.C140_account`, `Stretch.C140_once`, `Stretch.C140_pass`, `Stretch.C140_every`, `Stretch.C140_leak`, `Stretch.C140_killed`, `Stretch.C140_killable`, `Resource.C141_made`, `Resource.C141_refused`, `Resource.C141_verdict`, `Resource.C141_freed`, `Resource.C141_shared`, `Resource.C141_balanced`, `Resource.C141_reported`, `Resource.C141_switch`, `Resource.C141_switched`, `Resource.C142_made`, `Resource.C142_freed`, `Resource.C142_lock`, `Resource.C142_refused`, `Resource.C142_classifying`, `BuildAcc.C143_built`, `BuildAcc.C143_spread`, `SpawnAcc.C143_fabricated`, `SpawnAcc.C143_crossed`, `SplitAcc.C143_split`, `PostponeAcc.C143_postponed`, `MutateAcc.C143_mutated`, `ComposeAcc.C143_composed`, `MergeAcc.C143_merged`, `Pool.C144_live`, `Pool.C144_ends`, `Pool.C144_mutation`, `Pool.C144_atomic`, `Pool.C144_doomed`, `Pool.C144_nested`, `Pool.C144_deadlock`, `Pool.C145_race_free`, `Pool.C145_marked`, `Pool.C145_unmarked`, `Pool.C145_determined`, `Pool.C145_exception`, `Pool.C145_race`, `Links.C146_severed`, `Links.C146_taken`, `Mail.C147_refines`, `Mail.C147_ended`, `Mail.C147_race_free`, `Mail.C147_ends`, `PoolInduce.C148_race_free`, `PoolInduce.C148_visited`, `PoolInduce.C148_result`, `PoolInduce.C148_determined`, `PoolInduce.C148_ends`, `PoolClasses.C149_race_free`, `PoolClasses.C149_linear`, `PoolClasses.C149_final`, `PoolClasses.C149_unions`, `PoolClasses.C149_ends`, `Abort.C152_no_deadlock`, `Abort.C152_terminates`, `Abort.C152_built_account`, `Abort.C152_built_end`, `Abort.C152_spread_end`, `Infer.C153_present`, `Infer.C153_errors`, `Infer.C154_inferred`, `Merge.C154_classes`, `Merge.C154_error`, `Merge.C154_returned`, `Merge.C154_quotient`, `Merge.C154_ends`, `Repl.C155_mapreduced`, `Repl.C155_nothing`, `Repl.C155_filtered`, `Repl.C155_deleted`, `Repl.C155_undefined`, `Partition.C156_partition`, `Partition.C156_left`, `Partition.C156_ends`, `Partition.C156_stale`, `Merge.C157_quotient`, `Merge.C157_ends`, `Compose.C158_closure`, `Compose.C158_transitive`, `Compose.C158_ends`, `Compose.C158_duplicates`, `Cross.C159_words`, `Cross.C159_intersection`, `Cross.C159_default`, `Fab.C159_copy`, `Postpone.C160_default`, `Postpone.C160_path`, `Postpone.C160_fixed`, `Repl.C161_minimum`, `Repl.C161_class`, `Repl.C161_walk`, `Repl.C161_returns`, `Repl.C161_class_returns`, `Count.C162_copied`, `Count.C162_crossed`, `Count.C162_filtered`, `Count.C162_mutated`, `Count.C162_merged`, `Merge.C163_preserved`, `Merge.C163_exact`, `Filter.C163_filtered`, `Filter.C163_labels`, `Repl.C164_vertices`, `Repl.C164_edges`, `Repl.C164_labels`, `Repl.C164_classes`, `Repl.C165_copies`, `Repl.C165_words`, `Repl.C165_returns`, `Repl.C165_vertices`, `Fab.C166_copy`, `Mutate.C167_words`, `Mutate.C167_same`, `Mutate.C167_vertices`, `Stretch.C168_paths`, `Stretch.C168_subdivided`, `Dedup.C169_preserved`, `Dedup.C169_sound`, `Dedup.C169_same`, `Build.C170_complete`, `Build.C170_sound`, `Build.C170_subconnector`, `Build.C170_more`, `Build.C171_built`, `Build.C171_intersection`, `Spread.C172_kept`, `Spread.C172_extended`, `Spread.C172_sound`, `Spread.C172_complete`, `Compose.C173_kept`, `Compose.C173_sound`, `Compose.C173_single`, `Compose.C173_halved`, `Split.C174_sound`, `Split.C174_kept`, `Split.C174_ana`, `Lanes.C175_unknown`, `Lanes.C175_exact`, `Lanes.C175_excess`, `Lanes.C175_wrapped`

- **Quot.sound**: `Fab.C166_shared`

### Which parts of the code are modelled

Every function of /repo/src is listed. A function is listed as modelled if some definition cites lines of it, with the files of `Model/` that do; the comments there say what is simplified. The others are not modelled.

- **brig.c** – modelled (Edges, DedupAcc, Links, MergeAcc, MergeKill, Merge): `_cru_push_bucket`, `_cru_popped_bucket`, `_cru_minimum_bucket`, `_cru_bucketed`, `_cru_bundled`, `_cru_cat_brigades`, `_cru_deduplicated_brigade`, `_cru_reduced_brigade`. – not modelled: `deleted_bucket`, `_cru_free_brigade`, `_cru_unbundled` (linked list operations, modelled as list operations where they are used).
- **build.c** – modelled (BuildAcc, Build, Orders, Local, Calls, Spread): `unique`, `_cru_reach_extant_node`, `_cru_reached_new_node`, `_cru_building_task`, `_cru_built`.
- **classes.c** – modelled (Reclaim, Classify, Classes, Lanes, Resource, Orders): `map_size`, `_cru_partition`, `class_freeing_slacker`, `new_class`, `_cru_free_class`, `copied_class`, `classifying_task`, `_cru_partition_of`, `cru_class_size`, `cru_free_partition`, `cru_class_of`, `cru_united`.
- **compose.c** – modelled (ComposeAcc, Compose, Local, Gather, Orders, Closure): `guard_it`, `free_props`, `guarding_task`, `compose`, `composing_task`, `bypassed`, `decompose`, `bypassing_task`, `_cru_composed`.
- **copy.c** – modelled (Pad, Startup): `base_size`, `_cru_open_copy`, `_cru_builder_copy`, `_cru_free_builder`, `_cru_crosser_copy`, `_cru_free_crosser`, `_cru_mapreducer_copy`, `_cru_free_mapreducer`, `_cru_inducer_copy`, `_cru_free_inducer`, `_cru_composer_copy`, `_cru_free_composer`, `_cru_stretcher_copy`, `_cru_free_stretcher`, `_cru_splitter_copy`, `_cru_free_splitter`, `_cru_classifier_copy`, `_cru_free_classifier`, `_cru_merger_copy`, `_cru_free_merger`, `_cru_mutator_copy`, `_cru_free_mutator`, `_cru_filter_copy`, `_cru_free_filter`, `_cru_postponer_copy`, `_cru_free_postponer`, `_cru_fabricator_copy`, `_cru_free_fabricator`. – not modelled: `_cru_close_copy` (byte-wise copies of parameter records with their padding cleared).
- **count.c** – modelled (Count): `_cru_node_counting_task`, `_cru_terminus_counting_task`, `_cru_edge_counting_task`, `_cru_counted`.
- **crew.c** – modelled (Crew, Net, Sweep, Local, Split, Filter): `crew_of`, `_cru_open_crew`, `_cru_close_crew`, `_cru_crew_of`, `free_crew`, `_cru_reserved_crews`, `_cru_replenish_crews`, `_cru_crewed`, `_cru_status_disjunction`, `_cru_summation`, `_cru_node_union`, `_cru_maybe_disjunction`, `_cru_maybe_reduction`.
- **cross.c** – modelled (Cross, SpawnAcc, Product, Local, Spawn, Calls): `rash`, `productive_packets_of`, `reach_extant_node`, `reached_new_node`, `_cru_crossing_task`, `_cru_cross`. – not modelled: `product_of`, `free_product`, `free_productive_packets`.
- **cthread.c** – modelled (Pool, Startup, Resource, Local, PoolInduce): `_cru_open_cthread`, `release_pthread_resources`, `_cru_close_cthread`, `_cru_create`, `_cru_mutex_init`, `_cru_cond_init`, `_cru_read`, `_cru_write`, `_cru_lock_for_writing`, `_cru_unlock_for_reading`, `_cru_set`. – not modelled: `thread_type` (initialization of thread attributes and locks; locking is assumed to work).
- **defo.c** – modelled (Infer, MutateAcc): `_cru_empty_order`, `_cru_full_order`, `_cru_empty_fold`, `_cru_empty_prop`, `_cru_empty_classifier`, `_cru_allow_undefined_order`, `_cru_allow_scalar_order`, `_cru_allow_order`, `_cru_filled_fold`, `filled_ctop`, `_cru_filled_map`, `_cru_filled_prop`, `_cru_filled_sig`, `_cru_filled_classifier`. – not modelled: `_cru_allow_undefined_fold`, `_cru_filled_ctops`.
- **duplex.c** – modelled (Dedup, Orders, Duplex, PostponeAcc, ComposeAcc, Local): `_cru_full_duplexing_task`, `_cru_half_duplexing_task`, `populating_task`, `graft`, `deduplicating_task`, `_cru_deduplicated`.
- **edges.c** – modelled (Request, MergeAcc, Links, DedupAcc, Edges, SpawnAcc): `_cru_edge`, `_cru_free_edges`, `_cru_free_edges_and_labels`, `_cru_free_labels`, `_cru_free_edges_and_termini`, `_cru_push_edge`, `_cru_enqueue_edge`, `_cru_cat_edges`, `_cru_repeating_labels`, `_cru_popped_edge`, `_cru_deleted_edge`, `_cru_minimum_edge`, `_cru_disconnections`, `_cru_deduplicated_edges`, `reduced_edges`, `_cru_reduced_edges_by_accumulator`. – not modelled: `_cru_degree`, `_cru_reduced_edges`, `_cru_configurably_reduced_edges` (allocation and linked list operations, modelled as list operations where they are used).
- **emap.c** – modelled (Request): `_cru_edge_map`, `_cru_free_map`. – not modelled: `_cru_pop_map` (linked lists of edge maps, modelled as lists where they are used).
- **emu.c** – modelled (Table, Reclaim): `_cru_multirecord`, `_cru_multimerge`, `_cru_member_nj`, `_cru_set_membership_nj`, `_cru_clear_membership_nj`, `_cru_test_and_set_membership_nj`, `_cru_forget_members_nj`, `_cru_image_nj`, `_cru_free_vertex_map_nj`, `_cru_associate_nj`. – not modelled: `_cru_multipoint`, `_cru_multifree`.
- **entry.c** – modelled (History, Orders, Lanes, Local, Count, Startup): `teardown`, `initialization`, `cru_new_kill_switch`, `cru_built`, `cru_crossed`, `cru_fabricated`, `cru_connect`, `cru_stretch`, `cru_set`, `cru_get`, `cru_killed`, `cru_singleton`, `cru_vertex_count`, `cru_terminus_count`, `cru_edge_count`, `cru_mapreduced`, `cru_induced`, `cru_partition_of`, `cru_stretched`, `cru_split`, `cru_composed`, `cru_spread`, `cru_merged`, `cru_filtered`, `cru_deduplicated`, `cru_mutated`, `cru_postponed`, `cru_free_now`. – not modelled: `crudev_limit_allocations`, `crudev_allocations_performed`, `crudev_all_clear` (setup, teardown and debugging).
- **errs.c** – modelled (Errs, Startup): `_cru_open_errs`, `_cru_close_errs`, `_cru_error_checking_mutex_type`, `_cru_globally_throw`, `cru_strerror`.
- **fab.c** – modelled (SpawnAcc, Spawn, Local, Fab, Forge, Calls): `new_node`, `fabricating_task`, `_cru_fabricated`.
- **filters.c** – modelled (Filter, Calls, Local, Edges, Thin, Split): `_cru_populating_task`, `is_deletable`, `node_filtering_task`, `individually_filtered`, `jointly_filtered`, `jointly_thinned`, `filtered`, `request_disconnection`, `edge_filtering_task`, `_cru_filtered`, `pruning_task`, `_cru_pruned`. – not modelled: `disconnection_acknowledged`.
- **getset.c** – modelled (Abort, Startup, Local, Request): `_cru_open_getset`, `release_pthread_resources`, `_cru_close_getset`, `_cru_set_context`, `_cru_set_edges`, `_cru_set_edge_maps`, `_cru_set_destructors`, `_cru_set_kill_switch`, `_cru_set_storage`, `_cru_get_destructors`. – not modelled: `_cru_get_context`, `_cru_get_edges`, `_cru_get_edge_maps`, `_cru_get_kill_switch`, `_cru_get_storage` (setup and teardown of thread-specific keys, and accessors by which other files were modelled).
- **graph.c** – modelled (Free, Startup, SpawnAcc, BuildAcc, MergeAcc, MutateAcc): `_cru_open_graph`, `_cru_graph_of`, `_cru_free_now`, `freeing_slacker`, `_cru_free_later`, `_cru_freeing_task`, `_cru_half_duplex`, `_cru_compatible`, `_cru_identical`, `_cru_store`, `cru_free_later`. – not modelled: `_cru_close_graph`, `_cru_bad`, `_cru_retrieval` (setup, and comparison of signatures).
- **induce.c** – modelled (Induce, Local, PoolInduce, Calls, Net): `visit`, `_cru_inducing_task`, `deducing_task`, `_cru_induce`.
- **infer.c** – modelled (Infer, Product, Closure, Cleave, Classless, MergeAcc): `_cru_inferred_builder`, `_cru_inferred_crosser`, `_cru_inferred_mapreducer`, `_cru_inferred_inducer`, `_cru_inferred_composer`, `_cru_inferred_stretcher`, `_cru_inferred_splitter`, `_cru_inferred_classifier`, `inferred_merger`, `_cru_inferred_merger`, `inferred_sig`, `_cru_inferred_mutator`, `_cru_inferred_filter`, `_cru_deduplicator`, `_cru_inferred_postponer`, `_cru_inferred_fabricator`.
- **killers.c** – modelled (Kill, Resource, MutateAcc, Build, Pack, Startup): `_cru_open_killers`, `_cru_new_kill_switch`, `_cru_enable_killing`, `_cru_disable_killing`, `_cru_kill`, `_cru_kill_internally`, `_cru_killed`, `cru_kill`, `cru_free_kill_switch`. – not modelled: `_cru_close_killers`, `_cru_killed_internally`.
- **launch.c** – modelled (Crew, Launch, Errs, MergeAcc, Resource, Split): `_cru_launched`, `_cru_status_launched`, `_cru_count_launched`, `_cru_queue_launched`, `_cru_maybe_disjunction_launched`, `_cru_maybe_reduction_launched`, `_cru_graph_launched`.
- **mapreduce.c** – modelled (MapReduce, Local, Calls, Repl, Kill): `visit`, `_cru_mapreducing_task`, `_cru_mapreduce`.
- **maybe.c** – modelled (MapReduce, Errs, Calls, Local): `_cru_new_maybe`, `_cru_free_maybe`, `_cru_maybe_paired`, `_cru_maybe_fused`. – not modelled: `_cru_free_maybe_pair`.
- **merge.c** – modelled (MergeAcc, Merge, Local, Orders, MergeKill, Calls): `assimilated`, `fuse_vertices`, `vertex_merging_task`, `demerge_vertices`, `filter_edges`, `fused_edges`, `edge_merging_task`, `demerge_edges`, `demerging_task`, `merge`, `_cru_merged`.
- **mutate.c** – modelled (Mutate, MutateAcc, PoolMutate, Gather, Coverage, Calls): `coverage_analyzing_task`, `bound`, `bounding_task`, `permeate`, `reflect`, `undo_reflection`, `mutate`, `start`, `all_quiescent`, `mutating_task`, `queuing_task`, `unbound`, `unbounding_task`, `retract`, `retracting_task`, `unmutate`, `unmutating_task`, `propagate`, `_cru_mutated`.
- **nodes.c** – modelled (Links, Mutate, MapReduce, SpawnAcc, Build, MergeAcc): `_cru_node_of`, `_cru_free_nodes`, `_cru_free_vertices`, `_cru_pushed_node`, `_cru_severed`, `_cru_half_severed`, `_cru_cat_nodes`, `_cru_transplanted_out`, `_cru_listed`, `mapped_node`, `_cru_mapped_node`, `_cru_reduced_nodes`. – not modelled: `_cru_free_adjacencies`, `_cru_free_outgoing_edges_and_labels`, `_cru_free_incoming_edges_and_labels`, `_cru_transplanted_in`, `_cru_mapped_node_with_locks` (linked list operations, and clean up on errors).
- **pack.c** – modelled (Free, Pack, SpawnAcc, Mail, Links, Startup): `_cru_open_packets`, `new_packet`, `_cru_packet_of`, `_cru_nack`, `_cru_free_packets`, `_cru_replenish_packets`, `_cru_carriers`, `_cru_push_packet`, `_cru_popped_packet`, `_cru_buffered`, `_cru_spun`, `_cru_unbuffered`. – not modelled: `_cru_close_packets`, `_cru_initial_packet_of`, `_cru_reserved_packets`, `_cru_receivers` (allocation, setup and linked list operations).
- **pods.c** – modelled (Resource, Net, Mail): `_cru_pod_of`, `_cru_free_pod`, `_cru_recycled`.
- **ports.c** – modelled (Mail, Net, Abort, Resource, Sweep, MutateAcc): `_cru_new_port`, `_cru_free_port`, `_cru_abort`, `_cru_abort_status`, `_cru_abort_packets`, `_cru_abort_new_packets`, `assignment`, `assigned`, `_cru_ping`, `_cru_pingback`, `_cru_assigned`, `expose`, `circulate`, `blocking_assignment`, `_cru_exchanged`.
- **postpone.c** – modelled (PostponeAcc, Postpone, Local, Delay, Orders, History): `bipartition`, `postponed`, `postpone`, `postponing_task`, `absorbing_task`, `free_now`, `freeing_slacker`, `_cru_postpone`.
- **props.c** – modelled (Partition, Split, MergeAcc, Stretch, Trav, Local): `property_unsetting_task`, `unprop`, `_cru_unpropped`, `_cru_unset_properties`, `_cru_propped`, `property_setting_task`, `_cru_set_properties`, `property_clearing_task`, `_cru_clear_properties`.
- **queue.c** – modelled (Queue, Errs, Build, Spread, SpawnAcc): `_cru_queue_of`, `_cru_nodes_of`, `_cru_enqueued_node`, `_cru_append_nodes`. – not modelled: `_cru_free_node_queue`.
- **repl.c** – modelled (Repl, Calls, Delay, Closure, Thin, Classless): `_cru_undefined_hash`, `_cru_scalar_hash`, `_cru_undefined_bpred`, `_cru_false_bpred`, `_cru_true_bpred`, `_cru_equality_bpred`, `_cru_true_tpred`, `_cru_true_qpred`, `_cru_undefined_nop`, `_cru_identity_uop`, `_cru_undefined_bop`, `_cru_identity_bop`, `_cru_minimizing_bop`, `_cru_identity_top`, `_cru_undefined_top`, `_cru_undefined_map`, `_cru_true_top`, `_cru_false_top`, `_cru_disjoining_top`, `_cru_identity_qop`.
- **route.c** – modelled (Resource, Lanes, Filter, StretchAcc, Split, Stretch): `pointer_array_size`, `thread_id_array_size`, `router_of`, `_cru_inducing_router`, `_cru_filtering_router`, `_cru_classifying_router`, `_cru_fabricating_router`, `_cru_reset`, `_cru_building_router`, `_cru_stored`, `_cru_shared`, `_cru_free_router`, `sweep`, `sweeping_task`, `_cru_sweep`. – not modelled: `plan`, `_cru_mutating_router`, `_cru_mapreducing_router`, `_cru_composing_router`, `_cru_stretching_router`, `_cru_splitting_router`, `_cru_postponing_router`, `_cru_merging_router`, `_cru_router`, `_cru_razing_router`, `_cru_crossing_router` (construction of routers and a last pass over graphs that have failed).
- **runners.c** – modelled (Errs, MapReduce, SpawnAcc, Split, Filter, Spawn): `_cru_status_runner`, `_cru_maybe_runner`, `_cru_queue_runner`, `_cru_maybe_joiner`. – not modelled: `_cru_count_runner`.
- **scatter.c** – modelled (Graph, Filter, Stretch, BuildAcc, Spread, Net): `_cru_scatter`, `_cru_scattered`, `_cru_scatter_out`, `_cru_scatter_in`, `_cru_scattered_by_hashes`, `_cru_unscatterable_by_hashes`, `_cru_unscatterable`, `_cru_scatter_out_or_consume`, `_cru_scatter_and_stretch`. – not modelled: `_cru_send_from`, `_cru_received_by`.
- **split.c** – modelled (Split, SplitAcc, Local, Cleave, Orders, Gather): `fan_out`, `fan_in`, `splitting_task`, `_cru_split`.
- **spread.c** – modelled (Spread, BuildAcc, Orders, Local, Sweep, Calls): `push_severed`, `packed`, `_cru_prespreading_task`, `start`, `cancel_spreading`, `canceling_task`, `break_out`, `spreading_task`, `_cru_spread`.
- **stretch.c** – modelled (Orders, Stretch, StretchAcc, Local, MergeKill, Request): `scattered`, `grown`, `graft`, `overwrite`, `_cru_cull`, `stretching_task`, `_cru_pruning_task`, `_cru_stretched`.
- **sync.c** – modelled (Net, Errs, Launch, Pack, Mail, Kill): `error_consumed`, `_cru_throw`, `_cru_swell`, `_cru_dwindled`, `_cru_undefer`, `_cru_wait_for_quiescence`, `_cru_dismiss`. – not modelled: `_cru_catch`.
- **table.c** – modelled (Table, BuildAcc, Build, Reclaim, Spread, DedupAcc): `_cru_collision`, `_cru_unpacked`, `unwind`, `_cru_marshalled`, `_cru_rallied`, `_cru_record_edge`, `lookup`, `_cru_already_recorded`, `_cru_merge`, `_cru_multiplicity`, `_cru_redirect`, `_cru_discount`, `_cru_member`, `_cru_set_membership`, `_cru_clear_membership`, `_cru_test_and_set_membership`, `_cru_forget_members`, `_cru_image`, `_cru_free_vertex_map`, `_cru_associate`. – not modelled: `_cru_forget_collisions`.
- **wrap.c** – modelled (Wrap, Startup): `_cru_open_wrap`, `_cru_close_wrap`, `_cru_malloc_wrapper`, `_cru_free_wrapper`, `_cru_allocation_allowed`, `_crudev_limit_allocations`, `_crudev_allocations_performed`, `_crudev_all_clear`. – not modelled: `file_name` (debugging wrappers around malloc and free).
- **zones.c** – modelled (Induce, Locate, Mutate, PoolInduce, Orders, Local): `base_searching_task`, `located`, `reachability_analyzing_task`, `_cru_initial_node`, `all_visited`, `visited`, `_cru_visitable`.

Not modelled at all: the C compiler and its memory model, the nthm and Judy libraries (replaced by what they are documented to do), the test programs, and the macros for debugging.

<!-- end generated -->

## Defects found while reading (see the properties that mention them)

- `_cru_globally_throw` (errs.c:143-161) reads `global_error[count-1]` with count ≥ 17.
- `blocking_assignment` (ports.c:493-525) and `_cru_wait_for_quiescence` (sync.c:221-239) wait without a loop.
- `cru_built` (entry.c:211) writes through NULL when the build fails.
- `_cru_built` (build.c:331) uses the router after `_cru_graph_launched` freed it.
- `abort_new_packets` (ports.c:213) has an unsequenced modification and access.
- `cru_class_size` (classes.c:367) is not updated by `cru_united`.
- `_cru_split` (split.c:274) compares with `>`, one more than the limit.
- `bypassed` (compose.c:285-315) deletes by label.
- `cru_kill` (killers.c:260-286) reads the switch outside the lock.
- `_cru_free_packets` (pack.c:204-239) tests the limit and pushes in separate critical sections.
- `all_visited` (zones.c:250-290) treats an empty reachable set of a port as an absent zone.

## Disagreements found between the code and its documentation

- cru_strerror(INT_MIN) negates INT_MIN, which is undefined (C47).
- cru_kill reads the switch outside its lock: a request can be lost, can kill the next operation or write to a freed
  router (C44).
- The global error log reads one element past its end when it is full (C46).
- A failed cru_built dereferences a null graph (C55).
- cru_fold(7): a default map or reduction is inferred only if both destructors are NULL, not just its own (C51).
- cru_filtered(3): the reduction of the edge test is required whenever it has a destructor, even without an order (C51).
- Without Judy arrays, inserting a node into a set twice and removing it once leaves it in the set (C58).
- A vertex given twice to a vertex map is an error with Judy arrays and ignored without (C59).
- A bmap in an inducer or in the vertex test of a filter is internal error -820, which is not documented (C51).
- cru_prop(7): with one lane, cru_mapreduced combines the vacuous case with the values of the vertices (C18).
- cru_zone(7): with one lane, cru_mapreduced ignores the zone if the initial vertex is first in the graph's list (C18).
- cru_zone(7): an initial vertex that isn't found is reported as CRU_INCINV, not as CRU_PARVNF.
- cru_mapreduced clears the error of a map that fails at a worker's first vertex until the end, so later reductions are
  given null (C57).
- cru_class_size(3): the size of a class is not updated by cru_united (C24).
- cru_partition_of(3): killed or failing while classifying, it returns a partition with vertices missing, not NULL (C62).
- cru_kill(3): killed while it computes properties, cru_partition_of succeeds with a wrong partition (C63).
- `cru_merged` loses a kill that is requested while properties are being set, as `cru_partition_of` does (C65).  Merge.c:477 clears the flag.
- cru_composer(7): the adjacent property is that of the terminus of the second edge, not of the intermediate vertex (C66).
- cru_composer(7): a destructive composition deletes all edges of the vertex with the same label, and the new ones by default (C35).
- cru_composer(7): an iterated composition of a graph with duplicate edges can stop too early (C68).
- cru_kill(3): killed while it composes edges, cru_composed succeeds with edges missing (C67); killed while it prunes the graph, it uses freed nodes if it's iterated (C69).
- Postponement (C70): postpone.c:275-281 decides whether anything has changed by comparing the numbers of edges before and after deduplication, so with repeated edges `po_fix` can stop before the fixed point that cru_postponer(7) promises.
- Postponement (C71, C72): kills in any traversal but the last one are cleared by `_cru_reset` (route.c:512), so they aren't reported, although the work is incomplete, or with `po_fix`, vertices have been freed.
- Zones (C73): `_cru_launched` returns whether a task was started, not whether it succeeded, so `_cru_initial_node` (zones.c:222) leaves incoming edges for a part of the graph when it is killed, and later calls take them for complete.
- cru_split(3): kill requests can be lost, leaving a graph split halfway, properties missing, or edges to freed vertices (C75, C76, C77).
- cru_splitter(7): the properties of the new vertices aren't computed as described, and one of them depends on the schedule (C78, C79).
- C81/C82: cru_kill(3) says the last function given the switch terminates with CRU_INTKIL. cru_induced loses a kill during reachability analysis or evaluation, because the router is reset afterwards, and returns null or a wrong value without an error.
- C21: cru_plan(7) says only the zone is visited and vertices outside of it are not prerequisites. This holds only with remote_first and if each worker owns a vertex of the zone. With local_first the origins of incoming edges from outside of the zone count as prerequisites for the purpose of finding where to start (mutate.c:146), so nothing is started. Without a priority the reachability analysis is skipped (zones.c:233). A worker with a null `reachable` set takes everything to be in the zone.
- C86: cru_plan(7) says a priority is not valid for cyclic graphs; there is no error code for it, and the mutation is silently incomplete.
- C87: a kill during bounding_task (mutate.c:157-233) deletes outgoing edges but is not reported, because the router is reset afterwards.
- C88: cru_mutator(7) says vertices of dependants are seen unmodified. The condition for starting a vertex early (mutate.c:146) considers edges on the side of the dependants only, if the fold on the other side is empty.
- C90: `cru_filter.7` says that a forward zone limits filtering to vertices reachable from its initial vertex; the code starts from the base vertex in any case (zones.c:233, filters.c:608).
- C95: with a backward zone, deletion doesn't go past a deleted vertex, so that vertices behind it aren't reached (filters.c:518-520); and a deleted vertex with more than one incoming edge causes internal error 885 (edges.c:414).
- C29: the documentation says that joint edge tests apply to edges between vertices that pass; the classes tested include edges to vertices that fail (filters.c:523-524 precede the deletion requests).
- C92, C94: kill requests during filtering are lost (launch.c:84-115, route.c:512, 774-775).
- `cru_deduplicated` deletes edges with equal labels from fused vertices even if they lead to different vertices (duplex.c:256 calls `_cru_repeating_labels`, which doesn't look at the termini), and it doesn't deduplicate the edges of a vertex again after their termini are fused, unless the vertex itself is fused (C96).
- A kill request during the last phase of `cru_deduplicated` is discarded by `_cru_sweep` if there's more than one lane, and then the graph returned has edges to vertices that have been freed (C97).
- cru_stretched(3) and cru_stretcher(7) say that CRU_INTOVF means that a number of vertices was created reaching or exceeding the limit. Vertices of the given graph are counted as well, and each worker compares its own count with its share of the limit (C100). Also, cru_stretched(3) says that with st_fix iteration goes on until the limit is reached, but what happens then is a failure.
- A graph with equal vertices, which nothing in the documentation of cru_stretched rules out, leads to internal error 1658 unless something is requested (C99), because stretching_task (stretch.c:333) takes each equal vertex for one that was requested.
- overwrite (stretch.c:170-196) redirects all recorded carriers, of which graft may have freed some by deduplicating the edges of their origin (C101).
- cru_spread(3): the connector is called more than once on a vertex without outgoing edges if it creates no edges, and repeated edges created by the first successful call aren't removed (C39).
- cru_spread(3): with a subconnector, vertices that have outgoing edges can acquire more, and labels are skipped (C105). A graph with just one vertex, which would be a natural starting point, is rejected with an internal error (C104).
- cru_kill(3): cru_spread forgets a kill request in its first phase, after having deleted edges, because of `_cru_reset` (C106).
- cru_free_now(3): the graph is leaked if `*err` is `CRU_BADGPH` on entry, even if that error has nothing to do with the graph (C108).
- C110: cru_zone(7) doesn't require distinct vertices, and graphs with duplicates are documented (cru_deduplicated(3)), but when two workers each find the initial vertex, `_cru_maybe_disjunction` raises internal error 750 (crew.c:428).
- C112: cru_get(3) and cru_killed(3) say they work in any callback of cru_composed, cru_merged, cru_partition_of, cru_split and cru_stretched, but `composing_task` (compose.c:239), `edge_merging_task` (merge.c:344) and `property_setting_task` (props.c:222) store neither the attribute nor the kill switch, so cru_get returns NULL and cru_killed 0 in the labeler, the edge operator and pruner, and the vertex properties. The sp_prop of cru_split gets NULL when it is first computed and the attribute when it is computed for a new vertex (split.c:105). The predicate applied to the base by cru_filtered (filters.c:593) runs in the caller's thread and gets the caller's attribute, if any.
- C114, C115: the manual says that a killed operation returns null with CRU_INTKIL; cru_merged clears the flag between phases, and goes on with nodes that have no class or with a graph that has been pruned incompletely.
- C116: the comment on `demerge_edges` (merge.c:400-405) says that the destructor of the original graph is used if the edge operator is indifferent; it is also used if the operator is given without a destructor, so labels that need none are passed to a destructor that wasn't meant for them.
- C117: requests of an expander that assigns an error after calling cru_stretch are lost (stretch.c:87); cru_stretch destroys its arguments out of context, but cru_connect doesn't (entry.c:311, 345-361).
- C119: new_node (fab.c:76-78) doesn't store or free a vertex returned by the vertex operator along with an error, unlike reached_new_node (cross.c:291-303), which frees it.
- C121: split.c:102-104 and 112-114 forget a vertex returned by `cata` or `ana` when there's an error along with it, although the caller's destructor is called for what's returned along with an error in other operations (such as cru_crossed, C120).
- C123: wrap.c:260 tests the value of `malloc_call_count += ! ! (p = malloc (s))`, which isn't zero if `malloc` fails after previous allocations, so that a failure is recorded as an area in use rather than as a denied allocation.
- C124, C125: labels of waiting edges are lost after a kill; labels of full duplex graphs are freed twice if incoming edges can't be removed (`edges_in` and `edges_postponed` are the same field).
- C126: the condition on which cru_mutated checks that the zone covers the graph is inverted (mutate.c:845 should say `! _cru_compatible`): partial mutations that keep the destructors are refused, and those that change them go ahead. C21 is about what happens when it isn't refused.
- cru_mutated with errors (C127, C128): `_cru_free_labels (k->e_op.m_free, ...)` (mutate.c:455, 547) is called when labels may not have been mutated at all. With an empty edge operator, whose `m_free` is NULL, it clears them without freeing them. With backward propagation in no particular order it passes labels of the original graph to the destructor of mutated ones. `undo_reflection` with NO_LABEL_DESTRUCTOR (mutate.c:400) clears labels just made. If the graph's vertex destructor reports an error after a vertex is replaced (mutate.c:405-410), the new vertex is left among the deletions, which are freed by the original destructor (mutate.c:731).
- C130: cru_split sets the list of nodes of the graph to NULL before freeing the graph even if the workers that should have moved the nodes to other lists couldn't be started (split.c:311-317), so all of the graph is lost. If they fail, _cru_unset_properties is applied to a graph whose nodes have been moved already ("assuming the graph is still connected", props.c:154-157), so properties of vertices on the lists of workers without errors are lost.
- C132: in _cru_composed (compose.c:433-435) `_cru_launched` returns non-zero although the removal of incoming edges was killed, so the loop is entered with edges in the field that's shared by `edges_in` and `edges_by`. The internal error 663 is raised, and `decompose` frees those edges with their labels, which belong to outgoing edges.
- C133: a worker that's dismissed in the course of a failing start-up leaves without a call of `_cru_dwindled`, so if the calling thread is past its first wait (crew.c:283) because of a spurious wake-up, nobody signals the second one (crew.c:291).
- cru_mutated killed at the end (C127, C128): the last traversal can be killed (mutate.c:803), which is reported only when the router is freed (route.c:689-690). That's done after the only test that would lead to the graph being freed (mutate.c:855-858), and the caller gets a null pointer to free (entry.c:977-981).
- C139: `break_out` (spread.c:332-334) passes edges whose remotes are still vertices to `_cru_deduplicated_edges`, which frees edges and labels but not termini in case of an error. Termini passed to `cru_connect` by a subconnector that then raises an error, or whose edges can't be deduplicated, are leaked.
- C140: with st_fix, stretch.c:344 overwrites the list of survivors of the pass before without freeing those that the pruning task didn't get to, and stretch.c:462-465 decide not to free the graph before a kill of the pruning task is noticed, so storage is lost in both cases; the property says so.
- C142: `_cru_partition` (classes.c:95-100) frees the block without `pthread_rwlock_destroy` if the array of maps can't be allocated. `C142_lock` states it.
- C144: nothing in the manual says that an edge operator of cru_mutated can't call library functions, and cru_function_types(7) says that thread-safe access is provided to graphs by way of the API, but mutate.c:393-410 calls the edge operator and the destructors while it has a lock of the pool shared by all jobs (cthread.c:29-30), which deadlocks if a nested call of cru_mutated (or any other function writing or reading by way of the pool) needs the same one of the 251 locks.
- C145: cru_mutator(7) has vertices on the side visited later appear unmodified, but mutate.c:199-204 starts with vertices without edges on that side even if they have prerequisites when no fold over the prerequisites' edges is given, so they are stored by one thread under a lock (mutate.c:393-420) that a thread folding over them doesn't take, which is undefined behaviour in C (a data race).
- C147: with CK_F_PR_FAS_PTR defined, `assignment` (ports.c:249-252) takes the list without the mutex, whereas `assigned` (ports.c:290-293) relies on the mutex between reading the head of the list and replacing it, so that packets taken in between are delivered twice. Nothing in the source defines the macro or includes the header.
- C150: cru_merged prunes and deduplicates edges by the edge order of the given graph (merge.c:379, entry.c:861), but it's the order in me_orders that is required for a pruner (infer.c:345), and without a pruner none is required (infer.c:344), so that merging a crossed graph with no edge order ends with an internal error. No scalar orders are inferred for merged vertices or edges (infer.c:331-332, 340-341), nor for mutated vertices (infer.c:416-421), contrary to cru_merger(7) and cru_mutator(7). A zone with an initial vertex needs the vertex equality of the graph, but it isn't checked until base_searching_task finds it missing (zones.c:79).
- ports.c:213 passes `_cru_popped_packet (&incoming, err)` and an expression reading `incoming->receiver` as arguments of one call. Their order is unspecified, and if the packet is removed first, then the last packet of any list leads to a null pointer dereference, and others to the destructor being chosen by the wrong packet (C152_removed_first). The comments in ports.c:172 and 202 say that the job is killed, but it isn't (C152).
- infer.c:348 says that a merger without a classifier makes all vertices mutually unrelated, but vertices that are the same word end up in one class, because UNEQUAL (merge.c:131-133) compares properties as words before it calls _cru_false_bpred. Then fuse_vertices raises the internal error 1144, so cru_merged fails on graphs with equal scalar vertices (C154).
- C156: `_cru_set_properties` (props.c:294-297) returns without freeing any incoming edges if `_cru_full_duplex` was killed, although it does free them after errors in later phases (props.c:308-314). The partial incoming edges make the next call take the graph for a full duplex one, so the properties are wrong and no error is raised. Theorem C156_stale.
- C158: compose.c:314 compares numbers of edges to find out whether a pass has changed anything. If duplicates are removed in the same pass that adds as many edges, the iteration ends before the fixed point that co_fix asks for. Theorem C158_duplicates.
- C175: a comment in router_of says that it's to disallow silly numbers of threads, but the limit doesn't apply if sysconf returns -1 (route.c:125-128, config.h.in:17), and not to the array of maps in a partition (route.c:423).
