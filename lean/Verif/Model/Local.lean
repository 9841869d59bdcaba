import Mathlib.Logic.Function.Basic
import Mathlib.Data.List.Basic

/-!
# Thread-specific storage, from which callbacks get the attribute, the kill flag and the context (getset.c, entry.c:293-426)

Each worker runs in a thread of its own, created for it (crew.c:278, cthread.c:149-163), where all thread-specific values are
initially null, and so does each reduction of a pair of results (crew.c:482).  Each task stores what it stores before its loop.
A callback may itself call the library, so a thread has a stack of callbacks in progress.

Left out: failures of `pthread_setspecific`, the edge lists and destructors kept in the same way, and the deallocation of routers,
which outlive their threads.
-/

namespace Cru.Local

/-- The kinds of context (getset.h). -/
inductive Context
  | idle | building | stretching
  deriving DecidableEq, Repr

/-- A call of `_cru_set_context`, `_cru_set_storage` or `_cru_set_kill_switch` (getset.c:132-142, 201-230), the argument of the
latter two being that of the router. -/
inductive Setting
  | context (c : Context) | store | kill
  deriving DecidableEq, Repr

/-- The tasks that invoke callbacks other than destructors and hashes. -/
inductive Work
  | building | prespreading | spreading | stretching | classifying | guarding | composing | crossing | fabricating | nodeFiltering
  | edgeFiltering | inducing | mapreducing | fusing | vertexMerging | edgeMerging | mutating | postponing | absorbing | splitting
  | propertySetting | searching | deduplicating
  deriving DecidableEq, Repr

/-- What each task stores before its loop. -/
def Work.settings : Work → List Setting
  | .building => [.context .building, .store, .kill]            -- build.c:265-267
  | .prespreading => [.store, .kill]                            -- spread.c:162-163
  | .spreading => [.context .building, .store, .kill]           -- spread.c:391-393
  | .stretching => [.context .stretching, .context .stretching, .store, .kill]  -- stretch.c:292, 303
  | .classifying => [.store, .kill]                             -- classes.c:276-277
  | .guarding => [.store, .kill]                                -- compose.c:149-150
  | .composing => []                                            -- compose.c:239-279
  | .crossing => [.store, .kill]                                -- cross.c:359-360
  | .fabricating => [.store, .kill]                             -- fab.c:143-144
  | .nodeFiltering => [.store, .kill]                           -- filters.c:191-192
  | .edgeFiltering => [.store, .kill]                           -- filters.c:506-507
  | .inducing => [.store, .kill]                                -- induce.c:127-128
  | .mapreducing => [.store, .kill]                             -- mapreduce.c:119-120
  | .fusing => [.store]                                         -- maybe.c:182
  | .vertexMerging => [.store, .kill]                           -- merge.c:165-166
  | .edgeMerging => []                                          -- merge.c:344-384
  | .mutating => [.store, .kill]                                -- mutate.c:529-530
  | .postponing => [.store, .kill]                              -- postpone.c:200-201
  | .absorbing => [.store, .kill]                               -- postpone.c:261-262
  | .splitting => [.store, .kill]                               -- split.c:245-246
  | .propertySetting => []                                      -- props.c:222-266
  | .searching => []                                            -- zones.c:48-102
  | .deduplicating => []                                        -- duplex.c:270-330

/-- The places where callbacks other than destructors and hashes are invoked. -/
inductive Site
  | connector            -- of cru_built: build.c:133, 184-193
  | buildEqual           -- vertices compared in cru_built: build.c:278
  | buildEdges           -- edges compared in cru_built after the loop: build.c:298-300
  | spreadConnector      -- of cru_spread: spread.c:323-330
  | prespreadEqual       -- vertices compared in cru_spread at first: spread.c:99
  | spreadEqual          -- vertices compared in cru_spread later: spread.c:408
  | spreadEdges          -- edges compared in cru_spread after the loop: spread.c:427-429
  | expander             -- of cru_stretched: stretch.c:83
  | stretchEqual         -- vertices compared in cru_stretched: stretch.c:317
  | relation             -- properties compared in cru_partition_of: classes.c:290
  | guards               -- the co_props of cru_composed: compose.c:64-67
  | labeler              -- of cru_composed: compose.c:223-226
  | product              -- the v_prod and e_prod of cru_crossed: cross.c:198, 293
  | fabricator           -- the v_fab and e_fab of cru_fabricated: fab.c:76-80
  | vertexFilter         -- the v_op of cru_filtered: filters.c:203
  | edgeFilter           -- the e_op and thinner of cru_filtered: filters.c:327-365, 523
  | baseFilter           -- the v_op of cru_filtered when applied to the base: filters.c:593
  | induction            -- the boundary_value and in_fold of cru_induced: induce.c:70-72
  | mapping              -- the map and the reduction of cru_mapreduced by a worker: mapreduce.c:68-75
  | fusion               -- the reduction of results of workers: maybe.c:183
  | sequential           -- the map and the reduction of cru_mapreduced in one lane: entry.c:588
  | vacuous              -- the vacuous cases of cru_mapreduced and cru_induced: entry.c:579, 628
  | mergedRelation       -- properties compared in cru_merged: merge.c:181
  | mergedVertices       -- the v_op of cru_merged: merge.c:101
  | mergedEdges          -- the pruner and e_op of cru_merged: merge.c:277, 331
  | mutation             -- the v_op and e_op of cru_mutated: mutate.c:392-396
  | postponement         -- the postponable and postponement of cru_postponed: postpone.c:108-115
  | absorption           -- edges compared in cru_postponed: postpone.c:273
  | splitter             -- the ana, cata, fissile and sp_ctops of cru_split: split.c:102-126, 192-194
  | splitProperty        -- the sp_prop of cru_split for a new vertex: split.c:105
  | property             -- the vertex properties of cru_partition_of, cru_merged, cru_split, and cru_stretched: props.c:204
  | initial              -- vertices compared to an initial vertex: zones.c:93
  | deduplication        -- vertices compared in cru_deduplicated: duplex.c:284
  deriving DecidableEq, Repr

/-- The task that invokes a callback at each place, and whether it does so after its loop, or none if it is invoked in the thread that
called the library. -/
def Site.place : Site → Option (Work × Bool)
  | .connector => some (.building, false)
  | .buildEqual => some (.building, false)
  | .buildEdges => some (.building, true)
  | .spreadConnector => some (.spreading, false)
  | .prespreadEqual => some (.prespreading, false)
  | .spreadEqual => some (.spreading, false)
  | .spreadEdges => some (.spreading, true)
  | .expander => some (.stretching, false)
  | .stretchEqual => some (.stretching, false)
  | .relation => some (.classifying, false)
  | .guards => some (.guarding, false)
  | .labeler => some (.composing, false)
  | .product => some (.crossing, false)
  | .fabricator => some (.fabricating, false)
  | .vertexFilter => some (.nodeFiltering, false)
  | .edgeFilter => some (.edgeFiltering, false)
  | .baseFilter => none
  | .induction => some (.inducing, false)
  | .mapping => some (.mapreducing, false)
  | .fusion => some (.fusing, false)
  | .sequential => none
  | .vacuous => none
  | .mergedRelation => some (.vertexMerging, false)
  | .mergedVertices => some (.vertexMerging, true)
  | .mergedEdges => some (.edgeMerging, false)
  | .mutation => some (.mutating, false)
  | .postponement => some (.postponing, false)
  | .absorption => some (.absorbing, false)
  | .splitter => some (.splitting, false)
  | .splitProperty => some (.splitting, false)
  | .property => some (.propertySetting, false)
  | .initial => some (.searching, false)
  | .deduplication => some (.deduplicating, false)

/-- The thread-specific values (getset.c:27-40): what the stored context points to, the attribute, and the router whose kill flag is
pointed to. -/
structure Values (A : Type) where
  context : Option Context
  store : Option A
  kill : Option Nat
  deriving DecidableEq, Repr

/-- A thread.  One that belongs to the application has no `work`; others have a task and a job, the settings they are yet to make,
and whether their loop is over.  The callbacks in progress are listed from the latest with their jobs. -/
structure Thread (A : Type) where
  work : Option (Work × Nat)
  todo : List Setting
  over : Bool
  values : Values A
  frames : List (Nat × Site)
  deriving DecidableEq, Repr

/-- A call to the library: `ro_store` and `killed` of its router, the thread that made the call, and the number of callbacks in
progress in that thread. -/
structure Job (A : Type) where
  store : Option A
  killed : Bool
  caller : Nat
  depth : Nat
  deriving DecidableEq, Repr

/-- The graphs' attributes (`g_store`), the jobs, and the threads. -/
structure Sys (A : Type) where
  graphs : Nat → Option A
  jobs : Nat → Option (Job A)
  threads : Nat → Option (Thread A)

inductive Event (A : Type)
  | set (g : Nat) (a : Option A)
  | user (t : Nat)
  | call (t j g : Nat)
  | start (t : Nat) (w : Work) (j : Nat)
  | setting (t : Nat)
  | over (t : Nat)
  | enter (t j : Nat) (c : Site)
  | leave (t : Nat)
  | exit (t : Nat)
  | kill (j : Nat)
  | reset (j : Nat)
  deriving DecidableEq

variable {A : Type}

def fresh : Values A := ⟨none, none, none⟩

/-- getset.c:132-142, 201-230. -/
def Values.set (v : Values A) (s : Option A) (j : Nat) : Setting → Values A
  | .context c => { v with context := some c }
  | .store => { v with store := s }
  | .kill => { v with kill := some j }

/-- Putting a thread in place. -/
def Sys.put (s : Sys A) (t : Nat) (th : Option (Thread A)) : Sys A := { s with threads := Function.update s.threads t th }

def Sys.post (s : Sys A) (j : Nat) (b : Job A) : Sys A := { s with jobs := Function.update s.jobs j (some b) }

/-- What can happen, in any order. -/
inductive Step : Sys A → Event A → Sys A → Prop
  /-- `cru_set` (entry.c:372-387, graph.c:373-387). -/
  | set (s g a) : Step s (.set g a) { s with graphs := Function.update s.graphs g a }
  /-- The application starts a thread. -/
  | user (s t) : s.threads t = none → Step s (.user t) (s.put t (some ⟨none, [], false, fresh, []⟩))
  /-- A thread of the application or a callback calls the library with a graph; `_cru_stored` (route.c:620-632), and the same for the
  builder's attribute (route.c:583).  `killed` is initially 0. -/
  | call (s t j g th) : s.threads t = some th → th.work = none ∨ th.frames ≠ [] → s.jobs j = none →
      Step s (.call t j g) (s.post j ⟨s.graphs g, false, t, th.frames.length⟩)
  /-- A thread is created for a task (crew.c:278, 482). -/
  | start (s t w j b) : s.threads t = none → s.jobs j = some b →
      Step s (.start t w j) (s.put t (some ⟨some (w, j), w.settings, false, fresh, []⟩))
  /-- A task stores something. -/
  | setting (s t th w j b x l) : s.threads t = some th → th.work = some (w, j) → th.todo = x :: l → s.jobs j = some b →
      Step s (.setting t) (s.put t (some { th with todo := l, values := th.values.set b.store j x }))
  /-- The loop of a task ends, and its context becomes idle if it has one (build.c:295, stretch.c:343, spread.c:424). -/
  | over (s t th w j) : s.threads t = some th → th.work = some (w, j) → th.todo = [] → th.frames = [] →
      Step s (.over t)
        (s.put t (some { th with over := true, values := { th.values with context := th.values.context.map fun _ => .idle } }))
  /-- A callback is invoked by a task. -/
  | enter (s t th w j c) : s.threads t = some th → th.work = some (w, j) → th.todo = [] → th.frames = [] →
      c.place = some (w, th.over) → Step s (.enter t j c) (s.put t (some { th with frames := [(j, c)] }))
  /-- A callback is invoked in the thread that called the library. -/
  | enterCaller (s t th j b c) : s.threads t = some th → th.work = none ∨ th.frames ≠ [] → s.jobs j = some b → b.caller = t →
      th.frames.length = b.depth → c.place = none → Step s (.enter t j c) (s.put t (some { th with frames := (j, c) :: th.frames }))
  | leave (s t th f l) : s.threads t = some th → th.frames = f :: l → Step s (.leave t) (s.put t (some { th with frames := l }))
  | exit (s t th) : s.threads t = some th → th.frames = [] → Step s (.exit t) (s.put t none)
  /-- `cru_kill` (killers.c) or an error in a worker. -/
  | kill (s j b) : s.jobs j = some b → Step s (.kill j) (s.post j { b with killed := true })
  /-- The next task of a job is prepared by `_cru_reset` when no task of it is running (route.c:487-513). -/
  | reset (s j b) : s.jobs j = some b → (∀ t th, s.threads t = some th → ∀ w, th.work ≠ some (w, j)) →
      Step s (.reset j) (s.post j { b with killed := false })

inductive Runs : Sys A → List (Event A) → Sys A → Prop
  | refl (s) : Runs s [] s
  | step {s s' s'' e es} : Step s e s' → Runs s' es s'' → Runs s (e :: es) s''

/-- Nothing has happened yet. -/
def init (a : Nat → Option A) : Sys A := ⟨a, fun _ => none, fun _ => none⟩

/-- `cru_get` called in a thread (entry.c:393-406). -/
def get (s : Sys A) (t : Nat) : Option A := (s.threads t).bind fun th => th.values.store

/-- `cru_killed` called in a thread (entry.c:412-426). -/
def polled (s : Sys A) (t : Nat) : Bool :=
  match (s.threads t).bind fun th => th.values.kill with
  | none => false
  | some j => ((s.jobs j).map Job.killed).getD false

/-- `cru_connect` called in a thread raises no `CRU_INTOOC` (entry.c:311). -/
def connectable (s : Sys A) (t : Nat) : Bool := (s.threads t).bind (fun th => th.values.context) == some .building

/-- `cru_stretch` called in a thread raises no `CRU_INTOOC` (entry.c:345). -/
def stretchable (s : Sys A) (t : Nat) : Bool := (s.threads t).bind (fun th => th.values.context) == some .stretching

end Cru.Local
