import Verif.Proofs.PoolMutateInv

/-!
# C145: mutation in terms of memory
-/

namespace Cru.Pool

variable {N E X L : Type} [DecidableEq N] [DecidableEq E] [DecidableEq L] [Zero X] [One X] [DecidableEq X]

/-- The workers of a mutation, each with the nodes in the list `survivors` of its port and those that arrive there later. -/
def workers (idx : Loc N E → L) (G : Shape N E) (o : Ops X) (jobs : List (List N × List N)) : List (Code (Loc N E) X L) :=
  jobs.map fun j => worker idx G o.kernel j.1 j.2

/-- Each node belongs to one worker, the nodes in `survivors` are different and of the right sort, no node is marked, and both ends of an
edge have the same label. -/
structure Ready (G : Shape N E) (o : Ops X) (own : N → Nat) (jobs : List (List N × List N)) (m : Loc N E → X) : Prop where
  start : ∀ t j, jobs[t]? = some j → j.1.Nodup ∧ ∀ n ∈ j.1, own n = t ∧ early G (o.kernel : Kernel (Loc N E) X Unit) n = true
  arrive : ∀ t j, jobs[t]? = some j → ∀ n ∈ j.2, own n = t
  fresh : ∀ n, m (.marked n) = 0
  same : ∀ e, m (.far e) = m (.near e)

variable {o : Ops X} {G : Shape N E} {idx : Loc N E → L} {own : N → Nat} {jobs : List (List N × List N)} {m : Loc N E → X}
  {s : State (Loc N E) X L}

theorem early_irrelevant (n : N) : early G (o.kernel : Kernel (Loc N E) X L) n = early G (o.kernel : Kernel (Loc N E) X Unit) n := by
  unfold early Ops.kernel
  cases o.vop <;> cases o.eop <;> rfl

theorem whole_init [NeZero (1 : X)] (hG : G.Proper) (hj : Ready G o own jobs m) :
    Whole o G m idx own (init (workers idx G o jobs) m) := by
  refine ⟨fun t => .idle ((jobs[t]?.map Prod.fst).getD []), fun t c hc => ?_, ⟨fun t ht => ?_, fun t => ?_, fun _ _ h => (by cases h),
    fun n h => absurd (hj.fresh n) h, fun _ n h => absurd (hj.fresh n) h, fun n _ _ => ⟨rfl, fun e _ => ⟨rfl, hj.same e⟩⟩, fun _ _ => rfl,
    fun _ e => ⟨rfl, hj.same e⟩⟩⟩
  · obtain ⟨j, h1, rfl⟩ : ∃ j, jobs[t]? = some j ∧ worker idx G o.kernel j.1 j.2 = c := by
      simpa [init, workers] using hc
    dsimp only
    rw [h1]
    exact safe_startAll hG _ (fun n hn => by rw [early_irrelevant]; exact ((hj.start t j h1).2 n hn).2) (safe_arrivals hG _ (hj.arrive t j h1))
  · have : jobs[t]? = none := List.getElem?_eq_none (by simpa [init, workers] using ht)
    rw [this]
    rfl
  · cases h1 : jobs[t]? with
    | none =>
      exact ⟨fun n hn => (by cases hn), List.nodup_nil, fun _ h => (by cases h), fun _ h => (by cases h), fun _ h => (by cases h),
        fun _ h => (by cases h), fun _ h => (by cases h), fun _ _ _ _ _ h => (by cases h)⟩
    | some j =>
      exact ⟨fun n hn => ⟨((hj.start t j h1).2 n hn).1, hj.fresh n⟩, (hj.start t j h1).1, fun _ h => (by cases h), fun _ h => (by cases h),
        fun _ h => (by cases h), fun _ h => (by cases h), fun _ h => (by cases h), fun _ _ _ _ _ h => (by cases h)⟩

/-- C145: there are no data races. -/
theorem C145_race_free [NeZero (1 : X)] (hG : G.Proper) (hs : o.Sound) (hj : Ready G o own jobs m)
    (h : Reach (init (workers idx G o jobs) m) s) : ¬ Race s :=
  no_race hG hs (whole_reach hG hs (whole_init hG hj) h)

/-- C145: at all times, the vertex of a marked node and the labels of its edges, at both ends, are what they ought to become. -/
theorem C145_marked [NeZero (1 : X)] (hG : G.Proper) (hs : o.Sound) (hj : Ready G o own jobs m)
    (h : Reach (init (workers idx G o jobs) m) s) (n : N) (hn : s.mem (.marked n) ≠ 0) :
    Final o G m n (s.mem (.vertex n)) ∧
      ∀ e, G.src e = n → s.mem (.near e) = label o G m e (s.mem (.vertex n)) ∧ s.mem (.far e) = label o G m e (s.mem (.vertex n)) := by
  obtain ⟨γ, -, b⟩ := whole_reach hG hs (whole_init hG hj) h
  exact ⟨(b.new n hn).1, fun e he => (b.new n hn).2 e ((hG.dep n e).2 he)⟩

/-- C145: in the end, those that aren't marked are what they were. -/
theorem C145_unmarked [NeZero (1 : X)] (hG : G.Proper) (hs : o.Sound) (hj : Ready G o own jobs m)
    (h : Reach (init (workers idx G o jobs) m) s) (he : Ended s) (n : N) (hn : s.mem (.marked n) = 0) :
    s.mem (.vertex n) = m (.vertex n) ∧ ∀ e, G.src e = n → s.mem (.near e) = m (.near e) ∧ s.mem (.far e) = m (.near e) := by
  obtain ⟨γ, hsafe, b⟩ := whole_reach hG hs (whole_init hG hj) h
  have := b.old n hn fun t => by
    by_cases ht : t < s.threads.length
    · have h1 := hsafe t _ (List.getElem?_eq_getElem ht)
      rw [he _ (List.getElem_mem ht)] at h1
      generalize γ t = δ at h1
      cases h1 with
      | done hg => cases hg <;> exact fun h => (by cases h)
    · rw [b.out t (by omega)]
      exact fun h => (by cases h)
  exact ⟨this.1, fun e he => this.2 e ((hG.dep n e).2 he)⟩

/-- C145: what vertices ought to become is determined, so any two executions, with any number of workers and any assignments of locks and nodes
to them, agree on what has been mutated by both. -/
theorem C145_determined [NeZero (1 : X)] {L' : Type} [DecidableEq L'] {idx' : Loc N E → L'} {own' : N → Nat} {jobs' : List (List N × List N)}
    {s' : State (Loc N E) X L'} (hG : G.Proper) (hs : o.Sound) (hj : Ready G o own jobs m) (hj' : Ready G o own' jobs' m)
    (h : Reach (init (workers idx G o jobs) m) s) (h' : Reach (init (workers idx' G o jobs') m) s') (n : N)
    (hn : s.mem (.marked n) ≠ 0) (hn' : s'.mem (.marked n) ≠ 0) :
    s.mem (.vertex n) = s'.mem (.vertex n) ∧ ∀ e, G.src e = n → s.mem (.near e) = s'.mem (.near e) ∧ s.mem (.far e) = s'.mem (.far e) := by
  obtain ⟨h1, h2⟩ := C145_marked hG hs hj h n hn
  obtain ⟨h3, h4⟩ := C145_marked hG hs hj' h' n hn'
  have hv := final_unique h1 h3
  refine ⟨hv, fun e he => ?_⟩
  rw [(h2 e he).1, (h2 e he).2, (h4 e he).1, (h4 e he).2, hv]
  exact ⟨rfl, rfl⟩

/-! ## The exception -/

omit [Zero X] [One X] [DecidableEq X] in
/-- C145: the only kernels accepted for which this doesn't hold have no edge operator, no fold over edges on the side of the prerequisites, and
one that depends on remote vertices on the other side. -/
theorem C145_exception (o : Ops X) (ha : o.Accepted) (hs : ¬ o.Sound) :
    o.ordered = true ∧ o.vop.isSome = true ∧ o.eop = none ∧ o.before = .nothing ∧ o.after = .all := by
  unfold Ops.Sound at hs
  push Not at hs
  obtain ⟨h1, h2, h3⟩ := hs
  have ho : o.ordered = true := by
    by_contra ho
    obtain ⟨h4, h5, h6⟩ := ha (by simpa using ho) h1
    rcases h2 with h2 | h2 | h2
    · rw [h4] at h2; cases h2
    · exact h5 h2
    · exact h6 h2
  obtain ⟨h4, h5⟩ := h3 ho
  have h6 : o.eop = none := by simpa using h4
  refine ⟨ho, h1, h6, h5, ?_⟩
  rcases h2 with h2 | h2 | h2
  · exact absurd h2 h4
  · rw [h5] at h2; cases h2
  · exact h2

/-- A graph with one edge, from node 0 to node 1. -/
def exLine : Shape Nat Unit where
  src := fun _ => 0
  dst := fun _ => 1
  pre := fun n => if n = 1 then [()] else []
  dep := fun n => if n = 0 then [()] else []

theorem exLine_proper : exLine.Proper where
  pre := fun n e => by
    by_cases h : n = 1
    · simp [exLine, h]
    · simp [exLine, h, Ne.symm h]
  dep := fun n e => by
    by_cases h : n = 0
    · simp [exLine, h]
    · simp [exLine, h, Ne.symm h]
  once := fun n => by
    constructor
    · by_cases h : n = 1 <;> simp [exLine, h]
    · by_cases h : n = 0 <;> simp [exLine, h]

/-- C145: with any of those, two workers race even on a graph with a single edge: one of them is free to load the vertex of the second node as
the other one is to store it. -/
theorem C145_race (o : Ops X) (idx : Loc Nat Unit → L) (m : Loc Nat Unit → X) (h1 : o.ordered = true) (h2 : o.vop.isSome = true)
    (h3 : o.eop = none) (h4 : o.before = .nothing) (h5 : o.after = .all) (hm : ∀ n, m (.marked n) = 0) (hl : ∀ e, m (.far e) = m (.near e)) :
    Ready exLine o id [([0], []), ([1], [])] m ∧ ∃ s, Reach (init (workers idx exLine o [([0], []), ([1], [])]) m) s ∧ Race s := by
  obtain ⟨f, hf⟩ := Option.isSome_iff_exists.1 h2
  refine ⟨⟨fun t j hj => ?_, fun t j hj n hn => ?_, hm, hl⟩, ?_⟩
  · match t, hj with
    | 0, hj =>
      cases hj
      refine ⟨by simp, fun n hn => ?_⟩
      rw [List.mem_singleton.1 hn]
      refine ⟨rfl, ?_⟩
      unfold early Ops.kernel
      simp [h1, exLine]
    | 1, hj =>
      cases hj
      refine ⟨by simp, fun n hn => ?_⟩
      rw [List.mem_singleton.1 hn]
      refine ⟨rfl, ?_⟩
      unfold early Ops.kernel
      simp [h1, h3, h4, exLine]
    | t + 2, hj => simp at hj
  · match t, hj with
    | 0, hj => cases hj; cases hn
    | 1, hj => cases hj; cases hn
    | t + 2, hj => simp at hj
  · -- what the workers do at first
    have w0 : worker idx exLine o.kernel [0] [] = .load (.vertex 0) fun v => .load (.near ()) fun x => .load (.vertex 1) fun y =>
        inside idx exLine o.kernel 0 (some (f v [] [(x, y)])) .done := by
      unfold worker startAll mutate
      rw [show (o.kernel : Kernel (Loc Nat Unit) X L).vop = some fun v i w k => k (f v i w) by unfold Ops.kernel; rw [hf]; rfl,
        show (o.kernel : Kernel (Loc Nat Unit) X L).before = .nothing from h4, show (o.kernel : Kernel (Loc Nat Unit) X L).after = .all from h5]
      rfl
    have w1 : worker idx exLine o.kernel [1] [] = .load (.vertex 1) fun v => .wrlock (idx (.marked 1)) (.store (.vertex 1) (f v [] [])
        (unlockForReading idx (.marked 1) 1 .done)) := by
      unfold worker startAll mutate
      rw [show (o.kernel : Kernel (Loc Nat Unit) X L).vop = some fun v i w k => k (f v i w) by unfold Ops.kernel; rw [hf]; rfl,
        show (o.kernel : Kernel (Loc Nat Unit) X L).before = .nothing from h4, show (o.kernel : Kernel (Loc Nat Unit) X L).after = .all from h5]
      dsimp only
      unfold inside
      rw [show (o.kernel : Kernel (Loc Nat Unit) X L).eop = none by unfold Ops.kernel; rw [h3]; rfl]
      rfl
    have e0 : workers idx exLine o [([0], []), ([1], [])] = [worker idx exLine o.kernel [0] [], worker idx exLine o.kernel [1] []] := rfl
    rw [e0, w0, w1]
    refine ⟨_, .step 1 (.step 1 (.step 0 (.step 0 .init rfl) rfl) rfl) rfl, 1, 0, _, _, .vertex 1, false, by decide, rfl, rfl, ⟨rfl, rfl⟩, rfl, rfl⟩

/-- A kernel of that kind, which adds vertices of dependants. -/
def exLate : Ops Nat where
  ordered := true
  before := .nothing
  after := .all
  vop := some fun v _ w => v + (w.map Prod.snd).sum + 1
  eop := none

/-- The state after given threads have taken steps. -/
def run {A X L : Type} [DecidableEq A] [DecidableEq L] (ts : List Nat) (s : State A X L) : Option (State A X L) :=
  ts.foldlM (fun s t => step t s) s

theorem run_reach {A X L : Type} [DecidableEq A] [DecidableEq L] {s₀ s s' : State A X L} (ts : List Nat) (h : Reach s₀ s) (hr : run ts s = some s') :
    Reach s₀ s' := by
  induction ts generalizing s with
  | nil => cases hr; exact h
  | cons t ts ih =>
    unfold run at hr
    rw [List.foldlM_cons] at hr
    obtain ⟨s₁, h1, h2⟩ := Option.bind_eq_some_iff.1 hr
    exact ih (.step t h h1) h2

/-- The lock of a place in a pool of one lock. -/
def exOne : Loc Nat Unit → Unit := fun _ => ()

/-- The graph's memory to begin with: vertices 10 and 20, and a label of 3. -/
def exMem : Loc Nat Unit → Nat
  | .vertex 0 => 10
  | .vertex _ => 20
  | .near _ | .far _ => 3
  | .marked _ => 0

/-- C145: the first vertex depends on which worker is faster then. -/
theorem C145_differs : ∃ s s', Reach (init (workers exOne exLine exLate [([0], []), ([1], [])]) exMem) s ∧
    Reach (init (workers exOne exLine exLate [([0], []), ([1], [])]) exMem) s' ∧ Ended s ∧ Ended s' ∧
    s.mem (.vertex 0) = 31 ∧ s'.mem (.vertex 0) = 32 := by
  have h1 : ∃ s, run [0, 0, 0, 0, 0, 0, 0, 1, 1, 1, 1, 1] (init (workers exOne exLine exLate [([0], []), ([1], [])]) exMem) = some s ∧
      s.threads = [.done, .done] ∧ s.mem (.vertex 0) = 31 := ⟨_, rfl, rfl, rfl⟩
  have h2 : ∃ s, run [1, 1, 1, 1, 1, 0, 0, 0, 0, 0, 0, 0] (init (workers exOne exLine exLate [([0], []), ([1], [])]) exMem) = some s ∧
      s.threads = [.done, .done] ∧ s.mem (.vertex 0) = 32 := ⟨_, rfl, rfl, rfl⟩
  obtain ⟨s, a1, a2, a3⟩ := h1
  obtain ⟨s', b1, b2, b3⟩ := h2
  refine ⟨s, s', run_reach _ .init a1, run_reach _ .init b1, fun c hc => ?_, fun c hc => ?_, a3, b3⟩
  · rw [a2] at hc
    simpa using hc
  · rw [b2] at hc
    simpa using hc

/-! ## Example -/

/-- A kernel with both operators and folds, for which the theorems hold. -/
def exFull : Ops Nat where
  ordered := true
  before := .all
  after := .all
  vop := some fun v i w => v + (i.map fun p => p.1 * p.2).sum + (w.map fun p => p.1 * p.2).sum
  eop := some fun v x w => v + x + w

/-- It meets the hypotheses with two workers, the second of which may hear of its node twice. -/
theorem exFull_ready : Ready exLine exFull id [([0], []), ([], [1, 1])] exMem where
  start := fun t j hj => by
    match t, hj with
    | 0, hj =>
      cases hj
      refine ⟨by simp, fun n hn => ?_⟩
      rw [List.mem_singleton.1 hn]
      exact ⟨rfl, rfl⟩
    | 1, hj => cases hj; exact ⟨by simp, fun n hn => (by cases hn)⟩
    | t + 2, hj => simp at hj
  arrive := fun t j hj n hn => by
    match t, hj with
    | 0, hj => cases hj; cases hn
    | 1, hj =>
      cases hj
      simpa using hn
    | t + 2, hj => simp at hj
  fresh := fun _ => rfl
  same := fun _ => rfl

example : exLine.Proper ∧ exFull.Sound ∧ Ready exLine exFull id [([0], []), ([], [1, 1])] exMem :=
  ⟨exLine_proper, fun _ _ => ⟨rfl, .inl rfl⟩, exFull_ready⟩

/-- An execution in which both nodes are mutated: the second worker finds the first node unmarked at first. -/
example : ∃ s, Reach (init (workers exOne exLine exFull [([0], []), ([], [1, 1])]) exMem) s ∧ Ended s ∧
    s.mem (.marked 0) = 1 ∧ s.mem (.marked 1) = 1 ∧ s.mem (.vertex 0) = 70 ∧ s.mem (.far ()) = 93 ∧ s.mem (.vertex 1) = 6530 := by
  have h1 : ∃ s, run [1, 1, 1, 1, 0, 0, 0, 0, 0, 0, 0, 0, 0, 0, 0, 0, 1, 1, 1, 1, 1, 1, 1, 1, 1, 1, 1]
      (init (workers exOne exLine exFull [([0], []), ([], [1, 1])]) exMem) = some s ∧ s.threads = [.done, .done] ∧
      s.mem (.marked 0) = 1 ∧ s.mem (.marked 1) = 1 ∧ s.mem (.vertex 0) = 70 ∧ s.mem (.far ()) = 93 ∧ s.mem (.vertex 1) = 6530 :=
    ⟨_, rfl, rfl, rfl, rfl, rfl, rfl, rfl⟩
  obtain ⟨s, a1, a2, a3⟩ := h1
  refine ⟨s, run_reach _ .init a1, fun c hc => ?_, a3⟩
  rw [a2] at hc
  simpa using hc

/-- The hypotheses of `C145_race`. -/
example : exLate.Accepted ∧ ¬ exLate.Sound ∧ exLate.ordered = true ∧ exLate.vop.isSome = true ∧ exLate.eop = none ∧ exLate.before = .nothing ∧
    exLate.after = .all :=
  ⟨fun h => (by cases h), fun h => (h rfl (.inr (.inr rfl))).2.elim (fun h => (by cases h)) (fun h => h rfl), rfl, rfl, rfl, rfl, rfl⟩

end Cru.Pool
