import Verif.Proofs.MutateDone
import Verif.Proofs.NetExec

/-! # C127, C128: storage in `cru_mutated` -/

namespace Cru.MutateAcc

open Net Fold
open MergeAcc (Bal)
open Request (Env Exact)
open DedupAcc (Edge)
open Mutate (Mark Packet Plan)

variable {n : Nat} {N V : Type} [Fintype N] [DecidableEq N] {c : Env} {k : Ops V} {p : Plan} {res : Nat → Bool} {addr : N → Nat} {hn : 0 < n}
  {h h' : Heap n N V} {ms : List N} {lost : Multiset (Nat × Nat)} {w : World}

/-- Every vertex of a graph without cyclic prerequisites is mutated if a graph is returned and the zone is all of it. -/
theorem C127_whole (hr : Ready c (fun m => Build.lane hn (addr m)) h) (hw : Whole p h) (he : Ends c k p res addr hn ms h (.returned h') lost w) (m : N) :
    h'.mark m = .mutated := by
  cases he with
  | returned hx hd h0 => exact whole_mutated hw hr.fresh hx hd h0 m

/-- **C127.** If a graph is returned and mutation propagates forward, nothing is forgotten, and everything made and not freed is held by the
graph, once: by a vertex that is mutated if its destructor is that of the kernel's operator. -/
theorem C127_returned (hr : Ready c (fun m => Build.lane hn (addr m)) h) (hc : Safe c) (hp : p.forward = true)
    (he : Ends c k p res addr hn ms h (.returned h') lost w) : w.err = 0 ∧ lost = 0 ∧ Exact w (graphHeld c k true h') := by
  cases he with
  | returned hx hd h0 =>
    have hi := task_inv hc hp (res := res) (ready_inv (k := k) hr) _ (Rover.done_bag hn hx hd)
    have hl := (task_lost hc hp _ (Rover.done_bag hn hx hd) h0).trans hr.kept
    dsimp only at hi hl
    refine ⟨rfl, hl, hi.wf.nodup, ?_⟩
    have := hi.ledger
    rw [total, hl, zero_add] at this
    exact this

theorem held_unchanged (hu : Unchanged c k) (fwd : Bool) (h : Heap n N V) (m : N) : held c k fwd h m = with_ (revisedEnv c k) h m := by
  have hv : ∀ t, (envAt c k h t).vFree = (revisedEnv c k).vFree := fun t => by unfold envAt; split; · rfl
                                                                               · exact hu.1.symm
  have he : ∀ t, (envAt c k h t).eFree = (revisedEnv c k).eFree := fun t => by unfold envAt; split; · rfl
                                                                               · exact hu.2.symm
  simp only [held, with_, lab, hv, he]

theorem held_all (fwd : Bool) {h : Heap n N V} (ha : ∀ m, h.mark m = .mutated) (m : N) : held c k fwd h m = with_ (revisedEnv c k) h m := by
  simp only [held, with_, lab, envAt, ha, if_true]

theorem freed_all (fwd : Bool) (hms : PostponeAcc.Lists ms) {h : Heap n N V} (hh : ∀ m, held c k fwd h m = with_ (revisedEnv c k) h m) (w : World)
    (x : Multiset (Nat × Nat)) : Bal w (freeNodes (revisedEnv c k) h ms w) (graphHeld c k fwd h + x) x := by
  refine (freeNodes_bal (revisedEnv c k) h ms w x).cast ?_ rfl
  rw [PostponeAcc.sum_lists hms, graphHeld]
  congr 1
  exact Finset.sum_congr rfl fun m _ => (hh m).symm

/-- **C127.** A kill request made after the mutation phase, while the nodes are collected, makes the function fail with CRU_INTKIL, but nothing is freed
then: everything made and not freed is still held by the graph, although it isn't returned. -/
theorem C127_abandoned (hr : Ready c (fun m => Build.lane hn (addr m)) h) (hc : Safe c) (hp : p.forward = true)
    (he : Ends c k p res addr hn ms h (.abandoned h') lost w) : w.err = -528 ∧ lost = 0 ∧ Exact w (graphHeld c k true h') := by
  cases he with
  | interrupted hx hd h0 => exact ⟨rfl, (C127_returned (ms := ms) hr hc hp (.returned hx hd h0)).2⟩

/-- **C127.** There's such an execution whenever there's one that returns a graph. -/
theorem C127_late (he : Ends c k p res addr hn ms h (.returned h') lost w) :
    Ends c k p res addr hn ms h (.abandoned h') lost { w with err := -528 } := by
  cases he with
  | returned hx hd h0 => exact .interrupted hx hd h0

/-- **C127.** Otherwise, if no graph is returned and mutation propagates forward, everything has been freed once other than what has been forgotten, and
nothing is forgotten if the kernel has an edge operator or there's no destructor for labels.  The zone is taken to be the whole graph unless
the destructors are the same (see C126). -/
theorem C127_failed (hr : Ready c (fun m => Build.lane hn (addr m)) h) (hc : Safe c) (hp : p.forward = true) (hms : PostponeAcc.Lists ms)
    (hz : Whole p h ∨ Unchanged c k) (he : Ends c k p res addr hn ms h .freed lost w) :
    w.err ≠ 0 ∧ Exact w lost ∧ (Firm c k → lost = 0) := by
  have h0 := ready_inv (k := k) hr
  cases he with
  | unstarted e he =>
    refine ⟨?_, ?_, fun _ => rfl⟩
    · rw [foldl_sticky _ (fun w i hw => by
        rw [freeNodes_sticky _ _ (by rw [freeNodes_sticky _ _ hw]; exact hw), freeNodes_sticky _ _ hw]) _ he]
      exact he
    · have hm : ∀ m, h.mark m ≠ .mutated := fun m => by rcases hr.marks m with e | e <;> rw [e] <;> decide
      refine Exact.bal (i := graphHeld c k true h) ?_ (Bal.wf (Bal.err h.world e 0) h0.wf) (by
        have := h0.ledger
        rw [total, hr.kept, zero_add] at this
        exact this)
      refine (foldl_bal _ (fun i => ((h.survivors i).map (held c k true h)).sum + ((h.deletions i).map (held c k true h)).sum) (List.finRange n) _ 0
        fun i w x => ?_).cast ?_ rfl
      · have hmap : ∀ l : List N, l.map (held c k true h) = l.map (with_ c h) := fun l => List.map_congr_left fun m _ => held_old (hm m)
        rw [hmap, hmap]
        exact ((freeNodes_bal c h _ w _).trans (freeNodes_bal c h _ _ _)).cast (by abel) rfl
      · rw [h0.graph, graphHeld, add_zero]
  | @failed x e hx hd he =>
    have hi := task_inv hc hp (res := res) h0 _ (Rover.done_bag hn hx hd)
    dsimp only at hi
    refine ⟨?_, ?_, hi.firm⟩
    · unfold recover retract
      rw [hp, if_pos (.inl rfl), foldl_sticky _ (fun w i hw => unmutate_sticky _ i hw) _ he]
      exact he
    · rw [hp]
      have hi' := hi.world (w := { x.g.mem.world with err := e }) fun y => Bal.err x.g.mem.world e y
      exact Exact.bal ((recover_bal hi' x.g.mem.lost).cast rfl rfl) hi'.wf (by
        have := hi'.ledger
        rw [total, add_comm x.g.mem.lost] at this
        exact this)
  | @killed x e hx hd h1 he =>
    have hi := task_inv hc hp (res := res) h0 _ (Rover.done_bag hn hx hd)
    have hl := (task_lost hc hp _ (Rover.done_bag hn hx hd) h1).trans hr.kept
    dsimp only at hi hl
    refine ⟨by rw [freeNodes_sticky _ _ he]; exact he, ?_, fun _ => hl⟩
    rw [hl]
    refine Exact.bal (i := graphHeld c k true x.g.mem + 0) (freed_all true hms ?_ _ 0) (Bal.wf (Bal.err x.g.mem.world e 0) hi.wf) (by
      have := hi.ledger
      rw [total, hl, zero_add] at this
      rw [add_zero]
      exact this)
    rcases hz with hz | hz
    · exact held_all true (whole_mutated hz hr.fresh hx hd h1)
    · exact held_unchanged hz true _

/-! ## Propagating in the other direction -/

theorem ready_back (hr : Ready c (fun m => Build.lane hn (addr m)) h) (hd : Duplex h) : BInv c k (fun m => Build.lane hn (addr m)) h := by
  have hm : ∀ m, h.mark m ≠ .mutated := fun m => by rcases hr.marks m with e | e <;> rw [e] <;> decide
  refine ⟨⟨hr.past, hr.exact.1⟩, ?_, hd, fun m => by rcases hr.marks m with e | e <;> rw [e] <;> decide, hr.kept, fun i _ =>
    ⟨(List.nodup_append.1 (hr.once i)).1, fun m hm => ⟨hr.zone i m hm, hr.lanes i m (.inl hm)⟩⟩⟩
  rw [hr.exact.2, graphHeld]
  congr 1
  refine Finset.sum_congr rfl fun m _ => ?_
  simp only [held, envAt, hm, if_false, lab]

/-- **C128.** If a graph is returned and mutation propagates in the other direction, nothing is forgotten, and everything made and not freed is
held by the graph, once: by the label of an edge whose remote vertex is mutated if its destructor is that of the kernel's edge operator. -/
theorem C128_returned (hr : Ready c (fun m => Build.lane hn (addr m)) h) (hd : Duplex h) (hp : p.forward = false)
    (he : Ends c k p res addr hn ms h (.returned h') lost w) : w.err = 0 ∧ lost = 0 ∧ Exact w (graphHeld c k false h') := by
  cases he with
  | returned hx hdone h0 =>
    have hi := task_back hp (res := res) (ready_back (k := k) hr hd) _ (Rover.done_bag hn hx hdone) h0
    exact ⟨rfl, hi.lost, hi.wf.nodup, hi.ledger⟩

/-- **C128.** So it is if it's killed while nodes are collected, but then the graph isn't returned. -/
theorem C128_abandoned (hr : Ready c (fun m => Build.lane hn (addr m)) h) (hd : Duplex h) (hp : p.forward = false)
    (he : Ends c k p res addr hn ms h (.abandoned h') lost w) : w.err = -528 ∧ lost = 0 ∧ Exact w (graphHeld c k false h') := by
  cases he with
  | interrupted hx hdone h0 => exact ⟨rfl, (C128_returned (ms := ms) hr hd hp (.returned hx hdone h0)).2⟩

/-- **C128.** If there's no error in the mutation phase but there is one right after it, or a kill before, then everything is freed once. -/
theorem C128_killed (hr : Ready c (fun m => Build.lane hn (addr m)) h) (hp : p.forward = false) (hms : PostponeAcc.Lists ms)
    (hz : Whole p h) {x : State n (Packet n N) (Work n N V)} (hx : Reach (task c k p res addr hn) (.ping ⟨0, hn⟩) (Trav.start h) x)
    (hd : x.main = .done) (h0 : ∀ i, x.g.err i = 0) {e : Int} (he : e ≠ 0) :
    Ends c k p res addr hn ms h .freed x.g.mem.lost (freeNodes (revisedEnv c k) x.g.mem ms { x.g.mem.world with err := e }) ∧ x.g.mem.lost = 0 ∧
    Exact (freeNodes (revisedEnv c k) x.g.mem ms { x.g.mem.world with err := e }) 0 := by
  have hi := task_back hp (res := res) (ready_back (k := k) hr hz.duplex) _ (Rover.done_bag hn hx hd) h0
  refine ⟨.killed e hx hd h0 he, hi.lost, ?_⟩
  refine Exact.bal (i := graphHeld c k false x.g.mem + 0) (freed_all false hms (held_all false (whole_mutated hz hr.fresh hx hd h0)) _ 0)
    (Bal.wf (Bal.err x.g.mem.world e 0) hi.wf) (by rw [add_zero]; exact hi.ledger)

/-- **C128.** If the mutation phase isn't started, everything is freed once. -/
theorem C128_unstarted (hr : Ready c (fun m => Build.lane hn (addr m)) h) {e : Int} (he : e ≠ 0) :
    Ends c k p res addr hn ms h .freed 0
      ((List.finRange n).foldl (fun w i => freeNodes c h (h.deletions i) (freeNodes c h (h.survivors i) w)) { h.world with err := e }) ∧
    Exact ((List.finRange n).foldl (fun w i => freeNodes c h (h.deletions i) (freeNodes c h (h.survivors i) w)) { h.world with err := e }) 0 := by
  refine ⟨.unstarted e he, ?_⟩
  have h0 := ready_inv (k := k) hr
  have hm : ∀ m, h.mark m ≠ .mutated := fun m => by rcases hr.marks m with e | e <;> rw [e] <;> decide
  refine Exact.bal (i := graphHeld c k true h) ?_ (Bal.wf (Bal.err h.world e 0) h0.wf) (by
    have := h0.ledger
    rw [total, hr.kept, zero_add] at this
    exact this)
  refine (foldl_bal _ (fun i => ((h.survivors i).map (held c k true h)).sum + ((h.deletions i).map (held c k true h)).sum) (List.finRange n) _ 0
    fun i w x => ?_).cast ?_ rfl
  · have hmap : ∀ l : List N, l.map (held c k true h) = l.map (with_ c h) := fun l => List.map_congr_left fun m _ => held_old (hm m)
    rw [hmap, hmap]
    exact ((freeNodes_bal c h _ w _).trans (freeNodes_bal c h _ _ _)).cast (by abel) rfl
  · rw [h0.graph, graphHeld, add_zero]

/-! ## Demonstrations -/

/-- The destructor `fail` reports errors. -/
def demoEnv (fail : Nat) : Env := { vFree := some 1, eFree := some 2, fails := fun d _ => if d = fail then 9 else 0, mem := fun _ => true }

/-- An operator whose destructor is `d`, failing at the time `t`. -/
def demoOp (d t : Nat) : Op Nat := ⟨fun x => ⟨some x, if x = t then 7 else 0⟩, some d⟩

/-- Edges from 0 to 1 and 2, and from 1 to 2. -/
def demoHeap (s d : Fin 2 → List (Fin 3)) : Heap 2 (Fin 3) Nat where
  vertex m := some ⟨m, 5⟩
  out m := if m = 0 then [⟨some ⟨10, 6⟩, 1⟩, ⟨some ⟨11, 6⟩, 2⟩] else if m = 1 then [⟨some ⟨12, 6⟩, 2⟩] else []
  inn m := if m = 2 then [⟨some ⟨11, 6⟩, 0⟩, ⟨some ⟨12, 6⟩, 1⟩] else if m = 1 then [⟨some ⟨10, 6⟩, 0⟩] else []
  mark _ := .clear
  survivors := s
  deletions := d
  started _ := false
  lost := 0
  world := { clock := 20, err := 0, made := {(0, 1), (1, 1), (2, 1), (10, 2), (11, 2), (12, 2)}, freed := 0 }

/-- Vertices with no incoming edges go first. -/
def demoFwd : Heap 2 (Fin 3) Nat := demoHeap (fun i => if i = 0 then [] else [0]) (fun i => if i = 0 then [1] else [2])

/-- Vertices with no outgoing edges go first. -/
def demoBwd : Heap 2 (Fin 3) Nat := demoHeap (fun i => if i = 0 then [] else [2]) (fun i => if i = 0 then [1] else [0])

/-- All vertices may go first. -/
def demoAny : Heap 2 (Fin 3) Nat := demoHeap (fun i => if i = 0 then [1] else [0, 2]) (fun _ => [])

/-- Local vertices first, with incoming edges to them being prerequisites. -/
def fwd : Plan := ⟨false, true, false⟩

/-- Remote vertices first. -/
def bwd : Plan := ⟨false, false, true⟩

/-- Backward propagation in no particular order. -/
def anyway : Plan := ⟨true, false, false⟩

abbrev demoTask (fail : Nat) (k : Ops Nat) (p : Plan) := task (demoEnv fail) k p (fun _ => false) (fun m => m.val + 1) Nat.two_pos (n := 2) (N := Fin 3)

def demoX (fail : Nat) (k : Ops Nat) (p : Plan) (h : Heap 2 (Fin 3) Nat) : State 2 (Packet 2 (Fin 3)) (Work 2 (Fin 3) Nat) :=
  greedy (demoTask fail k p) (.ping 0) 200 (init (Trav.start h))

/-- Both operators, failing at the given times. -/
def demoBoth (t u : Nat) : Ops Nat := ⟨some (demoOp 3 t), some (demoOp 4 u)⟩

/-- The history after recovering from an error. -/
def demoEnd (fail : Nat) (k : Ops Nat) (p : Plan) (h : Heap 2 (Fin 3) Nat) : World :=
  recover (demoEnv fail) k p.forward { (demoX fail k p h).g.mem with world := { (demoX fail k p h).g.mem.world with err := 7 } }

theorem demoX_reach (fail : Nat) (k : Ops Nat) (p : Plan) (h : Heap 2 (Fin 3) Nat) :
    Reach (demoTask fail k p) (.ping 0) (Trav.start h) (demoX fail k p h) := greedy_reach _ _ .init

theorem demo_duplex (s d : Fin 2 → List (Fin 3)) : Duplex (demoHeap s d) :=
  show Duplex (demoHeap (fun _ => []) (fun _ => [])) by unfold Duplex; decide +kernel

theorem demo_ready {fail : Nat} {s d : Fin 2 → List (Fin 3)} (hl : ∀ i m, m ∈ s i ∨ m ∈ d i → Build.lane Nat.two_pos (m.val + 1) = i)
    (ha : ∀ m : Fin 3, m ∈ s (Build.lane Nat.two_pos (m.val + 1)) ∨ m ∈ d (Build.lane Nat.two_pos (m.val + 1))) (ho : ∀ i, (s i ++ d i).Nodup) :
    Ready (demoEnv fail) (fun m => Build.lane Nat.two_pos (m.val + 1)) (demoHeap s d) where
  marks _ := .inl rfl
  zone _ _ _ := rfl
  lanes := hl
  all := ha
  once := ho
  fresh _ := rfl
  kept := rfl
  past := show ∀ x ∈ demoFwd.world.made, x.1 < demoFwd.world.clock by decide +kernel
  exact := show Exact demoFwd.world (∑ m, (owned (demoEnv 0).vFree (demoFwd.vertex m) + lab (demoEnv 0).eFree (demoFwd.out m))) by
    unfold Request.Exact; decide +kernel

theorem ready_fwd {fail : Nat} : Ready (demoEnv fail) (fun m => Build.lane Nat.two_pos (m.val + 1)) demoFwd :=
  demo_ready (by decide +kernel) (by decide +kernel) (by decide +kernel)

theorem ready_bwd {fail : Nat} : Ready (demoEnv fail) (fun m => Build.lane Nat.two_pos (m.val + 1)) demoBwd :=
  demo_ready (by decide +kernel) (by decide +kernel) (by decide +kernel)

theorem ready_any {fail : Nat} : Ready (demoEnv fail) (fun m => Build.lane Nat.two_pos (m.val + 1)) demoAny :=
  demo_ready (by decide +kernel) (by decide +kernel) (by decide +kernel)

theorem acyclic_of_lt {r : Fin 3 → Fin 3 → Prop} (f : Fin 3 → Nat) (hr : ∀ x y, r x y → f y < f x) (m : Fin 3) : ¬ Relation.TransGen r m m := by
  have : ∀ x y, Relation.TransGen r x y → f y < f x := by
    intro x y h
    induction h with
    | single h => exact hr _ _ h
    | tail _ h ih => exact (hr _ _ h).trans ih
  exact fun h => absurd (this _ _ h) (lt_irrefl _)

theorem whole_fwd : Whole fwd demoFwd :=
  ⟨fun _ => rfl, demo_duplex _ _, by decide +kernel, acyclic_of_lt (fun m => m.val) (by decide +kernel)⟩

theorem whole_bwd : Whole bwd demoBwd :=
  ⟨fun _ => rfl, demo_duplex _ _, by decide +kernel, acyclic_of_lt (fun m => 3 - m.val) (by decide +kernel)⟩

theorem demo_safe : Safe (demoEnv 0) := by
  intro d hd t
  cases hd
  rfl

/-- **C127.** The labels of the edges of a vertex are forgotten if mutating it fails and the kernel has no edge operator. -/
theorem C127_lost : ∃ (k : Ops Nat) (lost : Multiset (Nat × Nat)) (w : World), Ready (demoEnv 0) (fun m => Build.lane Nat.two_pos (m.val + 1)) demoFwd ∧
    Safe (demoEnv 0) ∧ fwd.forward = true ∧ Whole fwd demoFwd ∧
    Ends (demoEnv 0) k fwd (fun _ => false) (fun m => m.val + 1) Nat.two_pos (List.finRange 3) demoFwd .freed lost w ∧ w.made = w.freed + {(10, 2), (11, 2)} :=
  ⟨⟨some (demoOp 3 21), none⟩, _, demoEnd 0 ⟨some (demoOp 3 21), none⟩ fwd demoFwd, ready_fwd, demo_safe, rfl, whole_fwd,
    .failed 7 (demoX_reach ..) (by decide +kernel) (by decide), by decide +kernel⟩

/-- **C127.** A mutated vertex is passed to the destructor that the graph had if that destructor reports an error. -/
theorem C127_unsafe : ∃ (k : Ops Nat) (lost : Multiset (Nat × Nat)) (w : World), Ready (demoEnv 1) (fun m => Build.lane Nat.two_pos (m.val + 1)) demoFwd ∧
    fwd.forward = true ∧ Whole fwd demoFwd ∧
    Ends (demoEnv 1) k fwd (fun _ => false) (fun m => m.val + 1) Nat.two_pos (List.finRange 3) demoFwd .freed lost w ∧
    (21, 3) ∈ w.made ∧ (21, 3) ∉ w.freed ∧ (21, 1) ∈ w.freed ∧ (21, 1) ∉ w.made :=
  ⟨demoBoth 0 0, _, demoEnd 1 (demoBoth 0 0) fwd demoFwd, ready_fwd, rfl, whole_fwd,
    .failed 7 (demoX_reach ..) (by decide +kernel) (by decide), by decide +kernel, by decide +kernel, by decide +kernel, by decide +kernel⟩

/-- **C128.** If mutation propagates in the other direction and an edge operator fails, the labels made before it for the same vertex are
forgotten. -/
theorem C128_lost : ∃ (k : Ops Nat) (lost : Multiset (Nat × Nat)) (w : World), Ready (demoEnv 0) (fun m => Build.lane Nat.two_pos (m.val + 1)) demoBwd ∧
    Safe (demoEnv 0) ∧ bwd.forward = false ∧ Whole bwd demoBwd ∧ Firm (demoEnv 0) k ∧
    Ends (demoEnv 0) k bwd (fun _ => false) (fun m => m.val + 1) Nat.two_pos (List.finRange 3) demoBwd .freed lost w ∧ w.made = w.freed + {(22, 4)} :=
  ⟨demoBoth 0 23, _, demoEnd 0 (demoBoth 0 23) bwd demoBwd, ready_bwd, demo_safe, rfl, whole_bwd, .inl rfl,
    .failed 7 (demoX_reach ..) (by decide +kernel) (by decide), by decide +kernel⟩

/-- **C128.** If it's in no particular order, a label that isn't mutated yet may be passed to the destructor of mutated labels. -/
theorem C128_mismatch : ∃ (k : Ops Nat) (lost : Multiset (Nat × Nat)) (w : World), Ready (demoEnv 0) (fun m => Build.lane Nat.two_pos (m.val + 1)) demoAny ∧
    Safe (demoEnv 0) ∧ anyway.forward = false ∧ Duplex demoAny ∧ Firm (demoEnv 0) k ∧
    Ends (demoEnv 0) k anyway (fun _ => false) (fun m => m.val + 1) Nat.two_pos (List.finRange 3) demoAny .freed lost w ∧
    (12, 2) ∈ w.made ∧ (12, 2) ∉ w.freed ∧ (12, 4) ∈ w.freed ∧ (12, 4) ∉ w.made :=
  ⟨⟨none, some (demoOp 4 21)⟩, _, demoEnd 0 ⟨none, some (demoOp 4 21)⟩ anyway demoAny, ready_any, demo_safe, rfl, demo_duplex _ _, .inl rfl,
    .failed 7 (demoX_reach ..) (by decide +kernel) (by decide), by decide +kernel, by decide +kernel, by decide +kernel, by decide +kernel⟩

/-- The premises of `C127_returned` and `C127_whole` are met, with six objects made and as many freed. -/
example : ∃ h' lost w, Ready (demoEnv 0) (fun m => Build.lane Nat.two_pos (m.val + 1)) demoFwd ∧ Safe (demoEnv 0) ∧ fwd.forward = true ∧ Whole fwd demoFwd ∧
    Ends (demoEnv 0) (demoBoth 0 0) fwd (fun _ => false) (fun m => m.val + 1) Nat.two_pos (List.finRange 3) demoFwd (.returned h') lost w ∧
    graphHeld (demoEnv 0) (demoBoth 0 0) true h' = {(21, 3), (22, 4), (24, 4), (29, 3), (30, 4), (34, 3)} :=
  ⟨_, _, _, ready_fwd, demo_safe, rfl, whole_fwd, .returned (demoX_reach 0 (demoBoth 0 0) fwd demoFwd) (by decide +kernel) (by decide +kernel),
    by decide +kernel⟩

/-- Those of `C127_abandoned` are met. -/
example : ∃ h' lost w, Ready (demoEnv 0) (fun m => Build.lane Nat.two_pos (m.val + 1)) demoFwd ∧ Safe (demoEnv 0) ∧ fwd.forward = true ∧
    Ends (demoEnv 0) (demoBoth 0 0) fwd (fun _ => false) (fun m => m.val + 1) Nat.two_pos (List.finRange 3) demoFwd (.abandoned h') lost w ∧
    graphHeld (demoEnv 0) (demoBoth 0 0) true h' = {(21, 3), (22, 4), (24, 4), (29, 3), (30, 4), (34, 3)} :=
  ⟨_, _, _, ready_fwd, demo_safe, rfl, .interrupted (demoX_reach 0 (demoBoth 0 0) fwd demoFwd) (by decide +kernel) (by decide +kernel), by decide +kernel⟩

/-- Those of `C127_failed` are met, by an edge operator that fails after some vertices have been mutated. -/
example : ∃ lost w, Ready (demoEnv 0) (fun m => Build.lane Nat.two_pos (m.val + 1)) demoFwd ∧ Safe (demoEnv 0) ∧ fwd.forward = true ∧
    PostponeAcc.Lists (List.finRange 3) ∧ Whole fwd demoFwd ∧ Firm (demoEnv 0) (demoBoth 0 30) ∧
    Ends (demoEnv 0) (demoBoth 0 30) fwd (fun _ => false) (fun m => m.val + 1) Nat.two_pos (List.finRange 3) demoFwd .freed lost w ∧
    w.made = {(0, 1), (1, 1), (2, 1), (10, 2), (11, 2), (12, 2), (21, 3), (22, 4), (24, 4), (29, 3), (30, 4)} :=
  ⟨_, demoEnd 0 (demoBoth 0 30) fwd demoFwd, ready_fwd, demo_safe, rfl, by unfold PostponeAcc.Lists; decide +kernel, whole_fwd, .inl rfl,
    .failed 7 (demoX_reach ..) (by decide +kernel) (by decide), by decide +kernel⟩

/-- Those of `C128_returned` and `C128_killed` are met. -/
example : ∃ h' lost w, Ready (demoEnv 0) (fun m => Build.lane Nat.two_pos (m.val + 1)) demoBwd ∧ bwd.forward = false ∧ Whole bwd demoBwd ∧
    Ends (demoEnv 0) (demoBoth 0 0) bwd (fun _ => false) (fun m => m.val + 1) Nat.two_pos (List.finRange 3) demoBwd (.returned h') lost w ∧
    graphHeld (demoEnv 0) (demoBoth 0 0) false h' = {(21, 3), (22, 4), (23, 4), (29, 3), (30, 4), (34, 3)} :=
  ⟨_, _, _, ready_bwd, rfl, whole_bwd, .returned (demoX_reach 0 (demoBoth 0 0) bwd demoBwd) (by decide +kernel) (by decide +kernel),
    by decide +kernel⟩

end Cru.MutateAcc
