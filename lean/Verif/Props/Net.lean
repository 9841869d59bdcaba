import Verif.Proofs.NetExec
import Verif.Spec.Ledger
import Mathlib.Data.Multiset.DershowitzManna

/-!
# C01–C05: the worker protocol

`Reach T i₀ g₀ s`: state `s` is reachable by some interleaving of the workers, the calling
thread and interfering events, for task `T` with initial packet `i₀`.
-/

namespace Cru.Net

variable {n : Nat} {P G E : Type}

/-- A demonstration task on 2 lanes: packet `k+1` sends `k` and `k`; packet 0 sends nothing.  The job
state counts handled packets. -/
def demo : Task 2 Nat Nat Unit where
  dest p := if p % 2 = 0 then 0 else 1
  handle _ g p := match p with
    | 0 => (g + 1, [], false)
    | k + 1 => (g + 1, [k, k], false)
  env _ g := g

/-- A schedule that takes `demo` from creation to the end, with initial packet 1. -/
def demoSchedule : List (Action 2 Unit) :=
  let w0 : Action 2 Unit := .worker 0
  let w1 : Action 2 Unit := .worker 1
  List.replicate 9 w0 ++ List.replicate 9 w1 ++ [.main, .main, .main] ++
  List.replicate 9 w1 ++ List.replicate 13 w0 ++ [.main, .main, .main, .main, w0, w1, .main]

/-- **C01.** When the calling thread stops waiting, every worker is asleep or has ended, no packet is
anywhere in the system, and `_cru_dismiss` has discarded nothing. -/
theorem C01_finished_only_when_idle (hn : 0 < n) (T : Task n P G E) (i₀ : P) (g₀ : G) (s : State n P G)
    (h : Reach T i₀ g₀ s) (hf : s.main.finished) :
    s.misplaced = false ∧
    ∀ i, ((s.worker i).pc = .sleep ∨ (s.worker i).pc = .gone) ∧
      (s.port i).assigned = [] ∧ (s.port i).deferred = [] ∧
      (s.worker i).deferrals = [] ∧ ∀ j, (s.worker i).pod j = [] := by
  have hi := reach_inv hn h
  have late : ∀ j, Late s j → s.misplaced = false ∧ ∀ i, ((s.worker i).pc = .sleep ∨ (s.worker i).pc = .gone) ∧
      (s.port i).assigned = [] ∧ (s.port i).deferred = [] ∧
      (s.worker i).deferrals = [] ∧ ∀ j, (s.worker i).pod j = [] :=
    fun j hl => ⟨hl.placed, fun i => ⟨hl.pcs i, hl.empty i⟩⟩
  unfold Inv at hi
  split at hi <;> rename_i hm <;> simp only [hm, MPc.finished] at hf
  · exact late _ hi
  · exact late _ hi
  · exact late _ hi.1

/-- Non-vacuity: a run of `demo` reaches the finished state having handled all three packets. -/
example : ∃ s, Reach demo 1 0 s ∧ s.main = .done ∧ s.g = 3 := by
  have h : ((run demo 1 demoSchedule (init 0)).map fun s => (s.main, s.g)) = some (.done, 3) := by decide
  cases hs : run demo 1 demoSchedule (init 0) with
  | none => rw [hs] at h; cases h
  | some s =>
    rw [hs] at h
    simp at h
    exact ⟨s, run_reach _ (by simp [demoSchedule, Action.proper]) _ _ Reach.init hs, h⟩

/-- **C02 (refinement).** Whatever the interleaving, the job state and the multiset of packets in the
system are those of a run of the bag machine, in which every sent packet is handled at the lane chosen
by its hash, exactly once per time it is sent or deferred. -/
theorem C02_refines_bag (hn : 0 < n) (T : Task n P G E) (i₀ : P) (g₀ : G) (s : State n P G)
    (h : Reach T i₀ g₀ s) : Bag.Reach T i₀ g₀ (s.g, pending i₀ s) :=
  reach_bag hn h

/-- **C02 (ledger).** At every moment, the packets sent (counting a deferral as sending again) are, with
multiplicity, the packets handled plus those in the system, and each was handled by the lane selected by
its hash. -/
theorem C02_nothing_lost_or_duplicated (hn : 0 < n) (T : Task n P G E) (i₀ : P) (g₀ : G)
    (s : State n P (G × Ledger n P)) (h : Reach (ledger T) i₀ (g₀, Ledger.start i₀) s) :
    s.g.2.sent + s.g.2.deferred = s.g.2.handled.map Prod.snd + pending i₀ s ∧
    ∀ x ∈ s.g.2.handled, x.1 = T.dest x.2 := by
  have hb := reach_bag hn h
  have key : ∀ x : (G × Ledger n P) × Multiset P, Bag.Reach (ledger T) i₀ (g₀, Ledger.start i₀) x →
      x.1.2.sent + x.1.2.deferred = x.1.2.handled.map Prod.snd + x.2 ∧
      ∀ y ∈ x.1.2.handled, y.1 = T.dest y.2 := by
    intro x hx
    induction hx with
    | init => simp [Ledger.start]
    | step _ hst ih =>
      cases hst with
      | env e g m => exact ih
      | handle g p rest =>
        obtain ⟨i1, i2⟩ := ih
        refine ⟨?_, ?_⟩
        · simp only [ledger, Bag.produced, Multiset.map_cons] at i1 ⊢
          by_cases hdf : (T.handle (T.dest p) g.1 p).2.2 = true
          · simp only [hdf, if_true]
            have := congrArg (fun m => (((T.handle (T.dest p) g.1 p).2.1 : List P) : Multiset P) + (p ::ₘ m)) i1
            simp only [← Multiset.singleton_add] at this ⊢
            calc _ = ((T.handle (T.dest p) g.1 p).2.1 : Multiset P) + ({p} + (g.2.sent + g.2.deferred)) := by abel
              _ = _ := by rw [this]; abel
          · simp only [hdf, if_false, Bool.false_eq_true]
            have := congrArg (fun m => (((T.handle (T.dest p) g.1 p).2.1 : List P) : Multiset P) + m) i1
            simp only [← Multiset.singleton_add] at this ⊢
            calc _ = ((T.handle (T.dest p) g.1 p).2.1 : Multiset P) + (g.2.sent + g.2.deferred) := by abel
              _ = _ := by rw [this]; abel
        · intro y hy
          simp only [ledger, Multiset.mem_cons] at hy
          rcases hy with rfl | hy
          · rfl
          · exact i2 y hy
  exact key _ hb

/-- **C02 (end).** When the operation is finished, the packets handled are exactly those sent. -/
theorem C02_all_handled_at_end (hn : 0 < n) (T : Task n P G E) (i₀ : P) (g₀ : G)
    (s : State n P (G × Ledger n P)) (h : Reach (ledger T) i₀ (g₀, Ledger.start i₀) s) (hf : s.main.finished) :
    s.g.2.handled.map Prod.snd = s.g.2.sent + s.g.2.deferred := by
  have h1 := (C02_nothing_lost_or_duplicated hn T i₀ g₀ s h).1
  rw [(inv_finished (i₀ := i₀) (reach_inv hn h) hf).1, add_zero] at h1
  exact h1.symm

/-- **C03.** In every reachable state in which the call has not returned, the calling thread or some
worker can take a step. -/
theorem C03_no_deadlock (hn : 0 < n) (T : Task n P G E) (i₀ : P) (g₀ : G) (s : State n P G)
    (h : Reach T i₀ g₀ s) (hd : s.main ≠ .done) :
    (step T i₀ .main s).isSome ∨ ∃ i, (step T i₀ (.worker i) s).isSome :=
  enabled_of_inv T i₀ (reach_inv hn h) hd

/-- **C04.** If every sequence of packet handlings is finite, then so is every schedule of the threads,
from any reachable state. -/
theorem C04_every_schedule_terminates (hn : 0 < n) (T : Task n P G E) (i₀ : P) (g₀ : G)
    (hb : ∀ x, Bag.Reach T i₀ g₀ x → Acc (fun y x => Bag.Handles T x y) x)
    (f : Nat → State n P G) (h0 : Reach T i₀ g₀ (f 0)) :
    ¬ ∀ k, step T i₀ .main (f k) = some (f (k + 1)) ∨ ∃ i, step T i₀ (.worker i) (f k) = some (f (k + 1)) :=
  fun hf => no_infinite_run hn hb f h0 hf

/-- A task whose packets carry a rank that handling strictly decreases meets C04's hypothesis. -/
theorem acc_of_rank (T : Task n P G E) (rank : P → Nat)
    (hr : ∀ i g p, (T.handle i g p).2.2 = false ∧ ∀ q ∈ (T.handle i g p).2.1, rank q < rank p) (x : G × Multiset P) :
    Acc (fun y x => Bag.Handles T x y) x := by
  have wf := Multiset.wellFounded_isDershowitzMannaLT (α := Nat)
  have : ∀ m : Multiset Nat, ∀ x : G × Multiset P, x.2.map rank = m → Acc (fun y x => Bag.Handles T x y) x := by
    intro m
    induction m using wf.induction with
    | _ m ih =>
      intro x hx
      refine Acc.intro x (fun y hy => ?_)
      obtain ⟨p, rest, h1, rfl⟩ := hy
      refine ih _ ?_ _ rfl
      rw [← hx, h1]
      refine ⟨rest.map rank, ((T.handle (T.dest p) x.1 p).2.1 : Multiset P).map rank, {rank p}, by simp, ?_, ?_, ?_⟩
      · simp [Bag.produced, (hr (T.dest p) x.1 p).1, add_comm]
      · rw [Multiset.map_cons, ← Multiset.singleton_add, add_comm]
      · intro y hy
        simp only [Multiset.map_coe, Multiset.mem_coe, List.mem_map] at hy
        obtain ⟨q, hq, rfl⟩ := hy
        exact ⟨rank p, by simp, (hr _ _ _).2 q hq⟩
  exact this _ x rfl

/-- Non-vacuity of C04: `demo` satisfies the hypothesis. -/
example (x : Nat × Multiset Nat) : Acc (fun y x => Bag.Handles demo x y) x :=
  acc_of_rank demo id (by
    intro i g p
    cases p <;> simp [demo]) x

/-- **C03+C04.** A terminating job can always be run to completion. -/
theorem C04_completion_reachable (hn : 0 < n) (T : Task n P G E) (i₀ : P) (g₀ : G)
    (hb : ∀ x, Bag.Reach T i₀ g₀ x → Acc (fun y x => Bag.Handles T x y) x)
    (s : State n P G) (h : Reach T i₀ g₀ s) : ∃ s', Reach T i₀ g₀ s' ∧ s'.main = .done :=
  exists_done hn hb s h

/-- Schedule for C05: worker 0 wakes spuriously after boot and leaves; packet 1 makes worker 1 send two
packets to lane 0, which nobody will receive. -/
def spuriousSchedule : List (Action 2 Unit) :=
  let w0 : Action 2 Unit := .worker 0
  let w1 : Action 2 Unit := .worker 1
  List.replicate 9 w0 ++ List.replicate 9 w1 ++ [.main, .main, .spurious 0, .main] ++
  List.replicate 9 w1 ++ [.main, .main, .main, .main, w1, .main]

/-- **C05 (negative).** With one spurious wake-up, the protocol as written returns although two of the
three packets were never handled; `_cru_dismiss` throws them away (internal error 1707). -/
theorem C05_spurious_wakeup_loses_packets :
    ∃ s, ReachAny demo 1 0 s ∧ s.main = .done ∧ s.g = 1 ∧ s.misplaced = true := by
  have h : ((run demo 1 spuriousSchedule (init 0)).map fun s => (s.main, s.g, s.misplaced))
      = some (.done, 1, true) := by decide
  cases hs : run demo 1 spuriousSchedule (init 0) with
  | none => rw [hs] at h; cases h
  | some s =>
    rw [hs] at h
    simp at h
    exact ⟨s, run_reachAny _ _ _ ReachAny.init hs, h⟩

/-- Schedule for C05: both workers wake spuriously before the initial packet is assigned. -/
def hangSchedule : List (Action 2 Unit) :=
  let w0 : Action 2 Unit := .worker 0
  let w1 : Action 2 Unit := .worker 1
  List.replicate 9 w0 ++ List.replicate 9 w1 ++ [.main, .main, .spurious 1, .main]

/-- **C05 (negative).** A spurious wake-up before the initial packet is assigned leaves the calling thread
waiting forever: no thread can take a step and the call has not returned. -/
theorem C05_spurious_wakeup_hangs :
    ∃ s, ReachAny demo 1 0 s ∧ s.main = .wait ∧
      mainStep demo 1 s = none ∧ ∀ i, workerStep demo i s = none := by
  have h : ((run demo 1 hangSchedule (init 0)).map fun s =>
      (s.main, (mainStep demo 1 s).isNone, (workerStep demo 0 s).isNone, (workerStep demo 1 s).isNone))
      = some (.wait, true, true, true) := by decide
  cases hs : run demo 1 hangSchedule (init 0) with
  | none => rw [hs] at h; cases h
  | some s =>
    rw [hs] at h
    simp at h
    refine ⟨s, run_reachAny _ _ _ ReachAny.init hs, h.1, h.2.1, ?_⟩
    intro i
    match i with
    | 0 => exact h.2.2.1
    | 1 => exact h.2.2.2

/-- **C05 (positive).** Without spurious wake-ups nothing is thrown away, and everything sent is handled (C01, C02); the code does not
tolerate spurious ones. -/
theorem C05_no_loss_without_spurious_wakeups (hn : 0 < n) (T : Task n P G E) (i₀ : P) (g₀ : G)
    (s : State n P G) (h : Reach T i₀ g₀ s) : s.misplaced = false := by
  have hi := reach_inv hn h
  unfold Inv at hi
  split at hi
  · exact hi.1.placed
  · exact hi.1.placed
  · exact hi.1.placed
  · exact hi.1.placed
  · exact hi.placed
  · exact hi.placed
  · exact hi.1.placed

end Cru.Net
