import Verif.Proofs.PoolInduce
import Verif.Props.PoolMutate
import Verif.Props.Pool

/-!
# C148: induction in terms of memory
-/

namespace Cru.PoolInduce

open Cru.Pool Cru.Induce

variable {N V L A : Type} [DecidableEq N] {own : N → Nat} {nil : A} {d : Inducer V L A} {vertex : N → V} {arcs : N → List (L × N)} {b : N}
  {jobs : List (List (N × Fault))} {s : State (Loc N) (Val N A) Nat}

/-- Packets arrive at the worker that their node belongs to. -/
def Delivered (own : N → Nat) (jobs : List (List (N × Fault))) : Prop := ∀ t ps, jobs[t]? = some ps → ∀ q ∈ ps, own q.1 = t

theorem whole_start (hj : Delivered own jobs) : ∃ γ, Whole own d vertex arcs b γ (start own nil d vertex arcs b jobs) := by
  refine ⟨fun _ => ⟨.free, fun _ => False, none, none⟩, fun t c hc => ?_, fun l u hu => (by cases hu), fun p n hn => (by cases hn),
    fun p a ha => (by cases ha)⟩
  obtain ⟨ps, h1, rfl⟩ : ∃ ps, jobs[t]? = some ps ∧ arrivals own nil d vertex arcs b t ps none = c := by
    simpa [start, Pool.init] using hc
  exact ⟨safe_arrivals ps (hj t ps h1) _ _ rfl fun _ h => (by cases h),
    ⟨fun _ h => (by cases h), fun h => (by cases h), fun _ h => h.elim, fun _ h => (by cases h), fun _ h => (by cases h)⟩⟩

/-- C148: there are no data races, whatever packets arrive, in whatever order, and whatever goes wrong. -/
theorem C148_race_free (hj : Delivered own jobs) (h : Reach (start own nil d vertex arcs b jobs) s) : ¬ Race s := by
  obtain ⟨γ, hw⟩ := whole_reach (whole_start hj) h
  exact no_race hw

/-- C148: at all times, a node in the set of visited nodes of a port has the value of the recursive function in its accumulator. -/
theorem C148_visited (hj : Delivered own jobs) (h : Reach (start own nil d vertex arcs b jobs) s) (p : Nat) (S : List N)
    (hS : s.mem (.visited p) = .nodes S) (n : N) (hn : n ∈ S) : own n = p ∧ ∃ a, s.mem (.acc n) = .value a ∧ Has d vertex arcs n a := by
  obtain ⟨γ, hw⟩ := whole_reach (whole_start hj) h
  exact hw.done p n (by rw [hS]; exact hn)

/-- C148: a result returned by any worker is the value of the recursive function for the initial vertex. -/
theorem C148_result (hj : Delivered own jobs) (h : Reach (start own nil d vertex arcs b jobs) s) (p : Nat) (a : A)
    (ha : s.mem (.result p) = .value a) : Has d vertex arcs b a := by
  obtain ⟨γ, hw⟩ := whole_reach (whole_start hj) h
  exact hw.result p a ha

/-- C148: therefore, any two executions agree on the result if they have one, with any numbers of workers, any assignments of nodes to them,
and any packets that arrive. -/
theorem C148_determined {own' : N → Nat} {nil' : A} {jobs' : List (List (N × Fault))} {s' : State (Loc N) (Val N A) Nat} (hj : Delivered own jobs)
    (hj' : Delivered own' jobs') (h : Reach (start own nil d vertex arcs b jobs) s) (h' : Reach (start own' nil' d vertex arcs b jobs') s')
    (p q : Nat) (a a' : A) (ha : s.mem (.result p) = .value a) (ha' : s'.mem (.result q) = .value a') : a = a' :=
  (C148_result hj h p a ha).unique (C148_result hj' h' q a' ha')

/-! ## Locks -/

omit [DecidableEq N] in
theorem polite_look {kids : List Nat} {held : Option Nat} (es : List (L × N)) {k : List (L × A) → Thread N A} (h : ∀ r, Polite kids held (k r)) :
    Polite kids held (look nil es k) := by
  induction es generalizing k with
  | nil => exact h _
  | cons e es ih => exact .load fun x => ih fun r => h _

omit [DecidableEq N] in
theorem polite_disable {kids : List Nat} (t : Nat) {k : Thread N A} (h : Polite kids none k) : Polite kids none (disable t k) :=
  .wrlock (.store (.unlock h))

theorem polite_allVisited {kids : List Nat} (t : Nat) (os : List N) {k : Readiness → Thread N A} (h : ∀ r, Polite kids none (k r)) :
    Polite kids none (allVisited own t os k) := by
  induction os with
  | nil => exact h _
  | cons o os ih =>
    unfold allVisited
    split_ifs
    · refine .load fun x => ?_
      split_ifs
      · exact h _
      · refine .load fun y => ?_
        split_ifs
        · exact ih
        · exact h _
    · refine .rdlock (.load fun x => ?_)
      split_ifs
      · exact .unlock (h _)
      · refine .load fun y => .unlock ?_
        split_ifs
        · exact ih
        · exact h _

theorem polite_record {kids : List Nat} (t : Nat) (n : N) (a : A) (f : Fault) {k : Thread N A} (h : Polite kids none k) :
    Polite kids none (record t n a f k) := by
  refine .store (.wrlock (.load fun y => ?_))
  by_cases hf : f = .after
  · rw [if_pos hf]
    exact .unlock (polite_disable t h)
  · rw [if_neg hf]
    exact .store (.unlock h)

theorem polite_arrivals {kids : List Nat} (t : Nat) (ps : List (N × Fault)) : ∀ r : Option A,
    Polite kids none (arrivals own nil d vertex arcs b t ps r) := by
  induction ps with
  | nil => exact fun r => .store .done
  | cons q ps ih =>
    obtain ⟨n, f⟩ := q
    intro r
    unfold arrivals
    refine .load fun x => ?_
    by_cases hx : x.on = true
    · rw [if_pos hx]
      exact ih r
    rw [if_neg hx]
    by_cases hb : f = .before
    · rw [if_pos hb]
      exact polite_disable t (ih r)
    rw [if_neg hb]
    refine .load fun y => ?_
    by_cases hy : n ∈ y.set
    · rw [if_pos hy]
      exact ih r
    rw [if_neg hy]
    refine polite_allVisited t _ fun r' => ?_
    cases r' with
    | never => exact polite_disable t (ih r)
    | later => exact ih r
    | now =>
      dsimp only
      by_cases hi : r.isSome = true
      · rw [if_pos hi]
        exact polite_disable t (ih r)
      rw [if_neg hi]
      refine polite_look _ fun es => ?_
      cases evaluate d (vertex n) es with
      | error e => exact polite_disable t (ih r)
      | ok a =>
        dsimp only
        split_ifs
        · exact polite_disable t (ih r)
        · exact ih _
        · exact polite_record t n a f (ih r)

/-- C148: locks never get in the way of workers for good: in whatever order they're scheduled, they all come to their ends, and they get
there as long as one of them is scheduled that can go on. -/
theorem C148_ends (F : Nat → State (Loc N) (Val N A) Nat) (h0 : F 0 = start own nil d vertex arcs b jobs)
    (hf : ∀ i, (∃ t, step t (F i) = some (F (i + 1))) ∨ (∀ t, step t (F i) = none) ∧ F (i + 1) = F i) : ∃ i, Ended (F i) := by
  refine C144_ends (fun c hc => ?_) F h0 hf
  obtain ⟨t, ht, rfl⟩ := List.mem_mapIdx.1 hc
  exact polite_arrivals _ _ _

/-! ## Example -/

/-- Sums of products of labels and values, starting from the vertices. -/
def exSum : Inducer Nat Nat Nat where
  boundary := some fun v => .ok v
  vacuous := none
  map := fun _ l a => .ok (l * a)
  reduction := fun a r => .ok (a + r)

/-- Node 0 has edges to 1 and 2 with labels 10 and 100, and 1 has one to 2 with label 3. -/
def exArcs : Nat → List (Nat × Nat)
  | 0 => [(10, 1), (100, 2)]
  | 1 => [(3, 2)]
  | _ => []

/-- Two workers, where the second one gets its node before the prerequisite has been visited, and again later. -/
def exJobs : List (List (Nat × Fault)) := [[(0, .none), (2, .none), (0, .none)], [(1, .none), (1, .none)]]

theorem exJobs_delivered : Delivered (· % 2) exJobs := by
  intro t ps h q hq
  match t, h with
  | 0, h =>
    cases h
    fin_cases hq <;> rfl
  | 1, h =>
    cases h
    fin_cases hq <;> rfl
  | t + 2, h => simp [exJobs] at h

/-- An execution where the result is 5 * 3 * 10 + 5 * 100. -/
example : ∃ s, Reach (start (· % 2) 0 exSum (fun v => v + 3) exArcs 0 exJobs) s ∧ Ended s ∧ s.mem (.result 0) = .value 650 ∧
    s.mem (.result 1) = .null ∧ s.mem (.visited 1) = .nodes [1] ∧ s.mem (.acc 1) = .value 15 ∧ s.mem (.disabled 0) = .flag false := by
  have h1 : ∃ s, run (List.replicate 6 0 ++ List.replicate 6 1 ++ List.replicate 7 0 ++ List.replicate 13 1 ++ List.replicate 11 0)
      (start (· % 2) 0 exSum (fun v => v + 3) exArcs 0 exJobs) = some s ∧ s.threads = [.done, .done] ∧ s.mem (.result 0) = .value 650 ∧
      s.mem (.result 1) = .null ∧ s.mem (.visited 1) = .nodes [1] ∧ s.mem (.acc 1) = .value 15 ∧ s.mem (.disabled 0) = .flag false :=
    ⟨_, rfl, rfl, rfl, rfl, rfl, rfl, rfl⟩
  obtain ⟨s, a1, a2, a3⟩ := h1
  refine ⟨s, run_reach _ .init a1, fun c hc => ?_, a3⟩
  rw [a2] at hc
  simpa using hc

end Cru.PoolInduce
