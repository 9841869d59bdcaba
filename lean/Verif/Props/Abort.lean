import Verif.Proofs.Abort
import Verif.Props.BuildAcc
import Verif.Props.Net

/-!
# C152: workers that can not begin

Any number of workers might fail before their loops, with the codes `dead`, which are zero for the others.
-/

namespace Cru.Abort

open Net Fold
open Request (Env Exact)
open BuildAcc hiding start
open SpawnAcc (Node allHeld held)

variable {n : Nat} {V : Type} {c : Env} {o : Ops V} {hn : 0 < n} {dead : Fin n → Int}

/-- The job is never stuck: whatever it does, and whatever workers fail to begin, some thread can go on until the main thread is done. -/
theorem C152_no_deadlock {P G E : Type} (hn : 0 < n) (T : Task n P G E) (dead : Fin n → Int) (dispose : Fin n → G → P → G) (i₀ : P) (g₀ : G)
    (s : State n P G) (h : Reach (task T dead dispose) i₀ g₀ s) (hd : s.main ≠ .done) :
    (step (task T dead dispose) i₀ .main s).isSome ∨ ∃ i, (step (task T dead dispose) i₀ (.worker i) s).isSome :=
  C03_no_deadlock hn _ i₀ g₀ s h hd

/-- If the workers that begin only send packets of less rank than those they have got, then every schedule ends, whatever workers fail to begin. -/
theorem C152_terminates {P G E : Type} (hn : 0 < n) (T : Task n P G E) (rank : P → Nat)
    (hr : ∀ i g p, (T.handle i g p).2.2 = false ∧ ∀ q ∈ (T.handle i g p).2.1, rank q < rank p) (dead : Fin n → Int) (dispose : Fin n → G → P → G)
    (i₀ : P) (g₀ : G) (f : Nat → State n P G) (h0 : Reach (task T dead dispose) i₀ g₀ (f 0)) :
    ¬ ∀ k, step (task T dead dispose) i₀ .main (f k) = some (f (k + 1)) ∨ ∃ i, step (task T dead dispose) i₀ (.worker i) (f k) = some (f (k + 1)) := by
  refine C04_every_schedule_terminates hn _ i₀ g₀ (fun x _ => acc_of_rank _ rank (fun i g p => ?_) x) f h0
  show ((if dead i ≠ 0 then (dispose i g p, [], false) else T.handle i g p).2.2 = false) ∧
    ∀ q ∈ (if dead i ≠ 0 then (dispose i g p, [], false) else T.handle i g p).2.1, rank q < rank p
  by_cases h : dead i ≠ 0
  · rw [if_pos h]; exact ⟨rfl, fun q hq => absurd hq List.not_mem_nil⟩
  · rw [if_neg h]; exact hr i g p

/-! ## `cru_built` -/

theorem start_fine_build (hb : o.spread = false) (v : Option V) :
    Fine c o dead ((start dead (fun _ => []) (fun _ _ => []) (origin c v).2 : Job n V), {.fresh (origin c v).1 true}) := by
  obtain ⟨h1, h2⟩ := blank_good (n := n) (c := c) hb v
  have h3 := blank_careful (n := n) (c := c) (o := o) v
  exact ⟨⟨⟨h1.idle, h1.built, fun _ _ _ => rfl, h1.tabled⟩, h2⟩, ⟨fun h => absurd rfl h, h3.connector, h3.build⟩, fun i hi => hi⟩

/-- At any time, everything made has been freed once, is held by one node, or is the vertex of one packet. -/
theorem C152_built_account (hb : o.spread = false) (ends : Fin n → List (Nat × Nat)) (v : Option V) (x : State n (Pkt V) (Job n V))
    (h : Reach (building c o ends hn dead) (.fresh (origin c v).1 true) (start dead (fun _ => []) (fun _ _ => []) (origin c v).2) x) :
    Exact x.g.world (allHeld c x.g.nodes + inFlight c (pending (.fresh (origin c v).1 true) x)) := by
  have h0 := fine_inv (start_fine_build hb v) _ (reach_bag hn h)
  have h2 := h0.careful.build hb
  refine (h0.good.2.cast ?_).exact
  have h3 : x.g.given = fun _ => [] := funext (h0.good.1.built hb)
  have h4 : x.g.lost = [] := h2.1
  simp only [outstanding]
  rw [h3, allHeld_nil, h4]
  simp [leaked]

/-- In the end, if any worker has failed to begin, there's no graph, there's an error, and everything made has been freed exactly once. -/
theorem C152_built_end (hb : o.spread = false) (ends : Fin n → List (Nat × Nat)) (v : Option V) (x : State n (Pkt V) (Job n V))
    (h : Reach (building c o ends hn dead) (.fresh (origin c v).1 true) (start dead (fun _ => []) (fun _ _ => []) (origin c v).2) x)
    (hx : x.main = .done) (remote : Fin n → Nat → Nat → Nat) (pre post : Int) (hd : ∃ i, dead i ≠ 0) :
    (finish c (leaveAll c o remote x.g) pre post).1 = none ∧ (finish c (leaveAll c o remote x.g) pre post).2.err ≠ 0 ∧
    Exact (finish c (leaveAll c o remote x.g) pre post).2 0 := by
  have h0 := fine_inv (start_fine_build hb v) _ (Rover.done_bag hn h hx)
  obtain ⟨i, hi⟩ := hd
  have hi := leaveAll_sticky (c := c) (o := o) remote x.g i (h0.failed i hi)
  obtain ⟨f1, f2⟩ := finish_iff (c := c) (leaveAll c o remote x.g) pre post
  have hnone : (finish c (leaveAll c o remote x.g) pre post).1 = none := by
    rw [← Option.not_isSome_iff_eq_none]
    exact fun hc => hi ((f1.1 hc).1.2.1 i)
  refine ⟨hnone, fun hc => ?_, ?_⟩
  · rw [← f2, hnone] at hc; cases hc
  · have h2 := h0.careful.build hb
    obtain ⟨e1, e2, -⟩ := leaveAll_same (c := c) (o := o) remote x.g
    have h3 : x.g.given = fun _ => [] := funext (h0.good.1.built hb)
    have h4 : Even x.g.world (total c x.g + 0) := h0.good.2.cast (by rw [outstanding_eq]; rfl)
    have h5 := h4.bal (leaveAll_bal (o := o) remote x.g 0)
    have h6 := ((h5.cast (by rw [total, e1, e2, h3, allHeld_nil, h2.1]; simp [leaked] : _ = allHeld c (leaveAll c o remote x.g).nodes + 0)).bal
      (finish_bal _ pre post 0)).exact
    rw [hnone] at h6
    simpa [held] using h6

/-! ## `cru_spread` -/

theorem start_fine_spread {given : Fin n → List (Node V)} {tab : Fin n → Nat → List Nat} {w : World} (hs : o.spread = true) (hw : w.WF)
    (hx : Exact w (allHeld c given)) (ht : ∀ i h, ∀ k ∈ tab i h, k < (given i).length) (h k : Nat) :
    Fine c o dead ((start dead given tab w : Job n V), {.known h k true}) := by
  obtain ⟨h1, h2⟩ := start_good (n := n) (c := c) hs hw hx ht h k
  have h3 := start_careful (n := n) (o := o) (given := given) (tab := tab) (w := w) hs h k
  exact ⟨⟨⟨h1.idle, h1.built, fun i h => (by cases h), h1.tabled⟩, h2⟩, ⟨fun h => absurd rfl h, h3.connector, h3.build⟩, fun i hi => hi⟩

/-- The same for a spread, except for the vertices lost on account of another defect (C139), which needs a subconnector. -/
theorem C152_spread_end (hs : o.spread = true) (ends : Fin n → List (Nat × Nat)) (given : Fin n → List (Node V)) (tab : Fin n → Nat → List Nat) (w : World)
    (hw : w.WF) (hx : Exact w (allHeld c given)) (ht : ∀ i h, ∀ k ∈ tab i h, k < (given i).length) (h₀ k₀ : Nat) (x : State n (Pkt V) (Job n V))
    (h : Reach (building c o ends hn dead) (.known h₀ k₀ true) (start dead given tab w) x) (hm : x.main = .done)
    (remote : Fin n → Nat → Nat → Nat) (f : Bool) (pre post : Int) (hd : ∃ i, dead i ≠ 0) :
    (finishSpread c (leaveAll c o remote x.g) f pre post).1 = none ∧ (finishSpread c (leaveAll c o remote x.g) f pre post).2.err ≠ 0 ∧
    Exact (finishSpread c (leaveAll c o remote x.g) f pre post).2 (leaked c x.g.lost) ∧ (o.sub = false → x.g.lost = []) := by
  have h0 := fine_inv (start_fine_spread hs hw hx ht h₀ k₀) _ (Rover.done_bag hn h hm)
  obtain ⟨i, hi⟩ := hd
  have hi := leaveAll_sticky (c := c) (o := o) remote x.g i (h0.failed i hi)
  obtain ⟨f1, f2⟩ := finishSpread_iff (c := c) (leaveAll c o remote x.g) f pre post
  have hnone : (finishSpread c (leaveAll c o remote x.g) f pre post).1 = none := by
    rw [← Option.not_isSome_iff_eq_none]
    exact fun hc => hi ((f2 hc).2.1 i)
  refine ⟨hnone, fun hc => ?_, ?_, h0.careful.connector⟩
  · rw [← f1, hnone] at hc; cases hc
  · obtain ⟨e1, e2, -⟩ := leaveAll_same (c := c) (o := o) remote x.g
    have h4 : Even x.g.world (total c x.g + 0) := h0.good.2.cast (by rw [outstanding_eq]; rfl)
    have h5 := h4.bal (leaveAll_bal (o := o) remote x.g 0)
    have h6 := ((h5.cast (by rw [total, e1, e2, add_zero])).bal (finishSpread_bal _ f pre post (leaked c x.g.lost))).exact
    rw [hnone] at h6
    simpa [held] using h6

/-! ## The order of evaluation in `_cru_abort_new_packets` -/

/-- If the receiver is read before the packet is removed, then the packets received together are disposed of one by one, as in the theorems above. -/
theorem C152_read_first (i : Fin n) (s : Job n V) (ps : List (Pkt V)) :
    abortNew c false ps (own i s) = some (own i (ps.foldl (dispose c i) s)) := by
  induction ps generalizing s with
  | nil => rfl
  | cons p ps ih =>
    cases p with
    | fresh v b =>
      have e : destroy c.fails c.vFree v (own i s) = own i (dispose c i s (.fresh v b)) := by
        simp only [dispose, own, store, Function.update_self]
      show abortNew c false ps (destroy c.fails c.vFree v (own i s)) = _
      rw [e]
      exact ih _
    | known a k b =>
      have e : destroy c.fails none (none : Option (Obj V)) (own i s) = own i s := by
        simp [destroy]
      show abortNew c false ps (destroy c.fails none none (own i s)) = _
      rw [e]
      exact ih _

/-- This is the defect: the order is unspecified, and if the packet is removed first, then a null pointer is dereferenced whatever packets there are. -/
theorem C152_removed_first (p : Pkt V) (ps : List (Pkt V)) (w : World) : abortNew c true (p :: ps) w = none := by
  induction ps generalizing p w with
  | nil => rfl
  | cons q ps ih =>
    show (destructor c (some q)).bind (fun d => abortNew c true (q :: ps) (destroy c.fails d (payload p) w)) = none
    cases destructor c (some q) with
    | none => rfl
    | some d => exact ih _ _

/-! ## Examples -/

abbrev demoDead (o : Ops Nat) (ends : Fin 2 → List (Nat × Nat)) (dead : Fin 2 → Int) := building (n := 2) (demoEnv 1000) o ends (by decide) dead

def demoBuilt (dead : Fin 2 → Int) : State 2 (Pkt Nat) (Job 2 Nat) :=
  greedy (demoDead (demoOps false false 0 30 0) (fun _ => []) dead) (.fresh (origin (demoEnv 1000) (some 4)).1 true) 900
    (Net.init (start dead (fun _ => []) (fun _ _ => []) (origin (demoEnv 1000) (some 4)).2))

def demoSpreaded (dead : Fin 2 → Int) : State 2 (Pkt Nat) (Job 2 Nat) :=
  greedy (demoDead (demoOps false true 0 15 0) (fun i => if i = 0 then [(1, 0)] else []) dead) (.known 0 0 true) 900
    (Net.init (start dead demoGiven demoTab demoWorld))

def demoCode (j : Fin 2) (e : Int) (i : Fin 2) : Int := if i = j then e else 0

def demoBuiltEnd (dead : Fin 2 → Int) :=
  finish (demoEnv 1000) (leaveAll (demoEnv 1000) (demoOps false false 0 30 0) (fun _ _ k => k) (demoBuilt dead).g) 0 0

def demoSpreadedEnd (dead : Fin 2 → Int) :=
  finishSpread (demoEnv 1000) (leaveAll (demoEnv 1000) (demoOps false true 0 15 0) (fun _ _ k => k) (demoSpreaded dead).g) true 0 0

/-- A build where the second worker can not begin, but the first one goes on, and makes nodes.  The job isn't killed. -/
example : (demoOps false false 0 30 0).spread = false ∧
    Reach (demoDead (demoOps false false 0 30 0) (fun _ => []) (demoCode 1 (-1005))) (.fresh (origin (demoEnv 1000) (some 4)).1 true)
      (start (demoCode 1 (-1005)) (fun _ => []) (fun _ _ => []) (origin (demoEnv 1000) (some 4)).2) (demoBuilt (demoCode 1 (-1005))) ∧
    (demoBuilt (demoCode 1 (-1005))).main = .done ∧ (∃ i, demoCode 1 (-1005) i ≠ 0) ∧ ((demoBuilt (demoCode 1 (-1005))).g.nodes 0).length = 3 ∧
    (demoBuilt (demoCode 1 (-1005))).g.killed = 0 ∧ (demoBuiltEnd (demoCode 1 (-1005))).2.err = -1005 ∧
    (demoBuiltEnd (demoCode 1 (-1005))).2.made.card = 11 ∧ (demoBuiltEnd (demoCode 1 (-1005))).2.freed.card = 11 :=
  ⟨rfl, greedy_reach _ _ .init, by decide +kernel, ⟨1, by decide⟩, by decide +kernel, by decide +kernel, by decide +kernel, by decide +kernel, by decide +kernel⟩

/-- A spread where the second worker can not begin. -/
example : (demoOps false true 0 15 0).spread = true ∧
    Reach (demoDead (demoOps false true 0 15 0) (fun i => if i = 0 then [(1, 0)] else []) (demoCode 1 (-1005))) (.known 0 0 true)
      (start (demoCode 1 (-1005)) demoGiven demoTab demoWorld) (demoSpreaded (demoCode 1 (-1005))) ∧
    (demoSpreaded (demoCode 1 (-1005))).main = .done ∧ ((demoSpreaded (demoCode 1 (-1005))).g.nodes 0).length = 1 ∧
    (demoSpreadedEnd (demoCode 1 (-1005))).2.err = -1005 ∧ (demoSpreadedEnd (demoCode 1 (-1005))).2.freed.card = 3 :=
  ⟨rfl, greedy_reach _ _ .init, by decide +kernel, by decide +kernel, by decide +kernel, by decide +kernel⟩

/-- A task whose packets are numbers that get less. -/
example (i : Fin 2) (g p : Nat) :
    ((⟨fun p => ⟨p % 2, Nat.mod_lt _ (by decide)⟩, fun _ g p => (g + p, List.range p, false), fun _ g => g⟩ : Task 2 Nat Nat Unit).handle i g p).2.2 = false ∧
    ∀ q ∈ ((⟨fun p => ⟨p % 2, Nat.mod_lt _ (by decide)⟩, fun _ g p => (g + p, List.range p, false), fun _ g => g⟩ : Task 2 Nat Nat Unit).handle i g p).2.1,
      id q < id p :=
  ⟨rfl, fun q hq => List.mem_range.1 hq⟩

/-- Three packets received together, two of which have vertices, disposed of in one order of evaluation. -/
example : (abortNew (demoEnv 1000) false [.fresh (some ⟨0, 4⟩) false, .known 0 0 false, .fresh (some ⟨2, 5⟩) false] demoWorld).map (fun w => w.freed) =
    some {(0, 0), (2, 0)} := by decide +kernel

end Cru.Abort
