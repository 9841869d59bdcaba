import Verif.Proofs.FreeEnd
import Verif.Proofs.Demo

/-!
# Reclamation of graphs

Whatever the schedule is, and whenever memory runs out, `cru_free_now` and `cru_free_later` dispose of everything in a graph once and
touch nothing afterwards, unless they're called with `*err` equal to `CRU_BADGPH`.
-/

namespace Cru.Free

open Net

variable {n : Nat} {N V L : Type} [DecidableEq N] {g : Gr N V L} {hash : N → Nat} {hn : 0 < n} {e : Int} {l : Log N V L}

/-- **C107.** `cru_free_now` disposes of each vertex, each label and each node of a graph once, and never touches a node
that's been freed, for any number of lanes, any schedule, any failures of allocations, and any errors raised by destructors. -/
theorem C107_now (h : g.WF) (hf : FreesNow g hash hn e l) (he : e ≠ badGph) : Disposed g l := by
  cases hf with
  | alone => exact alone_disposed h he
  | together heap reserve z h1 hr hd =>
    have hb := inv_bag h (reach_bag hn hr)
    have hp : pending (first g) z = 0 := (inv_finished (i₀ := first g) (reach_inv hn hr) (by rw [hd]; trivial)).1
    rw [hp] at hb
    exact hb.disposed h.nodup

/-- **C107.** So does `cru_free_later`. -/
theorem C107_later (h : g.WF) (hf : FreesLater g e l) (he : e ≠ badGph) : Disposed g l := by
  cases hf with
  | background => exact alone_disposed h (by decide)
  | foreground => exact alone_disposed h he

/-- **C107.** If the workers get to run fairly, they come to an end, even if no memory can be allocated and nothing was in reserve to begin
with. -/
theorem C107_ends (h : g.WF) (hash : N → Nat) (hn : 0 < n) (heap : Nat → Bool) (reserve : Nat) {who : Nat → Option (Fin n)}
    (hw : FairSchedule who) :
    ∃ k, (scheduled (task g.vertex hash hn) (first g) who (init (start g heap reserve)) k).main = .done := by
  refine fair_done (fun a => lt_irrefl a) hn (advances h.nodup) hw _ .init ⟨inv_bag h (reach_bag hn .init), fun _ => .inr ⟨first g, ?_, by simp [init, start]⟩⟩
  simp [pending, init, MPc.held]

/-- **C107.** In other words, at any later time, if the other operations stop taking packets from the reserve when there's one left. -/
theorem C107_resumes (h : g.WF) {heap : Nat → Bool} {reserve : Nat} {z : State n (Packet N) (Job n N V L)}
    (hz : Reach (task g.vertex hash hn) (first g) (start g heap reserve) z) (hr : z.g.reserve ≠ 0) {who : Nat → Option (Fin n)}
    (hw : FairSchedule who) : ∃ k, (scheduled (task g.vertex hash hn) (first g) who z k).main = .done :=
  fair_done (fun a => lt_irrefl a) hn (advances h.nodup) hw z hz ⟨inv_bag h (reach_bag hn hz), fun _ => .inl hr⟩

/-- Every way of running out of memory is covered. -/
theorem C107_exists (h : g.WF) (hash : N → Nat) (hn : 0 < n) (h1 : 1 < n) (heap : Nat → Bool) (reserve : Nat) :
    ∃ z, Reach (task g.vertex hash hn) (first g) (start g heap reserve) z ∧ z.main = .done ∧
      FreesNow g hash hn 0 (finish g.vertex z.g).log := by
  obtain ⟨k, hk⟩ := C107_ends h hash hn heap reserve (rounds_fair n)
  exact ⟨_, scheduled_reach .init k, hk, .together heap reserve _ h1 (scheduled_reach .init k) hk⟩

/-- **C108.** If `*err` is `CRU_BADGPH` already when `cru_free_now` is called, it disposes of nothing although
there's nothing wrong with the graph. -/
theorem C108_leak (h : g.WF) (hf : FreesNow g hash hn badGph l) : Leaked l ∧ ¬ Disposed g l := by
  cases hf with
  | alone =>
    have : alone g badGph = ⟨[], [], [], false⟩ := by unfold alone; rw [if_pos rfl]
    rw [this]
    refine ⟨⟨rfl, rfl, rfl⟩, fun hd => ?_⟩
    have := hd.nodes.mem_iff.2 ((h.reach g.base).2 .refl)
    cases this

/-- **C108.** `cru_free_later` can do the same. -/
theorem C108_later (h : g.WF) : ∃ l, FreesLater g badGph l ∧ Leaked l ∧ ¬ Disposed g l :=
  ⟨_, .foreground badGph, C108_leak (hash := fun _ => 0) (hn := Nat.one_pos) h (.alone badGph)⟩

/-! ## A graph with cycles and no memory -/

def knot : Gr Nat Nat Bool where
  nodes := [0, 1, 2, 3, 4, 5]
  base := 0
  vertex m := 10 * m
  out m := match m with
    | 0 => [(true, 2), (false, 4), (true, 1), (true, 3), (false, 0)]
    | 1 => [(true, 3), (false, 0), (false, 5)]
    | 2 => [(true, 4), (false, 0)]
    | 3 => [(true, 1), (false, 1)]
    | 4 => [(true, 2), (false, 2), (true, 5)]
    | _ => []
  inn _ := []

def scarce (k : Nat) : State 2 (Packet Nat) (Job 2 Nat Nat Bool) :=
  greedy (task knot.vertex id Nat.two_pos) (first knot) k (init (start knot (fun _ => false) 0))

theorem knot_wf : knot.WF :=
  wf_range (k := 6) rfl rfl (by decide) (by decide) (by decide)

/-- With no memory at all, the edges from vertex 2 that can't be followed are put among those from vertex 0, and the nodes are all freed
in the end. -/
example : knot.WF ∧ (scarce 36).g.out 0 = [(true, 4), (false, 0), (false, 4), (true, 1), (true, 3), (false, 0)] ∧
    (scarce 36).g.buffer 0 = some (0, 0) ∧
    FreesNow knot id Nat.two_pos 0 (finish knot.vertex (scarce 230).g).log ∧ (finish knot.vertex (scarce 230).g).freed = [5, 3, 1, 2, 4, 0] :=
  ⟨knot_wf, by decide +kernel, by decide +kernel,
    .together _ _ _ (by decide) (greedy_reach _ _ .init) (by decide +kernel), by decide +kernel⟩

/-- With some memory, some nodes are freed along the way and some at the end. -/
example : ∃ z, Reach (task knot.vertex id Nat.two_pos) (first knot) (start knot (fun k => k % 3 = 0) 1) z ∧ z.main = .done ∧
    z.g.freed = [5, 2, 4] ∧ FreesNow knot id Nat.two_pos 0 (finish knot.vertex z.g).log :=
  ⟨greedy (task knot.vertex id Nat.two_pos) (first knot) 230 (init (start knot (fun k => k % 3 = 0) 1)), greedy_reach _ _ .init,
    by decide +kernel, by decide +kernel, .together _ _ _ (by decide) (greedy_reach _ _ .init) (by decide +kernel)⟩

/-- The reserve is used up by others in the middle of it, and replenished later. -/
example : ∃ z, Reach (task knot.vertex id Nat.two_pos) (first knot) (start knot (fun _ => false) 0) z ∧ z.g.reserve ≠ 0 ∧
    z.main ≠ .done ∧ z.g.buffer 0 = some (0, 0) :=
  ⟨{ scarce 36 with g := { (scarce 36).g with reserve := 7 } }, .step (.env (.reserve 7)) trivial (greedy_reach _ _ .init) rfl,
    by decide +kernel, by decide +kernel, by decide +kernel⟩

example : FairSchedule (rounds 2) := rounds_fair 2

example : FreesLater knot 0 (alone knot 0) ∧ (alone knot 0).freed = [5, 4, 3, 2, 1, 0] := ⟨.background 0, by decide +kernel⟩

example : FreesNow knot id Nat.two_pos badGph (alone knot badGph) := .alone _

end Cru.Free
