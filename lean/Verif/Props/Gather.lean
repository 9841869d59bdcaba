import Verif.Proofs.GatherEnd
import Verif.Props.Free

/-!
# Putting the nodes of a graph on lists

Before `cru_filtered`, `cru_split`, `cru_composed` and `cru_mutated` change a graph, their workers take it apart.  However they are scheduled and whenever
memory runs out, nothing is lost, with two exceptions in `cru_split`.
-/

namespace Cru.Gather

open Net
open Free (Packet Disposed Leaked first knot knot_wf)

variable {n : Nat} {N V L : Type} [DecidableEq N] {g : Gr N V L} {wary : Bool} {hash : N → Nat} {hn : 0 < n} {heap : Nat → Bool} {reserve : Nat}
  {z : State n (Packet N) (Job n N V L)}

theorem good_done (h : g.WF) (hz : Reach (task wary hash hn) (first g) (start g heap reserve) z) (hd : z.main = .done) :
    Good g (fun m => Build.lane hn (hash m)) (z.g, 0) := by
  have hb := good_bag h (reach_bag hn hz)
  have hp : pending (first g) z = 0 := (inv_finished (i₀ := first g) (reach_inv hn hz) (by rw [hd]; trivial)).1
  rw [hp] at hb
  exact hb

/-- **C129.** When the workers are finished, every node of the graph is on the list of its own worker once, and every label has been disposed of
once or is still attached to an edge, whatever the schedule was, however often allocations failed, and even if there were errors and kill
requests. -/
theorem C129_gathered (h : g.WF) (hz : Reach (task wary hash hn) (first g) (start g heap reserve) z) (hd : z.main = .done) :
    Gathered g (fun m => Build.lane hn (hash m)) z.g := (good_done h hz hd).gathered h.nodup

/-- **C129.** If no worker had an error or noticed a kill request, all edges are as they were. -/
theorem C129_intact (hz : Reach (task wary hash hn) (first g) (start g heap reserve) z)
    (hq : ∀ i, z.g.err i = false ∧ z.g.killed i = false) : Intact g z.g := intact_bag (reach_bag hn hz) hq

/-- **C129.** If the workers get to run fairly, they come to an end, even if no memory can be allocated and nothing was in reserve to begin
with. -/
theorem C129_ends (h : g.WF) (wary : Bool) (hash : N → Nat) (hn : 0 < n) (heap : Nat → Bool) (reserve : Nat) {who : Nat → Option (Fin n)}
    (hw : FairSchedule who) :
    ∃ k, (scheduled (task wary hash hn) (first g) who (init (start g heap reserve)) k).main = .done := by
  have hg := Good.start (n := n) h (fun m => Build.lane hn (hash m)) heap reserve
  refine fair_done (fun a => lt_irrefl a) hn (advances h.nodup) hw _ .init ⟨⟨?_, fun _ => .inr ⟨first g, ?_, by simp [init, start, view, Free.start]⟩⟩, hg.2⟩
  · have : pending (n := n) (first g) (init (P := Packet N) (start (n := n) g heap reserve)) = {first g} := by
      simp [pending, init, MPc.held, laneBag, Pc.incoming]
    show Free.Inv g _ (view g _ (start g heap reserve).toJob, pending (n := n) (first g) (init (P := Packet N) (start (n := n) g heap reserve)))
    rw [this]
    exact hg.1
  · simp [pending, init, MPc.held]

/-- **C129.** So they do from any later state, if there's a packet in reserve. -/
theorem C129_resumes (h : g.WF) (hz : Reach (task wary hash hn) (first g) (start g heap reserve) z) (hr : z.g.reserve ≠ 0) {who : Nat → Option (Fin n)}
    (hw : FairSchedule who) : ∃ k, (scheduled (task wary hash hn) (first g) who z k).main = .done := by
  have hg := good_bag h (reach_bag hn hz)
  exact fair_done (fun a => lt_irrefl a) hn (advances h.nodup) hw z hz ⟨⟨hg.1, fun _ => .inl hr⟩, hg.2⟩

/-- **C129.** If the function fails then, each vertex, each label and each node of the graph is disposed of once, and no node is touched
after it's been freed. -/
theorem C129_disposed (h : g.WF) (c : Caller) (hz : Reach (task wary hash hn) (first g) (start g heap reserve) z) (hd : z.main = .done) :
    Disposed g (ending c g (some z.g)) := (good_done h hz hd).swept h.nodup

/-- **C129.** It's the same if the workers can't be started, except in `cru_split`. -/
theorem C129_unstarted (h : g.WF) {c : Caller} (hc : c ≠ .split) : Disposed g (ending (n := n) c g none) := by
  have : c.clears false = false := by cases c <;> first | rfl | exact absurd rfl hc
  show Disposed g (if c.clears false = true then _ else Free.alone g 0)
  rw [this, if_neg (by simp)]
  exact Free.alone_disposed h (by decide)

/-- **C130.** If the workers can't be started in `cru_split`, nothing in the graph is ever disposed of. -/
theorem C130_leak (h : g.WF) : Leaked (ending (n := n) .split g none) ∧ ¬ Disposed g (ending (n := n) .split g none) := by
  have : ending (n := n) .split g none = ⟨[], [], [], false⟩ := rfl
  rw [this]
  refine ⟨⟨rfl, rfl, rfl⟩, fun hd => ?_⟩
  have := hd.nodes.mem_iff.2 ((h.reach g.base).2 .refl)
  cases this

/-- **C130.** If some worker in `cru_split` has an error, the properties disposed of are those of vertices whose own workers have one, of the vertex
that was the first in the graph, and of those that come after it on its worker's list.  The others are left. -/
theorem C130_properties (h : g.WF) {head : N} (hh : head ∈ g.nodes) (hz : Reach (task wary hash hn) (first g) (start g heap reserve) z) (hd : z.main = .done) {m : N}
    (hm : m ∈ g.nodes) :
    m ∈ unpropped head z.g ↔ z.g.err (Build.lane hn (hash m)) = true ∨
      ∃ before after, z.g.deletions (Build.lane hn (hash head)) = before ++ head :: after ∧ (m = head ∨ m ∈ after) := by
  have hg := good_done h hz hd
  have hb := hg.2
  rw [mem_unpropped hb]
  have hmd := hg.all hm
  have hhd := hg.all hh
  have hnd := hb.nodup (Build.lane hn (hash head))
  have hkey : ∀ before after : List N, (before ++ head :: after).Nodup → tail head (before ++ head :: after) = head :: after := by
    intro before after hx
    have : ∀ x ∈ before, x ≠ head := fun x h1 h2 => by
      rw [List.nodup_append] at hx
      exact hx.2.2 x h1 head List.mem_cons_self h2
    unfold tail
    rw [List.dropWhile_append_of_pos (fun x hx => by simp [this x hx])]
    simp
  constructor
  · rintro ⟨-, h1 | ⟨h1, h2, -⟩⟩
    · exact .inl h1
    · obtain ⟨a, b, hab⟩ := List.append_of_mem hhd
      dsimp only at hab hnd h2
      rw [hab] at hnd h2
      rw [hkey a b hnd] at h2
      exact .inr ⟨a, b, hab, List.mem_cons.1 h2⟩
  · rintro (h1 | ⟨a, b, h2, h3⟩)
    · exact ⟨hmd, .inl h1⟩
    · have hmem : m ∈ z.g.deletions (Build.lane hn (hash head)) := by rw [h2]; exact List.mem_append_right _ (List.mem_cons.2 h3)
      have hlane : Build.lane hn (hash m) = Build.lane hn (hash head) := hb.lanes _ _ hmem
      refine ⟨hmd, .inr ⟨hlane, ?_, hhd⟩⟩
      dsimp only at hnd
      rw [h2] at hnd
      dsimp only
      rw [h2, hkey a b hnd]
      exact List.mem_cons.2 h3

/-! ## A graph with cycles and little memory -/

def attempt (wary : Bool) (heap : Nat → Bool) (reserve k : Nat) : State 2 (Packet Nat) (Job 2 Nat Nat Bool) :=
  greedy (task wary id Nat.two_pos) (first knot) k (init (start knot heap reserve))

/-- With enough memory. -/
example : Reach (task true id Nat.two_pos) (first knot) (start knot (fun _ => true) 0) (attempt true (fun _ => true) 0 300) ∧
    (attempt true (fun _ => true) 0 300).main = .done ∧ (∀ i, (attempt true (fun _ => true) 0 300).g.err i = false ∧ (attempt true (fun _ => true) 0 300).g.killed i = false) ∧
    survivors (attempt true (fun _ => true) 0 300).g = [2, 4, 0, 1, 3, 5] :=
  ⟨greedy_reach _ _ .init, by decide +kernel, by decide +kernel, by decide +kernel⟩

/-- With no memory. -/
example : Reach (task false id Nat.two_pos) (first knot) (start knot (fun _ => false) 0) (attempt false (fun _ => false) 0 300) ∧
    (attempt false (fun _ => false) 0 300).main = .done ∧ (attempt false (fun _ => false) 0 300).g.err 0 = true ∧
    (attempt false (fun _ => false) 0 300).g.labels.length = 15 :=
  ⟨greedy_reach _ _ .init, by decide +kernel, by decide +kernel, by decide +kernel⟩

/-- **C130.** If one allocation fails, the properties of vertices on another lane may be lost. -/
example : Reach (task false id Nat.two_pos) (first knot) (start knot (fun k => k ≠ 0) 1) (attempt false (fun k => k ≠ 0) 1 300) ∧
    (attempt false (fun k => k ≠ 0) 1 300).main = .done ∧ unpropped 0 (attempt false (fun k => k ≠ 0) 1 300).g = [2, 4, 0] :=
  ⟨greedy_reach _ _ .init, by decide +kernel, by decide +kernel⟩

example : Leaked (ending (n := 2) .split knot none) := (C130_leak knot_wf).1

example : FairSchedule (rounds 2) := rounds_fair 2

end Cru.Gather
