import Verif.Props.Split
import Verif.Proofs.Rush

/-! # Splitting depends on the schedule: C78 -/

namespace Cru.Split

open Net

section

variable {n : Nat} {N V L P : Type} [DecidableEq N] [DecidableEq L] {sp : Splitter V P L} {null : L} {vfree : Bool} {limit : Nat}
  {g : Gr N V L} {addr : Twin N → Nat} {hn : 0 < n}

theorem fanIn_keeps (M : Mem n N V L P) (m : N) (c : Option (Twin N × L)) :
    (fanIn sp null M m c).1.prop = M.prop ∧ (fanIn sp null M m c).1.vertex = M.vertex := by
  unfold fanIn
  split
  · exact ⟨rfl, rfl⟩
  · split_ifs
    · split <;> exact ⟨rfl, rfl⟩
    · exact ⟨rfl, rfl⟩

/-- Properties, vertices and the nodes received change only when a node is received for the first time. -/
theorem splitIt_mem (i : Fin n) (s : Trav.Job n N (Mem n N V L P)) (p : Pkt N L) :
    ((splitIt sp null vfree limit g i s p).1.mem.prop = s.mem.prop ∧ (splitIt sp null vfree limit g i s p).1.mem.vertex = s.mem.vertex ∧
      (splitIt sp null vfree limit g i s p).1.seen = s.seen) ∨
    ∃ m c, p = .visit m c ∧ m ∉ s.seen i ∧ (splitIt sp null vfree limit g i s p).1.mem.prop = (fanOut sp vfree g i s.mem m).1.prop ∧
      (splitIt sp null vfree limit g i s p).1.mem.vertex = (fanOut sp vfree g i s.mem m).1.vertex ∧
      (splitIt sp null vfree limit g i s p).1.seen = Function.update s.seen i (s.seen i ++ [m]) := by
  obtain ⟨sample, stop, e, -⟩ := Trav.poll_eq s i
  simp only [splitIt, e]
  by_cases c : s.err i ≠ 0 ∨ stop i = true
  · rw [if_pos c]
    left
    cases p <;> exact ⟨rfl, rfl, rfl⟩
  · rw [if_neg c]
    cases p with
    | connect o e => exact .inl ⟨rfl, rfl, rfl⟩
    | disconnect o e => exact .inl ⟨rfl, rfl, rfl⟩
    | create m =>
      left
      simp only [act]
      split_ifs <;> exact ⟨rfl, rfl, rfl⟩
    | visit m d =>
      simp only [act]
      by_cases hm : m ∈ s.seen i
      · rw [if_pos hm]
        have := fanIn_keeps (sp := sp) (null := null) s.mem m d
        exact .inl ⟨this.1, this.2, rfl⟩
      · rw [if_neg hm]
        have := fanIn_keeps (sp := sp) (null := null) (fanOut sp vfree g i s.mem m).1 m d
        exact .inr ⟨m, d, rfl, hm, this.1, this.2, rfl⟩

end

/-- Three vertices with an edge from each to the ones after it. -/
def fork : Gr Nat Nat Nat where
  nodes := [0, 1, 2]
  base := 0
  vertex m := m
  out m := if m = 0 then [(0, 1), (0, 2)] else if m = 1 then [(0, 2)] else []
  inn m := if m = 1 then [(0, 0)] else if m = 2 then [(0, 0), (0, 1)] else []

/-- All vertices but the base vertex are replaced.  The property of a vertex is its sum with the ones adjacent to it, and an edge is copied to a
vertex made by `ana` only if the property of the origin is below a threshold. -/
def racer : Splitter Nat Nat Nat where
  fissile v _ := decide (v ≠ 0)
  ana v _ := v + 10
  cata v _ := v + 20
  outAna := yes
  outCata := yes
  inAna := ⟨fun p _ _ => decide (p < 30), fun _ l _ => l⟩
  inCata := yes
  probe v _ out := v + (out.map (·.2)).sum

theorem fork_wf : fork.WF := wf_range (k := 3) rfl rfl (by decide) (by decide) (by decide)

/-- The properties of the given vertices. -/
def sums (m : Nat) : Nat := if m = 0 then 3 else if m = 1 then 3 else if m = 2 then 2 else 0

def home (s : Twin Nat) : Nat := s.1

theorem three : 0 < 3 := by decide

abbrev job : Task 3 (Pkt Nat Nat) (Trav.Job 3 Nat (Mem 3 Nat Nat Nat Nat)) Unit := splitting racer 0 false 0 fork home three

abbrev begin : Trav.Job 3 Nat (Mem 3 Nat Nat Nat Nat) := Trav.start (mem fork sums home three)

/-- A prefix of a run in which some workers take precedence of others. -/
def prefixOf (order : List (Fin 3)) : State 3 (Pkt Nat Nat) (Trav.Job 3 Nat (Mem 3 Nat Nat Nat Nat)) :=
  rush order job (.visit 0 none) 48 (init begin)

theorem prefix_reach (order : List (Fin 3)) : Net.Reach job (.visit 0 none) begin (prefixOf order) := rush_reach 48 _ .init

/-- A run in which the middle vertex is received before the last one. -/
theorem run_first : ∃ y, Net.Reach job (.visit 0 none) begin y ∧ y.main = .done ∧ y.g.killed = 0 ∧ y.g.mem.prop (1, true) = 23 := by
  have key : ∀ s p, (s.killed = 0 ∧ 1 ∈ s.seen 1 ∧ s.mem.prop (1, true) = 23) →
      ((job.handle (job.dest p) s p).1.killed = 0 ∧ 1 ∈ (job.handle (job.dest p) s p).1.seen 1 ∧
        (job.handle (job.dest p) s p).1.mem.prop (1, true) = 23) := by
    intro s p h
    obtain ⟨h1, h2, h3⟩ := h
    refine ⟨(splitIt_killed _ s p).1.trans h1, ?_⟩
    show _ ∈ (splitIt racer 0 false 0 fork _ s p).1.seen 1 ∧ (splitIt racer 0 false 0 fork _ s p).1.mem.prop (1, true) = 23
    rcases splitIt_mem (sp := racer) (null := 0) (vfree := false) (limit := 0) (g := fork) (job.dest p) s p with ⟨e1, -, e3⟩ | ⟨m, c, rfl, hm, e1, -, e3⟩
    · rw [e1, e3]; exact ⟨h2, h3⟩
    · rw [e1, e3]
      refine ⟨?_, ?_⟩
      · by_cases hi : (1 : Fin 3) = job.dest (.visit m c)
        · rw [← hi, Function.update_self]; exact List.mem_append_left _ h2
        · rw [Function.update_of_ne hi]; exact h2
      · rw [fanOut_prop, h3]
        intro hc
        cases hc
        exact hm h2
  obtain ⟨y, h1, h2, h3, -, h4⟩ := exists_done_dest three (splitting_acc fork_wf)
    (fun s => s.killed = 0 ∧ 1 ∈ s.seen 1 ∧ s.mem.prop (1, true) = 23) key _ (prefix_reach [0, 1, 2]) (by decide)
  exact ⟨y, h1, h2, h3, h4⟩

/-- A run in which the last vertex is received before the middle one. -/
theorem run_second : ∃ y, Net.Reach job (.visit 0 none) begin y ∧ y.main = .done ∧ y.g.killed = 0 ∧
    (1 ∉ y.g.seen 1 ∨ y.g.mem.prop (1, true) = 33) := by
  have key : ∀ s p, (s.killed = 0 ∧ 2 ∈ s.seen 2 ∧ s.mem.vertex (2, false) = 12 ∧ s.mem.prop (1, false) = 3 ∧ (1 ∉ s.seen 1 ∨ s.mem.prop (1, true) = 33)) →
      (fun s : Trav.Job 3 Nat (Mem 3 Nat Nat Nat Nat) => s.killed = 0 ∧ 2 ∈ s.seen 2 ∧ s.mem.vertex (2, false) = 12 ∧ s.mem.prop (1, false) = 3 ∧
        (1 ∉ s.seen 1 ∨ s.mem.prop (1, true) = 33)) (job.handle (job.dest p) s p).1 := by
    intro s p h
    obtain ⟨h1, h2, h3, h4, h5⟩ := h
    refine ⟨(splitIt_killed _ s p).1.trans h1, ?_⟩
    show _ ∈ (splitIt racer 0 false 0 fork _ s p).1.seen 2 ∧ (splitIt racer 0 false 0 fork _ s p).1.mem.vertex _ = 12 ∧
      (splitIt racer 0 false 0 fork _ s p).1.mem.prop _ = 3 ∧
      (1 ∉ (splitIt racer 0 false 0 fork _ s p).1.seen 1 ∨ (splitIt racer 0 false 0 fork _ s p).1.mem.prop _ = 33)
    rcases splitIt_mem (sp := racer) (null := 0) (vfree := false) (limit := 0) (g := fork) (job.dest p) s p with ⟨e1, e2, e3⟩ | ⟨m, c, rfl, hm, e1, e2, e3⟩
    · rw [e1, e2, e3]; exact ⟨h2, h3, h4, h5⟩
    · rw [e1, e2, e3]
      have hm2 : m ≠ 2 := by rintro rfl; exact hm h2
      refine ⟨?_, ?_, ?_, ?_⟩
      · by_cases hi : (2 : Fin 3) = job.dest (.visit m c)
        · rw [← hi, Function.update_self]; exact List.mem_append_left _ h2
        · rw [Function.update_of_ne hi]; exact h2
      · unfold fanOut
        simp only
        by_cases hf : racer.fissile (fork.vertex m) (s.mem.prop (m, false)) = true
        · rw [if_pos hf]
          simp only
          rw [Function.update_of_ne (by simpa using hm2.symm), Function.update_of_ne (by simp), h3]
        · rw [if_neg hf]; exact h3
      · rw [fanOut_prop _ (by simp), h4]
      · by_cases hm1 : m = 1
        · subst hm1
          right
          simp [fanOut, racer, fork, h3]
        · rw [fanOut_prop _ (by simpa using Ne.symm hm1)]
          refine h5.imp_left fun h => ?_
          by_cases hi : (1 : Fin 3) = job.dest (.visit m c)
          · rw [← hi, Function.update_self]
            simp only [List.mem_append, List.mem_singleton, not_or]
            exact ⟨h, Ne.symm hm1⟩
          · rw [Function.update_of_ne hi]; exact h
  obtain ⟨y, h1, h2, h3, -, -, -, h4⟩ := exists_done_dest three (splitting_acc fork_wf)
    (fun s => s.killed = 0 ∧ 2 ∈ s.seen 2 ∧ s.mem.vertex (2, false) = 12 ∧ s.mem.prop (1, false) = 3 ∧ (1 ∉ s.seen 1 ∨ s.mem.prop (1, true) = 33))
    key _ (prefix_reach [0, 2, 1]) (by decide)
  exact ⟨y, h1, h2, h3, h4⟩

/-- The properties that are found by setting them. -/
theorem sums_eq {x : State 3 Nat (Trav.Job 3 Nat (Nat → Option Nat))}
    (hx : Net.Reach (setting racer fork (fun m => home (m, false)) three) fork.base (Trav.start fun _ => none) x) (hd : x.main = .done)
    (hk : x.g.killed = 0) : (fun m => (x.g.mem m).getD 0) = sums := by
  funext m
  by_cases hm : m ∈ fork.nodes
  · rw [setting_done fork_wf hx hd hk m hm]
    simp only [fork, List.mem_cons, List.not_mem_nil, or_false] at hm
    rcases hm with rfl | rfl | rfl <;> rfl
  · obtain ⟨h1, h2⟩ := setting_mem _ (reach_bag three hx)
    have hp := Trav.done_perm hx hd hk h1 ⟨fork_wf.nodup, fork_wf.reach⟩
    simp only at h2
    rw [h2, if_neg]
    · simp only [fork, List.mem_cons, List.not_mem_nil, or_false, not_or] at hm
      simp [sums, hm.1, hm.2.1, hm.2.2]
    · intro hs
      exact hm (hp.mem_iff.1 (List.mem_flatMap.2 ⟨_, List.mem_finRange _, hs⟩))

/-- What's returned in the end, given how splitting ends. -/
theorem returned {y : State 3 (Pkt Nat Nat) (Trav.Job 3 Nat (Mem 3 Nat Nat Nat Nat))} (hy : Net.Reach job (.visit 0 none) begin y)
    (hd : y.main = .done) (hk : y.g.killed = 0) :
    ∃ R, Splits racer 0 0 false 0 fork home three 0 0 0 (.ok R) ∧ (1, true) ∈ R.nodes ∧ 1 ∈ y.g.seen 1 ∧
      (R.out (1, true)).Perm (if y.g.mem.prop (1, true) < 30 then [(0, (2, false)), (0, (2, true))] else [(0, (2, true))]) := by
  obtain ⟨x, hx, hdx, hkx⟩ := exists_setting fork_wf racer (fun m => home (m, false)) three
  have he := limitless hy
  obtain ⟨z, hz, hdz, hkz⟩ := exists_pruning fork_wf hy
  obtain ⟨cp, h1, -⟩ := outcome hy hd hk he hz hdz hkz
  obtain ⟨hv, -, ho⟩ := splitting_done hy hd hk he
  have h1v : vis home three y.g 1 := (hv _).2 (.tail .refl (by decide))
  have hs : status y.g = 0 := status_zero.2 he
  refine ⟨result fork y.g.mem z.g, ⟨x, hx, hdx, hkx, y, ?_, hd, hk, ?_⟩, ?_, h1v, ?_⟩
  · rw [sums_eq hx hdx hkx, share_zero]; exact hy
  · rw [if_neg (by simpa using hs)]
    exact ⟨z, hz, hdz, hkz, .inr ⟨.inl rfl, rfl⟩⟩
  · refine (h1.nodes.mem _).2 (.tail .refl ?_)
    show _ ∈ (copies racer fork sums cp (0, false)).map _
    rw [show copies racer fork sums cp (0, false) = [(0, (1, false)), (0, (1, true)), (0, (2, false)), (0, (2, true))] from rfl]
    decide
  · refine (ho (1, true) h1v (fun m => y.g.mem.prop (m, true)) fun _ => rfl).trans (.of_eq ?_)
    generalize y.g.mem.prop = q
    by_cases hq : q (1, true) < 30 <;>
      simp [copies, copiesBy, origins, termini, fork, fissile, racer, yes, Labeler.label, hq]

/-- **C78.** The graph returned by `cru_split` depends on the schedule.  There are a graph and a splitter, all of whose functions are pure,
and two executions, neither of which is killed, that return different graphs: a vertex made by `cata` has an edge in one that it lacks
in the other. -/
theorem C78_race : ∃ (g : Gr Nat Nat Nat) (sp : Splitter Nat Nat Nat) (n : Nat) (hn : 0 < n) (addr : Twin Nat → Nat) (R R' : Gr (Twin Nat) Nat Nat),
    g.WF ∧ Splits sp 0 0 false 0 g addr hn 0 0 0 (.ok R) ∧ Splits sp 0 0 false 0 g addr hn 0 0 0 (.ok R') ∧
    ∃ s ∈ R.nodes, s ∈ R'.nodes ∧ ∃ e ∈ R.out s, e ∉ R'.out s := by
  obtain ⟨y, hy, hd, hk, hp⟩ := run_first
  obtain ⟨y', hy', hd', hk', hp'⟩ := run_second
  obtain ⟨R, h1, h2, -, h4⟩ := returned hy hd hk
  obtain ⟨R', h1', h2', h3', h4'⟩ := returned hy' hd' hk'
  rw [hp] at h4
  rw [hp'.resolve_left fun h => h h3'] at h4'
  refine ⟨fork, racer, 3, three, home, R, R', fork_wf, h1, h1', (1, true), h2, h2', (0, (2, false)), h4.mem_iff.2 (by decide), fun h => ?_⟩
  exact absurd (h4'.mem_iff.1 h) (by decide)

end Cru.Split
