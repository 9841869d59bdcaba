import Verif.Proofs.Locate
import Verif.Proofs.NetExec
import Verif.Proofs.Demo

/-!
# C109 and C110: the initial vertex of a zone

`Initial g eq zone hash hn r` says that some execution of the search for the initial vertex of the zone by `n` workers ends with `r`: the node where
the operation starts or an error.  `Matches` and `Clear` are in `Spec/Locate.lean`.
-/

namespace Cru.Locate

open Net

variable {n : Nat} {N V L : Type} [DecidableEq N] [DecidableEq V] {g : Gr N V L} {eq : V → V → Int × Bool} {hash : N → Nat} {hn : 0 < n}
variable {zone : Zone V}

theorem located_ok {s : Job n N} {m : N} (h : located s = .ok m) : ∃ i, s.found i = some m := by
  have hj := joined s (List.finRange n) (List.nodup_finRange n)
  unfold located disjunction at h
  split at h
  · rename_i m' hm
    split_ifs at h
    cases h
    obtain ⟨i, -, hi⟩ := hj.result _ hm
    exact ⟨i, hi⟩
  · cases h

theorem located_error {s : Job n N} {e : Int} (h : located s = .error e) : (e = incInv ∧ ∀ i, s.err i = 0 ∧ s.found i = none) ∨
    (∃ i, e = s.err i ∧ s.err i ≠ 0) ∨ (e = -750 ∧ ∃ i j, i ≠ j ∧ s.found i ≠ none ∧ s.found j ≠ none) := by
  have hj := joined s (List.finRange n) (List.nodup_finRange n)
  have key : ∀ x : Int, x ≠ 0 → (List.foldl (fun x i => join x (s.found i, s.err i)) (none, 0) (List.finRange n)).2 = x →
      (∃ i, x = s.err i ∧ s.err i ≠ 0) ∨ (x = -750 ∧ ∃ i j, i ≠ j ∧ s.found i ≠ none ∧ s.found j ≠ none) := by
    rintro x hx rfl
    rcases hj.error hx with ⟨i, -, h1⟩ | ⟨h1, i, -, j, -, h2⟩
    · exact .inl ⟨i, h1⟩
    · exact .inr ⟨h1, i, j, h2⟩
  unfold located disjunction at h
  split at h
  · split_ifs at h with h0
    cases h
    exact .inr (key _ h0 rfl)
  · rename_i hm
    cases h
    unfold raise
    split_ifs with h0
    · exact .inr (key _ h0 rfl)
    · obtain ⟨o1, -⟩ := hj.ok (not_not.1 h0)
      exact .inl ⟨rfl, fun i => ⟨o1 i (List.mem_finRange i), hj.empty hm i (List.mem_finRange i)⟩⟩

/-- **C109.** The node found is in the graph, and its vertex is equal to the one sought. -/
theorem C109_found (hw : g.WF) {m : N} (h : Initial g eq zone hash hn (.ok m)) :
    m ∈ g.nodes ∧ (zone.offset = true → Matches eq zone.initial (g.vertex m)) := by
  generalize hr : Except.ok m = r at h
  cases h with
  | base hb =>
    cases hr
    exact ⟨(hw.reach _).2 .refl, fun ho => .inl (hb.resolve_left (by simp [ho]))⟩
  | searched z ho hb hz hd =>
    obtain ⟨i, hi⟩ := located_ok hr.symm
    have hv := inv_bag (reach_bag hn hz)
    have hV := Walker.inv_reach (W := walker g eq zone.initial hash hn) (fun i => rfl) _ (reach_bag hn hz)
    obtain ⟨h1, h2⟩ := hv.found i m hi
    exact ⟨(hw.reach m).2 (hV.reach i m h1), fun _ => h2⟩

/-- A zone without an initial vertex starts from the base node, and so does one whose initial vertex is there. -/
theorem C109_base (h0 : zone.offset = false ∨ g.vertex g.base = zone.initial) {r : Except Int N} (h : Initial g eq zone hash hn r) :
    r = .ok g.base := by
  cases h with
  | base => rfl
  | searched z ho hb => rcases h0 with h0 | h0
                        · rw [ho] at h0; cases h0
                        · exact absurd h0 hb

/-- The search fails with CRU_INCINV if no vertex is equal to the one sought, with an error of the user's equality predicate on some vertex, or with an
internal error if two nodes assigned to different workers have vertices equal to it. -/
theorem C109_error (hw : g.WF) {e : Int} (h : Initial g eq zone hash hn (.error e)) : zone.offset = true ∧
    ((e = -522 ∧ ∀ m ∈ g.nodes, ¬ Matches eq zone.initial (g.vertex m)) ∨
     (∃ m ∈ g.nodes, g.vertex m ≠ zone.initial ∧ (eq zone.initial (g.vertex m)).1 = e ∧ e ≠ 0) ∨
     (e = -750 ∧ ∃ a ∈ g.nodes, ∃ b ∈ g.nodes, hash a % 1031 % n ≠ hash b % 1031 % n ∧
       Matches eq zone.initial (g.vertex a) ∧ Matches eq zone.initial (g.vertex b))) := by
  generalize hr : Except.error e = r at h
  cases h with
  | base hb => cases hr
  | searched z ho hb hz hd =>
    refine ⟨ho, ?_⟩
    have hv := inv_bag (reach_bag hn hz)
    have hV := Walker.inv_reach (W := walker g eq zone.initial hash hn) (fun i => rfl) _ (reach_bag hn hz)
    have hp := (inv_finished (i₀ := g.base) (reach_inv hn hz) (by rw [hd]; trivial)).1
    rw [hp] at hV
    rcases located_error hr.symm with ⟨h1, h2⟩ | ⟨i, h1, h2⟩ | ⟨h1, i, j, h2, h3, h4⟩
    · refine .inl ⟨h1, fun m hm => ?_⟩
      have hk : z.g.killed = false := by
        by_contra hk
        obtain ⟨i, hi⟩ := hv.killed (by simpa using hk)
        exact hi (h2 i).2
      have hst : ∀ i, z.g.stop i = false := fun i => by
        by_contra hs
        rw [hv.stop i (by simpa using hs)] at hk
        cases hk
      have hs := (Walker.visited_iff hV (fun i => ⟨(h2 i).1, hst i, (h2 i).2⟩) m).2 ((hw.reach m).1 hm)
      obtain ⟨i, hi⟩ := Walker.mem_visited.1 hs
      exact hv.passed i (h2 i).1 (h2 i).2 m hi
    · obtain ⟨m, h3, h4⟩ := hv.err i h2
      refine .inr (.inl ⟨m, (hw.reach m).2 (hV.reach i m h3), ?_⟩)
      rw [h4] at h1 h2
      unfold test at h1 h2
      split_ifs at h1 h2 with hc
      · exact absurd rfl h2
      · exact ⟨fun e => hc e.symm, h1.symm, h1 ▸ h2⟩
      · exact ⟨fun e => hc e.symm, h1.symm, h1 ▸ h2⟩
    · obtain ⟨a, ha⟩ := Option.ne_none_iff_exists'.1 h3
      obtain ⟨b, hb⟩ := Option.ne_none_iff_exists'.1 h4
      obtain ⟨a1, a2⟩ := hv.found i a ha
      obtain ⟨b1, b2⟩ := hv.found j b hb
      refine .inr (.inr ⟨h1, a, (hw.reach a).2 (hV.reach i a a1), b, (hw.reach b).2 (hV.reach j b b1), fun hl => h2 ?_, a2, b2⟩)
      rw [← hV.home i a a1, ← hV.home j b b1]
      exact Fin.ext hl

/-- **C109.** If exactly one node has a vertex equal to the one sought, and no comparison raises an error, it's found on every schedule. -/
theorem C109_unique (hw : g.WF) (hc : Clear g eq zone.initial) (ho : zone.offset = true) {m : N} (hm : m ∈ g.nodes)
    (hu : ∀ a ∈ g.nodes, Matches eq zone.initial (g.vertex a) ↔ a = m) {r : Except Int N} (h : Initial g eq zone hash hn r) : r = .ok m := by
  rcases r with e | a
  · obtain ⟨-, ⟨-, h1⟩ | ⟨x, h1, h2, h3, h4⟩ | ⟨-, a, h1, b, h2, h3, h4, h5⟩⟩ := C109_error hw h
    · exact absurd ((hu m hm).2 rfl) (h1 m hm)
    · exact absurd (h3 ▸ hc x h1 h2) h4
    · rw [(hu a h1).1 h4, (hu b h2).1 h5] at h3
      exact absurd rfl h3
  · obtain ⟨h1, h2⟩ := C109_found hw h
    rw [(hu a h1).1 (h2 ho)]

/-- **C109.** If no vertex is equal to the one sought, and no comparison raises an error, the search fails with CRU_INCINV on every schedule. -/
theorem C109_none (hw : g.WF) (hc : Clear g eq zone.initial) (ho : zone.offset = true)
    (hu : ∀ a ∈ g.nodes, ¬ Matches eq zone.initial (g.vertex a)) {r : Except Int N} (h : Initial g eq zone hash hn r) : r = .error (-522) := by
  rcases r with e | a
  · obtain ⟨-, ⟨rfl, -⟩ | ⟨x, h1, h2, h3, h4⟩ | ⟨-, a, h1, b, h2, h3, h4, h5⟩⟩ := C109_error hw h
    · rfl
    · exact absurd (h3 ▸ hc x h1 h2) h4
    · exact absurd h4 (hu a h1)
  · obtain ⟨h1, h2⟩ := C109_found hw h
    exact absurd (h2 ho) (hu a h1)

/-- **C109.** The search ends on every schedule. -/
theorem C109_ends (hw : g.WF) (eq : V → V → Int × Bool) (v : V) (hash : N → Nat) (hn : 0 < n) (f : Nat → State n N (Job n N))
    (h0 : Reach (task g eq v hash hn) g.base start (f 0)) : ¬ ∀ k, ThreadStep (task g eq v hash hn) g.base (f k) (f (k + 1)) :=
  fun hf => no_infinite_run hn ((walker g eq v hash hn).acc (fun _ => rfl) g.nodes fun m hm => (hw.reach m).2 hm) f h0 hf

/-- **C109.** And it can always get there. -/
theorem C109_exists (hw : g.WF) (eq : V → V → Int × Bool) (zone : Zone V) (hash : N → Nat) (hn : 0 < n) :
    ∃ r, Initial g eq zone hash hn r := by
  by_cases h : zone.offset = false ∨ g.vertex g.base = zone.initial
  · exact ⟨_, .base h⟩
  · rw [not_or] at h
    obtain ⟨z, hz, hd⟩ := exists_done hn ((walker g eq zone.initial hash hn).acc (i₀ := g.base) (g₀ := start) (fun _ => rfl) g.nodes fun m hm => (hw.reach m).2 hm) _ .init
    exact ⟨_, .searched z (by simpa using h.1) h.2 hz hd⟩

/-- **C110.** With one worker, or with all vertices equal to the one sought at nodes assigned to the same worker, and no errors raised by comparisons,
one of them is found on every schedule. -/
theorem C110_same (hw : g.WF) (hc : Clear g eq zone.initial) (hm : ∃ m ∈ g.nodes, Matches eq zone.initial (g.vertex m))
    (hs : ∀ a ∈ g.nodes, ∀ b ∈ g.nodes, Matches eq zone.initial (g.vertex a) → Matches eq zone.initial (g.vertex b) →
      hash a % 1031 % n = hash b % 1031 % n) {r : Except Int N} (h : Initial g eq zone hash hn r) :
    ∃ m ∈ g.nodes, r = .ok m ∧ (zone.offset = true → Matches eq zone.initial (g.vertex m)) := by
  rcases r with e | a
  · obtain ⟨-, ⟨-, h1⟩ | ⟨x, h1, h2, h3, h4⟩ | ⟨-, a, h1, b, h2, h3, h4, h5⟩⟩ := C109_error hw h
    · obtain ⟨m, hm, h2⟩ := hm; exact absurd h2 (h1 m hm)
    · exact absurd (h3 ▸ hc x h1 h2) h4
    · exact absurd (hs a h1 b h2 h4 h5) h3
  · exact ⟨a, (C109_found hw h).1, rfl, (C109_found hw h).2⟩

theorem C110_alone (hw : g.WF) (hc : Clear g eq zone.initial) (hm : ∃ m ∈ g.nodes, Matches eq zone.initial (g.vertex m))
    {r : Except Int N} (h : Initial g eq zone hash Nat.one_pos r) :
    ∃ m ∈ g.nodes, r = .ok m ∧ (zone.offset = true → Matches eq zone.initial (g.vertex m)) :=
  C110_same hw hc hm (fun a _ b _ _ _ => by rw [Nat.mod_one, Nat.mod_one]) h

/-! ## Demonstrations -/

/-- A fork whose prongs are the same. -/
def fork : Gr Nat Nat Nat where
  nodes := [0, 1, 2, 3]
  base := 0
  vertex m := if m = 0 then 5 else if m = 3 then 9 else 7
  out m := if m = 0 then [(10, 1), (11, 2)] else if m = 1 then [(12, 3)] else []
  inn _ := []

theorem fork_wf : fork.WF := wf_range (k := 4) rfl rfl (by decide) (by decide) (by decide)

/-- Equality of numbers. -/
def same (a b : Nat) : Int × Bool := (0, a == b)

theorem fork_clear (v : Nat) : Clear fork same v := fun _ _ _ => rfl

def run (eq : Nat → Nat → Int × Bool) (v : Nat) : State 2 Nat (Job 2 Nat) :=
  greedy (task fork eq v id Nat.two_pos) 0 200 (init start)

/-- **C110.** With two workers, a search for a vertex that's twice in the graph can fail with an internal error, although it succeeds with one worker. -/
theorem C110_fails : fork.WF ∧ Clear fork same 7 ∧ (∃ m ∈ fork.nodes, Matches same 7 (fork.vertex m)) ∧
    Initial fork same ⟨true, 7, false⟩ id Nat.two_pos (.error (-750)) ∧
    ∀ r, Initial fork same ⟨true, 7, false⟩ id Nat.one_pos r → ∃ m ∈ fork.nodes, r = .ok m ∧ fork.vertex m = 7 := by
  refine ⟨fork_wf, fork_clear 7, ⟨1, by decide, .inl rfl⟩, ?_, fun r hr => ?_⟩
  · have h : located (run same 7).g = .error (-750) := by
      have h1 : (disjunction (run same 7).g).1 = some 2 := by decide +kernel
      have h2 : (disjunction (run same 7).g).2 = -750 := by decide +kernel
      unfold located
      rw [h1, h2]
      rfl
    rw [← h]
    exact .searched (run same 7) rfl (by decide) (greedy_reach _ _ .init) (by decide +kernel)
  · obtain ⟨m, h1, rfl, h2⟩ := C110_alone fork_wf (fork_clear 7) ⟨1, by decide, .inl rfl⟩ hr
    rcases h2 rfl with h2 | h2
    · exact ⟨m, h1, rfl, h2⟩
    · simp [same] at h2
      exact ⟨m, h1, rfl, h2.symm⟩

example : (∃ z, Reach (task fork same 9 id Nat.two_pos) 0 start z ∧ z.main = .done ∧ disjunction z.g = (some 3, 0)) ∧
    ∀ r, Initial fork same ⟨true, 9, false⟩ id Nat.two_pos r → r = .ok 3 :=
  ⟨⟨run same 9, greedy_reach _ _ .init, by decide +kernel, by decide +kernel⟩, fun _ h =>
    C109_unique fork_wf (fork_clear 9) rfl (by decide) (fun a ha => by
      simp only [fork, List.mem_cons, List.not_mem_nil, or_false] at ha
      rcases ha with rfl | rfl | rfl | rfl <;> simp [Matches, fork, same]) h⟩

example : ∀ r, Initial fork same ⟨true, 8, false⟩ id Nat.two_pos r → r = .error (-522) := fun _ h =>
  C109_none fork_wf (fork_clear 8) rfl (fun a ha => by
    simp only [fork, List.mem_cons, List.not_mem_nil, or_false] at ha
    rcases ha with rfl | rfl | rfl | rfl <;> simp [Matches, fork, same]) h

/-- An error of the user's predicate. -/
example : ∃ z, Reach (task fork (fun _ w => if w = 5 then (4, true) else (0, false)) 9 id Nat.two_pos) 0 start z ∧ z.main = .done ∧
    disjunction z.g = (some 3, 4) :=
  ⟨run (fun _ w => if w = 5 then (4, true) else (0, false)) 9, greedy_reach _ _ .init, by decide +kernel, by decide +kernel⟩

end Cru.Locate
