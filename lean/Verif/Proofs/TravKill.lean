import Verif.Proofs.Trav
import Verif.Proofs.NetExec
import Verif.Proofs.Rover
import Mathlib.Algebra.Order.BigOperators.Group.List

/-! # Which workers of a traversal stop when it's killed -/

namespace Cru.Trav

open Net

variable {n : Nat} {N S : Type} {next : N → List N} {visit : Fin n → S → N → S × Int} {hash : N → Nat} {hn : 0 < n}

/-- How many arcs of a node lead to a given lane. -/
def fan (next : N → List N) (hash : N → Nat) (hn : 0 < n) (i : Fin n) (m : N) : Nat := (next m).countP fun t => decide (Build.lane hn (hash t) = i)

/-- How many packets go to a given lane. -/
def load (hash : N → Nat) (hn : 0 < n) (i : Fin n) (bag : Multiset N) : Nat := bag.countP fun t => Build.lane hn (hash t) = i

theorem load_cons (i : Fin n) (m : N) (bag : Multiset N) : load hash hn i (m ::ₘ bag) = load hash hn i bag + if Build.lane hn (hash m) = i then 1 else 0 := by
  unfold load
  rw [Multiset.countP_cons]

theorem load_next (i : Fin n) (m : N) (bag : Multiset N) : load hash hn i ((next m : Multiset N) + bag) = fan next hash hn i m + load hash hn i bag := by
  unfold load fan
  rw [Multiset.countP_add, Multiset.coe_countP]

/-- What's done with a packet, and the number of packets each lane has polled for. -/
theorem handle_cases [DecidableEq N] (i : Fin n) (s : Job n N S) (m : N) :
    (s.stop i = true ∧ handle next visit i s m = (s, [], false)) ∨
    (s.stop i = false ∧ ∃ stop, (∀ j, j ≠ i → stop j = s.stop j) ∧ (stop i = true → (s.sample i + 1) % 32 = 0) ∧
      ((∃ (seen : Fin n → List N) (err : Fin n → Int) (mem : S), m ∉ s.seen i ∧ seen = Function.update s.seen i (s.seen i ++ [m]) ∧ handle next visit i s m =
          ({ s with sample := Function.update s.sample i (s.sample i + 1), stop := stop, seen := seen, err := err, mem := mem }, next m, false)) ∨
        handle next visit i s m = ({ s with sample := Function.update s.sample i (s.sample i + 1), stop := stop }, [], false))) := by
  by_cases h : s.stop i = true
  · left
    refine ⟨h, ?_⟩
    have hp : poll s i = s := by unfold poll; rw [if_pos h]
    simp only [handle, hp]
    rw [if_pos (.inr h)]
  · right
    refine ⟨by simpa using h, Function.update s.stop i ((s.sample i + 1) % 32 == 0 && s.killed != 0),
      fun j hj => Function.update_of_ne hj _ _, fun hs => ?_, ?_⟩
    · simp only [Function.update_self, Bool.and_eq_true, beq_iff_eq] at hs
      exact hs.1
    · have hp : poll s i = { s with sample := Function.update s.sample i (s.sample i + 1), stop := Function.update s.stop i ((s.sample i + 1) % 32 == 0 && s.killed != 0) } := by
        unfold poll; rw [if_neg h]
      simp only [handle, hp]
      split_ifs with c1 c2
      · exact .inr rfl
      · exact .inr rfl
      · exact .inl ⟨_, _, _, c2, rfl, rfl⟩

/-- A lane that hasn't stopped has polled for what it got from a node that was visited. -/
theorem load_ge [DecidableEq N] {a : N} {mem : S} : ∀ x, Bag.Reach (task next visit hash hn) a (start mem) x → ∀ b i,
    x.1.stop i = false → b ∈ x.1.seen (Build.lane hn (hash b)) → fan next hash hn i b ≤ x.1.sample i + load hash hn i x.2 := by
  intro x hx
  induction hx with
  | init => intro b i _ hb; simp [start] at hb
  | step hr hs ih =>
    cases hs with
    | env e s bag => exact ih
    | handle s m rest =>
      intro b i
      simp only [load_cons] at ih
      change ((handle next visit (Build.lane hn (hash m)) s m).1.stop i = false → b ∈ (handle next visit (Build.lane hn (hash m)) s m).1.seen (Build.lane hn (hash b)) →
        fan next hash hn i b ≤ (handle next visit (Build.lane hn (hash m)) s m).1.sample i +
          load hash hn i (((handle next visit (Build.lane hn (hash m)) s m).2.1 : Multiset N) +
            (if (handle next visit (Build.lane hn (hash m)) s m).2.2 = true then {m} else 0) + rest))
      rcases handle_cases (next := next) (visit := visit) (Build.lane hn (hash m)) s m with ⟨h, e⟩ | ⟨h, stop, h1, h2, ⟨seen, err, mem, h3, h4, e⟩ | e⟩ <;> rw [e]
      · intro hs hb
        simp only [Multiset.coe_nil, Bool.false_eq_true, if_false, zero_add]
        have hi : Build.lane hn (hash m) ≠ i := fun hi => by rw [hi] at h; exact absurd (h.symm.trans hs) (by decide)
        have := ih b i hs hb
        rw [if_neg hi, add_zero] at this
        exact this
      · intro hs hb
        simp only [Bool.false_eq_true, if_false, add_zero, load_next]
        have hold : s.stop i = false := by
          by_cases hi : i = Build.lane hn (hash m)
          · rw [hi]; exact h
          · exact (h1 i hi).symm.trans hs
        have hsum : s.sample i + (if Build.lane hn (hash m) = i then 1 else 0) ≤ Function.update s.sample (Build.lane hn (hash m)) (s.sample (Build.lane hn (hash m)) + 1) i := by
          by_cases hi : i = Build.lane hn (hash m)
          · subst hi; simp
          · rw [Function.update_of_ne hi, if_neg (Ne.symm hi)]; exact le_rfl
        by_cases hbm : b = m
        · subst hbm; omega
        · have hb' : b ∈ s.seen (Build.lane hn (hash b)) := by
            simp only [h4] at hb
            by_cases hl : Build.lane hn (hash b) = Build.lane hn (hash m)
            · rw [hl, Function.update_self] at hb
              rw [hl]
              simpa [hbm] using hb
            · rw [Function.update_of_ne hl] at hb; exact hb
          have := ih b i hold hb'
          omega
      · intro hs hb
        simp only [Bool.false_eq_true, if_false, add_zero, Multiset.coe_nil, zero_add]
        have hold : s.stop i = false := by
          by_cases hi : i = Build.lane hn (hash m)
          · rw [hi]; exact h
          · exact (h1 i hi).symm.trans hs
        have hsum : s.sample i + (if Build.lane hn (hash m) = i then 1 else 0) ≤ Function.update s.sample (Build.lane hn (hash m)) (s.sample (Build.lane hn (hash m)) + 1) i := by
          by_cases hi : i = Build.lane hn (hash m)
          · subst hi; simp
          · rw [Function.update_of_ne hi, if_neg (Ne.symm hi)]; exact le_rfl
        have := ih b i hold hb
        omega

/-- A lane polls for no more than is sent to it by the nodes visited, apart from the first packet, and stops only after thirty two. -/
theorem load_le [DecidableEq N] {a : N} {mem : S} : ∀ x, Bag.Reach (task next visit hash hn) a (start mem) x → ∀ i,
    x.1.sample i + load hash hn i x.2 ≤ 1 + (((List.finRange n).flatMap x.1.seen).map (fan next hash hn i)).sum ∧ (x.1.stop i = true → 32 ≤ x.1.sample i) := by
  intro x hx
  induction hx with
  | init =>
    intro i
    refine ⟨?_, fun h => by simp [start] at h⟩
    have : load hash hn i ({a} : Multiset N) ≤ 1 := by
      refine (Multiset.countP_le_card _ _).trans ?_
      simp
    simp only [start]
    omega
  | step hr hs ih =>
    cases hs with
    | env e s bag => exact ih
    | handle s m rest =>
      intro i
      have hI := ih i
      simp only [load_cons] at hI
      change (handle next visit (Build.lane hn (hash m)) s m).1.sample i +
          load hash hn i (((handle next visit (Build.lane hn (hash m)) s m).2.1 : Multiset N) +
            (if (handle next visit (Build.lane hn (hash m)) s m).2.2 = true then {m} else 0) + rest) ≤
            1 + (((List.finRange n).flatMap (handle next visit (Build.lane hn (hash m)) s m).1.seen).map (fan next hash hn i)).sum ∧
          ((handle next visit (Build.lane hn (hash m)) s m).1.stop i = true → 32 ≤ (handle next visit (Build.lane hn (hash m)) s m).1.sample i)
      have hsum : Function.update s.sample (Build.lane hn (hash m)) (s.sample (Build.lane hn (hash m)) + 1) i = s.sample i + (if Build.lane hn (hash m) = i then 1 else 0) := by
        by_cases hi : i = Build.lane hn (hash m)
        · subst hi; simp
        · rw [Function.update_of_ne hi, if_neg (Ne.symm hi)]; rfl
      have hst : ∀ stop : Fin n → Bool, (∀ j, j ≠ Build.lane hn (hash m) → stop j = s.stop j) →
          (stop (Build.lane hn (hash m)) = true → (s.sample (Build.lane hn (hash m)) + 1) % 32 = 0) → stop i = true →
          32 ≤ s.sample i + (if Build.lane hn (hash m) = i then 1 else 0) := by
        intro stop h1 h2 hs
        by_cases hi : i = Build.lane hn (hash m)
        · subst hi
          have := h2 hs
          simp only [if_true]
          omega
        · have := hI.2 ((h1 i hi).symm.trans hs)
          omega
      rcases handle_cases (next := next) (visit := visit) (Build.lane hn (hash m)) s m with ⟨h, e⟩ | ⟨h, stop, h1, h2, ⟨seen, err, mem, h3, h4, e⟩ | e⟩ <;> rw [e]
      · simp only [Multiset.coe_nil, Bool.false_eq_true, if_false, zero_add]
        exact ⟨by omega, hI.2⟩
      · simp only [Bool.false_eq_true, if_false, add_zero, load_next, hsum]
        refine ⟨?_, hst stop h1 h2⟩
        have hp := Rover.perm_flatMap_append (f := s.seen) (f' := seen) (i := Build.lane hn (hash m)) (m := m)
          (by rw [h4, Function.update_self]) (fun j hj => by rw [h4, Function.update_of_ne hj])
        rw [(hp.map _).sum_eq, List.map_cons, List.sum_cons]
        omega
      · simp only [Bool.false_eq_true, if_false, add_zero, Multiset.coe_nil, zero_add, hsum]
        exact ⟨by omega, hst stop h1 h2⟩

/-- If the operation is killed at the beginning, the workers that get many nodes from the base node stop, and those that get few nodes
altogether don't. -/
theorem killed_stop [DecidableEq N] (visit : Fin n → S → N → S × Int) (hash : N → Nat) (hn : 0 < n) {a : N} (mem : S) {ms : List N}
    (hc : Covers next a ms) : ∃ x, Net.Reach (task next visit hash hn) a (start mem) x ∧ x.main = .done ∧ x.g.killed = 1 ∧
      (∀ i, 32 ≤ fan next hash hn i a → x.g.stop i = true) ∧ ∀ i, (ms.map (fan next hash hn i)).sum ≤ 30 → x.g.stop i = false := by
  have ha := (walker next visit hash hn).acc (i₀ := a) (g₀ := start mem) (fun i => rfl) ms fun m h => (hc.mem m).2 h
  have h1 : Net.Reach (task next visit hash hn) a (start mem) { init (start mem) with g := { start mem with killed := 1 } } :=
    .step (.env ()) trivial .init rfl
  obtain ⟨x, hx, hd, hk, hJ⟩ := exists_done_from hn ha
    (fun s => s.killed = 1 ∧ ∀ i, s.stop i = false → s.sample i ≤ 31)
    (by
      rintro i s m ⟨hk, hs⟩
      simp only [taskE, handle]
      have key : (poll s i).killed = 1 ∧ ∀ j, (poll s i).stop j = false → (poll s i).sample j ≤ 31 := by
        unfold poll
        split_ifs with h
        · exact ⟨hk, hs⟩
        · refine ⟨hk, fun j => ?_⟩
          simp only
          by_cases hj : j = i
          · subst hj
            simp only [Function.update_self]
            intro hst
            have h4 := hs j (by simpa using h)
            have h5 : ¬ (s.sample j + 1) % 32 = 0 := by
              intro hc; rw [hc] at hst; simp [hk] at hst
            omega
          · rw [Function.update_of_ne hj, Function.update_of_ne hj]
            exact hs j
      split_ifs
      · exact key
      · exact key
      · exact key)
    _ h1 ⟨rfl, fun i _ => Nat.zero_le _⟩
  have hb := Rover.done_bag hn hx hd
  refine ⟨x, hx, hd, hk, fun i hi => ?_, fun i hi => ?_⟩
  · have hseen : a ∈ x.g.seen (Build.lane hn (hash a)) := by
      rcases first _ hb with ⟨h, -⟩ | h
      · exact absurd h (by simp)
      · exact h
    by_contra hst
    have hst' : x.g.stop i = false := by simpa using hst
    have h2 := load_ge _ hb a i hst' hseen
    have h3 := hJ i hst'
    simp only [load, Multiset.countP_zero, add_zero] at h2
    omega
  · by_contra hst
    have hst' : x.g.stop i = true := by simpa using hst
    obtain ⟨h2, h3⟩ := load_le _ hb i
    have h4 := h3 hst'
    simp only [load, Multiset.countP_zero, add_zero] at h2 h4
    have hwi := Walker.inv_reach (W := walker next visit hash hn) (fun i => rfl) _ hb
    have h5 : (((List.finRange n).flatMap x.g.seen).map (fan next hash hn i)).sum ≤ (ms.map (fan next hash hn i)).sum := by
      obtain ⟨l, hp, hs⟩ := List.subperm_of_subset (l₂ := ms) (Walker.visited_nodup hwi) fun m hm => by
        obtain ⟨j, -, hj⟩ := List.mem_flatMap.1 hm
        exact (hc.mem m).2 (hwi.reach j m hj)
      have hp' : l.Perm ((List.finRange n).flatMap x.g.seen) := hp
      rw [← (hp'.map _).sum_eq]
      exact (hs.map _).sum_le_sum fun _ _ => Nat.zero_le _
    omega

/-- If there are enough nodes, one of them isn't visited. -/
theorem one_unvisited [DecidableEq N] {seen : Fin n → List N} {k : Nat} (hfew : ∀ i, (seen i).length ≤ k) {ms : List N} (hd : ms.Nodup)
    (hl : k * n + 1 ≤ ms.length) : ∃ a ∈ ms, ∀ i, a ∉ seen i := by
  have hvis : ((List.finRange n).flatMap seen).length ≤ k * n := by
    rw [List.length_flatMap]
    refine le_trans (List.sum_le_card_nsmul _ k (by simpa using hfew)) (by simp [Nat.mul_comm])
  by_contra hc
  push Not at hc
  have := (List.subperm_of_subset (l₂ := (List.finRange n).flatMap seen) hd fun m hm => by
    obtain ⟨i, hi⟩ := hc m hm
    exact List.mem_flatMap.2 ⟨i, List.mem_finRange i, hi⟩).length_le
  omega

end Cru.Trav
