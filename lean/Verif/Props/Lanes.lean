import Verif.Model.Lanes
import Mathlib.Tactic.Ring
import Mathlib.Tactic.NormNum

/-! # C175: numbers of threads and storage for them -/

namespace Cru.Lanes

variable {s : Int} {lanes : Nat}

private theorem nproc_of (h : 0 ≤ s) (h' : s < 2 ^ 32) : nproc s = s.toNat := by
  unfold nproc
  rw [Int.emod_eq_of_lt h h']

/-- **C175.** If the number of processors is known, it's the number of threads by default, or if more are asked for.  Otherwise there are as many as asked for. -/
theorem C175_threads (h : 0 < s) (h' : s < 2 ^ 32) : threads s lanes = if lanes = 0 then s.toNat else min lanes s.toNat := by
  have h0 : s.toNat ≠ 0 := by omega
  unfold threads passed Resource.capped
  rw [nproc_of h.le h']
  by_cases hl : lanes = 0
  · simp [hl, h0]
  · simp only [hl, ne_eq, not_false_eq_true, if_true, if_false, h0]
    split <;> omega

/-- **C175.** If it's hard coded as zero, there's one thread by default, and no more than 1024. -/
theorem C175_unknown : threads 0 lanes = if lanes = 0 then 1 else min lanes 1024 := by
  unfold threads passed Resource.capped
  have : nproc 0 = 0 := rfl
  rw [this]
  by_cases hl : lanes = 0
  · simp [hl]
  · simp only [hl, ne_eq, not_false_eq_true, if_true, if_false, not_true_eq_false]
    split <;> omega

/-- **C175.** If `sysconf` fails, there's no limit, and the largest possible number is the default. -/
theorem C175_failed (h : lanes < 2 ^ 32) : threads (-1) lanes = if lanes = 0 then 4294967295 else lanes := by
  unfold threads passed Resource.capped
  have : nproc (-1) = 4294967295 := by decide
  rw [this]
  by_cases hl : lanes = 0
  · simp [hl]
  · simp only [hl, ne_eq, not_false_eq_true, if_true, if_false]
    rw [if_pos (by omega), if_neg (by omega)]

/-- There's always a thread. -/
theorem threads_pos (s : Int) (lanes : Nat) : 0 < threads s lanes := by
  unfold threads passed Resource.capped
  repeat' split
  all_goals omega

theorem nproc_lt (s : Int) : nproc s < 2 ^ 32 := by
  unfold nproc
  have h1 := Int.emod_lt_of_pos s (show (0 : Int) < 2 ^ 32 by norm_num)
  have h2 := Int.emod_nonneg s (show (2 ^ 32 : Int) ≠ 0 by norm_num)
  omega

theorem passed_lt (h : lanes < 2 ^ 32) : passed (nproc s) lanes < 2 ^ 32 ∧ 0 < passed (nproc s) lanes := by
  have := nproc_lt s
  unfold passed
  repeat' split
  all_goals omega

theorem threads_lt (h : lanes < 2 ^ 32) : threads s lanes < 2 ^ 32 := by
  have h1 := nproc_lt s
  have h2 := (passed_lt (s := s) h).1
  unfold threads Resource.capped
  repeat' split
  all_goals omega

theorem arraySize_exact {bits size l : Nat} {e₁ e₂ : Int} (hs : 0 < size) (hl : 0 < l) (h : l * size < 2 ^ bits) : arraySize bits e₁ e₂ size l = .ok (l * size) := by
  unfold arraySize
  rw [Nat.mod_eq_of_lt h, if_neg (Nat.not_lt.2 (Nat.le_mul_of_pos_right l hs)), if_neg (Nat.not_lt.2 (Nat.le_mul_of_pos_left size hl))]

/-- **C175.** On systems with 64 bits, arrays have just the size needed for the threads used, whatever the number asked for, and so has the array in a partition,
but for as many as were asked for. -/
theorem C175_exact (h : lanes < 2 ^ 32) : arrays 64 8 8 s lanes = .ok (threads s lanes * 8, threads s lanes * 8) ∧
    (lanes ≠ 0 → maps 64 8 s lanes = .ok (lanes, lanes * 8)) := by
  have h1 := threads_lt (s := s) h
  have h2 := threads_pos s lanes
  constructor
  · unfold arrays pointerArraySize threadArraySize
    rw [arraySize_exact (by omega) h2 (by omega), arraySize_exact (by omega) h2 (by omega)]
  · intro h0
    unfold maps mapSize passed
    rw [if_pos h0, if_neg h0, arraySize_exact (by omega) (by omega) (by omega)]
    rfl

/-- **C175.** So more maps than there can be threads are allocated if more are asked for, up to 32 gigabytes. -/
theorem C175_excess (h : 0 < s) (h' : s < 2 ^ 32) (hl : lanes < 2 ^ 32) (hs : s.toNat < lanes) :
    threads s lanes = s.toNat ∧ maps 64 8 s lanes = .ok (lanes, lanes * 8) := by
  have h0 : lanes ≠ 0 := by omega
  refine ⟨?_, (C175_exact hl).2 h0⟩
  rw [C175_threads h h', if_neg h0]
  omega

/-- **C175.** On systems with 32 bits, the size is right for up to a quarter as many. -/
theorem C175_small (h : lanes < 2 ^ 30) (hs : 0 < s) (hs' : s < 2 ^ 30) : arrays 32 4 4 s lanes = .ok (threads s lanes * 4, threads s lanes * 4) ∧
    (lanes ≠ 0 → maps 32 4 s lanes = .ok (lanes, lanes * 4)) := by
  have h1 : threads s lanes < 2 ^ 30 := by
    rw [C175_threads hs (by omega)]
    split <;> omega
  have h2 := threads_pos s lanes
  constructor
  · unfold arrays pointerArraySize threadArraySize
    rw [arraySize_exact (by omega) h2 (by omega), arraySize_exact (by omega) h2 (by omega)]
  · intro h0
    unfold maps mapSize passed
    rw [if_pos h0, if_neg h0, arraySize_exact (by omega) (by omega) (by omega)]
    rfl

/-- **C175.** For more, it can be too small without an error: whatever the number of processors, there's an array for fewer maps than the partition is said to have. -/
theorem C175_wrapped (s : Int) : ∃ lanes < 2 ^ 32, ∃ m, maps 32 4 s lanes = .ok (lanes, m) ∧ m < lanes * 4 :=
  ⟨1431655766, by norm_num, 1431655768, by norm_num [maps, passed, mapSize, arraySize, Except.map], by norm_num⟩

/-- Non-vacuity of C175: eight processors, and one hundred threads asked for. -/
example : threads 8 100 = 8 ∧ threads 8 0 = 8 ∧ threads 8 3 = 3 ∧ arrays 64 8 8 8 100 = .ok (64, 64) ∧ maps 64 8 8 100 = .ok (100, 800) :=
  ⟨C175_threads (by omega) (by omega), C175_threads (by omega) (by omega), C175_threads (by omega) (by omega), (C175_exact (by omega)).1,
    (C175_excess (by omega) (by omega) (by omega) (by decide)).2⟩

end Cru.Lanes
