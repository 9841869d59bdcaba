import Verif.Proofs.Wrap

/-!
# The memory checker of test builds (C122, C123)
-/

namespace Cru.Wrap

variable {F : Type} [DecidableEq F] {c : Cfg}

/-- Any sequence of calls has a history. -/
theorem run_hist (os : List (Op F)) (s : St F) (h : List (Op F × Res)) (hs : Hist c s h) : Hist c (run c s os).1 (h ++ (run c s os).2) := by
  induction os generalizing s h with
  | nil => simpa [run] using hs
  | cons o os ih =>
    have := ih _ _ (hs.call o)
    simpa [run, List.append_assoc] using this

/-! ## C122 -/

/-- The number reported is that of the successful allocations, real or simulated. -/
theorem C122_performed {s : St F} {h : List (Op F × Res)} (hs : Hist c s h) : (step c s .performed).2 = ⟨granted h, 0⟩ := by
  simp only [step, (hist_counts hs).1]

/-- A limit is accepted if and only if there haven't been more allocations already; otherwise the previous one stays in effect. -/
theorem C122_accepted {s : St F} {h : List (Op F × Res)} (hs : Hist c s h) (k : Nat) :
    ((step c s (.limit k)).2.err = 0 ↔ granted h ≤ k) ∧ ((step c s (.limit k)).2.err ≠ 0 → (step c s (.limit k)).2.err = devIal ∧ (step c s (.limit k)).1 = s) := by
  simp only [step, (hist_counts hs).1]
  split_ifs with h1
  · simp [devIal]; omega
  · simp only [ne_eq, not_true_eq_false, false_implies, and_true, true_iff]; omega

/-- With a hard limit, there are never more successful allocations than the limit in effect, and as long as there are fewer, a request is
granted, unless it's denied by the C library. -/
theorem C122_hard {s : St F} {h : List (Op F × Res)} (hc : c.soft = false) (hs : Hist c s h) :
    (∀ k, limitOf h = some k → granted h ≤ k) ∧
    ∀ f q lib, (step c s (.malloc f q lib)).2.val ≠ 0 ↔ lib = true ∧ ∀ k, limitOf h = some k → granted h < k := by
  obtain ⟨h1, h2, h3⟩ := hist_counts hs
  rw [h1, h2] at h3
  refine ⟨h3 hc, fun f q lib => ?_⟩
  have hov : over s = false := by
    unfold over
    rw [h1, h2]
    split
    · rfl
    · next k hk => simpa using h3 hc k hk
  have hun : under s = true ↔ ∀ k, limitOf h = some k → granted h < k := by
    unfold under
    rw [h1, h2]
    split
    · next hk => simp [hk]
    · next k hk => simp [hk]
  simp only [step, malloc, hc, hov, Bool.false_eq_true, false_and, and_false, if_false, hun]
  cases lib
  · split_ifs <;> simp
  · simp only [Bool.toNat_true, Nat.add_pos_right _ Nat.one_pos, and_true, true_and]
    split_ifs with hh
    · simpa using hh
    · simpa using hh

/-- With a soft limit, if the C library never runs out of memory, then at most one request is ever denied, namely when the number of
allocations is at the limit in effect or above. -/
theorem C122_soft {s : St F} {h : List (Op F × Res)} (hc : c.soft = true) (ha : ∀ x ∈ h, ample x.1) (hs : Hist c s h) :
    h.countP refusal ≤ 1 ∧
    ∀ f q, (step c s (.malloc f q true)).2.val ≠ 0 ↔ h.countP refusal = 1 ∨ ∀ k, limitOf h = some k → granted h < k := by
  obtain ⟨h1, h2, -⟩ := hist_counts hs
  obtain ⟨h3, h4⟩ := hist_soft hc ha hs
  rw [h3] at h4
  refine ⟨h4, fun f q => ?_⟩
  have hun : under s = true ↔ ∀ k, limitOf h = some k → granted h < k := by
    unfold under
    rw [h1, h2]
    split
    · next hk => simp [hk]
    · next k hk => simp [hk]
  simp only [step, malloc, hc, Bool.true_eq_false, false_and, if_false, hun, h3, Bool.toNat_true, Nat.add_pos_right _ Nat.one_pos, and_true, true_and]
  split_ifs with e1 e2
  · simp; left; omega
  · simp; exact .inr e2
  · simp only [ne_eq, not_true_eq_false, false_iff, not_or]; exact ⟨by omega, e2⟩

def demo (soft : Bool) : St Nat × List (Op Nat × Res) :=
  run ⟨soft, 2⟩ init [.malloc 0 3 true, .limit 2, .malloc 1 3 true, .malloc 1 3 true, .limit 1, .malloc 0 3 true, .limit 3, .malloc 0 3 true, .free 0 3]

/-- These histories meet the hypotheses.  Two requests exceed the hard limit of 2, but only one the soft limit. -/
example : Hist ⟨false, 2⟩ (demo false).1 (demo false).2 ∧ (demo false).2.map (fun x => x.2.val) = [1, 0, 1, 0, 0, 0, 0, 1, 0] ∧ granted (demo false).2 = 3 ∧
    limitOf (demo false).2 = some 3 ∧ (demo false).2.countP refusal = 2 ∧
    Hist ⟨true, 2⟩ (demo true).1 (demo true).2 ∧ (demo true).2.map (fun x => x.2.val) = [1, 0, 1, 0, 0, 1, 0, 1, 0] ∧ granted (demo true).2 = 4 ∧
    (demo true).2.countP refusal = 1 ∧ (∀ x ∈ (demo true).2, ample x.1) :=
  ⟨run_hist (c := ⟨false, 2⟩) _ _ [] (Hist.init (F := Nat)), by decide +kernel, by decide +kernel, by decide +kernel, by decide +kernel,
    run_hist (c := ⟨true, 2⟩) _ _ [] (Hist.init (F := Nat)), by decide +kernel, by decide +kernel, by decide +kernel, by
      intro x hx
      simp only [demo, run, List.mem_cons, List.not_mem_nil, or_false] at hx
      rcases hx with rfl | rfl | rfl | rfl | rfl | rfl | rfl | rfl | rfl <;> simp [ample]⟩

/-! ## C123 -/

/-- At any time, `crudev_all_clear` returns a non-zero value if and only if nothing has been freed in excess and everything obtained has
been freed except for what's in reserve; otherwise the error is a double free or a memory leak, respectively. -/
theorem C123_clear {s : St F} {h : List (Op F × Res)} (ht : Tame c h) (hs : Hist c s h) (reserved : Nat) :
    (step c s (.allClear reserved)).1 = s ∧
    ((step c s (.allClear reserved)).2 = ⟨1, 0⟩ ↔ ¬ Excess h ∧ obtained h ≤ released h + reserved) ∧
    ((step c s (.allClear reserved)).2 = ⟨0, devDbf⟩ ↔ Excess h) ∧
    ((step c s (.allClear reserved)).2 = ⟨0, devMlk⟩ ↔ ¬ Excess h ∧ released h + reserved < obtained h) := by
  have hr := hist_right hs ht
  have hcnt := (hist_counts hs).1
  refine ⟨rfl, ?_⟩
  simp only [step, allClear]
  by_cases hd : s.doubleFree = true
  · simp [hd, hr.excess hd, devDbf, devMlk]
  · have hd : s.doubleFree = false := by simpa using hd
    have hx := hr.fair hd
    have hb := hr.balance hd
    have hle : released h ≤ obtained h := by
      obtain ⟨M, h1, -⟩ := live h hx
      omega
    rw [hcnt]
    simp only [hd, Bool.false_eq_true, if_false, hx, not_false_eq_true, true_and, iff_false]
    split_ifs
    · omega
    · simp [devDbf, devMlk]; omega
    · simp [devDbf, devMlk]; omega

def demo2 (extra : Bool) : St Nat × List (Op Nat × Res) :=
  run ⟨false, 2⟩ init ([.malloc 0 3 true, .malloc 1 3 true, .malloc 1 4 true, .simulate, .free 1 3, .free 0 3] ++ if extra then [.free 1 3] else [])

theorem demo2_tame : Tame ⟨false, 2⟩ (demo2 true).2 := by
  refine ⟨fun x hx => ?_, fun q => ?_⟩
  · simp only [demo2, run, if_true, List.cons_append, List.nil_append, List.mem_cons, List.not_mem_nil, or_false] at hx
    rcases hx with rfl | rfl | rfl | rfl | rfl | rfl | rfl <;> simp [sized, ample]
  · have : files q (demo2 true).2 = (if 3 = q then [0] else []) ++ (if 3 = q then [1] else []) ++ if 4 = q then [1] else [] := by
      simp only [files, demo2, run, if_true, List.cons_append, List.nil_append, List.filterMap_cons, List.filterMap_nil]
      by_cases h3 : 3 = q
      · subst h3; rfl
      · by_cases h4 : 4 = q
        · subst h4; rfl
        · simp [h3, h4]
    rw [this]
    by_cases h3 : 3 = q
    · subst h3; decide
    · by_cases h4 : 4 = q
      · subst h4; decide
      · simp [h3, h4]

/-- These histories meet the hypotheses; one area is in use after the first, and something is freed twice in the second. -/
example : Hist ⟨false, 2⟩ (demo2 true).1 (demo2 true).2 ∧ Tame ⟨false, 2⟩ (demo2 true).2 ∧ Tame ⟨false, 2⟩ (demo2 false).2 ∧
    (step ⟨false, 2⟩ (demo2 false).1 (.allClear 0)).2 = ⟨0, devMlk⟩ ∧ (step ⟨false, 2⟩ (demo2 false).1 (.allClear 1)).2 = ⟨1, 0⟩ ∧
    (step ⟨false, 2⟩ (demo2 true).1 (.allClear 0)).2 = ⟨0, devDbf⟩ :=
  ⟨run_hist (c := ⟨false, 2⟩) _ _ [] (Hist.init (F := Nat)), demo2_tame, (Tame.init (x := (.free 1 3, ⟨0, 0⟩)) demo2_tame).1,
    by decide +kernel, by decide +kernel, by decide +kernel⟩

/-- This is the defect: if the C library runs out of memory, the request it denies is nevertheless counted as an area in use (wrap.c:260), so
that something may be freed twice and something else not at all, and `crudev_all_clear` returns a non-zero value. -/
theorem C123_masked : ∃ (s : St Nat) (h : List (Op Nat × Res)), Hist ⟨false, 2⟩ s h ∧ (∀ x ∈ h, sized x.1) ∧
    (∀ q, (files q h).dedup.length ≤ 2) ∧ Excess h ∧ h.countP (obtains 1 3) = 1 ∧ h.countP (releases 1 3) = 0 ∧ (step ⟨false, 2⟩ s (.allClear 0)).2 = ⟨1, 0⟩ := by
  refine ⟨_, _, run_hist (c := ⟨false, 2⟩) [.malloc 1 3 true, .malloc 0 3 true, .malloc 0 3 false, .free 0 3, .free 0 3] _ [] (Hist.init (F := Nat)),
    fun x hx => ?_, fun q => ?_, ?_, by decide +kernel, by decide +kernel, by decide +kernel⟩
  · simp only [run, List.nil_append, List.mem_cons, List.not_mem_nil, or_false] at hx
    rcases hx with rfl | rfl | rfl | rfl | rfl <;> simp [sized]
  · by_cases h3 : q = 3
    · subst h3; decide
    · have : ∀ r₁ r₂ r₃ r₄ r₅ : Res, files q [(Op.malloc 1 3 true, r₁), (.malloc 0 3 true, r₂), (.malloc 0 3 false, r₃), (.free 0 3, r₄), (.free 0 3, r₅)] = [] := by
        intros; simp [files, Ne.symm h3]
      have h4 := this ⟨1, 0⟩ ⟨1, 0⟩ ⟨0, 0⟩ ⟨0, 0⟩ ⟨0, 0⟩
      simp only [run, List.nil_append]
      exact (congrArg (fun l : List Nat => l.dedup.length) h4).trans_le (by simp)
  · exact ⟨[(.malloc 1 3 true, ⟨1, 0⟩), (.malloc 0 3 true, ⟨1, 0⟩), (.malloc 0 3 false, ⟨0, 0⟩), (.free 0 3, ⟨0, 0⟩)], 0, 3, ⟨0, 0⟩, [], rfl, by decide +kernel⟩

end Cru.Wrap
