import Verif.Proofs.NetTerm

/-! Running the model: schedules as lists, and existence of a finished run. -/

namespace Cru.Net

variable {n : Nat} {P G E : Type}

/-- Run a schedule; `none` if some action is not enabled. -/
def run (T : Task n P G E) (i₀ : P) : List (Action n E) → State n P G → Option (State n P G)
  | [], s => some s
  | a :: as, s => (step T i₀ a s).bind (run T i₀ as)

theorem run_reachAny {T : Task n P G E} {i₀ : P} {g₀ : G} (as : List (Action n E)) (s s' : State n P G)
    (h : ReachAny T i₀ g₀ s) (hs : run T i₀ as s = some s') : ReachAny T i₀ g₀ s' := by
  induction as generalizing s with
  | nil => cases hs; exact h
  | cons a as ih =>
    simp only [run] at hs
    cases hst : step T i₀ a s with
    | none => simp [hst] at hs
    | some s₁ => rw [hst] at hs; exact ih s₁ (ReachAny.step a h hst) hs

theorem run_reach {T : Task n P G E} {i₀ : P} {g₀ : G} (as : List (Action n E)) (hp : ∀ a ∈ as, a.proper)
    (s s' : State n P G) (h : Reach T i₀ g₀ s) (hs : run T i₀ as s = some s') : Reach T i₀ g₀ s' := by
  induction as generalizing s with
  | nil => cases hs; exact h
  | cons a as ih =>
    simp only [run] at hs
    cases hst : step T i₀ a s with
    | none => simp [hst] at hs
    | some s₁ =>
      rw [hst] at hs
      exact ih (fun b hb => hp b (List.mem_cons_of_mem _ hb)) s₁ (Reach.step a (hp a (List.mem_cons_self ..)) h hst) hs

/-- From every reachable state of a terminating job, the finished state is reachable. -/
theorem exists_done {T : Task n P G E} {i₀ : P} {g₀ : G} (hn : 0 < n)
    (hb : ∀ x, Bag.Reach T i₀ g₀ x → Acc (fun y x => Bag.Handles T x y) x)
    (s : State n P G) (h : Reach T i₀ g₀ s) : ∃ s', Reach T i₀ g₀ s' ∧ s'.main = .done := by
  have ha := threadStep_acc hn hb s h
  induction ha with
  | intro s _ ih =>
    by_cases hd : s.main = .done
    · exact ⟨s, h, hd⟩
    · rcases enabled_of_inv T i₀ (reach_inv hn h) hd with he | ⟨i, he⟩
      · obtain ⟨s', hs'⟩ := Option.isSome_iff_exists.1 he
        exact ih s' (Or.inl hs') (threadStep_reach h (Or.inl hs'))
      · obtain ⟨s', hs'⟩ := Option.isSome_iff_exists.1 he
        exact ih s' (Or.inr ⟨i, hs'⟩) (threadStep_reach h (Or.inr ⟨i, hs'⟩))

theorem dismiss1_g (s : State n P G) (j : Fin n) : (dismiss1 s j).g = s.g := by
  unfold dismiss1
  simp only [State.setPort]
  split <;> rfl

theorem workerStep_g {T : Task n P G E} {i : Fin n} {s s' : State n P G} (h : workerStep T i s = some s') :
    s'.g = s.g ∨ ∃ p, s'.g = (T.handle i s.g p).1 := by
  unfold workerStep at h
  simp only [] at h
  split at h
  · cases h; exact .inr ⟨_, rfl⟩
  · split at h <;> (cases h; exact .inl rfl)
  · split at h <;> (cases h; exact .inl rfl)
  · cases h; exact .inl rfl
  · split at h
    · cases h; left; rw [assign_g]; rfl
    · cases h; exact .inl rfl
  · split at h
    · cases h; left; rw [undefer1_g]; rfl
    · cases h; exact .inl rfl
  · split at h
    · cases h; exact .inl rfl
    · split at h
      · cases h; exact .inl rfl
      · split at h <;> (cases h; exact .inl rfl)
  · split at h
    · cases h; exact .inl rfl
    · cases h
  · cases h

theorem mainStep_g {T : Task n P G E} {i₀ : P} {s s' : State n P G} (h : mainStep T i₀ s = some s') : s'.g = s.g := by
  unfold mainStep at h
  split at h
  · split at h <;> cases h; rfl
  · cases h; rfl
  · cases h; simp [assign_g]
  · split at h <;> cases h; rfl
  · split at h
    · cases h; simp [dismiss1_g]
    · cases h; rfl
  · split at h <;> cases h; rfl
  · cases h

/-- From every reachable state, a terminating job can be run to the end without interference; what packet handling preserves
holds at the end. -/
theorem exists_done_from {T : Task n P G E} {i₀ : P} {g₀ : G} (hn : 0 < n)
    (hb : ∀ x, Bag.Reach T i₀ g₀ x → Acc (fun y x => Bag.Handles T x y) x) (I : G → Prop)
    (hI : ∀ i g p, I g → I (T.handle i g p).1) :
    ∀ s : State n P G, Reach T i₀ g₀ s → I s.g → ∃ s', Reach T i₀ g₀ s' ∧ s'.main = .done ∧ I s'.g := by
  intro s h hs
  have ha := threadStep_acc hn hb s h
  induction ha with
  | intro s _ ih =>
    by_cases hd : s.main = .done
    · exact ⟨s, h, hd, hs⟩
    · rcases enabled_of_inv T i₀ (reach_inv hn h) hd with he | ⟨i, he⟩
      · obtain ⟨s', hs'⟩ := Option.isSome_iff_exists.1 he
        exact ih s' (Or.inl hs') (threadStep_reach h (Or.inl hs')) (by rw [mainStep_g hs']; exact hs)
      · obtain ⟨s', hs'⟩ := Option.isSome_iff_exists.1 he
        refine ih s' (Or.inr ⟨i, hs'⟩) (threadStep_reach h (Or.inr ⟨i, hs'⟩)) ?_
        rcases workerStep_g hs' with e | ⟨p, e⟩
        · rw [e]; exact hs
        · rw [e]; exact hI _ _ _ hs

/-- A terminating job can be run to the end without interference; what packet handling preserves holds
at the end. -/
theorem exists_done_inv {T : Task n P G E} {i₀ : P} {g₀ : G} (hn : 0 < n)
    (hb : ∀ x, Bag.Reach T i₀ g₀ x → Acc (fun y x => Bag.Handles T x y) x) (I : G → Prop) (h0 : I g₀)
    (hI : ∀ i g p, I g → I (T.handle i g p).1) : ∃ s', Reach T i₀ g₀ s' ∧ s'.main = .done ∧ I s'.g :=
  exists_done_from hn hb I hI (init g₀) Reach.init h0

/-- The first worker that can make a step does, otherwise the main thread. -/
def greedyStep (T : Task n P G E) (i₀ : P) (s : State n P G) : Option (State n P G) :=
  ((List.finRange n).findSome? fun i => step T i₀ (.worker i) s) <|> step T i₀ .main s

/-- A run of a number of steps, for demonstrations. -/
def greedy (T : Task n P G E) (i₀ : P) : Nat → State n P G → State n P G
  | 0, s => s
  | k + 1, s => match greedyStep T i₀ s with
    | none => s
    | some s' => greedy T i₀ k s'

theorem greedy_reach {T : Task n P G E} {i₀ : P} {g₀ : G} (k : Nat) : ∀ s, Reach T i₀ g₀ s → Reach T i₀ g₀ (greedy T i₀ k s) := by
  induction k with
  | zero => intro s h; exact h
  | succ k ih =>
    intro s h
    unfold greedy
    rcases hg : greedyStep T i₀ s with _ | s'
    · exact h
    · refine ih s' ?_
      unfold greedyStep at hg
      rcases hf : ((List.finRange n).findSome? fun i => step T i₀ (.worker i) s) with _ | s''
      · rw [hf] at hg
        exact Reach.step .main trivial h (by simpa using hg)
      · obtain ⟨i, hi, hs⟩ := List.exists_of_findSome?_eq_some hf
        rw [hf] at hg
        simp at hg
        subst hg
        exact Reach.step (.worker i) trivial h hs

end Cru.Net
