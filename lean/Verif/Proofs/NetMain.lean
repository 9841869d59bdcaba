import Verif.Proofs.NetSim

namespace Cru.Net

variable {n : Nat} {P G E : Type}

theorem assign_running (s : State n P G) (j l) : s.running ≤ (assign s j l).running ∧
    (assign s j l).quiescent = s.quiescent := by
  unfold assign State.setPort; split <;> [simp; (dsimp only; split <;> simp)]

theorem undefer1_running (s : State n P G) (j) : s.running ≤ (undefer1 s j).running ∧
    (undefer1 s j).quiescent = s.quiescent := by
  unfold undefer1 State.setPort; dsimp only; split <;> [(split <;> simp); simp]

theorem workerStep_quiescent {T : Task n P G E} {i : Fin n} {s s' : State n P G}
    (hs : workerStep T i s = some s') (hr : s.running ≠ 0) (hq : s.quiescent = false) :
    s'.quiescent = true ↔ s'.running = 0 := by
  unfold workerStep at hs
  dsimp only at hs
  split at hs
  next => obtain rfl := Option.some.inj hs; simp [State.setWorker, hr, hq]
  next => split at hs <;> (obtain rfl := Option.some.inj hs; simp [State.setPc, State.setWorker, hr, hq])
  next => split at hs <;> (obtain rfl := Option.some.inj hs; simp [State.setPort, State.setPc, State.setWorker, hr, hq])
  next => obtain rfl := Option.some.inj hs; simp [State.setPort, State.setWorker, hr, hq]
  next j en e =>
    split at hs
    · rename_i hj
      obtain rfl := Option.some.inj hs
      rw [assign_setWorker]
      have := assign_running s ⟨j, hj⟩ ((s.worker i).pod ⟨j, hj⟩)
      simp only [State.setWorker, this.2, hq]
      simp; omega
    · obtain rfl := Option.some.inj hs; simp [State.setPc, State.setWorker, hr, hq]
  next j e =>
    split at hs
    · rename_i hj
      obtain rfl := Option.some.inj hs
      unfold State.setPc
      rw [undefer1_setWorker]
      have := undefer1_running s ⟨j, hj⟩
      simp only [State.setWorker, this.2, hq]
      simp; omega
    · obtain rfl := Option.some.inj hs; simp [State.setPc, State.setWorker, hr, hq]
  next e =>
    split at hs
    · obtain rfl := Option.some.inj hs; simp [State.setPort, State.setPc, State.setWorker, hr, hq]
    · split at hs
      · obtain rfl := Option.some.inj hs; simp [State.setPc, State.setWorker, hr, hq]
      · try rw [if_neg hr] at hs
        obtain rfl := Option.some.inj hs; simp [State.setPort, State.setPc, State.setWorker, hq]
  next e =>
    split at hs
    · obtain rfl := Option.some.inj hs; simp [wake, State.setPort, State.setPc, State.setWorker, hr, hq]
    · cases hs
  next e => cases hs

theorem quiet_of_running_zero {dest : P → Fin n} {s : State n P G} (h : Early dest s) (hr : s.running = 0) :
    ∀ i, (s.worker i).pc = .sleep ∧ Empty (s.port i) (s.worker i) ∧ (s.port i).signalled = false := by
  have hz : ∀ i, act (s.port i) (s.worker i) = 0 := by
    have h5 := h.running
    rw [hr] at h5
    intro i
    exact (Finset.sum_eq_zero_iff.1 h5.symm) i (Finset.mem_univ i)
  have hq : ∀ i, (s.worker i).pc = .sleep ∧ (s.port i).assigned = [] := by
    intro i; have := hz i; simp only [act] at this; grind
  intro i
  refine ⟨(hq i).1, ⟨(hq i).2, ?_, ?_⟩, ?_⟩
  · by_contra hd
    obtain ⟨k, hk⟩ := h.token i hd
    simp [Tok, (hq k).1, (hq k).2] at hk
  · have := h.shape i; simp only [Shape, (hq i).1] at this; exact this
  · have := h.signalled i; have := hq i; grind

theorem workerStep_none {T : Task n P G E} {dest : P → Fin n} {s : State n P G} (h : Early dest s)
    (hr : s.running = 0) (i : Fin n) : workerStep T i s = none := by
  have := quiet_of_running_zero h hr i
  unfold workerStep
  simp [this.1, this.2.2]

theorem inv_init (dest : P → Fin n) (g : G) (hn : 0 < n) : Inv dest (init g : State n P G) := by
  refine ⟨init_early dest g, ?_⟩
  simp [init]; omega

theorem workerStep_main {T : Task n P G E} {i : Fin n} {s s' : State n P G}
    (hs : workerStep T i s = some s') : s'.main = s.main := by
  unfold workerStep at hs
  dsimp only at hs
  split at hs <;> (try split at hs) <;> (try split at hs) <;> (try split at hs) <;>
    (cases hs <;> first | rfl | simp [assign_main, undefer1_main, State.setWorker, State.setPc])

theorem inv_step {T : Task n P G E} {i₀ : P} {a : Action n E} {s s' : State n P G} (h : Inv T.dest s)
    (ha : a.proper) (hs : step T i₀ a s = some s') : Inv T.dest s' := by
  cases a with
  | spurious i => exact ha.elim
  | spuriousMain => exact ha.elim
  | env e =>
    obtain rfl := Option.some.inj hs
    unfold Inv at h ⊢
    dsimp only
    split at h <;> rename_i hm <;> simp only [hm] at h ⊢
    · exact ⟨early_main (early_g h.1 (T.env e s.g)) .boot s.quiescent, h.2⟩
    · exact ⟨early_main (early_g h.1 (T.env e s.g)) .reset s.quiescent, h.2⟩
    · exact ⟨early_main (early_g h.1 (T.env e s.g)) .start s.quiescent, h.2⟩
    · exact ⟨early_main (early_g h.1 (T.env e s.g)) .wait s.quiescent, h.2⟩
    · obtain ⟨a, b, c, d, e, f⟩ := h; exact ⟨a, b, c, d, e, f⟩
    · obtain ⟨a, b, c, d, e, f⟩ := h; exact ⟨a, b, c, d, e, f⟩
    · obtain ⟨⟨a, b, c, d, e, f⟩, hg⟩ := h; exact ⟨⟨a, b, c, d, e, f⟩, hg⟩
  | worker i =>
    change workerStep T i s = some s' at hs
    have hmain := workerStep_main hs
    have late : ∀ j, Late s j → Late s' j := by
      intro j hl
      unfold workerStep at hs
      dsimp only at hs
      rcases hl.pcs i with e | e
      · simp only [e] at hs
        split at hs
        · obtain rfl := Option.some.inj hs
          rename_i hsig
          have hj : i.1 < j := by
            by_contra hc
            have := (hl.above i (by omega)).2
            simp [this] at hsig
          have hem := (hl.empty i).1
          constructor
          all_goals simp only [wake, State.setPc, State.setWorker, State.setPort, hem, gotten]
          · intro k; by_cases ek : k = i
            · subst ek; have := hl.empty k; simp only [Empty, Function.update_self] at this ⊢; grind
            · simpa [Function.update_of_ne ek] using hl.empty k
          · intro k; by_cases ek : k = i
            · subst ek; simp
            · simpa [Function.update_of_ne ek] using hl.waiting k
          · intro k; by_cases ek : k = i
            · subst ek; simp
            · simpa [Function.update_of_ne ek] using hl.pcs k
          · intro k; by_cases ek : k = i
            · subst ek; simp
            · simpa [Function.update_of_ne ek] using hl.below k
          · intro k hk; by_cases ek : k = i
            · subst ek; omega
            · simpa [Function.update_of_ne ek] using hl.above k hk
          · exact hl.placed
        · cases hs
      · simp only [e] at hs; cases hs
    unfold Inv at h ⊢
    rw [hmain]
    split at h
    · have hr : s.running ≠ 0 := fun hr => by rw [workerStep_none h.1 hr] at hs; cases hs
      refine ⟨early_workerStep h.1 hs hr, workerStep_quiescent hs hr ?_⟩
      have := h.2; grind
    · rw [workerStep_none h.1 h.2.1] at hs; cases hs
    · rw [workerStep_none h.1 h.2.1] at hs; cases hs
    · have hr : s.running ≠ 0 := fun hr => by rw [workerStep_none h.1 hr] at hs; cases hs
      refine ⟨early_workerStep h.1 hs hr, workerStep_quiescent hs hr ?_⟩
      have := h.2; grind
    · exact late _ h
    · exact late _ h
    · have := h.2 i
      unfold workerStep at hs; simp [this] at hs
  | main =>
    change mainStep T i₀ s = some s' at hs
    unfold mainStep at hs
    unfold Inv at h
    split at hs <;> rename_i hm <;> simp only [hm] at h
    · split at hs
      · rename_i hq
        obtain rfl := Option.some.inj hs
        have : s = { s with quiescent := true } := by cases s; simp at hq ⊢; exact hq
        refine ⟨?_, (h.2.1 hq), hq⟩
        have := early_main h.1 .reset s.quiescent
        exact this
      · cases hs
    · obtain rfl := Option.some.inj hs
      exact ⟨early_main h.1 .start false, h.2.1, rfl⟩
    · obtain rfl := Option.some.inj hs
      have hquiet := quiet_of_running_zero h.1 h.2.1 (T.dest i₀)
      have ea := early_assign h.1 (T.dest i₀) [i₀] (by simp)
      refine ⟨?_, ?_⟩
      · have := early_main ea .wait (assign s (T.dest i₀) [i₀]).quiescent
        exact this
      · have hw := (h.1.waiting (T.dest i₀)).2 hquiet.1
        simp [assign, hw, hquiet.2.1.1, State.setPort, h.2.2]
    · split at hs
      · rename_i hq
        obtain rfl := Option.some.inj hs
        have hquiet := quiet_of_running_zero h.1 (h.2.1 hq)
        exact ⟨fun i => (hquiet i).2.1, h.1.waiting, fun i => Or.inl (hquiet i).1, fun i hi => absurd hi (Nat.not_lt_zero _),
          fun i _ => ⟨(hquiet i).1, (hquiet i).2.2⟩, h.1.placed⟩
      · cases hs
    · rename_i j
      split at hs
      · rename_i hj
        obtain rfl := Option.some.inj hs
        have hsl := (h.above ⟨j, hj⟩ (Nat.le_refl j)).1
        have hw := (h.waiting ⟨j, hj⟩).2 hsl
        have hem := h.empty ⟨j, hj⟩
        show Late _ _
        constructor
        all_goals simp only [dismiss1, hem.1, if_true, State.setPort, hw]
        · intro k; by_cases ek : k = ⟨j, hj⟩
          · subst ek; simp only [Empty, Function.update_self] at hem ⊢; grind
          · simpa [Function.update_of_ne ek] using h.empty k
        · intro k; by_cases ek : k = ⟨j, hj⟩
          · subst ek; simp [hsl]
          · simpa [Function.update_of_ne ek] using h.waiting k
        · exact h.pcs
        · intro k hk; by_cases ek : k = ⟨j, hj⟩
          · subst ek; simp
          · have : k.1 ≠ j := fun hh => ek (Fin.ext hh)
            simpa [Function.update_of_ne ek] using h.below k (by omega)
        · intro k hk
          have ek : k ≠ ⟨j, hj⟩ := by rintro rfl; simp at hk
          simpa [Function.update_of_ne ek] using h.above k (by omega)
        · exact h.placed
      · obtain rfl := Option.some.inj hs
        rename_i hj
        obtain ⟨a, b, c, d, e, f⟩ := h
        exact ⟨a, b, c, fun i _ => d i (by omega), fun i hi => absurd i.2 (by omega), f⟩
    · split at hs
      · rename_i hall
        obtain rfl := Option.some.inj hs
        refine ⟨?_, ?_⟩
        · obtain ⟨a, b, c, d, e, f⟩ := h; exact ⟨a, b, c, d, e, f⟩
        · intro i
          show (s.worker i).pc = .gone
          have := hall i
          cases hpc : (s.worker i).pc <;> simp_all
      · cases hs
    · cases hs

theorem reach_inv {T : Task n P G E} {i₀ : P} {g₀ : G} {s : State n P G} (hn : 0 < n)
    (h : Reach T i₀ g₀ s) : Inv T.dest s := by
  induction h with
  | init => exact inv_init _ _ hn
  | step a ha _ hs ih => exact inv_step ih ha hs

theorem inv_routed {dest : P → Fin n} {s : State n P G} (h : Inv dest s) (i : Fin n) :
    ∀ x ∈ (s.worker i).pc.incoming, dest x = i := by
  have late : ∀ j, Late s j → ∀ x ∈ (s.worker i).pc.incoming, dest x = i := by
    intro j hl; rcases hl.pcs i with e | e <;> simp [e, Pc.incoming]
  unfold Inv at h
  split at h
  · exact (h.1.routed i).2.2.1
  · exact (h.1.routed i).2.2.1
  · exact (h.1.routed i).2.2.1
  · exact (h.1.routed i).2.2.1
  · exact late _ h
  · exact late _ h
  · exact late _ h.1

theorem late_pending {i₀ : P} {s : State n P G} {j : Nat} (h : Late s j) (hm : s.main.held i₀ = 0) :
    pending i₀ s = 0 := by
  unfold pending
  rw [hm, zero_add]
  refine Finset.sum_eq_zero (fun i _ => ?_)
  have he := h.empty i
  unfold laneBag
  rw [he.1, he.2.1, he.2.2.1]
  simp only [he.2.2.2]
  rcases h.pcs i with e | e <;> simp [e, Pc.incoming]

theorem mainStep_sim {T : Task n P G E} {i₀ : P} {s s' : State n P G} (h : Inv T.dest s)
    (hs : mainStep T i₀ s = some s') : s'.g = s.g ∧ pending i₀ s' = pending i₀ s := by
    have hi := inv_step (a := .main) h trivial hs
    unfold mainStep at hs
    unfold Inv at h
    split at hs <;> rename_i hm <;> simp only [hm] at h
    · split at hs
      · obtain rfl := Option.some.inj hs
        simp [pending, hm, MPc.held]
      · cases hs
    · obtain rfl := Option.some.inj hs
      simp [pending, hm, MPc.held]
    · obtain rfl := Option.some.inj hs
      refine ⟨assign_g _ _ _, ?_⟩
      have := pending_assign i₀ s (T.dest i₀) [i₀]
      simp only [pending, hm, MPc.held, assign_main] at this ⊢
      rw [add_comm] at this
      rw [zero_add]
      have e : (([i₀] : List P) : Multiset P) = {i₀} := rfl
      rw [e, add_comm _ ({i₀} : Multiset P), add_comm _ ({i₀} : Multiset P)] at this
      exact add_left_cancel this
    · split at hs
      · obtain rfl := Option.some.inj hs
        simp [pending, hm, MPc.held]
      · cases hs
    · split at hs
      · rename_i j hj
        obtain rfl := Option.some.inj hs
        refine ⟨?_, ?_⟩
        · simp only [dismiss1, State.setPort]; split <;> rfl
        · rw [late_pending h (by simp [hm, MPc.held])]
          exact late_pending (j := j + 1) hi rfl
      · obtain rfl := Option.some.inj hs
        simp [pending, hm, MPc.held]
    · split at hs
      · obtain rfl := Option.some.inj hs
        simp [pending, hm, MPc.held]
      · cases hs
    · cases hs

/-- Every proper step is invisible in the bag machine or is one of its steps. -/
theorem step_sim {T : Task n P G E} {i₀ : P} {a : Action n E} {s s' : State n P G} (h : Inv T.dest s)
    (ha : a.proper) (hs : step T i₀ a s = some s') :
    (s'.g = s.g ∧ pending i₀ s' = pending i₀ s) ∨
      Bag.Step T (s.g, pending i₀ s) (s'.g, pending i₀ s') := by
  cases a with
  | spurious i => exact ha.elim
  | spuriousMain => exact ha.elim
  | env e =>
    obtain rfl := Option.some.inj hs
    right; exact Bag.Step.env e s.g (pending i₀ s)
  | worker i =>
    rcases (workerStep_sim (i₀ := i₀) (inv_routed h i) hs).2 with hh | ⟨p, rest, h1, h2, h3⟩
    · left; exact ⟨hh.1, hh.2.1⟩
    · right; rw [h1, h2, h3]; exact Bag.Step.handle _ _ _
  | main => left; exact mainStep_sim h hs

theorem reach_bag {T : Task n P G E} {i₀ : P} {g₀ : G} {s : State n P G} (hn : 0 < n)
    (h : Reach T i₀ g₀ s) : Bag.Reach T i₀ g₀ (s.g, pending i₀ s) := by
  induction h with
  | init =>
    have : pending i₀ (init g₀ : State n P G) = {i₀} := by
      simp [pending, init, MPc.held, laneBag, Pc.incoming]
    rw [this]; exact Bag.Reach.init
  | step a ha hr hs ih =>
    rcases step_sim (reach_inv hn hr) ha hs with ⟨e1, e2⟩ | hb
    · rw [e1, e2]; exact ih
    · exact Bag.Reach.step ih hb

/-- The calling thread has seen quiescence of the launched job. -/
def MPc.finished : MPc → Prop
  | .dismiss _ | .join | .done => True
  | _ => False

theorem inv_finished {dest : P → Fin n} {i₀ : P} {s : State n P G} (h : Inv dest s) (hf : s.main.finished) :
    pending i₀ s = 0 ∧ s.misplaced = false ∧ ∀ i, (s.worker i).pc = .sleep ∨ (s.worker i).pc = .gone := by
  unfold Inv at h
  split at h <;> rename_i hm <;> simp only [hm, MPc.finished] at hf
  · exact ⟨late_pending h (by simp [hm, MPc.held]), h.placed, h.pcs⟩
  · exact ⟨late_pending h (by simp [hm, MPc.held]), h.placed, h.pcs⟩
  · exact ⟨late_pending h.1 (by simp [hm, MPc.held]), h.1.placed, h.1.pcs⟩

theorem workerStep_isSome {T : Task n P G E} {i : Fin n} {s : State n P G}
    (h : (s.worker i).pc ≠ .gone) (h' : (s.worker i).pc = .sleep → (s.port i).signalled = true) :
    (workerStep T i s).isSome := by
  unfold workerStep
  dsimp only
  split <;> (try split) <;> (try split) <;> (try split) <;> simp_all

theorem enabled_of_inv (T : Task n P G E) (i₀ : P) {s : State n P G} (h : Inv T.dest s) (hd : s.main ≠ .done) :
    (mainStep T i₀ s).isSome ∨ ∃ i, (workerStep T i s).isSome := by
  have early : ∀ (he : Early T.dest s) (hr : s.running ≠ 0), ∃ i, (workerStep T i s).isSome := by
    intro he hr
    have h5 := he.running
    have : ∃ i, act (s.port i) (s.worker i) ≠ 0 := by
      by_contra hc; push Not at hc
      exact hr (by rw [h5]; exact Finset.sum_eq_zero (fun i _ => hc i))
    obtain ⟨i, hi⟩ := this
    refine ⟨i, workerStep_isSome (he.present i) ?_⟩
    intro hsl
    rw [he.signalled i]
    refine ⟨hsl, ?_⟩
    intro ha
    simp [act, hsl, ha] at hi
  unfold Inv at h
  split at h <;> rename_i hm <;> simp only [mainStep, hm]
  · by_cases hr : s.running = 0
    · left; simp [h.2.2 hr]
    · right; exact early h.1 hr
  · left; simp
  · left; simp
  · by_cases hr : s.running = 0
    · left; simp [h.2.2 hr]
    · right; exact early h.1 hr
  · left; split <;> simp
  · by_cases hall : ∀ i, (s.worker i).pc = .gone
    · left; rw [if_pos]; · simp
      intro i; simp [hall i]
    · right
      push Not at hall
      obtain ⟨i, hi⟩ := hall
      refine ⟨i, workerStep_isSome hi (fun hsl => h.below i i.2 hsl)⟩
  · exact absurd hm hd

end Cru.Net
