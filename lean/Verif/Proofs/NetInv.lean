import Verif.Model.Bag

namespace Cru.Net
set_option linter.unusedSimpArgs false


variable {n : Nat} {P G E : Type}

/-! ## Generic sums -/

theorem sum_change {M : Type} [AddCommMonoid M] (f f' : Fin n → M) (i : Fin n)
    (h : ∀ k, k ≠ i → f' k = f k) : ∑ k, f' k + f i = ∑ k, f k + f' i := by
  rw [← Finset.add_sum_erase Finset.univ f' (Finset.mem_univ i),
    ← Finset.add_sum_erase Finset.univ f (Finset.mem_univ i)]
  have : ∑ x ∈ Finset.univ.erase i, f' x = ∑ x ∈ Finset.univ.erase i, f x :=
    Finset.sum_congr rfl (fun k hk => h k (Finset.ne_of_mem_erase hk))
  rw [this, add_comm (f' i), add_right_comm, add_comm (f i), add_right_comm]

/-! ## The invariant -/

open Classical in
/-- Counted as running: anything but asleep with nothing assigned. -/
noncomputable def act (p : Port P) (w : Worker n P) : Nat :=
  if w.pc = .sleep ∧ p.assigned = [] then 0 else 1

/-- What is known of a worker's private queues at each program point. -/
def Shape (w : Worker n P) : Prop :=
  match w.pc with
  | .run _ | .take | .expose => True
  | .send j _ => w.deferrals = [] ∧ ∀ k : Fin n, k.1 < j → w.pod k = []
  | .undefer _ | .block | .sleep | .gone => w.deferrals = [] ∧ ∀ k, w.pod k = []

/-- Lane `k` guarantees that deferred packets of port `i` will be looked at again. -/
def Tok (p : Port P) (w : Worker n P) (i : Fin n) : Prop :=
  p.assigned ≠ [] ∨
  match w.pc with
  | .run _ | .take | .expose => True
  | .send _ e => e = false
  | .undefer j => j ≤ i.1
  | _ => False

/-- Every packet is in the queues of the lane selected by its hash. -/
def Routed (dest : P → Fin n) (i : Fin n) (p : Port P) (w : Worker n P) : Prop :=
  (∀ x ∈ p.assigned, dest x = i) ∧ (∀ x ∈ p.deferred, dest x = i) ∧
  (∀ x ∈ w.pc.incoming, dest x = i) ∧ (∀ x ∈ w.deferrals, dest x = i) ∧
  (∀ j, ∀ x ∈ w.pod j, dest x = j)

structure Early (dest : P → Fin n) (s : State n P G) : Prop where
  waiting : ∀ i, (s.port i).waiting = true ↔ (s.worker i).pc = .sleep
  undismissed : ∀ i, (s.port i).dismissed = false
  present : ∀ i, (s.worker i).pc ≠ .gone
  signalled : ∀ i, (s.port i).signalled = true ↔ ((s.worker i).pc = .sleep ∧ (s.port i).assigned ≠ [])
  running : s.running = ∑ i, act (s.port i) (s.worker i)
  shape : ∀ i, Shape (s.worker i)
  token : ∀ i, (s.port i).deferred ≠ [] → ∃ k, Tok (s.port k) (s.worker k) i
  routed : ∀ i, Routed dest i (s.port i) (s.worker i)
  placed : s.misplaced = false

/-- All queues of a lane are empty. -/
def Empty (p : Port P) (w : Worker n P) : Prop :=
  p.assigned = [] ∧ p.deferred = [] ∧ w.deferrals = [] ∧ ∀ k, w.pod k = []

/-- The dismissal phase, with ports below `j` dismissed. -/
structure Late (s : State n P G) (j : Nat) : Prop where
  empty : ∀ i, Empty (s.port i) (s.worker i)
  waiting : ∀ i, (s.port i).waiting = true ↔ (s.worker i).pc = .sleep
  pcs : ∀ i, (s.worker i).pc = .sleep ∨ (s.worker i).pc = .gone
  below : ∀ i : Fin n, i.1 < j → (s.worker i).pc = .sleep → (s.port i).signalled = true
  above : ∀ i : Fin n, j ≤ i.1 → (s.worker i).pc = .sleep ∧ (s.port i).signalled = false
  placed : s.misplaced = false

def Inv (dest : P → Fin n) (s : State n P G) : Prop :=
  match s.main with
  | .boot => Early dest s ∧ (s.quiescent = true ↔ s.running = 0)
  | .reset => Early dest s ∧ s.running = 0 ∧ s.quiescent = true
  | .start => Early dest s ∧ s.running = 0 ∧ s.quiescent = false
  | .wait => Early dest s ∧ (s.quiescent = true ↔ s.running = 0)
  | .dismiss j => Late s j
  | .join => Late s n
  | .done => Late s n ∧ ∀ i, (s.worker i).pc = .gone

theorem init_early (dest : P → Fin n) (g : G) : Early dest (init g : State n P G) := by
  constructor <;> simp [init, act, Shape, Tok, Routed, Pc.incoming]

theorem assign_worker (s : State n P G) (j l) : (assign s j l).worker = s.worker := by
  unfold assign State.setPort; split <;> [rfl; (dsimp only; split <;> rfl)]

/-- Everything about a change confined to lane `i`. -/
theorem early_lane {dest : P → Fin n} {s s' : State n P G} (h : Early dest s) (i : Fin n)
    (p' : Port P) (w' : Worker n P)
    (hp : s'.port = Function.update s.port i p') (hw : s'.worker = Function.update s.worker i w')
    (hm : s'.misplaced = s.misplaced)
    (c1 : p'.waiting = true ↔ w'.pc = .sleep) (c2 : p'.dismissed = false) (c3 : w'.pc ≠ .gone)
    (c4 : p'.signalled = true ↔ (w'.pc = .sleep ∧ p'.assigned ≠ []))
    (c5 : s'.running + act (s.port i) (s.worker i) = s.running + act p' w')
    (c6 : Shape w')
    (c7 : ∀ k, (if k = i then p'.deferred else (s.port k).deferred) ≠ [] →
      (∃ j, j ≠ i ∧ Tok (s.port j) (s.worker j) k) ∨ Tok p' w' k)
    (c8 : Routed dest i p' w') : Early dest s' := by
  obtain ⟨h1, h2, h3, h4, h5, h6, h7, h8, h9⟩ := h
  have hs := sum_change (fun k => act (s.port k) (s.worker k)) (fun k => act (s'.port k) (s'.worker k)) i
    (by intro k hk; simp [hp, hw, Function.update_of_ne hk])
  have key : ∀ Q : Fin n → Port P → Worker n P → Prop, (∀ k, Q k (s.port k) (s.worker k)) → Q i p' w' →
      ∀ k, Q k (s'.port k) (s'.worker k) := by
    intro Q hQ hi k
    by_cases e : k = i
    · subst e; simpa [hp, hw] using hi
    · simpa [hp, hw, Function.update_of_ne e] using hQ k
  constructor
  · exact key (fun k p w => p.waiting = true ↔ w.pc = .sleep) h1 c1
  · exact key (fun k p w => p.dismissed = false) h2 c2
  · exact key (fun k p w => w.pc ≠ .gone) h3 c3
  · exact key (fun k p w => p.signalled = true ↔ (w.pc = .sleep ∧ p.assigned ≠ [])) h4 c4
  · have e : act (s'.port i) (s'.worker i) = act p' w' := by simp [hp, hw]
    simp only [e] at hs
    omega
  · exact key (fun k p w => Shape w) h6 c6
  · intro k hk
    have : (if k = i then p'.deferred else (s.port k).deferred) ≠ [] := by
      simpa [hp, Function.update_apply, apply_ite] using hk
    rcases c7 k this with ⟨j, hj, ht⟩ | ht
    · exact ⟨j, by simpa [hp, hw, Function.update_of_ne hj] using ht⟩
    · exact ⟨i, by simpa [hp, hw] using ht⟩
  · exact key (fun k p w => Routed dest k p w) h8 c8
  · rw [hm, h9]

theorem early_assign {dest : P → Fin n} {s : State n P G} (h : Early dest s) (j : Fin n) (l : List P)
    (hl : ∀ x ∈ l, dest x = j) : Early dest (assign s j l) := by
  unfold assign
  split
  · exact h
  rename_i hne
  have hla : l ++ (s.port j).assigned ≠ [] := by simp [hne]
  have h1 := h.waiting j; have h2 := h.undismissed j; have h3 := h.present j; have h4 := h.signalled j
  have h6 := h.shape j; have h8 := h.routed j
  dsimp only
  split
  all_goals
    refine early_lane h j _ (s.worker j) rfl (by simp [State.setPort]) rfl ?_ ?_ h3 ?_ ?_ h6 ?_ ?_
    · simpa using h1
    · simpa using h2
    · grind
    · simp only [act, State.setPort]; grind
    · intro k _; right; left; simp [hne]
    · simp only [Routed] at h8 ⊢; grind

theorem early_g {dest : P → Fin n} {s : State n P G} (h : Early dest s) (g : G) :
    Early dest { s with g := g } := by
  obtain ⟨h1, h2, h3, h4, h5, h6, h7, h8, h9⟩ := h
  exact ⟨h1, h2, h3, h4, h5, h6, h7, h8, h9⟩

theorem early_main {dest : P → Fin n} {s : State n P G} (h : Early dest s) (m : MPc) (q : Bool) :
    Early dest { s with main := m, quiescent := q } := by
  obtain ⟨h1, h2, h3, h4, h5, h6, h7, h8, h9⟩ := h
  exact ⟨h1, h2, h3, h4, h5, h6, h7, h8, h9⟩

/-- A worker that is not asleep changes its private data only. -/
theorem early_private {dest : P → Fin n} {s : State n P G} (h : Early dest s) (i : Fin n) (w' : Worker n P)
    (o : (s.worker i).pc ≠ .sleep) (o1 : w'.pc ≠ .sleep) (o2 : w'.pc ≠ .gone) (c6 : Shape w')
    (c7 : ∀ k, (s.port k).deferred ≠ [] → Tok (s.port i) (s.worker i) k →
      (∃ j, (s.port j).assigned ≠ []) ∨ Tok (s.port i) w' k)
    (c8 : Routed dest i (s.port i) w') : Early dest (s.setWorker i w') := by
  refine early_lane h i (s.port i) w' (by simp [State.setWorker]) rfl rfl ?_ (h.undismissed i) o2 ?_ ?_ c6 ?_ c8
  · have := h.waiting i; grind
  · have := h.signalled i; grind
  · simp [act, State.setWorker, o, o1]
  · intro k hk
    have hk' : (s.port k).deferred ≠ [] := by
      by_cases e : k = i
      · subst e; simpa using hk
      · simpa [e] using hk
    obtain ⟨j, hj⟩ := h.token k hk'
    by_cases e : j = i
    · subst e
      rcases c7 k hk' hj with ⟨j', hj'⟩ | ht
      · by_cases e' : j' = j
        · subst e'; right; left; exact hj'
        · left; exact ⟨j', e', Or.inl hj'⟩
      · right; exact ht
    · left; exact ⟨j, e, hj⟩

theorem podPush_mem (dest : P → Fin n) (sends : List P) (pod : Fin n → List P) (j : Fin n) (x : P) :
    x ∈ podPush dest pod sends j ↔ x ∈ pod j ∨ (x ∈ sends ∧ dest x = j) := by
  unfold podPush
  induction sends generalizing pod with
  | nil => simp
  | cons p l ih =>
    simp only [List.foldl_cons, ih, List.mem_cons]
    by_cases e : j = dest p
    · subst e; simp; grind
    · simp [Function.update_of_ne e]; grind

theorem early_undefer1 {dest : P → Fin n} {s : State n P G} (h : Early dest s) (j : Fin n) :
    Early dest (undefer1 s j) := by
  unfold undefer1
  have h1 := h.waiting j; have h2 := h.undismissed j; have h3 := h.present j; have h4 := h.signalled j
  have h6 := h.shape j; have h8 := h.routed j
  dsimp only
  split
  · rename_i hc
    split
    all_goals
      refine early_lane h j _ (s.worker j) rfl (by simp [State.setPort]) rfl ?_ ?_ h3 ?_ ?_ h6 ?_ ?_
      · simpa using h1
      · simpa using h2
      · grind
      · simp only [act, State.setPort]; grind
      · intro k _; right; left; simpa using hc.2
      · simp only [Routed] at h8 ⊢; grind
  · exact h

theorem early_workerStep {T : Task n P G E} {i : Fin n} {s s' : State n P G} (h : Early T.dest s)
    (hs : workerStep T i s = some s') (hr : s.running ≠ 0) : Early T.dest s' := by
  have h1 := h.waiting i; have h2 := h.undismissed i; have h3 := h.present i; have h4 := h.signalled i
  have h6 := h.shape i; have h8 := h.routed i
  unfold workerStep at hs
  dsimp only at hs
  split at hs
  next p ps e =>
    obtain rfl := Option.some.inj hs
    refine early_g (early_private h i _ (by simp [e]) (by simp) (by simp) (by simp [Shape]) ?_ ?_) _
    · intro k _ _; right; right; simp
    · simp only [Routed, e, Pc.incoming, podPush_mem] at h8 ⊢; grind
  next e =>
    split at hs
    · obtain rfl := Option.some.inj hs
      refine early_private h i _ (by simp [e]) (by simp) (by simp) (by simp [Shape]) ?_ ?_
      · intro k _ _; right; right; simp
      · simp only [Routed, e, Pc.incoming] at h8 ⊢; grind
    · obtain rfl := Option.some.inj hs
      refine early_private h i _ (by simp [e]) (by simp) (by simp) (by simp [Shape]) ?_ ?_
      · intro k _ _; right; right; simp
      · simp only [Routed, e, Pc.incoming] at h8 ⊢
        refine ⟨h8.1, h8.2.1, h8.2.2.2.2 i, h8.2.2.2.1, ?_⟩
        intro j; by_cases ej : j = i
        · subst ej; simp
        · simpa [Function.update_of_ne ej] using h8.2.2.2.2 j
  next e =>
    split at hs
    · obtain rfl := Option.some.inj hs
      refine early_private h i _ (by simp [e]) (by simp) (by simp) (by simp [Shape]) ?_ ?_
      · intro k _ _; right; right; simp
      · simp only [Routed, e, Pc.incoming] at h8 ⊢; grind
    · obtain rfl := Option.some.inj hs
      refine early_lane h i _ _ rfl rfl rfl ?_ ?_ ?_ ?_ ?_ ?_ ?_ ?_
      all_goals simp [State.setPort, State.setPc, State.setWorker, e] at h1 h2 h3 h4 ⊢
      · grind
      · grind
      · grind
      · simp [act, e]
      · simp [Shape]
      · intro k _; right; right; simp
      · simp only [Routed, e, Pc.incoming] at h8 ⊢; grind
  next e =>
    obtain rfl := Option.some.inj hs
    refine early_lane h i _ _ rfl rfl rfl ?_ ?_ ?_ ?_ ?_ ?_ ?_ ?_
    all_goals simp [State.setPort, State.setPc, State.setWorker, e] at h1 h2 h3 h4 ⊢
    · grind
    · grind
    · grind
    · simp [act, e]
    · simp [Shape]
    · intro k _; right; right; simp
    · simp only [Routed, e, Pc.incoming] at h8 ⊢; grind
  next j en e =>
    split at hs
    · rename_i hj
      obtain rfl := Option.some.inj hs
      have ea := early_assign h ⟨j, hj⟩ ((s.worker i).pod ⟨j, hj⟩) (h8.2.2.2.2 _)
      have : assign (s.setWorker i { s.worker i with
            pc := .send (j + 1) (en || !((s.worker i).pod ⟨j, hj⟩).isEmpty),
            pod := Function.update (s.worker i).pod ⟨j, hj⟩ [] }) ⟨j, hj⟩ ((s.worker i).pod ⟨j, hj⟩)
          = (assign s ⟨j, hj⟩ ((s.worker i).pod ⟨j, hj⟩)).setWorker i { s.worker i with
            pc := .send (j + 1) (en || !((s.worker i).pod ⟨j, hj⟩).isEmpty),
            pod := Function.update (s.worker i).pod ⟨j, hj⟩ [] } := by
        unfold assign
        split
        · rfl
        · dsimp only [State.setWorker, State.setPort]; split <;> rfl
      rw [this]
      have ew := assign_worker s ⟨j, hj⟩ ((s.worker i).pod ⟨j, hj⟩)
      refine early_private ea i _ (by simp [ew, e]) (by simp) (by simp) ?_ ?_ ?_
      · simp only [Shape, e] at h6 ⊢
        refine ⟨h6.1, ?_⟩
        intro k hk
        by_cases ek : k = ⟨j, hj⟩
        · subst ek; simp
        · rw [Function.update_of_ne ek]; exact h6.2 k (by
            have : k.1 ≠ j := fun hh => ek (Fin.ext hh)
            omega)
      · intro k _ ht
        by_cases hl : (s.worker i).pod ⟨j, hj⟩ = []
        · right
          unfold Tok at ht ⊢
          rw [ew] at ht
          simpa [e, hl] using ht
        · left
          refine ⟨⟨j, hj⟩, ?_⟩
          unfold assign; rw [if_neg hl]; dsimp only; split <;> simp [State.setPort, hl]
      · have := ea.routed i
        simp only [Routed, ew, e, Pc.incoming] at this ⊢
        refine ⟨this.1, this.2.1, this.2.2.1, this.2.2.2.1, ?_⟩
        intro k; by_cases ek : k = ⟨j, hj⟩
        · subst ek; simp
        · simpa [Function.update_of_ne ek] using this.2.2.2.2 k
    · rename_i hj
      obtain rfl := Option.some.inj hs
      cases en
      · refine early_private h i _ (by simp [e]) (by simp) (by simp) ?_ ?_ ?_
        · simp only [Shape, e] at h6 ⊢
          exact ⟨h6.1, fun k => h6.2 k (by omega)⟩
        · intro k _ _; right; right; simp
        · simp only [Routed, e, Pc.incoming] at h8 ⊢; grind
      · refine early_private h i _ (by simp [e]) (by simp) (by simp) ?_ ?_ ?_
        · simp only [Shape, e] at h6 ⊢
          exact ⟨h6.1, fun k => h6.2 k (by omega)⟩
        · intro k _ ht; left; simp [Tok, e] at ht; exact ⟨i, ht⟩
        · simp only [Routed, e, Pc.incoming] at h8 ⊢; grind
  next j e =>
    split at hs
    · rename_i hj
      obtain rfl := Option.some.inj hs
      have eu := early_undefer1 h ⟨j, hj⟩
      have ew : (undefer1 s ⟨j, hj⟩).worker = s.worker := by
        unfold undefer1; dsimp only; split
        · split <;> rfl
        · rfl
      have : undefer1 (s.setPc i (.undefer (j + 1))) ⟨j, hj⟩
          = (undefer1 s ⟨j, hj⟩).setWorker i { s.worker i with pc := .undefer (j + 1) } := by
        unfold undefer1 State.setPc State.setWorker
        dsimp only
        split
        · split <;> rfl
        · rfl
      rw [this]
      refine early_private eu i _ (by simp [ew, e]) (by simp) (by simp) ?_ ?_ ?_
      · simp only [Shape, e] at h6 ⊢; exact h6
      · intro k hk ht
        by_cases hkj : k = ⟨j, hj⟩
        · subst hkj
          left; refine ⟨⟨j, hj⟩, ?_⟩
          revert hk
          unfold undefer1; dsimp only
          split
          · split <;> simp [State.setPort]
          · rename_i hc; intro hk hh; exact hc ⟨hh, hk⟩
        · by_cases ha : ((undefer1 s ⟨j, hj⟩).port i).assigned = []
          · right
            simp only [Tok, ew, e, ha] at ht ⊢
            simp at ht ⊢
            have : k.1 ≠ j := fun hh => hkj (Fin.ext hh)
            omega
          · left; exact ⟨i, ha⟩
      · have := eu.routed i
        simp only [Routed, ew, e, Pc.incoming] at this ⊢; exact this
    · rename_i hj
      obtain rfl := Option.some.inj hs
      refine early_private h i _ (by simp [e]) (by simp) (by simp) ?_ ?_ ?_
      · simp only [Shape, e] at h6 ⊢; exact h6
      · intro k _ ht
        left
        simp [Tok, e] at ht
        rcases ht with ht | ht
        · exact ⟨i, ht⟩
        · omega
      · simp only [Routed, e, Pc.incoming] at h8 ⊢; grind
  next e =>
    split at hs
    · obtain rfl := Option.some.inj hs
      refine early_lane h i _ _ rfl rfl rfl ?_ ?_ ?_ ?_ ?_ ?_ ?_ ?_
      all_goals simp [State.setPort, State.setPc, State.setWorker, e] at h1 h2 h3 h4 ⊢
      · grind
      · grind
      · grind
      · simp [act, e]
      · simp [Shape]
      · intro k _; right; right; simp
      · simp only [Routed, e, Pc.incoming] at h8 ⊢; grind
    · rename_i ha
      simp at ha
      simp only [h2, if_false, Bool.false_eq_true] at hs
      obtain rfl := Option.some.inj hs
      refine early_lane h i _ _ rfl rfl rfl ?_ ?_ ?_ ?_ ?_ ?_ ?_ ?_
      all_goals simp [State.setPort, State.setPc, State.setWorker, e, ha] at h1 h2 h3 h4 ⊢
      · simp [act, e, ha]; omega
      · simp only [Shape, e] at h6 ⊢; exact h6
      · intro k hk
        left
        have hk' : (s.port k).deferred ≠ [] := by
          by_cases e : k = i
          · subst e; simpa using hk
          · simpa [e] using hk
        obtain ⟨j, hj⟩ := h.token k hk'
        refine ⟨j, ?_, hj⟩
        rintro rfl
        simp [Tok, e, ha] at hj
      · simp only [Routed, e, Pc.incoming] at h8 ⊢; grind
  next e =>
    split at hs
    · rename_i hsig
      obtain rfl := Option.some.inj hs
      have ha := (h4.1 hsig).2
      have hg : gotten (s.port i).assigned = .run (s.port i).assigned := by
        cases hh : (s.port i).assigned with
        | nil => exact absurd hh ha
        | cons => rfl
      unfold wake
      dsimp only
      rw [hg]
      refine early_lane h i _ _ rfl rfl rfl ?_ ?_ ?_ ?_ ?_ ?_ ?_ ?_
      all_goals simp [State.setPort, State.setPc, State.setWorker, e] at h1 h2 h3 h4 ⊢
      · grind
      · simp [act, e, ha]
      · simp [Shape]
      · intro k _; right; right; simp
      · simp only [Routed, e, Pc.incoming] at h8 ⊢; grind
    · cases hs
  next e => cases hs

end Cru.Net
