import Verif.Proofs.NetTerm
import Verif.Spec.Sched
import Mathlib.Data.Prod.Lex
import Mathlib.Order.WellFounded

/-! # Jobs that defer packets come to an end under every fair schedule -/

namespace Cru.Net

variable {n : Nat} {P G E : Type}

/-! ## Reasoning about fair schedules -/

theorem fair_shift {who : Nat → Option (Fin n)} (h : FairSchedule who) (k : Nat) :
    FairSchedule (fun a => who (k + a)) := by
  intro t a
  obtain ⟨k', h1, h2⟩ := h t (k + a)
  exact ⟨k' - k, by omega, by simpa [show k + (k' - k) = k' by omega] using h2⟩

/-- One thread's turns bring the goal nearer and no other's do harm. -/
theorem fair_rule {α : Type} [LT α] [WellFoundedLT α] {who : Nat → Option (Fin n)} (hf : FairSchedule who)
    (t : Option (Fin n)) (m : Nat → α) (J Q : Nat → Prop)
    (hstep : ∀ k, J k → Q (k + 1) ∨ (J (k + 1) ∧ (m (k + 1) < m k ∨ (m (k + 1) = m k ∧ who k ≠ t))))
    (k : Nat) (hk : J k) : ∃ k', k ≤ k' ∧ Q k' := by
  have main : ∀ a : α, ∀ k, m k = a → J k → ∃ k', k ≤ k' ∧ Q k' := by
    intro a
    induction a using WellFoundedLT.induction with
    | _ a ih =>
      intro k he hk
      obtain ⟨k', h1, h2⟩ := hf t k
      have : ∀ d k, m k = a → J k → k + d = k' → ∃ k', k ≤ k' ∧ Q k' := by
        intro d
        induction d with
        | zero =>
          intro k he hk e
          rcases hstep k hk with hq | ⟨hj, hm | hm⟩
          · exact ⟨k + 1, by omega, hq⟩
          · obtain ⟨x, hx, hq⟩ := ih _ (he ▸ hm) (k + 1) rfl hj
            exact ⟨x, by omega, hq⟩
          · exact absurd (by rw [show k = k' by omega]; exact h2) hm.2
        | succ d ihd =>
          intro k he hk e
          rcases hstep k hk with hq | ⟨hj, hm | hm⟩
          · exact ⟨k + 1, by omega, hq⟩
          · obtain ⟨x, hx, hq⟩ := ih _ (he ▸ hm) (k + 1) rfl hj
            exact ⟨x, by omega, hq⟩
          · obtain ⟨x, hx, hq⟩ := ihd (k + 1) (by rw [hm.1, he]) hj (by omega)
            exact ⟨x, by omega, hq⟩
      exact this (k' - k) k he hk (by omega)
  exact main _ k rfl hk

/-- Every step brings the goal nearer and some thread can always make one. -/
theorem fair_busy {α : Type} [LT α] [WellFoundedLT α] {T : Task n P G E} {i₀ : P} {who : Nat → Option (Fin n)}
    (hf : FairSchedule who) (f : Nat → State n P G)
    (hnext : ∀ k, f (k + 1) = (turn T i₀ (who k) (f k)).getD (f k)) (m : State n P G → α) (J Q : Nat → Prop)
    (hen : ∀ k, J k → ∃ t, (turn T i₀ t (f k)).isSome)
    (hstep : ∀ k s', J k → turn T i₀ (who k) (f k) = some s' → Q (k + 1) ∨ (J (k + 1) ∧ m s' < m (f k)))
    (hsame : ∀ k, J k → f (k + 1) = f k → J (k + 1))
    (k : Nat) (hk : J k) : ∃ k', k ≤ k' ∧ Q k' := by
  have main : ∀ a : α, ∀ k, m (f k) = a → J k → ∃ k', k ≤ k' ∧ Q k' := by
    intro a
    induction a using WellFoundedLT.induction with
    | _ a ih =>
      intro k he hk
      obtain ⟨t, ht⟩ := hen k hk
      obtain ⟨k', h1, h2⟩ := hf t k
      have : ∀ d k, m (f k) = a → J k → (turn T i₀ t (f k)).isSome → k + d = k' → ∃ k', k ≤ k' ∧ Q k' := by
        intro d
        induction d with
        | zero =>
          intro k he hk ht e
          obtain ⟨s', hs⟩ := Option.isSome_iff_exists.1 ht
          have e1 : k = k' := by omega
          rw [← h2, ← e1] at hs
          rcases hstep k s' hk hs with hq | ⟨hj, hm⟩
          · exact ⟨k + 1, by omega, hq⟩
          · have e2 : f (k + 1) = s' := by rw [hnext k, hs]; rfl
            obtain ⟨x, hx, hq⟩ := ih _ (he ▸ hm) (k + 1) (by rw [e2]) hj
            exact ⟨x, by omega, hq⟩
        | succ d ihd =>
          intro k he hk ht e
          rcases hs : turn T i₀ (who k) (f k) with _ | s'
          · have e2 : f (k + 1) = f k := by rw [hnext k, hs]; rfl
            obtain ⟨x, hx, hq⟩ := ihd (k + 1) (by rw [e2, he]) (hsame k hk e2) (by rw [e2]; exact ht) (by omega)
            exact ⟨x, by omega, hq⟩
          · rcases hstep k s' hk hs with hq | ⟨hj, hm⟩
            · exact ⟨k + 1, by omega, hq⟩
            · have e2 : f (k + 1) = s' := by rw [hnext k, hs]; rfl
              obtain ⟨x, hx, hq⟩ := ih _ (he ▸ hm) (k + 1) (by rw [e2]) hj
              exact ⟨x, by omega, hq⟩
      exact this (k' - k) k he hk ht (by omega)
  exact main _ k rfl hk

/-! ## What a step does while every packet that's handled is deferred -/

/-- Number of packets in the pods. -/
def podmass (s : State n P G) : Nat := ∑ i, ∑ k, ((s.worker i).pod k).length

/-- The effect of a worker's step when it neither sends nor delivers a packet. -/
inductive Eff (i : Fin n) (s s' : State n P G) : Prop
  | run (q qs) : (s.worker i).pc = .run (q :: qs) → s'.port = s.port →
      s'.worker = Function.update s.worker i ⟨.run qs, (s.worker i).pod, q :: (s.worker i).deferrals⟩ → Eff i s s'
  | stop : (s.worker i).pc = .run [] → s'.port = s.port →
      s'.worker = Function.update s.worker i { s.worker i with pc := .take } → Eff i s s'
  | idle : (s.worker i).pc = .take → (s.port i).assigned = [] → s'.port = s.port →
      s'.worker = Function.update s.worker i { s.worker i with pc := .expose } → Eff i s s'
  | get : (s.worker i).pc = .take ∨ (s.worker i).pc = .block ∨ (s.worker i).pc = .sleep → (s.port i).assigned ≠ [] →
      (∀ k, k ≠ i → s'.port k = s.port k) → (s'.port i).assigned = [] → (s'.port i).deferred = (s.port i).deferred →
      s'.worker = Function.update s.worker i { s.worker i with pc := .run (s.port i).assigned } → Eff i s s'
  | expose : (s.worker i).pc = .expose → (∀ k, k ≠ i → s'.port k = s.port k) →
      (s'.port i).assigned = (s.port i).assigned → (s'.port i).deferred = (s.worker i).deferrals ++ (s.port i).deferred →
      s'.worker = Function.update s.worker i { s.worker i with pc := .send 0 false, deferrals := [] } → Eff i s s'
  | pass (j e) : (s.worker i).pc = .send j e → (h : j < n) → (s.worker i).pod ⟨j, h⟩ = [] → s'.port = s.port →
      s'.worker = Function.update s.worker i { s.worker i with pc := .send (j + 1) e } → Eff i s s'
  | sent (j e) : (s.worker i).pc = .send j e → n ≤ j → s'.port = s.port →
      s'.worker = Function.update s.worker i { s.worker i with pc := if e then .block else .undefer 0 } → Eff i s s'
  | undefer (j) (h : j < n) : (s.worker i).pc = .undefer j → (∀ k, k ≠ ⟨j, h⟩ → s'.port k = s.port k) →
      ((s.port ⟨j, h⟩).assigned = [] ∧ (s'.port ⟨j, h⟩).assigned = (s.port ⟨j, h⟩).deferred ∧ (s'.port ⟨j, h⟩).deferred = [] ∨
        (s.port ⟨j, h⟩).assigned ≠ [] ∧ s'.port ⟨j, h⟩ = s.port ⟨j, h⟩) →
      s'.worker = Function.update s.worker i { s.worker i with pc := .undefer (j + 1) } → Eff i s s'
  | undone (j) : (s.worker i).pc = .undefer j → n ≤ j → s'.port = s.port →
      s'.worker = Function.update s.worker i { s.worker i with pc := .block } → Eff i s s'
  | sleep : (s.worker i).pc = .block → (s.port i).assigned = [] → (∀ k, k ≠ i → s'.port k = s.port k) →
      (s'.port i).assigned = [] → (s'.port i).deferred = (s.port i).deferred →
      s'.worker = Function.update s.worker i { s.worker i with pc := .sleep } → Eff i s s'

theorem podmass_worker {s s' : State n P G} {i : Fin n} {w : Worker n P} (hw : s'.worker = Function.update s.worker i w) :
    podmass s' + ∑ k, ((s.worker i).pod k).length = podmass s + ∑ k, (w.pod k).length := by
  have := sum_change (fun j => ∑ k, ((s.worker j).pod k).length) (fun j => ∑ k, ((s'.worker j).pod k).length) i
    (by intro k hk; simp [hw, Function.update_of_ne hk])
  simpa [podmass, hw] using this

theorem pod_length (pod : Fin n → List P) (j : Fin n) :
    ∑ k, (Function.update pod j [] k).length + (pod j).length = ∑ k, (pod k).length := by
  have := sum_change (fun k => (pod k).length) (fun k => (Function.update pod j [] k).length) j
    (by intro k hk; simp [Function.update_of_ne hk])
  simpa using this

theorem assign_worker' (s : State n P G) (j l) : (assign s j l).worker = s.worker := by
  unfold assign; dsimp only; split
  · rfl
  · split <;> rfl

theorem undefer1_port {s : State n P G} (j : Fin n) : (∀ k, k ≠ j → (undefer1 s j).port k = s.port k) ∧
      ((s.port j).assigned = [] ∧ ((undefer1 s j).port j).assigned = (s.port j).deferred ∧ ((undefer1 s j).port j).deferred = [] ∨
        (s.port j).assigned ≠ [] ∧ (undefer1 s j).port j = s.port j) := by
  unfold undefer1
  dsimp only
  split
  · rename_i h
    refine ⟨fun k hk => ?_, Or.inl ⟨h.1, ?_⟩⟩
    · split <;> simp [State.setPort, Function.update_of_ne hk]
    · split <;> simp [State.setPort]
  · rename_i h
    refine ⟨fun k hk => rfl, ?_⟩
    by_cases ha : (s.port j).assigned = []
    · left
      have : (s.port j).deferred = [] := by by_contra hc; exact h ⟨ha, hc⟩
      simp [ha, this]
    · right; exact ⟨ha, rfl⟩

theorem eff_or_less {T : Task n P G E} {i : Fin n} {s s' : State n P G} (he : Early T.dest s) (hr : s.running ≠ 0)
    (hst : ∀ q qs, (s.worker i).pc = .run (q :: qs) → (T.handle i s.g q).2 = ([], true))
    (hs : workerStep T i s = some s') : Eff i s s' ∧ podmass s' = podmass s ∨ podmass s' < podmass s := by
  unfold workerStep at hs
  dsimp only at hs
  split at hs
  next p ps e =>
    have h2 := hst p ps e
    left
    obtain rfl := Option.some.inj hs
    refine ⟨.run p ps e rfl (by simp [State.setWorker, h2, podPush]), ?_⟩
    have := podmass_worker (s := s) (s' := { s.setWorker i { pc := .run ps, pod := podPush T.dest (s.worker i).pod (T.handle i s.g p).2.1, deferrals := if (T.handle i s.g p).2.2 then p :: (s.worker i).deferrals else (s.worker i).deferrals } with g := (T.handle i s.g p).1 }) rfl
    simp only [h2, podPush, List.foldl_nil] at this ⊢
    omega
  next e =>
    split at hs
    · obtain rfl := Option.some.inj hs
      left
      exact ⟨.stop e rfl rfl, by have := podmass_worker (s := s) (s' := s.setPc i .take) rfl; simpa using this⟩
    · obtain rfl := Option.some.inj hs
      right
      rename_i hne
      have := podmass_worker (s := s) (s' := s.setWorker i { s.worker i with pc := .run ((s.worker i).pod i), pod := Function.update (s.worker i).pod i [] }) rfl
      have h2 := pod_length (s.worker i).pod i
      have h3 := List.length_pos_iff.2 hne
      dsimp only at this
      omega
  next e =>
    split at hs
    · obtain rfl := Option.some.inj hs
      left
      exact ⟨.idle e ‹_› rfl rfl, by have := podmass_worker (s := s) (s' := s.setPc i .expose) rfl; simpa using this⟩
    · obtain rfl := Option.some.inj hs
      left
      refine ⟨.get (Or.inl e) ‹_› (fun k hk => by simp [State.setPc, State.setWorker, State.setPort, Function.update_of_ne hk])
        (by simp [State.setPc, State.setWorker, State.setPort]) (by simp [State.setPc, State.setWorker, State.setPort]) rfl, ?_⟩
      have := podmass_worker (s := s) (s' := (s.setPort i { s.port i with assigned := [] }).setPc i (.run (s.port i).assigned)) rfl
      simpa [State.setPort] using this
  next e =>
    obtain rfl := Option.some.inj hs
    left
    refine ⟨.expose e (fun k hk => by simp [State.setWorker, State.setPort, Function.update_of_ne hk])
      (by simp [State.setWorker, State.setPort]) (by simp [State.setWorker, State.setPort]) rfl, ?_⟩
    have := podmass_worker (s := s) (s' := (s.setPort i { s.port i with deferred := (s.worker i).deferrals ++ (s.port i).deferred }).setWorker i
      { s.worker i with pc := .send 0 false, deferrals := [] }) rfl
    simpa using this
  next j en e =>
    split at hs
    · rename_i hj
      obtain rfl := Option.some.inj hs
      have := podmass_worker (s := s) (s' := assign (s.setWorker i { s.worker i with pc := .send (j + 1) (en || !((s.worker i).pod ⟨j, hj⟩).isEmpty), pod := Function.update (s.worker i).pod ⟨j, hj⟩ [] }) ⟨j, hj⟩ ((s.worker i).pod ⟨j, hj⟩)) (assign_worker' _ _ _)
      have h2 := pod_length (s.worker i).pod ⟨j, hj⟩
      by_cases hne : (s.worker i).pod ⟨j, hj⟩ = []
      · left
        refine ⟨.pass j en e hj hne ?_ ?_, ?_⟩
        · rw [hne]; simp [assign, State.setWorker]
        · rw [assign_worker']
          simp only [State.setWorker, hne, List.isEmpty_nil, Bool.not_true, Bool.or_false]
          congr 2
          rw [← hne, Function.update_eq_self]
        · rw [hne] at h2
          simp only [List.length_nil] at h2
          dsimp only at this
          omega
      · right
        have h3 := List.length_pos_iff.2 hne
        dsimp only at this
        omega
    · obtain rfl := Option.some.inj hs
      left
      exact ⟨.sent j en e (by omega) rfl rfl, by have := podmass_worker (s := s) (s' := s.setPc i (if en then .block else .undefer 0)) rfl; simpa using this⟩
  next j e =>
    split at hs
    · rename_i hj
      obtain rfl := Option.some.inj hs
      left
      refine ⟨.undefer j hj e ?_ ?_ (by rw [undefer1_worker]; rfl), ?_⟩
      · exact (undefer1_port (s := s.setPc i (.undefer (j + 1))) ⟨j, hj⟩).1
      · exact (undefer1_port (s := s.setPc i (.undefer (j + 1))) ⟨j, hj⟩).2
      · have := podmass_worker (s := s) (s' := undefer1 (s.setPc i (.undefer (j + 1))) ⟨j, hj⟩) (by rw [undefer1_worker]; rfl)
        simpa using this
    · obtain rfl := Option.some.inj hs
      left
      exact ⟨.undone j e (by omega) rfl rfl, by have := podmass_worker (s := s) (s' := s.setPc i .block) rfl; simpa using this⟩
  next e =>
    split at hs
    · rename_i hne
      obtain rfl := Option.some.inj hs
      left
      refine ⟨.get (Or.inr (Or.inl e)) hne (fun k hk => by simp [State.setPc, State.setWorker, State.setPort, Function.update_of_ne hk])
        (by simp [State.setPc, State.setWorker, State.setPort]) (by simp [State.setPc, State.setWorker, State.setPort]) rfl, ?_⟩
      have := podmass_worker (s := s) (s' := (s.setPort i { s.port i with assigned := [] }).setPc i (.run (s.port i).assigned)) rfl
      simpa [State.setPort] using this
    · rename_i hne
      simp only [he.undismissed i, Bool.false_eq_true, if_false, hr] at hs
      obtain rfl := Option.some.inj hs
      left
      refine ⟨.sleep e (by simpa using hne) (fun k hk => by simp [State.setPc, State.setWorker, State.setPort, Function.update_of_ne hk])
        (by simp [State.setPc, State.setWorker, State.setPort]; simpa using hne) (by simp [State.setPc, State.setWorker, State.setPort]) rfl, ?_⟩
      exact Nat.add_right_cancel (podmass_worker (s := s) (i := i) (w := { s.worker i with pc := .sleep }) rfl)
  next e =>
    split at hs
    · rename_i hsig
      have ha := ((he.signalled i).1 hsig).2
      obtain rfl := Option.some.inj hs
      left
      have hg : gotten (s.port i).assigned = .run (s.port i).assigned := by
        cases h : (s.port i).assigned with
        | nil => exact absurd h ha
        | cons => rfl
      refine ⟨.get (Or.inr (Or.inr e)) ha (fun k hk => by simp [wake, State.setPc, State.setWorker, State.setPort, Function.update_of_ne hk])
        (by simp [wake, State.setPc, State.setWorker, State.setPort]) (by simp [wake, State.setPc, State.setWorker, State.setPort])
        (by simp [wake, State.setPc, State.setWorker, State.setPort, hg]), ?_⟩
      have := podmass_worker (s := s) (s' := wake s i) (i := i) (w := { s.worker i with pc := .run (s.port i).assigned })
        (by simp [wake, State.setPc, State.setWorker, State.setPort, hg])
      simpa using this
    · cases hs
  next e => cases hs

/-! ## The measure of a worker's progress -/

def prog (n : Nat) : Pc P → Nat
  | .gone => 0
  | .sleep => 1
  | .block => 2
  | .undefer j => 3 + (n - j)
  | .send j _ => 4 + n + (n - j)
  | .expose => 5 + n + n
  | .take => 6 + n + n
  | .run l => 7 + n + n + l.length

/-- Before the worker exposes the packets it has deferred. -/
def inside : Pc P → Nat
  | .run _ | .take | .expose => 1
  | _ => 0

def lag (i : Fin n) (s : State n P G) : Nat ×ₗ Nat ×ₗ Nat :=
  toLex (inside (s.worker i).pc,
    toLex ((s.port i).assigned.length + (s.port i).deferred.length, prog n (s.worker i).pc))

theorem lex3 {a b c a' b' c' : Nat} (h : a' < a ∨ a' = a ∧ (b' < b ∨ b' = b ∧ c' < c)) :
    (toLex (a', toLex (b', c')) : Nat ×ₗ Nat ×ₗ Nat) < toLex (a, toLex (b, c)) := by
  rw [Prod.Lex.lt_iff]
  rcases h with h | ⟨h, h2⟩
  · exact Or.inl h
  · refine Or.inr ⟨h, ?_⟩
    show (toLex (b', c') : Nat ×ₗ Nat) < toLex (b, c)
    rw [Prod.Lex.lt_iff]
    exact h2

/-- Other threads leave a worker's queues alone, except for making deferred packets assigned ones. -/
theorem eff_other {i k : Fin n} {s s' : State n P G} (h : Eff i s s') (hk : k ≠ i) :
    s'.worker k = s.worker k ∧ (s'.port k = s.port k ∨
      (s.worker i).pc = .undefer k.1 ∧ (s.port k).assigned = [] ∧ (s'.port k).assigned = (s.port k).deferred ∧
        (s'.port k).deferred = []) := by
  cases h with
  | run q qs _ hp hw => exact ⟨by rw [hw, Function.update_of_ne hk], Or.inl (by rw [hp])⟩
  | stop _ hp hw => exact ⟨by rw [hw, Function.update_of_ne hk], Or.inl (by rw [hp])⟩
  | idle _ _ hp hw => exact ⟨by rw [hw, Function.update_of_ne hk], Or.inl (by rw [hp])⟩
  | get _ _ hp _ _ hw => exact ⟨by rw [hw, Function.update_of_ne hk], Or.inl (hp k hk)⟩
  | expose _ hp _ _ hw => exact ⟨by rw [hw, Function.update_of_ne hk], Or.inl (hp k hk)⟩
  | pass j e _ _ _ hp hw => exact ⟨by rw [hw, Function.update_of_ne hk], Or.inl (by rw [hp])⟩
  | sent j e _ _ hp hw => exact ⟨by rw [hw, Function.update_of_ne hk], Or.inl (by rw [hp])⟩
  | undefer j hj hpc hp hq hw =>
    refine ⟨by rw [hw, Function.update_of_ne hk], ?_⟩
    by_cases e : k = ⟨j, hj⟩
    · subst e
      rcases hq with ⟨h1, h2, h3⟩ | ⟨_, h2⟩
      · exact Or.inr ⟨hpc, h1, h2, h3⟩
      · exact Or.inl h2
    · exact Or.inl (hp k e)
  | undone j _ _ hp hw => exact ⟨by rw [hw, Function.update_of_ne hk], Or.inl (by rw [hp])⟩
  | sleep _ _ hp _ _ hw => exact ⟨by rw [hw, Function.update_of_ne hk], Or.inl (hp k hk)⟩

theorem lag_other {i k : Fin n} {s s' : State n P G} (h : Eff i s s') (hk : k ≠ i) : lag k s' = lag k s := by
  obtain ⟨h1, h2 | ⟨_, h2, h3, h4⟩⟩ := eff_other h hk
  · simp [lag, h1, h2]
  · simp [lag, h1, h2, h3, h4]

/-- A worker's own steps are progress, except for getting packets after having blocked. -/
theorem lag_own {i : Fin n} {s s' : State n P G} (h : Eff i s s') :
    lag i s' < lag i s ∨ (s.port i).assigned ≠ [] ∧ (s'.worker i).pc = .run (s.port i).assigned ∧
      (s'.port i).assigned = [] ∧ (s'.port i).deferred = (s.port i).deferred ∧
      ((s.worker i).pc = .block ∨ (s.worker i).pc = .sleep) := by
  cases h with
  | run q qs hpc hp hw =>
    left; apply lex3; right
    simp [hpc, hp, hw, inside, prog]
  | stop hpc hp hw => left; apply lex3; right; simp [hpc, hp, hw, inside, prog]
  | idle hpc _ hp hw => left; apply lex3; right; simp [hpc, hp, hw, inside, prog]
  | get hpc ha hp h1 h2 hw =>
    rcases hpc with hpc | hpc
    · left; apply lex3; right
      refine ⟨by simp [hpc, hw, inside], Or.inl ?_⟩
      have := List.length_pos_iff.2 ha
      simp [h1, h2, this]
    · right
      exact ⟨ha, by simp [hw], h1, h2, hpc⟩
  | expose hpc hp h1 h2 hw => left; apply lex3; left; simp [hpc, hw, inside]
  | pass j e hpc hj _ hp hw =>
    left; apply lex3; right; simp [hpc, hp, hw, inside, prog]; omega
  | sent j e hpc hj hp hw =>
    left; apply lex3; right
    cases e <;> simp [hpc, hp, hw, inside, prog] <;> omega
  | undefer j hj hpc hp hq hw =>
    left; apply lex3; right
    refine ⟨by simp [hpc, hw, inside], Or.inr ⟨?_, by simp [hpc, hw, prog]; omega⟩⟩
    by_cases e : i = ⟨j, hj⟩
    · rcases hq with ⟨h1, h2, h3⟩ | ⟨_, h2⟩
      · rw [e, h1, h2, h3]; simp
      · rw [e, h2]
    · rw [hp i e]
  | undone j hpc hj hp hw => left; apply lex3; right; simp [hpc, hp, hw, inside, prog]; omega
  | sleep hpc ha hp h1 h2 hw => left; apply lex3; right; simp [hpc, h1, h2, ha, hw, inside, prog]

/-! ## No packet waits for ever -/

/-- An endless fair run in which no packet is delivered, every packet that's handled is deferred and `p` isn't handled. -/
structure Calm (T : Task n P G E) (i₀ : P) (g₀ : G) (f : Nat → State n P G) (who : Nat → Option (Fin n)) (p : P) : Prop where
  pos : 0 < n
  reach : ∀ k, Reach T i₀ g₀ (f k)
  main : ∀ k, (f k).main = .wait
  busy : ∀ k, (f k).running ≠ 0
  next : ∀ k, f (k + 1) = (turn T i₀ (who k) (f k)).getD (f k)
  fair : FairSchedule who
  other : ∀ k i q qs, who k = some i → ((f k).worker i).pc = .run (q :: qs) → q ≠ p
  eff : ∀ k i s', who k = some i → workerStep T i (f k) = some s' → Eff i (f k) s'

namespace Calm

variable {T : Task n P G E} {i₀ : P} {g₀ : G} {f : Nat → State n P G} {who : Nat → Option (Fin n)} {p : P}

theorem early (c : Calm T i₀ g₀ f who p) (k : Nat) : Early T.dest (f k) := by
  have := reach_inv c.pos (c.reach k)
  unfold Inv at this
  rw [c.main k] at this
  exact this.1

/-- What happens in one turn. -/
theorem cases (c : Calm T i₀ g₀ f who p) (k : Nat) :
    (f (k + 1) = f k ∧ ∀ i, who k = some i → workerStep T i (f k) = none) ∨
      ∃ i, who k = some i ∧ Eff i (f k) (f (k + 1)) := by
  have h := c.next k
  rcases hw : who k with _ | i
  · left
    refine ⟨?_, fun i e => by cases e⟩
    rw [h, hw]
    show (mainStep T i₀ (f k)).getD (f k) = f k
    have hq : (f k).quiescent = false := by
      have := reach_inv c.pos (c.reach k)
      unfold Inv at this
      rw [c.main k] at this
      rcases hq : (f k).quiescent with _ | _
      · rfl
      · exact absurd (this.2.1 hq) (c.busy k)
    simp [mainStep, c.main k, hq]
  · rw [hw] at h
    rcases hs : workerStep T i (f k) with _ | s'
    · left
      refine ⟨?_, fun i' e => by cases e; exact hs⟩
      rw [h]; simp [turn, hs]
    · right
      have e : f (k + 1) = s' := by rw [h]; simp [turn, hs]
      exact ⟨i, rfl, by rw [e]; exact c.eff k i s' hw hs⟩

/-- A worker that isn't asleep without anything assigned can go on. -/
theorem enabled (c : Calm T i₀ g₀ f who p) (k : Nat) (i : Fin n)
    (h : ((f k).port i).assigned ≠ [] ∨ ((f k).worker i).pc ≠ .sleep) : workerStep T i (f k) ≠ none := by
  have := workerStep_isSome (T := T) (i := i) (s := f k) ((c.early k).present i)
    (fun hs => ((c.early k).signalled i).2 ⟨hs, h.resolve_right (fun h => h hs)⟩)
  intro e; rw [e] at this; cases this

/-- The rule for one worker's progress. -/
theorem rule (c : Calm T i₀ g₀ f who p) (i : Fin n) (J Q : Nat → Prop)
    (hen : ∀ k, J k → ((f k).port i).assigned ≠ [] ∨ ((f k).worker i).pc ≠ .sleep)
    (hother : ∀ k i', J k → i' ≠ i → Eff i' (f k) (f (k + 1)) → Q (k + 1) ∨ J (k + 1))
    (hsame : ∀ k, J k → f (k + 1) = f k → J (k + 1))
    (hown : ∀ k, J k → who k = some i → Eff i (f k) (f (k + 1)) →
      Q (k + 1) ∨ (J (k + 1) ∧ lag i (f (k + 1)) < lag i (f k)))
    (k : Nat) (hk : J k) : ∃ k', k ≤ k' ∧ Q k' := by
  refine fair_rule c.fair (some i) (fun k => lag i (f k)) J Q (fun k hJ => ?_) k hk
  rcases c.cases k with ⟨e, hn⟩ | ⟨i', hw, he⟩
  · refine Or.inr ⟨hsame k hJ e, Or.inr ⟨by rw [e], fun hw => ?_⟩⟩
    exact c.enabled k i (hen k hJ) (hn i hw)
  · by_cases hi : i' = i
    · subst hi
      rcases hown k hJ hw he with h | h
      · exact Or.inl h
      · exact Or.inr ⟨h.1, Or.inl h.2⟩
    · rcases hother k i' hJ hi he with h | h
      · exact Or.inl h
      · refine Or.inr ⟨h, Or.inr ⟨lag_other he (Ne.symm hi), ?_⟩⟩
        rw [hw]; intro e; exact hi (Option.some.inj e)

/-- A packet in hand is handled. -/
theorem in_hand (c : Calm T i₀ g₀ f who p) (i : Fin n) (k : Nat) (h : p ∈ ((f k).worker i).pc.incoming) : False := by
  obtain ⟨_, _, h⟩ := c.rule i (fun k => p ∈ ((f k).worker i).pc.incoming) (fun _ => False)
    (fun k hJ => Or.inr (by intro e; rw [e] at hJ; simp [Pc.incoming] at hJ))
    (fun k i' hJ hi he => Or.inr (by rw [(eff_other he (Ne.symm hi)).1]; exact hJ))
    (fun k hJ e => by rw [e]; exact hJ)
    (fun k hJ hw he => by
      right
      rcases lag_own he with hl | ⟨_, _, _, _, hpc | hpc⟩
      · refine ⟨?_, hl⟩
        cases he with
        | run q qs hpc hp hw' =>
          have := c.other k i q qs hw hpc
          rw [hpc] at hJ
          rw [hw']
          simp only [Pc.incoming, List.mem_cons, Function.update_self] at hJ ⊢
          exact hJ.resolve_left (Ne.symm this)
        | stop hpc => simp [hpc, Pc.incoming] at hJ
        | idle hpc => simp [hpc, Pc.incoming] at hJ
        | get hpc => rcases hpc with hpc | hpc | hpc <;> simp [hpc, Pc.incoming] at hJ
        | expose hpc => simp [hpc, Pc.incoming] at hJ
        | pass j e hpc => simp [hpc, Pc.incoming] at hJ
        | sent j e hpc => simp [hpc, Pc.incoming] at hJ
        | undefer j hj hpc => simp [hpc, Pc.incoming] at hJ
        | undone j hpc => simp [hpc, Pc.incoming] at hJ
        | sleep hpc => simp [hpc, Pc.incoming] at hJ
      · simp [hpc, Pc.incoming] at hJ
      · simp [hpc, Pc.incoming] at hJ)
    k h
  exact h

/-- Assigned packets stay until they are taken all together. -/
theorem taken (c : Calm T i₀ g₀ f who p) (i : Fin n) (k : Nat) (h : ((f k).port i).assigned ≠ []) :
    ∃ k', k ≤ k' ∧ ((f k').worker i).pc = .run ((f k).port i).assigned ∧ ((f k').port i).assigned = [] ∧
      ∀ x ∈ ((f k).port i).deferred, x ∈ ((f k').port i).deferred := by
  refine c.rule i (fun k' => ((f k').port i).assigned = ((f k).port i).assigned ∧
      ∀ x ∈ ((f k).port i).deferred, x ∈ ((f k').port i).deferred)
    (fun k' => ((f k').worker i).pc = .run ((f k).port i).assigned ∧ ((f k').port i).assigned = [] ∧
      ∀ x ∈ ((f k).port i).deferred, x ∈ ((f k').port i).deferred)
    (fun k' hJ => Or.inl (by rw [hJ.1]; exact h)) (fun k' i' hJ hi he => ?_) (fun k' hJ e => by rw [e]; exact hJ)
    (fun k' hJ hw he => ?_) k ⟨rfl, fun x hx => hx⟩
  · right
    rcases (eff_other he (Ne.symm hi)).2 with e | ⟨_, e, _⟩
    · rw [e]; exact hJ
    · rw [hJ.1] at e; exact absurd e h
  · rcases lag_own he with hl | ⟨h1, h2, h3, h4, _⟩
    · cases he with
      | run q qs _ hp => exact Or.inr ⟨by rw [hp]; exact hJ, hl⟩
      | stop _ hp => exact Or.inr ⟨by rw [hp]; exact hJ, hl⟩
      | idle _ ha => rw [hJ.1] at ha; exact absurd ha h
      | get _ _ _ h1 h2 hw' =>
        left
        exact ⟨by rw [hw', hJ.1]; simp, h1, by rw [h2]; exact hJ.2⟩
      | expose _ _ h1 h2 =>
        refine Or.inr ⟨⟨by rw [h1]; exact hJ.1, ?_⟩, hl⟩
        intro x hx; rw [h2]; exact List.mem_append_right _ (hJ.2 x hx)
      | pass j e _ _ _ hp => exact Or.inr ⟨by rw [hp]; exact hJ, hl⟩
      | sent j e _ _ hp => exact Or.inr ⟨by rw [hp]; exact hJ, hl⟩
      | undefer j hj _ hp hq =>
        refine Or.inr ⟨?_, hl⟩
        by_cases e : i = ⟨j, hj⟩
        · rcases hq with ⟨h1, _⟩ | ⟨_, h2⟩
          · rw [← e, hJ.1] at h1; exact absurd h1 h
          · rw [e, h2, ← e]; exact hJ
        · rw [hp i e]; exact hJ
      | undone j _ _ hp => exact Or.inr ⟨by rw [hp]; exact hJ, hl⟩
      | sleep _ ha => rw [hJ.1] at ha; exact absurd ha h
    · left
      exact ⟨by rw [h2, hJ.1], h3, by rw [h4]; exact hJ.2⟩

theorem in_assigned (c : Calm T i₀ g₀ f who p) (i : Fin n) (k : Nat) (h : p ∈ ((f k).port i).assigned) : False := by
  obtain ⟨k', _, h1, _⟩ := c.taken i k (by intro e; rw [e] at h; cases h)
  exact c.in_hand i k' (by rw [h1]; exact h)

/-- A worker that is going to look at port `j`. -/
def Pre (j : Fin n) : Pc P → Prop
  | .run _ | .take | .expose => True
  | .send _ e => e = false
  | .undefer k => k ≤ j.1
  | _ => False

/-- A packet deferred at a port stays there until it's assigned to it again. -/
theorem stays (c : Calm T i₀ g₀ f who p) (j : Fin n) (k : Nat)
    (h : p ∈ ((f k).port j).deferred ∧ ((f k).port j).assigned = []) :
    ∀ d, p ∈ ((f (k + d)).port j).deferred ∧ ((f (k + d)).port j).assigned = [] := by
  intro d
  induction d with
  | zero => exact h
  | succ d ih =>
    rcases c.cases (k + d) with ⟨e, _⟩ | ⟨i, hw, he⟩
    · rw [← Nat.add_assoc, e]; exact ih
    · rw [← Nat.add_assoc]
      by_cases hi : j = i
      · subst hi
        cases he with
        | run q qs _ hp => rw [hp]; exact ih
        | stop _ hp => rw [hp]; exact ih
        | idle _ _ hp => rw [hp]; exact ih
        | get _ ha => exact absurd ih.2 ha
        | expose _ _ h1 h2 => exact ⟨by rw [h2]; exact List.mem_append_right _ ih.1, by rw [h1]; exact ih.2⟩
        | pass _ e _ _ _ hp => rw [hp]; exact ih
        | sent _ e _ _ hp => rw [hp]; exact ih
        | undefer j' hj _ hp hq =>
          by_cases e : j = ⟨j', hj⟩
          · subst e
            rcases hq with ⟨_, h2, _⟩ | ⟨h1, _⟩
            · exact absurd (by rw [h2]; exact ih.1) (fun hx => c.in_assigned ⟨j', hj⟩ _ hx)
            · exact absurd ih.2 h1
          · rw [hp j e]; exact ih
        | undone _ _ _ hp => rw [hp]; exact ih
        | sleep _ _ _ h1 h2 => exact ⟨by rw [h2]; exact ih.1, h1⟩
      · rcases (eff_other he hi).2 with e | ⟨_, _, h2, _⟩
        · rw [e]; exact ih
        · exact absurd (by rw [h2]; exact ih.1) (fun hx => c.in_assigned j _ hx)

theorem pre_false (c : Calm T i₀ g₀ f who p) (i j : Fin n) (k : Nat)
    (h : p ∈ ((f k).port j).deferred ∧ ((f k).port j).assigned = []) (hp : Pre j ((f k).worker i).pc) : False := by
  have hst := c.stays j k h
  have hst' : ∀ k', k ≤ k' → p ∈ ((f k').port j).deferred ∧ ((f k').port j).assigned = [] := by
    intro k' hk; have := hst (k' - k); rwa [show k + (k' - k) = k' by omega] at this
  obtain ⟨_, _, h⟩ := c.rule i (fun k' => k ≤ k' ∧ Pre j ((f k').worker i).pc) (fun _ => False)
    (fun k' hJ => Or.inr (by intro e; rw [e] at hJ; exact hJ.2))
    (fun k' i' hJ hi he => Or.inr (by rw [(eff_other he (Ne.symm hi)).1]; exact ⟨by omega, hJ.2⟩))
    (fun k' hJ e => by rw [e]; exact ⟨by omega, hJ.2⟩)
    (fun k' hJ hw he => by
      right
      obtain ⟨hk, hJ⟩ := hJ
      rcases lag_own he with hl | ⟨_, _, _, _, hpc | hpc⟩
      · refine ⟨⟨by omega, ?_⟩, hl⟩
        cases he with
        | run q qs hpc _ hw' => simp [hw', Pre]
        | stop hpc _ hw' => simp [hw', Pre]
        | idle hpc _ _ hw' => simp [hw', Pre]
        | get hpc _ _ _ _ hw' => simp [hw', Pre]
        | expose hpc _ _ _ hw' => simp [hw', Pre]
        | pass j' e hpc _ _ _ hw' => rw [hpc] at hJ; simp only [Pre] at hJ; simp [hw', Pre, hJ]
        | sent j' e hpc _ _ hw' => rw [hpc] at hJ; simp only [Pre] at hJ; simp [hw', Pre, hJ]
        | undefer j' hj hpc hp hq hw' =>
          rw [hpc] at hJ
          simp only [Pre] at hJ
          by_cases e : j = ⟨j', hj⟩
          · exfalso
            subst e
            have hd := hst' k' hk
            rcases hq with ⟨_, h2, _⟩ | ⟨h1, _⟩
            · exact c.in_assigned ⟨j', hj⟩ (k' + 1) (by rw [h2]; exact hd.1)
            · exact h1 hd.2
          · have : j' ≠ j.1 := fun h => e (Fin.ext h.symm)
            simp only [hw', Function.update_self, Pre]; omega
        | undone j' hpc hj =>
          rw [hpc] at hJ
          simp only [Pre] at hJ
          have := j.2; omega
        | sleep hpc => rw [hpc] at hJ; exact absurd hJ id
      · rw [hpc] at hJ; exact absurd hJ id
      · rw [hpc] at hJ; exact absurd hJ id)
    k ⟨Nat.le_refl _, hp⟩
  exact h

theorem in_deferred (c : Calm T i₀ g₀ f who p) (j : Fin n) (k : Nat) (h : p ∈ ((f k).port j).deferred) : False := by
  have main : ∀ k, p ∈ ((f k).port j).deferred → ((f k).port j).assigned = [] → False := by
    intro k h ha
    obtain ⟨i, hi⟩ := (c.early k).token j (by intro e; rw [e] at h; cases h)
    rcases hi with hi | hi
    · obtain ⟨k', hk, h1, _⟩ := c.taken i k hi
      have := c.stays j k ⟨h, ha⟩ (k' - k)
      rw [show k + (k' - k) = k' by omega] at this
      exact c.pre_false i j k' this (by rw [h1]; trivial)
    · refine c.pre_false i j k ⟨h, ha⟩ ?_
      revert hi
      cases ((f k).worker i).pc <;> simp [Pre]
  by_cases ha : ((f k).port j).assigned = []
  · exact main k h ha
  · obtain ⟨k', _, _, h2, h3⟩ := c.taken j k ha
    exact main k' (h3 p h) h2

theorem in_deferrals (c : Calm T i₀ g₀ f who p) (i : Fin n) (k : Nat) (h : p ∈ ((f k).worker i).deferrals) : False := by
  have hin : ∀ k, p ∈ ((f k).worker i).deferrals → inside ((f k).worker i).pc = 1 := by
    intro k h
    have := (c.early k).shape i
    unfold Shape at this
    split at this <;> rename_i e
    · rw [e]; rfl
    · rw [e]; rfl
    · rw [e]; rfl
    all_goals (rw [this.1] at h; cases h)
  obtain ⟨_, _, h⟩ := c.rule i (fun k => p ∈ ((f k).worker i).deferrals) (fun _ => False)
    (fun k hJ => Or.inr (by intro e; have := hin k hJ; rw [e] at this; simp [inside] at this))
    (fun k i' hJ hi he => Or.inr (by rw [(eff_other he (Ne.symm hi)).1]; exact hJ))
    (fun k hJ e => by rw [e]; exact hJ)
    (fun k hJ hw he => by
      right
      have hI := hin k hJ
      rcases lag_own he with hl | ⟨_, _, _, _, hpc | hpc⟩
      · refine ⟨?_, hl⟩
        cases he with
        | run q qs hpc hp hw' => rw [hw']; simp [hJ]
        | stop hpc _ hw' => rw [hw']; simpa using hJ
        | idle hpc _ _ hw' => rw [hw']; simpa using hJ
        | get hpc _ _ _ _ hw' => rw [hw']; simpa using hJ
        | expose hpc _ _ h2 => exact absurd (by rw [h2]; exact List.mem_append_left _ hJ) (fun hx => c.in_deferred i (k + 1) hx)
        | pass j e hpc => simp [hpc, inside] at hI
        | sent j e hpc => simp [hpc, inside] at hI
        | undefer j hj hpc => simp [hpc, inside] at hI
        | undone j hpc => simp [hpc, inside] at hI
        | sleep hpc => simp [hpc, inside] at hI
      · simp [hpc, inside] at hI
      · simp [hpc, inside] at hI)
    k h
  exact h

/-- Eventually a pod that isn't empty would be delivered. -/
theorem in_pod (c : Calm T i₀ g₀ f who p) (i j : Fin n) (k : Nat) (h : ((f k).worker i).pod j ≠ []) : False := by
  have hin : ∀ k, ((f k).worker i).pod j ≠ [] → ((f k).worker i).pc ≠ .sleep ∧ ((f k).worker i).pc ≠ .block ∧
      (∀ a, ((f k).worker i).pc ≠ .undefer a) ∧ ∀ a e, ((f k).worker i).pc = .send a e → a < n := by
    intro k h
    have := (c.early k).shape i
    unfold Shape at this
    split at this <;> rename_i e
    · simp [e]
    · simp [e]
    · simp [e]
    · simp only [e]
      refine ⟨by simp, by simp, by simp, ?_⟩
      intro a e' he
      cases he
      by_contra hc
      exact h (this.2 j (by have := j.2; omega))
    all_goals exact absurd (this.2 j) h
  obtain ⟨_, _, h⟩ := c.rule i (fun k => ((f k).worker i).pod j ≠ []) (fun _ => False)
    (fun k hJ => Or.inr (hin k hJ).1)
    (fun k i' hJ hi he => Or.inr (by rw [(eff_other he (Ne.symm hi)).1]; exact hJ))
    (fun k hJ e => by rw [e]; exact hJ)
    (fun k hJ hw he => by
      right
      obtain ⟨i1, i2, i3, i4⟩ := hin k hJ
      rcases lag_own he with hl | ⟨_, _, _, _, hpc | hpc⟩
      · refine ⟨?_, hl⟩
        cases he with
        | run q qs hpc hp hw' => rw [hw']; simpa using hJ
        | stop hpc _ hw' => rw [hw']; simpa using hJ
        | idle hpc _ _ hw' => rw [hw']; simpa using hJ
        | get hpc _ _ _ _ hw' => rw [hw']; simpa using hJ
        | expose hpc _ _ _ hw' => rw [hw']; simpa using hJ
        | pass a e hpc _ _ _ hw' => rw [hw']; simpa using hJ
        | sent a e hpc ha => exact absurd (i4 a e hpc) (by omega)
        | undefer a ha hpc => exact absurd hpc (i3 a)
        | undone a hpc => exact absurd hpc (i3 a)
        | sleep hpc => exact absurd hpc i2
      · exact absurd hpc i2
      · exact absurd hpc i1)
    k h
  exact h

/-- There's no such run: every pending packet is handled sooner or later. -/
theorem false (c : Calm T i₀ g₀ f who p) (h : p ∈ pending i₀ (f 0)) : False := by
  unfold pending at h
  rw [c.main 0] at h
  simp only [MPc.held, zero_add, Multiset.mem_sum, Finset.mem_univ, true_and] at h
  obtain ⟨i, h⟩ := h
  simp only [laneBag, Multiset.mem_add, Multiset.mem_coe, Multiset.mem_sum, Finset.mem_univ, true_and] at h
  rcases h with (((h | h) | h) | h) | ⟨j, h⟩
  · exact c.in_assigned i 0 h
  · exact c.in_deferred i 0 h
  · exact c.in_hand i 0 h
  · exact c.in_deferrals i 0 h
  · exact c.in_pod i j 0 (by intro e; rw [e] at h; cases h)

end Calm

end Cru.Net
