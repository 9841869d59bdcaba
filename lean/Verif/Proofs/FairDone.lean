import Verif.Proofs.Fair
import Verif.Proofs.NetExec

/-! # The rule for termination under fair schedules -/

namespace Cru.Net

variable {n : Nat} {P G E : Type}

theorem workerStep_run {T : Task n P G E} {i : Fin n} {i₀ : P} {s s' : State n P G} {p : P} {ps : List P}
    (hr : ∀ x ∈ (s.worker i).pc.incoming, T.dest x = i) (e : (s.worker i).pc = .run (p :: ps))
    (hs : workerStep T i s = some s') : T.dest p = i ∧
      ∃ rest, pending i₀ s = p ::ₘ rest ∧ s'.g = (T.handle (T.dest p) s.g p).1 ∧
        pending i₀ s' = Bag.produced T s.g p + rest := by
  unfold workerStep at hs
  simp only [e] at hs
  obtain rfl := Option.some.inj hs
  have hd : T.dest p = i := hr p (by simp [e, Pc.incoming])
  have hmem : p ∈ pending i₀ s := by
    unfold pending
    refine Multiset.mem_add.2 (Or.inr ?_)
    rw [Multiset.mem_sum]
    exact ⟨i, Finset.mem_univ _, by simp [laneBag, e, Pc.incoming]⟩
  obtain ⟨rest, hrest⟩ := Multiset.exists_cons_of_mem hmem
  refine ⟨hd, rest, hrest, by rw [hd], ?_⟩
  have := pending_lane (i₀ := i₀) (s := s) (s' := { s.setWorker i { pc := .run ps, pod := podPush T.dest (s.worker i).pod (T.handle i s.g p).2.1, deferrals := if (T.handle i s.g p).2.2 then p :: (s.worker i).deferrals else (s.worker i).deferrals } with g := (T.handle i s.g p).1 })
    i (s.port i) _ (by simp [State.setWorker]) rfl rfl
  refine add_right_cancel (b := laneBag (s.port i) (s.worker i)) ?_
  rw [this, hrest]
  simp only [laneBag, e, Pc.incoming, podPush_sum, Bag.produced, hd, ← Multiset.singleton_add,
    ← Multiset.cons_coe]
  split
  · simp only [← Multiset.cons_coe, ← Multiset.singleton_add]; abel
  · abel

theorem workerStep_still {T : Task n P G E} {i : Fin n} {i₀ : P} {s s' : State n P G}
    (hr : ∀ x ∈ (s.worker i).pc.incoming, T.dest x = i) (e : ¬ ∃ p ps, (s.worker i).pc = .run (p :: ps))
    (hs : workerStep T i s = some s') : s'.g = s.g ∧ pending i₀ s' = pending i₀ s := by
  have hs' : workerStep (E := E) ⟨T.dest, fun _ g _ => (g, [], true), T.env⟩ i s = some s' := by
    rw [← hs]
    unfold workerStep
    rcases h : (s.worker i).pc with l | _ | _ | _ | _ | _ | _ | _
    · cases l with
      | nil => simp only [h]
      | cons p ps => exact absurd ⟨p, ps, h⟩ e
    all_goals simp only [h]
  rcases (workerStep_sim (i₀ := i₀) (T := ⟨T.dest, fun _ g _ => (g, [], true), T.env⟩) hr hs').2 with
    ⟨h1, h2, _⟩ | ⟨p, rest, h1, h2, h3⟩
  · exact ⟨h1, h2⟩
  · exact ⟨h2, by rw [h3, h1]; simp [Bag.produced]⟩

/-- Before the calling thread assigns the initial packet, it's the only one. -/
theorem boot_lanes {T : Task n P G E} {i₀ : P} {g₀ : G} {s : State n P G} (hn : 0 < n) (h : Reach T i₀ g₀ s)
    (hm : s.main = .boot ∨ s.main = .reset ∨ s.main = .start) : ∀ i, laneBag (s.port i) (s.worker i) = 0 := by
  have key : ∀ {s : State n P G}, pending i₀ s = {i₀} → (s.main = .boot ∨ s.main = .reset ∨ s.main = .start) →
      ∀ i, laneBag (s.port i) (s.worker i) = 0 := by
    intro s hp hm
    have : s.main.held i₀ = {i₀} := by rcases hm with h | h | h <;> simp [h, MPc.held]
    unfold pending at hp
    rw [this] at hp
    have h0 : ∑ i, laneBag (s.port i) (s.worker i) = 0 := add_left_cancel (hp.trans (add_zero _).symm)
    intro i
    exact (Finset.sum_eq_zero_iff.1 h0) i (Finset.mem_univ i)
  have main : (s.main = .boot ∨ s.main = .reset ∨ s.main = .start) → pending i₀ s = {i₀} := by
    clear hm
    induction h with
    | init => intro _; simp [pending, init, MPc.held, laneBag, Pc.incoming]
    | step a ha hr hs ih =>
      rename_i s s'
      intro hm
      cases a with
      | worker i =>
        change workerStep T i s = some s' at hs
        have hi := reach_inv hn hr
        have e := (workerStep_sim (i₀ := i₀) (inv_routed hi i) hs).1
        rw [e] at hm
        have hp := ih hm
        by_cases hne : ∃ p ps, (s.worker i).pc = .run (p :: ps)
        · exfalso
          have hl := key hp hm i
          obtain ⟨p, ps, hpc⟩ := hne
          rw [laneBag, hpc] at hl
          have : p ∈ (0 : Multiset P) := by rw [← hl]; simp [Pc.incoming]
          exact absurd this (Multiset.notMem_zero _)
        · rw [(workerStep_still (i₀ := i₀) (inv_routed hi i) hne hs).2, hp]
      | main =>
        change mainStep T i₀ s = some s' at hs
        have := (mainStep_sim (reach_inv hn hr) hs).2
        rw [this]
        refine ih ?_
        unfold mainStep at hs
        split at hs <;> rename_i h0
        · exact Or.inl h0
        · exact Or.inr (Or.inl h0)
        · exact Or.inr (Or.inr h0)
        · split at hs
          · obtain rfl := Option.some.inj hs; simp at hm
          · cases hs
        · split at hs <;> (obtain rfl := Option.some.inj hs; simp at hm)
        · split at hs
          · obtain rfl := Option.some.inj hs; simp at hm
          · cases hs
        · cases hs
      | env e => obtain rfl := Option.some.inj hs; exact ih hm
      | spurious => exact absurd ha id
      | spuriousMain => exact absurd ha id
  exact key (main hm) hm

theorem boot_idle {T : Task n P G E} {i₀ : P} {g₀ : G} {s : State n P G} (hn : 0 < n) (h : Reach T i₀ g₀ s)
    (hm : s.main = .boot ∨ s.main = .reset ∨ s.main = .start) (i : Fin n) :
    ¬ ∃ p ps, (s.worker i).pc = .run (p :: ps) := by
  rintro ⟨p, ps, hpc⟩
  have hl := boot_lanes hn h hm i
  rw [laneBag, hpc] at hl
  have : p ∈ (0 : Multiset P) := by rw [← hl]; simp [Pc.incoming]
  exact absurd this (Multiset.notMem_zero _)

/-- What it takes for a job that defers packets to come to an end: a measure that handling a packet decreases unless
it's merely deferred, and always a packet that's ready, so that handling it will decrease the measure however many
others are deferred first, in all states with a property that handling packets preserves. -/
structure Advances {α : Type} [LT α] (T : Task n P G E) (I : G × Multiset P → Prop) (ρ : G × Multiset P → α)
    (ready : G → P → Prop) : Prop where
  keep : ∀ g p rest, I (g, p ::ₘ rest) → I ((T.handle (T.dest p) g p).1, Bag.produced T g p + rest)
  handle : ∀ g p rest, I (g, p ::ₘ rest) →
    ρ ((T.handle (T.dest p) g p).1, Bag.produced T g p + rest) < ρ (g, p ::ₘ rest) ∨
    ((T.handle (T.dest p) g p).2 = ([], true) ∧ ¬ ready g p ∧
      (∀ q, ready g q → ready (T.handle (T.dest p) g p).1 q) ∧
      ρ ((T.handle (T.dest p) g p).1, p ::ₘ rest) = ρ (g, p ::ₘ rest))
  exists_ready : ∀ g b, I (g, b) → b ≠ 0 → ∃ p ∈ b, ready g p

theorem turn_reach {T : Task n P G E} {i₀ : P} {g₀ : G} {t : Option (Fin n)} {s s' : State n P G} (h : Reach T i₀ g₀ s)
    (hs : turn T i₀ t s = some s') : Reach T i₀ g₀ s' := by
  rcases t with _ | i
  · exact Reach.step .main trivial h hs
  · exact Reach.step (.worker i) trivial h hs

theorem scheduled_reach {T : Task n P G E} {i₀ : P} {g₀ : G} {who : Nat → Option (Fin n)} {s : State n P G}
    (h : Reach T i₀ g₀ s) (k : Nat) : Reach T i₀ g₀ (scheduled T i₀ who s k) := by
  induction k with
  | zero => exact h
  | succ k ih =>
    show Reach T i₀ g₀ ((turn T i₀ (who k) _).getD _)
    rcases hs : turn T i₀ (who k) (scheduled T i₀ who s k) with _ | s'
    · exact ih
    · exact turn_reach ih hs

/-- A sequence that never increases becomes constant. -/
theorem eventually_least {α : Type} [LT α] [WellFoundedLT α] (m : Nat → α) (h : ∀ k, m (k + 1) < m k ∨ m (k + 1) = m k)
    (k : Nat) : ∃ k', k ≤ k' ∧ ∀ d, m (k' + d) = m k' := by
  have main : ∀ a : α, ∀ k, m k = a → ∃ k', k ≤ k' ∧ ∀ d, m (k' + d) = m k' := by
    intro a
    induction a using WellFoundedLT.induction with
    | _ a ih =>
      intro k he
      by_cases hc : ∀ d, m (k + d) = m k
      · exact ⟨k, Nat.le_refl _, hc⟩
      · push Not at hc
        obtain ⟨d, hd⟩ := hc
        have : ∀ d, m (k + d) = m k ∨ ∃ d', m (k + d') < m k := by
          intro d
          induction d with
          | zero => exact Or.inl rfl
          | succ d ihd =>
            rcases ihd with h1 | h1
            · rcases h (k + d) with h2 | h2
              · exact Or.inr ⟨d + 1, by rw [← Nat.add_assoc, ← h1]; exact h2⟩
              · exact Or.inl (by rw [← Nat.add_assoc, h2, h1])
            · exact Or.inr h1
        obtain ⟨d', hd'⟩ := (this d).resolve_left hd
        obtain ⟨k', h1, h2⟩ := ih _ (he ▸ hd') (k + d') rfl
        exact ⟨k', by omega, h2⟩
  exact main _ k rfl

/-- A fair schedule runs such a job to its end. -/
theorem fair_done {α : Type} [LT α] [WellFoundedLT α] (hirr : ∀ a : α, ¬ a < a) {T : Task n P G E} {i₀ : P} {g₀ : G}
    (hn : 0 < n) {ρ : G × Multiset P → α} {ready : G → P → Prop} {I : G × Multiset P → Prop}
    (hA : Advances T I ρ ready) {who : Nat → Option (Fin n)} (hf : FairSchedule who) (s : State n P G) (hs : Reach T i₀ g₀ s)
    (hI : I (s.g, pending i₀ s)) :
    ∃ k, (scheduled T i₀ who s k).main = .done := by
  by_contra hnd
  push Not at hnd
  have hr : ∀ k, Reach T i₀ g₀ (scheduled T i₀ who s k) := scheduled_reach hs
  have hnx : ∀ k, scheduled T i₀ who s (k + 1) = (turn T i₀ (who k) (scheduled T i₀ who s k)).getD (scheduled T i₀ who s k) :=
    fun k => rfl
  have hf0 : scheduled T i₀ who s 0 = s := rfl
  generalize scheduled T i₀ who s = f at hnd hr hnx hf0
  -- every turn: nothing, an invisible step, or handling a packet
  have hturn : ∀ k, f (k + 1) = f k ∨ (∃ s', turn T i₀ (who k) (f k) = some s' ∧ f (k + 1) = s') := by
    intro k
    rcases h : turn T i₀ (who k) (f k) with _ | s'
    · left; rw [hnx k, h]; rfl
    · right; exact ⟨s', rfl, by rw [hnx k, h]; rfl⟩
  have hbag : ∀ k, ((f (k + 1)).g = (f k).g ∧ pending i₀ (f (k + 1)) = pending i₀ (f k) ∧
        ∀ i q qs, who k = some i → ((f k).worker i).pc ≠ .run (q :: qs)) ∨
      ∃ i q qs rest, who k = some i ∧ ((f k).worker i).pc = .run (q :: qs) ∧ T.dest q = i ∧
        pending i₀ (f k) = q ::ₘ rest ∧ (f (k + 1)).g = (T.handle (T.dest q) (f k).g q).1 ∧
        pending i₀ (f (k + 1)) = Bag.produced T (f k).g q + rest := by
    intro k
    have hinv := reach_inv hn (hr k)
    rcases hw : who k with _ | i
    · left
      refine ⟨?_, ?_, fun i q qs h => by cases h⟩
      · rcases hturn k with e | ⟨s', h1, e⟩
        · rw [e]
        · rw [e]; rw [hw] at h1; exact (mainStep_sim hinv h1).1
      · rcases hturn k with e | ⟨s', h1, e⟩
        · rw [e]
        · rw [e]; rw [hw] at h1; exact (mainStep_sim hinv h1).2
    · by_cases hrun : ∃ q qs, ((f k).worker i).pc = .run (q :: qs)
      · obtain ⟨q, qs, hpc⟩ := hrun
        right
        have hso : (workerStep T i (f k)).isSome := workerStep_isSome (by rw [hpc]; simp) (by rw [hpc]; simp)
        obtain ⟨s', h1⟩ := Option.isSome_iff_exists.1 hso
        obtain ⟨hd, rest, h2, h3, h4⟩ := workerStep_run (i₀ := i₀) (inv_routed hinv i) hpc h1
        have e : f (k + 1) = s' := by rw [hnx k, hw]; simp [turn, h1]
        exact ⟨i, q, qs, rest, rfl, hpc, hd, h2, by rw [e, h3], by rw [e, h4]⟩
      · left
        refine ⟨?_, ?_, fun j q qs h hpc => ?_⟩
        · rcases hturn k with e | ⟨s', h1, e⟩
          · rw [e]
          · rw [e]; rw [hw] at h1; exact (workerStep_still (i₀ := i₀) (inv_routed hinv i) hrun h1).1
        · rcases hturn k with e | ⟨s', h1, e⟩
          · rw [e]
          · rw [e]; rw [hw] at h1; exact (workerStep_still (i₀ := i₀) (inv_routed hinv i) hrun h1).2
        · cases h; exact hrun ⟨q, qs, hpc⟩
  have hII : ∀ k, I ((f k).g, pending i₀ (f k)) := by
    intro k
    induction k with
    | zero => rw [hf0]; exact hI
    | succ k ih =>
      rcases hbag k with ⟨e1, e2, _⟩ | ⟨i, q, qs, rest, _, _, _, e1, e2, e3⟩
      · rw [e1, e2]; exact ih
      · rw [e1] at ih; rw [e2, e3]; exact hA.keep _ _ _ ih
  -- the measure never increases
  have hmono : ∀ k, ρ ((f (k + 1)).g, pending i₀ (f (k + 1))) < ρ ((f k).g, pending i₀ (f k)) ∨
      ρ ((f (k + 1)).g, pending i₀ (f (k + 1))) = ρ ((f k).g, pending i₀ (f k)) := by
    intro k
    rcases hbag k with ⟨e1, e2, _⟩ | ⟨i, q, qs, rest, _, _, _, e1, e2, e3⟩
    · right; rw [e1, e2]
    · have hb := hII k
      rw [e1] at hb
      rcases hA.handle _ _ _ hb with h | ⟨h, _, _, h2⟩
      · left; rw [e1, e2, e3]; exact h
      · right
        have : Bag.produced T (f k).g q + rest = q ::ₘ rest := by simp [Bag.produced, h]
        rw [e1, e2, e3, this]; exact h2
  obtain ⟨k₀, _, hk₀⟩ := eventually_least (fun k => ρ ((f k).g, pending i₀ (f k))) hmono 0
  -- from then on every packet handled is deferred
  have hstall : ∀ d, (pending i₀ (f (k₀ + d + 1)) = pending i₀ (f (k₀ + d))) ∧
      (∀ q, ready (f (k₀ + d)).g q → ready (f (k₀ + d + 1)).g q) ∧
      ∀ i q qs, who (k₀ + d) = some i → ((f (k₀ + d)).worker i).pc = .run (q :: qs) →
        (T.handle i (f (k₀ + d)).g q).2 = ([], true) ∧ ¬ ready (f (k₀ + d)).g q := by
    intro d
    have heq : ρ ((f (k₀ + d + 1)).g, pending i₀ (f (k₀ + d + 1))) = ρ ((f (k₀ + d)).g, pending i₀ (f (k₀ + d))) :=
      (hk₀ (d + 1)).trans (hk₀ d).symm
    rcases hbag (k₀ + d) with ⟨e1, e2, h3⟩ | ⟨i, q, qs, rest, hw, hpc, hd, e1, e2, e3⟩
    · exact ⟨e2, fun q h => by rw [e1]; exact h, fun i q qs hw hpc => absurd hpc (h3 i q qs hw)⟩
    · have hb := hII (k₀ + d)
      rw [e1] at hb
      rcases hA.handle _ _ _ hb with h | ⟨h, h2, h3, _⟩
      · rw [e1, e2, e3] at heq
        rw [heq] at h
        exact absurd h (hirr _)
      · have : Bag.produced T (f (k₀ + d)).g q + rest = q ::ₘ rest := by simp [Bag.produced, h]
        refine ⟨by rw [e3, e1, this], fun q' hq' => by rw [e2]; exact h3 q' hq', ?_⟩
        intro i' q' qs' hw' hpc'
        rw [hw] at hw'; cases hw'
        rw [hpc] at hpc'; cases hpc'
        exact ⟨by rw [← hd]; exact h, h2⟩
  have hpend : ∀ d, pending i₀ (f (k₀ + d)) = pending i₀ (f k₀) := by
    intro d
    induction d with
    | zero => rfl
    | succ d ih => rw [← ih]; exact (hstall d).1
  have hnu : ∀ k s', (∀ i, ¬ ∃ q qs, ((f k).worker i).pc = .run (q :: qs)) → turn T i₀ (who k) (f k) = some s' → nu s' < nu (f k) := by
    intro k s' hrun hs'
    rcases hw : who k with _ | i
    · rw [hw] at hs'; exact mainStep_nu hs'
    · rw [hw] at hs'; exact (workerStep_nu hs').resolve_left (hrun i)
  have hen : ∀ k, ∃ t, (turn T i₀ t (f k)).isSome := by
    intro k
    rcases enabled_of_inv T i₀ (reach_inv hn (hr k)) (hnd k) with h | ⟨i, h⟩
    · exact ⟨none, h⟩
    · exact ⟨some i, h⟩
  by_cases hz : pending i₀ (f k₀) = 0
  · -- nothing pending: every step is progress towards the end
    have hrun : ∀ k, k₀ ≤ k → ∀ i, ¬ ∃ q qs, ((f k).worker i).pc = .run (q :: qs) := by
      rintro k hk i ⟨q, qs, hpc⟩
      have hp := hpend (k - k₀)
      rw [show k₀ + (k - k₀) = k by omega, hz] at hp
      have : q ∈ pending i₀ (f k) := by
        unfold pending
        refine Multiset.mem_add.2 (Or.inr ?_)
        rw [Multiset.mem_sum]
        exact ⟨i, Finset.mem_univ _, by simp [laneBag, hpc, Pc.incoming]⟩
      rw [hp] at this
      exact absurd this (Multiset.notMem_zero _)
    obtain ⟨_, _, h⟩ := fair_busy (T := T) (i₀ := i₀) hf f hnx nu (fun k => k₀ ≤ k) (fun _ => False)
      (fun k _ => hen k) (fun k s' hk hs' => Or.inr ⟨by omega, hnu k s' (hrun k hk) hs'⟩) (fun k hk _ => by omega)
      k₀ (Nat.le_refl _)
    exact h
  · -- the calling thread gets to the point where it waits
    have hnfin : ∀ k, k₀ ≤ k → ¬ (f k).main.finished := by
      intro k hk hfin
      have hp := hpend (k - k₀)
      rw [show k₀ + (k - k₀) = k by omega, (inv_finished (i₀ := i₀) (reach_inv hn (hr k)) hfin).1] at hp
      exact hz hp.symm
    have hmain : ∀ k, k₀ ≤ k → ((f k).main = .boot ∨ (f k).main = .reset ∨ (f k).main = .start) ∨ (f k).main = .wait := by
      intro k hk
      have := hnfin k hk
      rcases h : (f k).main <;> simp_all [MPc.finished]
    obtain ⟨k₁, hk₁, hw₁⟩ : ∃ k, k₀ ≤ k ∧ (f k).main = .wait := by
      rcases hmain k₀ (Nat.le_refl _) with hb | hb
      · obtain ⟨k, h1, h2⟩ := fair_busy (T := T) (i₀ := i₀) hf f hnx nu
          (fun k => k₀ ≤ k ∧ ((f k).main = .boot ∨ (f k).main = .reset ∨ (f k).main = .start))
          (fun k => (f k).main = .wait) (fun k _ => hen k)
          (fun k s' hk hs' => by
            rcases hmain (k + 1) (by omega) with h | h
            · exact Or.inr ⟨⟨by omega, h⟩, hnu k s' (boot_idle hn (hr k) hk.2) hs'⟩
            · exact Or.inl h)
          (fun k hk e => by rw [e]; exact ⟨by omega, hk.2⟩) k₀ ⟨Nat.le_refl _, hb⟩
        exact ⟨k, h1, h2⟩
      · exact ⟨k₀, Nat.le_refl _, hb⟩
    have hquiet : ∀ k, k₀ ≤ k → (f k).main = .wait → (f k).quiescent = false ∧ (f k).running ≠ 0 ∧ Early T.dest (f k) := by
      intro k hk hm
      have hi' := reach_inv hn (hr k)
      have hi := hi'
      unfold Inv at hi
      rw [hm] at hi
      have hq : (f k).quiescent = false := by
        rcases hq : (f k).quiescent with _ | _
        · rfl
        · exfalso
          have hs1 : mainStep T i₀ (f k) = some { f k with main := .dismiss 0 } := by simp [mainStep, hm, hq]
          have hr1 : Reach T i₀ g₀ { f k with main := .dismiss 0 } := Reach.step .main trivial (hr k) hs1
          have hp0 := (inv_finished (i₀ := i₀) (reach_inv hn hr1) trivial).1
          have hp1 := (mainStep_sim hi' hs1).2
          have hp := hpend (k - k₀)
          rw [show k₀ + (k - k₀) = k by omega, ← hp1, hp0] at hp
          exact hz hp.symm
      refine ⟨hq, fun h0 => ?_, hi.1⟩
      rw [hi.2.2 h0] at hq; cases hq
    have hwait : ∀ d, (f (k₁ + d)).main = .wait := by
      intro d
      induction d with
      | zero => exact hw₁
      | succ d ih =>
        have hq := (hquiet (k₁ + d) (by omega) ih).1
        rcases hturn (k₁ + d) with e | ⟨s', h1, e⟩
        · rw [← Nat.add_assoc, e]; exact ih
        · rw [← Nat.add_assoc, e]
          rcases hw : who (k₁ + d) with _ | i
          · rw [hw] at h1
            simp [turn, mainStep, ih, hq] at h1
          · rw [hw] at h1
            rw [(workerStep_sim (i₀ := i₀) (inv_routed (reach_inv hn (hr _)) i) h1).1]; exact ih
    have hstall' : ∀ d i q qs, who (k₁ + d) = some i → ((f (k₁ + d)).worker i).pc = .run (q :: qs) →
        (T.handle i (f (k₁ + d)).g q).2 = ([], true) ∧ ¬ ready (f (k₁ + d)).g q := by
      intro d i q qs hw hpc
      have e : k₁ + d = k₀ + (k₁ + d - k₀) := by omega
      rw [e] at hw hpc ⊢
      exact (hstall _).2.2 i q qs hw hpc
    have hless : ∀ d, (∃ i s', who (k₁ + d) = some i ∧ workerStep T i (f (k₁ + d)) = some s' ∧ f (k₁ + d + 1) = s' ∧ Eff i (f (k₁ + d)) s') ∧
          podmass (f (k₁ + d + 1)) = podmass (f (k₁ + d)) ∨
        f (k₁ + d + 1) = f (k₁ + d) ∧ (∀ i, who (k₁ + d) = some i → workerStep T i (f (k₁ + d)) = none) ∨
        podmass (f (k₁ + d + 1)) < podmass (f (k₁ + d)) := by
      intro d
      have hq := hquiet (k₁ + d) (by omega) (hwait d)
      rcases hs' : turn T i₀ (who (k₁ + d)) (f (k₁ + d)) with _ | s'
      · right; left
        refine ⟨by rw [hnx, hs']; rfl, fun i hw => by rw [hw] at hs'; exact hs'⟩
      · have e : f (k₁ + d + 1) = s' := by rw [hnx, hs']; rfl
        rcases hw : who (k₁ + d) with _ | i
        · rw [hw] at hs'
          simp [turn, mainStep, hwait d, hq.1] at hs'
        · rw [hw] at hs'
          rcases eff_or_less hq.2.2 hq.2.1 (fun q qs hpc => (hstall' d i q qs hw hpc).1) hs' with ⟨h1, h2⟩ | h1
          · left; exact ⟨⟨i, s', rfl, hs', e, h1⟩, by rw [e]; exact h2⟩
          · right; right; rw [e]; exact h1
    obtain ⟨d₂, _, hd₂⟩ := eventually_least (fun d => podmass (f (k₁ + d))) (fun d => by
      rcases hless d with ⟨_, h⟩ | ⟨h, _⟩ | h
      · exact Or.inr h
      · exact Or.inr (by show podmass (f (k₁ + d + 1)) = _; rw [h])
      · exact Or.inl h) 0
    have hpnd : pending i₀ (f (k₁ + d₂)) ≠ 0 := by
      have := hpend (k₁ + d₂ - k₀)
      rw [show k₀ + (k₁ + d₂ - k₀) = k₁ + d₂ by omega] at this
      rw [this]; exact hz
    obtain ⟨p, hp, hready⟩ := hA.exists_ready _ _ (hII (k₁ + d₂)) hpnd
    have hready' : ∀ a, ready (f (k₁ + d₂ + a)).g p := by
      intro a
      induction a with
      | zero => exact hready
      | succ a ih =>
        have e : k₁ + d₂ + a = k₀ + (k₁ + d₂ + a - k₀) := by omega
        have := (hstall (k₁ + d₂ + a - k₀)).2.1 p
        rw [← e] at this
        exact this ih
    have hcalm : Calm T i₀ g₀ (fun a => f (k₁ + d₂ + a)) (fun a => who (k₁ + d₂ + a)) p := by
      refine ⟨hn, fun a => hr _, fun a => ?_, fun a => ?_, fun a => hnx _, fair_shift hf _, ?_, ?_⟩
      · show (f (k₁ + d₂ + a)).main = .wait
        rw [Nat.add_assoc]; exact hwait _
      · show (f (k₁ + d₂ + a)).running ≠ 0
        rw [Nat.add_assoc]; exact (hquiet _ (by omega) (hwait _)).2.1
      · intro a i q qs hw hpc e
        have := hready' a
        rw [Nat.add_assoc] at this
        simp only [Nat.add_assoc] at hw hpc
        exact (hstall' (d₂ + a) i q qs hw hpc).2 (e ▸ this)
      · intro a i s' hw hs'
        simp only [Nat.add_assoc] at hw hs' ⊢
        rcases hless (d₂ + a) with ⟨⟨i', s'', h1, h2, _, h3⟩, _⟩ | ⟨_, h⟩ | h
        · rw [hw] at h1; cases h1
          rw [hs'] at h2; cases h2
          exact h3
        · rw [h i hw] at hs'; cases hs'
        · have e1 := hd₂ a
          have e2 := hd₂ (a + 1)
          simp only [← Nat.add_assoc] at e1 e2 h
          omega
    exact hcalm.false hp

/-- What packet handling preserves holds after any number of turns. -/
theorem scheduled_keep {T : Task n P G E} {i₀ : P} {who : Nat → Option (Fin n)} {s : State n P G} (I : G → Prop)
    (hI : ∀ i g p, I g → I (T.handle i g p).1) (h : I s.g) (k : Nat) : I (scheduled T i₀ who s k).g := by
  induction k with
  | zero => exact h
  | succ k ih =>
    show I ((turn T i₀ (who k) _).getD _).g
    rcases hs : turn T i₀ (who k) (scheduled T i₀ who s k) with _ | s'
    · exact ih
    · show I s'.g
      rcases hw : who k with _ | i
      · rw [hw] at hs
        rw [mainStep_g hs]; exact ih
      · rw [hw] at hs
        rcases workerStep_g hs with e | ⟨p, e⟩
        · rw [e]; exact ih
        · rw [e]; exact hI _ _ _ ih

/-- All threads get their turns in rotation. -/
def rounds (n : Nat) (k : Nat) : Option (Fin n) := if h : k % (n + 1) < n then some ⟨k % (n + 1), h⟩ else none

theorem rounds_fair (n : Nat) : FairSchedule (rounds n) := by
  have key : ∀ r, r < n + 1 → ∀ k, ∃ k', k ≤ k' ∧ k' % (n + 1) = r := fun r hr k =>
    ⟨k * (n + 1) + r, Nat.le_add_right_of_le (Nat.le_mul_of_pos_right k (Nat.succ_pos n)), by
      rw [Nat.mul_add_mod_self_right, Nat.mod_eq_of_lt hr]⟩
  intro t k
  rcases t with _ | i
  · obtain ⟨k', h1, h2⟩ := key n (Nat.lt_succ_self n) k
    exact ⟨k', h1, by unfold rounds; rw [dif_neg (by omega)]⟩
  · obtain ⟨k', h1, h2⟩ := key i.1 (by omega) k
    refine ⟨k', h1, ?_⟩
    unfold rounds
    rw [dif_pos (by omega)]
    exact congrArg some (Fin.ext h2)

end Cru.Net
