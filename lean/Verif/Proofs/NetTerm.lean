import Verif.Proofs.NetMain
import Mathlib.Tactic.Ring

namespace Cru.Net

variable {n : Nat} {P G E : Type}

/-- Rank of a program point within one trip round the worker's loop. -/
def rank (n : Nat) : Pc P → Nat
  | .gone => 0
  | .sleep => 1
  | .block => 2
  | .undefer j => 3 + (n - j)
  | .send j _ => 4 + n + (n - j)
  | .expose => 5 + n + n
  | .take => 6 + n + n
  | .run _ => 7 + n + n

def K (n : Nat) : Nat := 10 + n + n

def mrank (n : Nat) : MPc → Nat
  | .boot => n + 6 + 2 * K n
  | .reset => n + 5 + 2 * K n
  | .start => n + 4 + 2 * K n
  | .wait => n + 3
  | .dismiss j => (n - j) + 2
  | .join => 1
  | .done => 0

def laneM (p : Port P) (w : Worker n P) : Nat :=
  K n * p.assigned.length + 2 * K n * p.deferred.length + 3 * K n * w.deferrals.length
    + ∑ j, 2 * K n * (w.pod j).length + rank n w.pc

/-- Potential: decreases at every step that handles no packet. -/
def nu (s : State n P G) : Nat := ∑ i, laneM (s.port i) (s.worker i) + mrank n s.main

theorem nu_lane {s s' : State n P G} (i : Fin n) (p' : Port P) (w' : Worker n P)
    (hp : s'.port = Function.update s.port i p') (hw : s'.worker = Function.update s.worker i w')
    (hm : s'.main = s.main) : nu s' + laneM (s.port i) (s.worker i) = nu s + laneM p' w' := by
  have hs := sum_change (fun k => laneM (s.port k) (s.worker k)) (fun k => laneM (s'.port k) (s'.worker k)) i
    (by intro k hk; simp [hp, hw, Function.update_of_ne hk])
  have e : laneM (s'.port i) (s'.worker i) = laneM p' w' := by simp [hp, hw]
  simp only [e] at hs
  unfold nu
  rw [hm]; omega

theorem nu_lt {s s' : State n P G} (i : Fin n) (p' : Port P) (w' : Worker n P)
    (hp : s'.port = Function.update s.port i p') (hw : s'.worker = Function.update s.worker i w')
    (hm : s'.main = s.main) (h : laneM p' w' < laneM (s.port i) (s.worker i)) : nu s' < nu s := by
  have := nu_lane i p' w' hp hw hm; omega

theorem nu_assign (s : State n P G) (j : Fin n) (l : List P) :
    nu (assign s j l) = nu s + K n * l.length := by
  unfold assign
  split
  · rename_i h; simp [h]
  · dsimp only
    have key : ∀ s' : State n P G, s'.port = Function.update s.port j { s.port j with
        assigned := l ++ (s.port j).assigned,
        signalled := (s.port j).signalled || ((s.port j).waiting && (s.port j).assigned.isEmpty) } →
        s'.worker = s.worker → s'.main = s.main → nu s' = nu s + K n * l.length := by
      intro s' hp hw hm
      have := nu_lane (s := s) (s' := s') j _ (s.worker j) hp (by simp [hw]) hm
      simp only [laneM, List.length_append, Nat.mul_add] at this
      omega
    split <;> exact key _ rfl rfl rfl

theorem nu_undefer1 (s : State n P G) (j : Fin n) : nu (undefer1 s j) ≤ nu s := by
  unfold undefer1
  dsimp only
  split
  · rename_i h
    have key : ∀ s' : State n P G, s'.port = Function.update s.port j { s.port j with
        assigned := (s.port j).deferred, deferred := [], signalled := (s.port j).signalled || (s.port j).waiting } →
        s'.worker = s.worker → s'.main = s.main → nu s' ≤ nu s := by
      intro s' hp hw hm
      have := nu_lane (s := s) (s' := s') j _ (s.worker j) hp (by simp [hw]) hm
      simp only [laneM, h.1, List.length_nil] at this
      have : 2 * K n * (s.port j).deferred.length = K n * (s.port j).deferred.length + K n * (s.port j).deferred.length := by ring
      omega
    split <;> exact key _ rfl rfl rfl
  · exact Nat.le_refl _

theorem pod_clear_len (pod : Fin n → List P) (j : Fin n) :
    ∑ k, 2 * K n * (Function.update pod j [] k).length + 2 * K n * (pod j).length = ∑ k, 2 * K n * (pod k).length := by
  have := sum_change (fun k => 2 * K n * (pod k).length) (fun k => 2 * K n * (Function.update pod j [] k).length) j
    (by intro k hk; simp [Function.update_of_ne hk])
  simpa using this

theorem K_le_mul {l : List P} (h : l ≠ []) : K n ≤ K n * l.length :=
  Nat.le_mul_of_pos_right _ (List.length_pos_iff.2 h)

theorem workerStep_nu {T : Task n P G E} {i : Fin n} {s s' : State n P G}
    (hs : workerStep T i s = some s') : (∃ p ps, (s.worker i).pc = .run (p :: ps)) ∨ nu s' < nu s := by
  have hK : K n = 10 + n + n := rfl
  unfold workerStep at hs
  dsimp only at hs
  split at hs
  next p ps e => left; exact ⟨p, ps, e⟩
  all_goals right
  next e =>
    split at hs
    · obtain rfl := Option.some.inj hs
      refine nu_lt i (s.port i) _ (by simp [State.setPc, State.setWorker]) rfl rfl ?_
      simp [laneM, e, rank]
    · obtain rfl := Option.some.inj hs
      rename_i hne
      refine nu_lt i (s.port i) _ (by simp [State.setWorker]) rfl rfl ?_
      simp only [laneM, e, rank, ← pod_clear_len (s.worker i).pod i]
      have := K_le_mul (n := n) hne
      have : 2 * K n * ((s.worker i).pod i).length = K n * ((s.worker i).pod i).length + K n * ((s.worker i).pod i).length := by ring
      omega
  next e =>
    split at hs
    · obtain rfl := Option.some.inj hs
      refine nu_lt i (s.port i) _ (by simp [State.setPc, State.setWorker]) rfl rfl ?_
      simp [laneM, e, rank]
    · obtain rfl := Option.some.inj hs
      rename_i hne
      refine nu_lt i _ _ rfl rfl rfl ?_
      simp only [laneM, e, rank, State.setPort, List.length_nil]
      have := K_le_mul (n := n) hne
      omega
  next e =>
    obtain rfl := Option.some.inj hs
    refine nu_lt i _ _ rfl rfl rfl ?_
    simp only [laneM, e, rank, List.length_append, Nat.mul_add, List.length_nil]
    have : 3 * K n * (s.worker i).deferrals.length = 2 * K n * (s.worker i).deferrals.length + K n * (s.worker i).deferrals.length := by ring
    omega
  next j en e =>
    split at hs
    · rename_i hj
      obtain rfl := Option.some.inj hs
      rw [assign_setWorker]
      have ew := assign_worker s ⟨j, hj⟩ ((s.worker i).pod ⟨j, hj⟩)
      have := nu_lane (s := assign s ⟨j, hj⟩ ((s.worker i).pod ⟨j, hj⟩))
        (s' := (assign s ⟨j, hj⟩ ((s.worker i).pod ⟨j, hj⟩)).setWorker i { s.worker i with
            pc := .send (j + 1) (en || !((s.worker i).pod ⟨j, hj⟩).isEmpty),
            pod := Function.update (s.worker i).pod ⟨j, hj⟩ [] }) i
        ((assign s ⟨j, hj⟩ ((s.worker i).pod ⟨j, hj⟩)).port i) _
        (by simp [State.setWorker]) rfl rfl
      rw [nu_assign, ew] at this
      simp only [laneM, e, rank, ← pod_clear_len (s.worker i).pod ⟨j, hj⟩] at this
      have h2 : 2 * K n * ((s.worker i).pod ⟨j, hj⟩).length = K n * ((s.worker i).pod ⟨j, hj⟩).length + K n * ((s.worker i).pod ⟨j, hj⟩).length := by ring
      omega
    · obtain rfl := Option.some.inj hs
      refine nu_lt i (s.port i) _ (by simp [State.setPc, State.setWorker]) rfl rfl ?_
      cases en <;> simp [laneM, e, rank] <;> omega
  next j e =>
    split at hs
    · rename_i hj
      obtain rfl := Option.some.inj hs
      unfold State.setPc
      rw [undefer1_setWorker]
      refine Nat.lt_of_lt_of_le ?_ (nu_undefer1 s ⟨j, hj⟩)
      refine nu_lt i ((undefer1 s ⟨j, hj⟩).port i) _ (by simp [State.setWorker]) rfl rfl ?_
      simp only [laneM, undefer1_worker, e, rank]
      omega
    · obtain rfl := Option.some.inj hs
      refine nu_lt i (s.port i) _ (by simp [State.setPc, State.setWorker]) rfl rfl ?_
      simp [laneM, e, rank]; omega
  next e =>
    split at hs
    · obtain rfl := Option.some.inj hs
      rename_i hne
      refine nu_lt i _ _ rfl rfl rfl ?_
      simp only [laneM, e, rank, State.setPort, List.length_nil]
      have := K_le_mul (n := n) hne
      omega
    · split at hs
      · obtain rfl := Option.some.inj hs
        refine nu_lt i (s.port i) _ (by simp [State.setPc, State.setWorker]) rfl rfl ?_
        simp [laneM, e, rank]
      · split at hs
        · obtain rfl := Option.some.inj hs
          refine nu_lt i (s.port i) _ (by simp [State.setPc, State.setWorker]) rfl rfl ?_
          simp [laneM, e, rank]
        · obtain rfl := Option.some.inj hs
          refine nu_lt i _ _ rfl rfl rfl ?_
          simp [laneM, e, rank, State.setPort]
  next e =>
    split at hs
    · obtain rfl := Option.some.inj hs
      refine nu_lt i _ _ rfl rfl rfl ?_
      cases ha : (s.port i).assigned with
      | nil => simp [laneM, e, rank, State.setPort, ha, gotten]
      | cons x l =>
        simp only [laneM, e, rank, State.setPort, ha, gotten, List.length_nil, List.length_cons, Nat.mul_add]
        omega
    · cases hs
  next e => cases hs

theorem mainStep_nu {T : Task n P G E} {i₀ : P} {s s' : State n P G} (hs : mainStep T i₀ s = some s') :
    nu s' < nu s := by
  unfold mainStep at hs
  split at hs <;> rename_i hm
  · split at hs
    · obtain rfl := Option.some.inj hs; simp [nu, hm, mrank]
    · cases hs
  · obtain rfl := Option.some.inj hs; simp [nu, hm, mrank]
  · obtain rfl := Option.some.inj hs
    have := nu_assign s (T.dest i₀) [i₀]
    simp only [nu, assign_main, hm, mrank, List.length_singleton] at this ⊢
    omega
  · split at hs
    · obtain rfl := Option.some.inj hs; simp [nu, hm, mrank]
    · cases hs
  · split at hs
    · rename_i j hj
      obtain rfl := Option.some.inj hs
      have key : ∀ m : Bool, ∑ k, laneM ((dismiss1 s ⟨j, hj⟩).port k) ((dismiss1 s ⟨j, hj⟩).worker k)
          ≤ ∑ k, laneM (s.port k) (s.worker k) := by
        intro _
        refine Finset.sum_le_sum (fun k _ => ?_)
        have hw : (dismiss1 s ⟨j, hj⟩).worker = s.worker := by
          simp only [dismiss1, State.setPort]; split <;> rfl
        have hp : (dismiss1 s ⟨j, hj⟩).port = Function.update s.port ⟨j, hj⟩ { s.port ⟨j, hj⟩ with
            assigned := [], signalled := (s.port ⟨j, hj⟩).signalled || (s.port ⟨j, hj⟩).waiting,
            dismissed := (s.port ⟨j, hj⟩).dismissed || !(s.port ⟨j, hj⟩).waiting } := by
          simp only [dismiss1, State.setPort]; split <;> rfl
        rw [hw, hp]
        by_cases ek : k = ⟨j, hj⟩
        · subst ek; simp [laneM]
        · simp [Function.update_of_ne ek]
      have := key true
      simp only [nu, hm, mrank]
      omega
    · obtain rfl := Option.some.inj hs; simp [nu, hm, mrank]
  · split at hs
    · obtain rfl := Option.some.inj hs; simp [nu, hm, mrank]
    · cases hs
  · cases hs

/-- A step of one of the threads. -/
def ThreadStep (T : Task n P G E) (i₀ : P) (s s' : State n P G) : Prop :=
  mainStep T i₀ s = some s' ∨ ∃ i, workerStep T i s = some s'

theorem threadStep_cases {T : Task n P G E} {i₀ : P} {s s' : State n P G} (h : Inv T.dest s)
    (hs : ThreadStep T i₀ s s') :
    (s'.g = s.g ∧ pending i₀ s' = pending i₀ s ∧ nu s' < nu s) ∨
      Bag.Handles T (s.g, pending i₀ s) (s'.g, pending i₀ s') := by
  rcases hs with hs | ⟨i, hs⟩
  · left
    have := mainStep_sim h hs
    exact ⟨this.1, this.2, mainStep_nu hs⟩
  · rcases (workerStep_sim (i₀ := i₀) (inv_routed h i) hs).2 with hh | ⟨p, rest, h1, h2, h3⟩
    · left; exact ⟨hh.1, hh.2.1, (workerStep_nu hs).resolve_left hh.2.2⟩
    · right; exact ⟨p, rest, h1, by rw [h2, h3]⟩

theorem threadStep_reach {T : Task n P G E} {i₀ : P} {g₀ : G} {s s' : State n P G} (h : Reach T i₀ g₀ s)
    (hs : ThreadStep T i₀ s s') : Reach T i₀ g₀ s' := by
  rcases hs with hs | ⟨i, hs⟩
  · exact Reach.step .main trivial h hs
  · exact Reach.step (.worker i) trivial h hs

theorem threadStep_acc {T : Task n P G E} {i₀ : P} {g₀ : G} (hn : 0 < n)
    (hb : ∀ x, Bag.Reach T i₀ g₀ x → Acc (fun y x => Bag.Handles T x y) x) :
    ∀ s : State n P G, Reach T i₀ g₀ s → Acc (fun s' s => ThreadStep T i₀ s s') s := by
  have main : ∀ x, Acc (fun y x => Bag.Handles T x y) x → ∀ k (s : State n P G), Reach T i₀ g₀ s →
      (s.g, pending i₀ s) = x → nu s = k → Acc (fun s' s => ThreadStep T i₀ s s') s := by
    intro x hx
    induction hx with
    | intro x _ ihx =>
      intro k
      induction k using Nat.strong_induction_on with
      | _ k ihk =>
        intro s hs he hk
        refine Acc.intro s (fun s' hstep => ?_)
        have hr' := threadStep_reach hs hstep
        rcases threadStep_cases (reach_inv hn hs) hstep with ⟨e1, e2, e3⟩ | hh
        · exact ihk (nu s') (by omega) s' hr' (by rw [← he, e1, e2]) rfl
        · exact ihx _ (by rw [← he]; exact hh) _ s' hr' rfl rfl
  intro s hs
  exact main _ (hb _ (reach_bag hn hs)) _ s hs rfl rfl

theorem no_infinite_run {T : Task n P G E} {i₀ : P} {g₀ : G} (hn : 0 < n)
    (hb : ∀ x, Bag.Reach T i₀ g₀ x → Acc (fun y x => Bag.Handles T x y) x) (f : Nat → State n P G)
    (h0 : Reach T i₀ g₀ (f 0)) (hf : ∀ k, ThreadStep T i₀ (f k) (f (k + 1))) : False := by
  have ha := threadStep_acc hn hb _ h0
  have : ∀ s, Acc (fun s' s => ThreadStep T i₀ s s') s → ∀ k, f k = s → False := by
    intro s hs
    induction hs with
    | intro s _ ih =>
      intro k hk
      exact ih (f (k + 1)) (by rw [← hk]; exact hf k) (k + 1) rfl
  exact this _ ha 0 rfl

end Cru.Net
