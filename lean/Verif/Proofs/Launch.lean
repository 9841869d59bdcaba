import Verif.Model.Launch
import Verif.Proofs.NetInv

namespace Cru.Launch

open Cru.Net

variable {n : Nat} {P G E : Type}

/-! ## Workers without packets -/

/-- A program point in the packet loop other than processing, sleeping and having ended. -/
def Awake (n : Nat) : Pc P → Prop
  | .take | .expose | .block => True
  | .send j e => e = false ∧ j ≤ n
  | .undefer j => j ≤ n
  | .run _ | .sleep | .gone => False

/-- How many steps a worker without packets has left at most. -/
def weight (n : Nat) : Pc P → Nat
  | .run _ => 0
  | .take => 2 * n + 6
  | .expose => 2 * n + 5
  | .send j _ => 2 * n + 4 - j
  | .undefer j => n + 3 - j
  | .block => 2
  | .sleep => 1
  | .gone => 0

/-- Nothing is queued anywhere. -/
def Idle (s : State n P G) : Prop := ∀ i, Empty (s.port i) (s.worker i)

/-- A worker without packets goes on, goes to sleep, leaves or is woken up. -/
inductive Move (i : Fin n) (s : State n P G) : State n P G → Prop
  | on (w : Worker n P) (he : Empty (s.port i) w) (ha : Awake n (s.worker i).pc) (hb : Awake n w.pc)
      (hw : weight n w.pc < weight n (s.worker i).pc) : Move i s (s.setWorker i w)
  | sleep (hb : (s.worker i).pc = .block) (hd : (s.port i).dismissed = false) (hr : s.running ≠ 0) :
      Move i s { (s.setPort i { s.port i with assigned := [], waiting := true, signalled := false }).setPc i .sleep with
        running := s.running - 1, quiescent := s.quiescent || s.running - 1 == 0 }
  | leave (hb : (s.worker i).pc = .block) (hd : (s.port i).dismissed = true ∨ s.running = 0) : Move i s (s.setPc i .gone)
  | wake (hb : (s.worker i).pc = .sleep) :
      Move i s ((s.setPort i { s.port i with assigned := [], waiting := false, signalled := false }).setPc i .gone)

theorem setPort_self (s : State n P G) (i : Fin n) (p : Port P) (h : p = s.port i) : s.setPort i p = s := by
  subst h
  simp [State.setPort]

theorem workerStep_move {T : Task n P G E} {i : Fin n} {s s' : State n P G} (hi : Idle s)
    (hp : Awake n (s.worker i).pc ∨ (s.worker i).pc = .sleep ∨ (s.worker i).pc = .gone) (h : workerStep T i s = some s') : Move i s s' := by
  obtain ⟨ha, hd, hf, hpod⟩ := hi i
  cases hc : (s.worker i).pc with
  | run l => rw [hc] at hp; simp [Awake] at hp
  | take =>
    simp only [workerStep, hc, ha, if_true] at h
    injection h with h
    subst h
    exact .on _ ⟨ha, hd, hf, hpod⟩ (by rw [hc]; trivial) trivial (by rw [hc]; simp only [weight]; omega)
  | expose =>
    simp only [workerStep, hc, hf, List.nil_append] at h
    injection h with h
    subst h
    rw [setPort_self s i { s.port i with deferred := (s.port i).deferred } rfl]
    exact .on _ ⟨ha, hd, rfl, hpod⟩ (by rw [hc]; trivial) ⟨rfl, Nat.zero_le _⟩ (by rw [hc]; simp only [weight]; omega)
  | send j e =>
    rw [hc] at hp
    simp only [Awake, reduceCtorEq, or_false] at hp
    obtain ⟨rfl, hj⟩ := hp
    simp only [workerStep, hc] at h
    by_cases hlt : j < n
    · rw [dif_pos hlt] at h
      injection h with h
      subst h
      simp only [hpod, assign, if_true]
      refine .on _ ⟨ha, hd, hf, ?_⟩ (by rw [hc]; exact ⟨rfl, hj⟩) ⟨by simp, hlt⟩ (by rw [hc]; simp only [weight]; omega)
      intro k
      by_cases hk : k = ⟨j, hlt⟩
      · subst hk; simp
      · simp [hk, hpod]
    · rw [dif_neg hlt] at h
      injection h with h
      subst h
      exact .on _ ⟨ha, hd, hf, hpod⟩ (by rw [hc]; exact ⟨rfl, hj⟩) (show Awake n (.undefer 0) from Nat.zero_le _)
        (by rw [hc]; simp [weight]; omega)
  | undefer j =>
    rw [hc] at hp
    simp only [Awake, reduceCtorEq, or_false] at hp
    simp only [workerStep, hc] at h
    by_cases hlt : j < n
    · rw [dif_pos hlt] at h
      injection h with h
      subst h
      have : ((s.setPc i (.undefer (j + 1))).port ⟨j, hlt⟩).deferred = [] := (hi _).2.1
      simp only [undefer1, this, ne_eq, not_true_eq_false, and_false, if_false]
      exact .on _ ⟨ha, hd, hf, hpod⟩ (by rw [hc]; exact hp) (show j + 1 ≤ n from hlt) (by rw [hc]; simp only [weight]; omega)
    · rw [dif_neg hlt] at h
      injection h with h
      subst h
      exact .on _ ⟨ha, hd, hf, hpod⟩ (by rw [hc]; exact hp) trivial (by rw [hc]; simp only [weight]; omega)
  | block =>
    simp only [workerStep, hc, ha, ne_eq, not_true_eq_false, if_false] at h
    by_cases hdis : (s.port i).dismissed = true
    · rw [if_pos hdis] at h
      injection h with h
      subst h
      exact .leave hc (.inl hdis)
    · rw [if_neg hdis] at h
      by_cases hr : s.running = 0
      · rw [if_pos hr] at h
        injection h with h
        subst h
        exact .leave hc (.inr hr)
      · rw [if_neg hr] at h
        injection h with h
        subst h
        exact .sleep hc (by simpa using hdis) hr
  | sleep =>
    simp only [workerStep, hc] at h
    by_cases hsg : (s.port i).signalled = true
    · rw [if_pos hsg] at h
      injection h with h
      subst h
      simp only [Net.wake, ha, gotten]
      have := Move.wake (s := s) hc
      exact this
    · rw [if_neg hsg] at h; cases h
  | gone => simp [workerStep, hc] at h

/-- A worker that's neither asleep without a signal nor gone can move. -/
theorem workerStep_enabled (T : Task n P G E) (i : Fin n) (s : State n P G) (h : workerStep T i s = none) :
    ((s.worker i).pc = .sleep ∧ (s.port i).signalled = false) ∨ (s.worker i).pc = .gone := by
  cases hc : (s.worker i).pc with
  | run l => cases l <;> simp only [workerStep, hc] at h <;> [skip; cases h]; split_ifs at h
  | take => simp only [workerStep, hc] at h; split_ifs at h
  | expose => simp [workerStep, hc] at h
  | send j e => simp only [workerStep, hc] at h; split_ifs at h
  | undefer j => simp only [workerStep, hc] at h; split_ifs at h
  | block => simp only [workerStep, hc] at h; split_ifs at h
  | sleep =>
    simp only [workerStep, hc] at h
    by_cases hs : (s.port i).signalled = true
    · rw [if_pos hs] at h; cases h
    · exact .inl ⟨rfl, by simpa using hs⟩
  | gone => exact .inr rfl

/-! ## The invariant -/

open Classical in
/-- One for a worker that's awake. -/
noncomputable def up (w : Worker n P) : Nat := if Awake n w.pc then 1 else 0

/-- Where the workers are at each point of the calling thread. -/
def Phase (k : Nat) (s : State n P G) : Prop :=
  match s.main with
  | .boot => (∀ i : Fin n, (s.worker i).pc = .gone ∨ Awake n (s.worker i).pc ∨ ((s.worker i).pc = .sleep ∧ (s.port i).waiting = true))
      ∧ (∀ i, (s.port i).dismissed = false ∧ (s.port i).signalled = false)
      ∧ s.running = ∑ i, up (s.worker i) ∧ (s.quiescent = true ↔ s.running = 0)
  | .reset | .start => k = n ∧ ∀ i, (s.worker i).pc = .gone ∨ ((s.worker i).pc = .sleep ∧ (s.port i).waiting = true)
  | .dismiss j => (j ≤ n ∧ (k < n → s.quiescent = true)) ∧
      ∀ i : Fin n, (s.worker i).pc = .gone ∨ ((s.worker i).pc = .sleep ∧ (s.port i).waiting = true ∧ (i.val < j → (s.port i).signalled = true))
  | .wait => k < n ∧ s.quiescent = true ∧ ∀ i, (s.worker i).pc = .gone ∨ ((s.worker i).pc = .sleep ∧ (s.port i).signalled = true)
  | .join => ∀ i, (s.worker i).pc = .gone ∨ ((s.worker i).pc = .sleep ∧ (s.port i).signalled = true)
  | .done => ∀ i, (s.worker i).pc = .gone

structure Inv (k : Nat) (s : State n P G) : Prop where
  idle : Idle s
  placed : s.misplaced = false
  phase : Phase k s

theorem sum_up_init (k : Nat) (hk : k ≤ n) (g : G) : ∑ i, up ((init k g : State n P G).worker i) = k := by
  have : ∀ i : Fin n, up ((init k g : State n P G).worker i) = if i.val < k then 1 else 0 := by
    intro i
    by_cases h : i.val < k <;> simp [init, h, up, Awake]
  rw [Finset.sum_congr rfl fun i _ => this i, Fin.sum_univ_eq_sum_range (fun i => if i < k then 1 else 0) n]
  rw [Finset.sum_ite]
  simp only [Finset.sum_const, smul_eq_mul, mul_one, Nat.mul_zero, Nat.add_zero, Finset.sum_const_zero]
  have : (Finset.range n).filter (· < k) = Finset.range k := by
    ext x; simp only [Finset.mem_filter, Finset.mem_range]; omega
  rw [this, Finset.card_range]

theorem init_inv (k : Nat) (hk : k ≤ n) (g : G) : Inv k (init k g : State n P G) := by
  refine ⟨?_, rfl, ?_⟩
  · intro i
    by_cases h : i.val < k <;> simp [init, h, Net.Empty]
  · by_cases h0 : k = 0
    · subst h0
      simp [Phase, init]
    · have hr := sum_up_init (P := P) k hk g
      simp only [Phase]
      have hm : (init k g : State n P G).main = .boot := by simp [init, h0]
      rw [hm]
      refine ⟨?_, ?_, hr.symm, ?_⟩
      · intro i
        by_cases h : i.val < k
        · right; left; simp [init, h, Awake]
        · left; simp [init, h]
      · intro i; exact ⟨rfl, rfl⟩
      · simp [init, h0]

theorem phase_pcs {k : Nat} {s : State n P G} (h : Phase k s) (i : Fin n) :
    Awake n (s.worker i).pc ∨ (s.worker i).pc = .sleep ∨ (s.worker i).pc = .gone := by
  unfold Phase at h
  split at h
  · obtain h | h | h := h.1 i
    · exact .inr (.inr h)
    · exact .inl h
    · exact .inr (.inl h.1)
  · obtain h | h := h.2 i
    · exact .inr (.inr h)
    · exact .inr (.inl h.1)
  · obtain h | h := h.2 i
    · exact .inr (.inr h)
    · exact .inr (.inl h.1)
  · obtain h | h := h.2 i
    · exact .inr (.inr h)
    · exact .inr (.inl h.1)
  · obtain h | h := h.2.2 i
    · exact .inr (.inr h)
    · exact .inr (.inl h.1)
  · obtain h | h := h i
    · exact .inr (.inr h)
    · exact .inr (.inl h.1)
  · exact .inr (.inr (h i))

/-- Nobody is awake once the calling thread has got past `boot`. -/
theorem phase_late {k : Nat} {s : State n P G} (h : Phase k s) (hm : s.main ≠ .boot) (i : Fin n) :
    (s.worker i).pc = .sleep ∨ (s.worker i).pc = .gone := by
  unfold Phase at h
  split at h
  · contradiction
  · obtain h | h := h.2 i
    · exact .inr h
    · exact .inl h.1
  · obtain h | h := h.2 i
    · exact .inr h
    · exact .inl h.1
  · obtain h | h := h.2 i
    · exact .inr h
    · exact .inl h.1
  · obtain h | h := h.2.2 i
    · exact .inr h
    · exact .inl h.1
  · obtain h | h := h i
    · exact .inr h
    · exact .inl h.1
  · exact .inr (h i)

/-- What's left to be done by the calling thread. -/
def mainWeight (n : Nat) : MPc → Nat
  | .boot => n + 7
  | .reset => n + 6
  | .start => n + 5
  | .dismiss j => n + 4 - j
  | .wait => 3
  | .join => 2
  | .done => 1

/-- What's left to be done by all threads. -/
def total (s : State n P G) : Nat := mainWeight n s.main + ∑ i, weight n (s.worker i).pc

theorem update_lane {A : Type} (f : Fin n → A) (i : Fin n) (x : A) (Q : Fin n → A → Prop) (hx : Q i x) (h : ∀ j, j ≠ i → Q j (f j)) (j : Fin n) :
    Q j (Function.update f i x j) := by
  by_cases hj : j = i
  · subst hj; simpa using hx
  · simpa [hj] using h j hj

theorem update_lane2 {A B : Type} (f : Fin n → A) (g : Fin n → B) (i : Fin n) (x : A) (y : B) (Q : Fin n → A → B → Prop) (hx : Q i x y)
    (h : ∀ j, j ≠ i → Q j (f j) (g j)) (j : Fin n) : Q j (Function.update f i x j) (Function.update g i y j) := by
  by_cases hj : j = i
  · subst hj; simpa using hx
  · simpa [hj] using h j hj

theorem sum_update_weight (s : State n P G) (i : Fin n) (w : Worker n P) (h : weight n w.pc < weight n (s.worker i).pc) :
    ∑ j, weight n (Function.update s.worker i w j).pc < ∑ j, weight n (s.worker j).pc := by
  have := sum_change (fun j => weight n (s.worker j).pc) (fun j => weight n (Function.update s.worker i w j).pc) i
    (by intro j hj; simp [hj])
  simp only [Function.update_self] at this
  omega

theorem move_main {i : Fin n} {s s' : State n P G} (h : Move i s s') : s'.main = s.main ∧ s'.misplaced = s.misplaced ∧ s'.g = s.g := by
  cases h <;> exact ⟨rfl, rfl, rfl⟩

theorem move_total {i : Fin n} {s s' : State n P G} (h : Move i s s') : total s' < total s := by
  unfold total
  rw [(move_main h).1]
  apply Nat.add_lt_add_left
  cases h with
  | on w _ _ _ hw => exact sum_update_weight s i w hw
  | sleep hb _ _ => exact sum_update_weight s i { s.worker i with pc := .sleep } (by rw [hb]; simp [weight])
  | leave hb _ => exact sum_update_weight s i { s.worker i with pc := .gone } (by rw [hb]; simp [weight])
  | wake hb => exact sum_update_weight s i { s.worker i with pc := .gone } (by rw [hb]; simp [weight])

theorem move_idle {i : Fin n} {s s' : State n P G} (hi : Idle s) (h : Move i s s') : Idle s' := by
  obtain ⟨ha, hd, hf, hpod⟩ := hi i
  intro j
  by_cases hj : j = i
  · subst hj
    cases h with
    | on w he _ _ _ => simpa [State.setWorker] using he
    | sleep _ _ _ => simp [State.setPc, State.setWorker, State.setPort, Net.Empty, hd, hf, hpod]
    | leave _ _ => simp [State.setPc, State.setWorker, Net.Empty, ha, hd, hf, hpod]
    | wake _ => simp [State.setPc, State.setWorker, State.setPort, Net.Empty, hd, hf, hpod]
  · have hw := hi j
    cases h <;> simpa [State.setPc, State.setWorker, State.setPort, hj] using hw

theorem awake_up {w : Worker n P} (h : Awake n w.pc) : up w = 1 := by simp [up, h]

theorem move_phase {k : Nat} {i : Fin n} {s s' : State n P G} (hp : Phase k s) (h : Move i s s') : Phase k s' := by
  by_cases hm : s.main = .boot
  · have hm' : s'.main = .boot := by rw [(move_main h).1, hm]
    simp only [Phase, hm] at hp
    simp only [Phase, hm']
    obtain ⟨h1, h2, h3, h4⟩ := hp
    cases h with
    | on w he ha hb hw =>
      refine ⟨?_, h2, ?_, h4⟩
      · exact update_lane s.worker i w (fun j w => w.pc = .gone ∨ Awake n w.pc ∨ (w.pc = .sleep ∧ (s.port j).waiting = true))
          (.inr (.inl hb)) (fun j _ => h1 j)
      · have := sum_change (fun j => up (s.worker j)) (fun j => up (Function.update s.worker i w j)) i (by intro j hj; simp [hj])
        simp only [Function.update_self, awake_up ha, awake_up hb] at this
        show s.running = ∑ j, up (Function.update s.worker i w j)
        omega
    | sleep hb hd hr =>
      have hsum := sum_change (fun j => up (s.worker j)) (fun j => up (Function.update s.worker i { s.worker i with pc := .sleep } j)) i
        (by intro j hj; simp [hj])
      have hu : up (s.worker i) = 1 := awake_up (by rw [hb]; trivial)
      have hu' : up ({ s.worker i with pc := .sleep } : Worker n P) = 0 := by simp [up, Awake]
      simp only [Function.update_self, hu, hu'] at hsum
      refine ⟨?_, ?_, ?_, ?_⟩
      · exact update_lane2 s.worker s.port i { s.worker i with pc := .sleep } { s.port i with assigned := [], waiting := true, signalled := false }
          (fun j w p => w.pc = .gone ∨ Awake n w.pc ∨ (w.pc = .sleep ∧ p.waiting = true)) (.inr (.inr ⟨rfl, rfl⟩))
          (fun j _ => h1 j)
      · exact update_lane s.port i { s.port i with assigned := [], waiting := true, signalled := false }
          (fun j p => p.dismissed = false ∧ p.signalled = false) ⟨hd, rfl⟩ (fun j _ => h2 j)
      · rw [Nat.add_zero, ← h3] at hsum
        exact (Nat.eq_sub_of_add_eq hsum).symm
      · show (s.quiescent || s.running - 1 == 0) = true ↔ s.running - 1 = 0
        simp only [Bool.or_eq_true, beq_iff_eq, h4]
        omega
    | leave hb hd =>
      exfalso
      rcases hd with hd | hd
      · rw [(h2 i).1] at hd; cases hd
      · have : up (s.worker i) = 1 := awake_up (by rw [hb]; trivial)
        rw [h3, Finset.sum_eq_zero_iff] at hd
        have := hd i (Finset.mem_univ _)
        omega
    | wake hb =>
      have hsum := sum_change (fun j => up (s.worker j)) (fun j => up (Function.update s.worker i { s.worker i with pc := .gone } j)) i
        (by intro j hj; simp [hj])
      have hu : up (s.worker i) = 0 := by simp [up, hb, Awake]
      have hu' : up ({ s.worker i with pc := .gone } : Worker n P) = 0 := by simp [up, Awake]
      simp only [Function.update_self, hu, hu'] at hsum
      refine ⟨?_, ?_, ?_, h4⟩
      · exact update_lane2 s.worker s.port i { s.worker i with pc := .gone } { s.port i with assigned := [], waiting := false, signalled := false }
          (fun j w p => w.pc = .gone ∨ Awake n w.pc ∨ (w.pc = .sleep ∧ p.waiting = true)) (.inl rfl) (fun j _ => h1 j)
      · exact update_lane s.port i { s.port i with assigned := [], waiting := false, signalled := false }
          (fun j p => p.dismissed = false ∧ p.signalled = false) ⟨(h2 i).1, rfl⟩ (fun j _ => h2 j)
      · rw [Nat.add_zero, Nat.add_zero, ← h3] at hsum
        exact hsum.symm
  · have hl := phase_late hp hm i
    cases h with
    | on w he ha hb hw => rcases hl with hl | hl <;> rw [hl] at ha <;> exact ha.elim
    | sleep hb hd hr => rw [hb] at hl; simp at hl
    | leave hb hd => rw [hb] at hl; simp at hl
    | wake hb =>
      have key : ∀ (Q : Fin n → Worker n P → Port P → Prop), Q i { s.worker i with pc := .gone }
            { s.port i with assigned := [], waiting := false, signalled := false } → (∀ j, Q j (s.worker j) (s.port j)) →
          ∀ j, Q j (Function.update s.worker i { s.worker i with pc := .gone } j)
            (Function.update s.port i { s.port i with assigned := [], waiting := false, signalled := false } j) :=
        fun Q hx h j => update_lane2 s.worker s.port i _ _ Q hx (fun j _ => h j) j
      cases hmm : s.main with
      | boot => exact absurd hmm hm
      | reset =>
        simp only [Phase, hmm] at hp
        simp only [Phase, State.setPc, State.setWorker, State.setPort, hmm]
        exact ⟨hp.1, key (fun _ w p => w.pc = .gone ∨ (w.pc = .sleep ∧ p.waiting = true)) (.inl rfl) hp.2⟩
      | start =>
        simp only [Phase, hmm] at hp
        simp only [Phase, State.setPc, State.setWorker, State.setPort, hmm]
        exact ⟨hp.1, key (fun _ w p => w.pc = .gone ∨ (w.pc = .sleep ∧ p.waiting = true)) (.inl rfl) hp.2⟩
      | dismiss j =>
        simp only [Phase, hmm] at hp
        simp only [Phase, State.setPc, State.setWorker, State.setPort, hmm]
        exact ⟨hp.1, key (fun i' w p => w.pc = .gone ∨ (w.pc = .sleep ∧ p.waiting = true ∧ (i'.val < j → p.signalled = true))) (.inl rfl) hp.2⟩
      | wait =>
        simp only [Phase, hmm] at hp
        simp only [Phase, State.setPc, State.setWorker, State.setPort, hmm]
        exact ⟨hp.1, hp.2.1, key (fun _ w p => w.pc = .gone ∨ (w.pc = .sleep ∧ p.signalled = true)) (.inl rfl) hp.2.2⟩
      | join =>
        simp only [Phase, hmm] at hp
        simp only [Phase, State.setPc, State.setWorker, State.setPort, hmm]
        exact key (fun _ w p => w.pc = .gone ∨ (w.pc = .sleep ∧ p.signalled = true)) (.inl rfl) hp
      | done => simp only [Phase, hmm] at hp; rw [hp i] at hb; cases hb

/-- The calling thread's steps when a thread or the packet is missing. -/
theorem mainStep_inv {T : Task n P G E} {k : Nat} (hk : k ≤ n) {p : Option P} (hkp : k < n ∨ p = none) {s s' : State n P G} (h : Inv k s)
    (hs : mainStep T k p s = some s') : Inv k s' ∧ total s' < total s ∧ s'.g = s.g := by
  obtain ⟨hi, hpl, hp⟩ := h
  cases hm : s.main with
  | boot =>
    simp only [mainStep, hm] at hs
    simp only [Phase, hm] at hp
    obtain ⟨h1, h2, h3, h4⟩ := hp
    by_cases hq : s.quiescent = true
    · rw [if_pos hq] at hs
      injection hs with hs
      subst hs
      have h0 : ∀ i, up (s.worker i) = 0 := by
        intro i
        have := h4.mp hq
        rw [h3, Finset.sum_eq_zero_iff] at this
        exact this i (Finset.mem_univ _)
      have h1' : ∀ i : Fin n, (s.worker i).pc = .gone ∨ ((s.worker i).pc = .sleep ∧ (s.port i).waiting = true) := by
        intro i
        obtain h | h | h := h1 i
        · exact .inl h
        · have := h0 i; rw [awake_up h] at this; cases this
        · exact .inr h
      by_cases hkn : k = n
      · simp only [hkn, if_true]
        refine ⟨⟨hi, hpl, ?_⟩, ?_, trivial⟩
        · simp only [Phase]
          refine ⟨trivial, fun i => ?_⟩
          exact h1' i
        · simp only [total, hm, mainWeight]; omega
      · simp only [hkn, if_false]
        refine ⟨⟨hi, hpl, ?_⟩, ?_, trivial⟩
        · simp only [Phase]
          refine ⟨⟨Nat.zero_le _, fun _ => hq⟩, fun i => ?_⟩
          obtain h | h := h1' i
          · exact .inl h
          · exact .inr ⟨h.1, h.2, fun h => absurd h (Nat.not_lt_zero _)⟩
        · simp only [total, hm, mainWeight]; omega
    · rw [if_neg hq] at hs; cases hs
  | reset =>
    simp only [mainStep, hm] at hs
    simp only [Phase, hm] at hp
    injection hs with hs
    subst hs
    refine ⟨⟨hi, hpl, ?_⟩, ?_, rfl⟩
    · simpa only [Phase] using hp
    · simp only [total, hm, mainWeight]; omega
  | start =>
    simp only [Phase, hm] at hp
    have hpn : p = none := hkp.resolve_left (by omega)
    subst hpn
    simp only [mainStep, hm] at hs
    injection hs with hs
    subst hs
    refine ⟨⟨hi, hpl, ?_⟩, ?_, rfl⟩
    · simp only [Phase]
      exact ⟨⟨Nat.zero_le _, fun h => absurd hp.1 (by omega)⟩, fun i => (hp.2 i).imp id fun h => ⟨h.1, h.2, fun h => absurd h (Nat.not_lt_zero _)⟩⟩
    · simp only [total, hm, mainWeight]; omega
  | wait =>
    simp only [mainStep, hm] at hs
    simp only [Phase, hm] at hp
    rw [if_pos hp.2.1] at hs
    have hkn : ¬ k = n := by omega
    simp only [hkn, if_false] at hs
    injection hs with hs
    subst hs
    refine ⟨⟨hi, hpl, ?_⟩, ?_, rfl⟩
    · simpa only [Phase] using hp.2.2
    · simp only [total, hm, mainWeight]; omega
  | dismiss j =>
    simp only [mainStep, hm] at hs
    simp only [Phase, hm] at hp
    by_cases hj : j < n
    · rw [dif_pos hj] at hs
      injection hs with hs
      subst hs
      have hd : dismiss1 s ⟨j, hj⟩ = s.setPort ⟨j, hj⟩ { s.port ⟨j, hj⟩ with
          assigned := []
          signalled := (s.port ⟨j, hj⟩).signalled || (s.port ⟨j, hj⟩).waiting
          dismissed := (s.port ⟨j, hj⟩).dismissed || !(s.port ⟨j, hj⟩).waiting } := by
        simp only [dismiss1, (hi ⟨j, hj⟩).1, if_true]
      refine ⟨⟨?_, ?_, ?_⟩, ?_, ?_⟩
      · rw [hd]
        intro i
        by_cases h : i = ⟨j, hj⟩
        · subst h
          have := hi ⟨j, hj⟩
          simpa [State.setPort, Net.Empty] using ⟨this.2.1, this.2.2.1, this.2.2.2⟩
        · simpa [State.setPort, h] using hi i
      · rw [hd]; exact hpl
      · rw [hd]
        simp only [Phase]
        refine ⟨⟨hj, hp.1.2⟩, fun i => ?_⟩
        by_cases h : i = ⟨j, hj⟩
        · subst h
          simp only [State.setPort, Function.update_self]
          obtain h | h := hp.2 ⟨j, hj⟩
          · exact .inl h
          · exact .inr ⟨h.1, h.2.1, fun _ => by rw [h.2.1]; simp⟩
        · simp only [State.setPort, Function.update_of_ne h]
          obtain h' | h' := hp.2 i
          · exact .inl h'
          · refine .inr ⟨h'.1, h'.2.1, fun hlt => h'.2.2 ?_⟩
            have : i.val ≠ j := fun e => h (Fin.ext e)
            omega
      · rw [hd]
        show mainWeight n (.dismiss (j + 1)) + ∑ i, weight n (s.worker i).pc < mainWeight n s.main + _
        simp only [hm, mainWeight]; omega
      · rw [hd]; rfl
    · rw [dif_neg hj] at hs
      injection hs with hs
      subst hs
      have hall : ∀ i, (s.worker i).pc = .gone ∨ ((s.worker i).pc = .sleep ∧ (s.port i).signalled = true) := by
        intro i
        obtain h | h := hp.2 i
        · exact .inl h
        · exact .inr ⟨h.1, h.2.2 (by have := i.isLt; omega)⟩
      by_cases hkn : k = n
      · simp only [hkn, if_true]
        refine ⟨⟨hi, hpl, ?_⟩, ?_, trivial⟩
        · simpa only [Phase] using hall
        · show mainWeight n .join + _ < mainWeight n s.main + _
          rw [hm]; simp only [mainWeight]; have := hp.1.1; omega
      · simp only [hkn, if_false]
        refine ⟨⟨hi, hpl, ?_⟩, ?_, trivial⟩
        · simp only [Phase]
          exact ⟨by omega, hp.1.2 (by omega), hall⟩
        · show mainWeight n .wait + _ < mainWeight n s.main + _
          rw [hm]; simp only [mainWeight]; have := hp.1.1; omega
  | join =>
    simp only [mainStep, hm] at hs
    split_ifs at hs with h
    injection hs with hs
    subst hs
    refine ⟨⟨hi, hpl, ?_⟩, ?_, rfl⟩
    · simp only [Phase]
      intro i
      have := h i
      split at this
      · assumption
      · cases this
    · simp only [total, hm, mainWeight]; omega
  | done => simp [mainStep, hm] at hs

theorem spuriousStep_move {i : Fin n} {s s' : State n P G} (hi : Idle s) (h : spuriousStep i s = some s') : Move i s s' := by
  unfold spuriousStep at h
  split at h
  · rename_i hc
    injection h with h
    subst h
    simp only [Net.wake, (hi i).1, gotten]
    have := Move.wake (s := s) hc
    exact this
  · cases h

end Cru.Launch
