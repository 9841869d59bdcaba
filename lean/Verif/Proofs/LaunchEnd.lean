import Verif.Proofs.Launch
import Verif.Spec.Launch

namespace Cru.Launch

open Cru.Net

variable {n : Nat} {P G E : Type}

theorem move_inv {k : Nat} {i : Fin n} {s s' : State n P G} (h : Inv k s) (hm : Move i s s') : Inv k s' :=
  ⟨move_idle h.idle hm, (move_main hm).2.1.trans h.placed, move_phase h.phase hm⟩

theorem phase_g {k : Nat} {s : State n P G} (h : Phase k s) (g : G) : Phase k { s with g := g } := h

theorem run_spec {T : Task n P G E} {k : Nat} (hk : k ≤ n) {p : Option P} (hkp : k < n ∨ p = none) (as : List (Action n E)) (ha : Steady as)
    (s s' : State n P G) (h : Inv k s) (hr : run T k p as s = some s') :
    Inv k s' ∧ moves as + total s' ≤ total s ∧ s'.g = (events as).foldl (fun g e => T.env e g) s.g := by
  induction as generalizing s with
  | nil =>
    injection hr with hr
    subst hr
    exact ⟨h, by simp [moves], rfl⟩
  | cons a as ih =>
    rw [run] at hr
    cases hs : step T k p a s with
    | none => rw [hs] at hr; cases hr
    | some t =>
      rw [hs] at hr
      have ha' : Steady as := fun h => ha (List.mem_cons_of_mem _ h)
      cases a with
      | worker i =>
        have hmv := workerStep_move h.idle (phase_pcs h.phase i) hs
        obtain ⟨h1, h2, h3⟩ := ih ha' t (move_inv h hmv) hr
        have := move_total hmv
        exact ⟨h1, by simp only [moves]; omega, by rw [h3, (move_main hmv).2.2]; rfl⟩
      | main =>
        obtain ⟨ht, hlt, hg⟩ := mainStep_inv hk hkp h hs
        obtain ⟨h1, h2, h3⟩ := ih ha' t ht hr
        exact ⟨h1, by simp only [moves]; omega, by rw [h3, hg]; rfl⟩
      | env e =>
        injection hs with hs
        subst hs
        obtain ⟨h1, h2, h3⟩ := ih ha' { s with g := T.env e s.g } ⟨h.idle, h.placed, phase_g h.phase _⟩ hr
        exact ⟨h1, h2, h3⟩
      | spurious i =>
        have hmv := spuriousStep_move h.idle hs
        obtain ⟨h1, h2, h3⟩ := ih ha' t (move_inv h hmv) hr
        have := move_total hmv
        exact ⟨h1, by simp only [moves]; omega, by rw [h3, (move_main hmv).2.2]; rfl⟩
      | spuriousMain => exact absurd List.mem_cons_self ha

theorem inv_stuck {T : Task n P G E} {k : Nat} {p : Option P} {s : State n P G} (h : Inv k s)
    (hw : ∀ i, step T k p (.worker i) s = none) (hm : step T k p .main s = none) : s.main = .done := by
  have hw' := fun i => workerStep_enabled T i s (hw i)
  have hp := h.phase
  have hm' : mainStep T k p s = none := hm
  cases hmm : s.main with
  | boot =>
    exfalso
    simp only [Phase, hmm] at hp
    have h0 : s.running = 0 := by
      rw [hp.2.2.1, Finset.sum_eq_zero_iff]
      intro i _
      rcases hw' i with h | h
      · simp [up, h.1, Awake]
      · simp [up, h, Awake]
    have := hp.2.2.2.mpr h0
    simp [mainStep, hmm, this] at hm'
  | reset => simp [mainStep, hmm] at hm'
  | start => cases p <;> simp [mainStep, hmm] at hm'
  | wait =>
    exfalso
    simp only [Phase, hmm] at hp
    simp [mainStep, hmm, hp.2.1] at hm'
  | dismiss j =>
    exfalso
    simp only [mainStep, hmm] at hm'
    split_ifs at hm'
  | join =>
    exfalso
    simp only [Phase, hmm] at hp
    have : ∀ i, (s.worker i).pc = .gone := by
      intro i
      rcases hp i with h | h
      · exact h
      · rcases hw' i with h' | h'
        · rw [h.2] at h'; cases h'.2
        · exact h'
    simp [mainStep, hmm, this] at hm'
  | done => rfl

theorem total_init (k : Nat) (hk : k ≤ n) (g : G) : total (init k g : State n P G) ≤ n + 7 + k * (2 * n + 6) := by
  have h1 : ∑ i, weight n ((init k g : State n P G).worker i).pc = k * (2 * n + 6) := by
    have : ∀ i : Fin n, weight n ((init k g : State n P G).worker i).pc = up ((init k g : State n P G).worker i) * (2 * n + 6) := by
      intro i
      by_cases h : i.val < k <;> simp [init, h, up, Awake, weight]
    rw [Finset.sum_congr rfl fun i _ => this i, ← Finset.sum_mul, sum_up_init k hk]
  unfold total
  rw [h1]
  have : mainWeight n (init k g : State n P G).main ≤ n + 7 := by
    by_cases h : k = 0 <;> simp [init, h, mainWeight]
  omega

/-! ## A spurious wake-up of the calling thread -/

/-- All ports have been dismissed before the workers get to look. -/
structure Hung (s : State n P G) : Prop where
  idle : Idle s
  main : s.main = .wait
  noisy : s.quiescent = false
  dismissed : ∀ i, (s.port i).dismissed = true
  pcs : ∀ i, Awake n (s.worker i).pc ∨ (s.worker i).pc = .gone
  running : s.running ≠ 0

theorem hung_move {i : Fin n} {s s' : State n P G} (h : Hung s) (hm : Move i s s') : Hung s' := by
  have hid := move_idle h.idle hm
  have hmain := (move_main hm).1.trans h.main
  cases hm with
  | on w he ha hb hw =>
    refine ⟨hid, hmain, h.noisy, h.dismissed, ?_, h.running⟩
    exact update_lane s.worker i w (fun _ w => Awake n w.pc ∨ w.pc = .gone) (.inl hb) (fun j _ => h.pcs j)
  | sleep hb hd hr => rw [h.dismissed i] at hd; cases hd
  | leave hb hd =>
    refine ⟨hid, hmain, h.noisy, h.dismissed, ?_, h.running⟩
    exact update_lane s.worker i { s.worker i with pc := .gone } (fun _ w => Awake n w.pc ∨ w.pc = .gone) (.inr rfl) (fun j _ => h.pcs j)
  | wake hb =>
    have := h.pcs i
    rw [hb] at this
    simp [Awake] at this

theorem hung_run {T : Task n P G E} {k : Nat} {p : Option P} (as : List (Action n E)) (ha : Steady as) (s s' : State n P G) (h : Hung s)
    (hr : run T k p as s = some s') : Hung s' := by
  induction as generalizing s with
  | nil =>
    injection hr with hr
    subst hr
    exact h
  | cons a as ih =>
    rw [run] at hr
    cases hs : step T k p a s with
    | none => rw [hs] at hr; cases hr
    | some t =>
      rw [hs] at hr
      have ha' : Steady as := fun h => ha (List.mem_cons_of_mem _ h)
      refine ih ha' t ?_ hr
      cases a with
      | worker i => exact hung_move h (workerStep_move h.idle ((h.pcs i).imp id .inr) hs)
      | main =>
        have hs' : mainStep T k p s = some t := hs
        simp [mainStep, h.main, h.noisy] at hs'
      | env e =>
        injection hs with hs
        subst hs
        exact ⟨h.idle, h.main, h.noisy, h.dismissed, h.pcs, h.running⟩
      | spurious i => exact hung_move h (spuriousStep_move h.idle hs)
      | spuriousMain => exact absurd List.mem_cons_self ha

theorem run_append (T : Task n P G E) (k : Nat) (p : Option P) (as bs : List (Action n E)) (s : State n P G) :
    run T k p (as ++ bs) s = (run T k p as s).bind (run T k p bs) := by
  induction as generalizing s with
  | nil => rfl
  | cons a as ih =>
    simp only [List.cons_append, run]
    cases step T k p a s with
    | none => rfl
    | some t => exact ih t

/-- The calling thread goes through its loop of dismissals before anyone else moves. -/
theorem dismissals (T : Task n P G E) (k : Nat) (hk : 0 < k) (hkn : k < n) (p : Option P) (j : Nat) (hj : j ≤ n) (s : State n P G) (hi : Idle s)
    (hm : s.main = .dismiss (n - j)) (hq : s.quiescent = false) (hr : s.running ≠ 0)
    (hpc : ∀ i, (Awake n (s.worker i).pc ∨ (s.worker i).pc = .gone) ∧ (s.port i).waiting = false)
    (hd : ∀ i : Fin n, i.val < n - j → (s.port i).dismissed = true) :
    ∃ s', run T k p (List.replicate (j + 1) .main) s = some s' ∧ Hung s' := by
  induction j generalizing s with
  | zero =>
    refine ⟨{ s with main := .wait }, ?_, hi, rfl, hq, fun i => hd i (by simp), fun i => (hpc i).1, hr⟩
    have hkn' : ¬ k = n := by omega
    simp [List.replicate, run, step, mainStep, hm, hkn']
  | succ j ih =>
    have hlt : n - (j + 1) < n := by omega
    let i : Fin n := ⟨n - (j + 1), hlt⟩
    have hdd : dismiss1 s i = s.setPort i { s.port i with
          assigned := []
          signalled := (s.port i).signalled || (s.port i).waiting
          dismissed := (s.port i).dismissed || !(s.port i).waiting } := by
      simp only [dismiss1, (hi i).1, if_true]
    have hst : step T k p .main s = some { dismiss1 s i with main := .dismiss (n - j) } := by
      simp only [step, mainStep, hm, dif_pos hlt]
      have : n - (j + 1) + 1 = n - j := by omega
      rw [this]
    rw [hdd] at hst
    obtain ⟨s', hrun, hh⟩ := ih (by omega) { s.setPort i { s.port i with
          assigned := []
          signalled := (s.port i).signalled || (s.port i).waiting
          dismissed := (s.port i).dismissed || !(s.port i).waiting } with main := .dismiss (n - j) } (by
        intro l
        by_cases h : l = i
        · subst h
          have := hi i
          simpa [State.setPort, Net.Empty] using ⟨this.2.1, this.2.2.1, this.2.2.2⟩
        · simpa [State.setPort, h] using hi l) rfl hq hr (by
        intro l
        refine ⟨(hpc l).1, ?_⟩
        by_cases h : l = i
        · subst h; simpa [State.setPort] using (hpc i).2
        · simpa [State.setPort, h] using (hpc l).2) (by
        intro l hl
        by_cases h : l = i
        · subst h
          simp [State.setPort, (hpc i).2]
        · have : l.val ≠ n - (j + 1) := fun e => h (Fin.ext e)
          simpa [State.setPort, h] using hd l (by omega))
    refine ⟨s', ?_, hh⟩
    rw [List.replicate_succ, run, hst]
    exact hrun

end Cru.Launch
