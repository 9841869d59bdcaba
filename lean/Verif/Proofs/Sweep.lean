import Verif.Model.Sweep
import Verif.Spec.Launch
import Verif.Spec.Sweep
import Verif.Proofs.LaunchEnd
import Verif.Proofs.NetMain
import Verif.Proofs.NetTerm

namespace Cru.Sweep

open Cru.Net

variable {n : Nat} {P G E X : Type}

theorem mem_nets {as : List (Act n E)} {a : Action n E} (h : a ∈ nets as) : .net a ∈ as := by
  induction as with
  | nil => cases h
  | cons b as ih =>
    cases b with
    | net c =>
      rcases List.mem_cons.mp h with rfl | h
      · exact List.mem_cons_self
      · exact List.mem_cons_of_mem _ (ih h)
    | finish i => exact List.mem_cons_of_mem _ (ih h)

variable {T : Task n P G E} {ep : Fin n → X → X} {k : Nat} {p : Option P}

theorem step_net {a : Action n E} {s s' : St n P G X} (h : step T ep k p (.net a) s = some s') :
    Launch.step T k p a s.net = some s'.net ∧ s'.ended = s.ended ∧ s'.x = s.x := by
  simp only [step] at h
  split_ifs at h
  cases ht : Launch.step T k p a s.net with
  | none => rw [ht] at h; cases h
  | some t => rw [ht] at h; injection h with h; subst h; exact ⟨rfl, rfl, rfl⟩

theorem step_finish {i : Fin n} {s s' : St n P G X} (h : step T ep k p (.finish i) s = some s') :
    i.val < k ∧ (s.net.worker i).pc = .gone ∧ s.ended i = false ∧
      s' = { s with ended := Function.update s.ended i true, x := ep i s.x } := by
  simp only [step] at h
  split_ifs at h with hc
  injection h with h
  refine ⟨hc.1, ?_, hc.2.2, h.symm⟩
  have := hc.2.1
  cases hp : (s.net.worker i).pc <;> simp_all

theorem run_net {as : List (Act n E)} {s s' : St n P G X} (h : run T ep k p as s = some s') :
    Launch.run T k p (nets as) s.net = some s'.net := by
  induction as generalizing s with
  | nil => injection h with h; subst h; rfl
  | cons a as ih =>
    rw [run] at h
    cases hs : step T ep k p a s with
    | none => rw [hs] at h; cases h
    | some t =>
      rw [hs] at h
      cases a with
      | net a => rw [nets, Launch.run, (step_net hs).1]; exact ih h
      | finish i =>
        have := (step_finish hs).2.2.2
        have h2 := ih h
        rw [this] at h2
        exact h2

/-- Nobody goes back into the loop. -/
theorem gone_stays {a : Action n E} {s s' : State n P G} (h : Launch.step T k p a s = some s') (i : Fin n)
    (hg : (s.worker i).pc = .gone) : (s'.worker i).pc = .gone := by
  have hsleep : ∀ (j : Fin n), (s.worker j).pc ≠ .gone → ∀ w, ((Function.update s.worker j w) i).pc = .gone := by
    intro j hj w
    have : i ≠ j := fun e => hj (e ▸ hg)
    rw [Function.update_of_ne this]; exact hg
  cases a with
  | worker j =>
    by_cases hij : i = j
    · subst hij
      simp only [Launch.step, workerStep, hg] at h
      cases h
    · have hw : s'.worker i = s.worker i := by
        simp only [Launch.step, workerStep] at h
        split at h
        · injection h with h; subst h; simp [State.setWorker, hij]
        · split_ifs at h <;> (injection h with h; subst h; simp [State.setPc, State.setWorker, hij])
        · split_ifs at h <;> (injection h with h; subst h; simp [State.setPc, State.setPort, State.setWorker, hij])
        · injection h with h; subst h; simp [State.setPort, State.setWorker, hij]
        · split_ifs at h
          · injection h with h; subst h; rw [assign_worker]; simp [State.setWorker, hij]
          all_goals (injection h with h; subst h; simp [State.setPc, State.setWorker, hij])
        · split_ifs at h
          · injection h with h; subst h
            unfold undefer1
            dsimp only
            split_ifs <;> simp [State.setPc, State.setPort, State.setWorker, hij]
          · injection h with h; subst h; simp [State.setPc, State.setWorker, hij]
        · split_ifs at h <;> (injection h with h; subst h; simp [State.setPc, State.setPort, State.setWorker, hij])
        · split_ifs at h
          injection h with h; subst h; simp [wake, State.setPc, State.setPort, State.setWorker, hij]
        · cases h
      rw [hw]; exact hg
  | main =>
    have hw : s'.worker = s.worker := by
      simp only [Launch.step, Launch.mainStep] at h
      split at h
      · split_ifs at h <;> (injection h with h; subst h; rfl)
      · injection h with h; subst h; rfl
      · split at h
        · injection h with h; subst h; exact assign_worker _ _ _
        · injection h with h; subst h; rfl
      · split_ifs at h <;> (injection h with h; subst h; rfl)
      · split_ifs at h
        · injection h with h; subst h
          unfold dismiss1
          dsimp only
          split_ifs <;> rfl
        · injection h with h; subst h; rfl
        · injection h with h; subst h; rfl
      · split_ifs at h
        injection h with h; subst h; rfl
      · cases h
    rw [hw]; exact hg
  | env e => injection h with h; subst h; exact hg
  | spurious j =>
    simp only [Launch.step, spuriousStep] at h
    split at h
    · rename_i hj
      injection h with h; subst h
      exact hsleep j (by rw [hj]; exact fun h => (by cases h)) _
    · cases h
  | spuriousMain =>
    simp only [Launch.step, Launch.spuriousMainStep] at h
    split at h <;> first | (injection h with h; subst h; exact hg) | cases h

/-- Where the threads are. -/
structure Ok (k : Nat) (s : St n P G X) (fs : List (Fin n)) : Prop where
  once : fs.Nodup
  mem : ∀ i, i ∈ fs ↔ s.ended i = true
  gone : ∀ i, s.ended i = true → i.val < k ∧ (s.net.worker i).pc = .gone
  joined : s.net.main = .done → ∀ i : Fin n, i.val < k → s.ended i = true

theorem main_done {a : Action n E} {s s' : State n P G} (h : Launch.step T k p a s = some s') (hd : s'.main = .done) :
    s.main = .done ∨ (a = .main ∧ s.main = .join) := by
  cases a with
  | main =>
    right
    refine ⟨rfl, ?_⟩
    simp only [Launch.step, Launch.mainStep] at h
    split at h
    · split_ifs at h <;> (injection h with h; subst h; cases hd)
    · injection h with h; subst h; cases hd
    · split at h <;> (injection h with h; subst h; cases hd)
    · split_ifs at h <;> (injection h with h; subst h; cases hd)
    · split_ifs at h <;> (injection h with h; subst h; cases hd)
    · assumption
    · cases h
  | worker i =>
    left
    have : s'.main = s.main := by
      simp only [Launch.step, workerStep] at h
      split at h
      · injection h with h; subst h; rfl
      · split_ifs at h <;> (injection h with h; subst h; rfl)
      · split_ifs at h <;> (injection h with h; subst h; rfl)
      · injection h with h; subst h; rfl
      · split_ifs at h
        · injection h with h; subst h; unfold assign; dsimp only; split_ifs <;> rfl
        all_goals (injection h with h; subst h; rfl)
      · split_ifs at h
        · injection h with h; subst h; unfold undefer1; dsimp only; split_ifs <;> rfl
        · injection h with h; subst h; rfl
      · split_ifs at h <;> (injection h with h; subst h; rfl)
      · split_ifs at h
        injection h with h; subst h; rfl
      · cases h
    rw [← this]; exact hd
  | env e => left; injection h with h; subst h; exact hd
  | spurious j =>
    left
    simp only [Launch.step, spuriousStep] at h
    split at h
    · injection h with h; subst h; exact hd
    · cases h
  | spuriousMain =>
    simp only [Launch.step, Launch.spuriousMainStep] at h
    split at h
    · injection h with h; subst h; revert hd; dsimp only; split_ifs <;> exact fun h => (by cases h)
    · injection h with h; subst h; revert hd; dsimp only; split_ifs <;> exact fun h => (by cases h)
    · cases h

theorem step_ok {a : Act n E} {s s' : St n P G X} {fs : List (Fin n)} (h : Ok k s fs) (hs : step T ep k p a s = some s') :
    Ok k s' (match a with | .net _ => fs | .finish i => fs ++ [i]) := by
  cases a with
  | net a =>
    obtain ⟨h1, h2, _⟩ := step_net hs
    refine ⟨h.once, fun i => by rw [h2]; exact h.mem i, fun i hi => ?_, fun hd i hi => ?_⟩
    · rw [h2] at hi
      exact ⟨(h.gone i hi).1, gone_stays h1 i (h.gone i hi).2⟩
    · rw [h2]
      rcases main_done h1 hd with hm | ⟨rfl, hm⟩
      · exact h.joined hm i hi
      · simp only [step] at hs
        split_ifs at hs with hc
        by_contra he
        exact hc ⟨by trivial, by rw [hm], i, hi, by simpa using he⟩
  | finish i =>
    obtain ⟨h1, h2, h3, h4⟩ := step_finish hs
    subst h4
    have hi : i ∉ fs := fun hm => by
      have := (h.mem i).mp hm
      rw [h3] at this; cases this
    refine ⟨?_, fun j => ?_, fun j hj => ?_, fun hd j hj => ?_⟩
    · exact List.nodup_append.mpr ⟨h.once, List.nodup_singleton _, fun a ha b hb e => hi (by
        rw [List.mem_singleton] at hb; subst hb; subst e; exact ha)⟩
    · dsimp only
      by_cases hij : j = i
      · subst hij; simp
      · simp only [List.mem_append, List.mem_singleton, hij, or_false, Function.update_of_ne hij]
        exact h.mem j
    · dsimp only at hj ⊢
      by_cases hij : j = i
      · subst hij; exact ⟨h1, h2⟩
      · rw [Function.update_of_ne hij] at hj
        exact h.gone j hj
    · dsimp only
      by_cases hij : j = i
      · subst hij; simp
      · rw [Function.update_of_ne hij]
        exact h.joined hd j hj

theorem run_ok {as : List (Act n E)} {s s' : St n P G X} {fs : List (Fin n)} (h : Ok k s fs) (hr : run T ep k p as s = some s') :
    Ok k s' (fs ++ finished as) ∧ s'.x = (finished as).foldl (fun x i => ep i x) s.x := by
  induction as generalizing s fs with
  | nil => injection hr with hr; subst hr; exact ⟨by simpa [finished] using h, rfl⟩
  | cons a as ih =>
    rw [run] at hr
    cases hs : step T ep k p a s with
    | none => rw [hs] at hr; cases hr
    | some t =>
      rw [hs] at hr
      have ht := step_ok h hs
      cases a with
      | net a =>
        obtain ⟨h1, h2⟩ := ih ht hr
        exact ⟨h1, by rw [h2, (step_net hs).2.2]; rfl⟩
      | finish i =>
        obtain ⟨h1, h2⟩ := ih ht hr
        refine ⟨by simpa [finished] using h1, ?_⟩
        rw [h2, (step_finish hs).2.2.2]
        rfl

theorem init_ok (k : Nat) (g : G) (x : X) : Ok k (init k g x : St n P G X) [] := by
  refine ⟨List.nodup_nil, fun i => by simp [init], fun i h => (by cases h), fun hd => ?_⟩
  exfalso
  revert hd
  simp only [init, Launch.init]
  split_ifs <;> exact fun h => (by cases h)

end Cru.Sweep
