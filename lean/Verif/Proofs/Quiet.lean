import Verif.Proofs.NetExec

/-! # Runs without interference -/

namespace Cru.Net

variable {n : Nat} {P G E : Type}

/-- The same task without interference. -/
def Task.quiet (T : Task n P G E) : Task n P G _root_.Empty := ⟨T.dest, T.handle, fun e => e.elim⟩

/-- A run that ends in a state that's only possible without interference is one without interference. -/
theorem reach_quiet {T : Task n P G E} {i₀ : P} {g₀ : G} (I : G → Prop) (he : ∀ e g, ¬ I (T.env e g))
    (hh : ∀ i g p, I (T.handle i g p).1 → I g) {s : State n P G} (h : Reach T i₀ g₀ s) : I s.g → Reach T.quiet i₀ g₀ s := by
  induction h with
  | init => exact fun _ => .init
  | @step s s' a ha hr hs ih =>
    intro hI
    cases a with
    | env e =>
      simp only [step, Option.some.injEq] at hs
      subst hs
      exact absurd hI (he e s.g)
    | spurious i => exact ha.elim
    | spuriousMain => exact ha.elim
    | main =>
      refine .step .main trivial (ih ?_) hs
      rw [mainStep_g hs] at hI; exact hI
    | worker i =>
      refine .step (.worker i) trivial (ih ?_) hs
      rcases workerStep_g hs with e | ⟨p, e⟩
      · rw [e] at hI; exact hI
      · rw [e] at hI; exact hh _ _ _ hI

/-- The other way around. -/
theorem reach_of_quiet {T : Task n P G E} {i₀ : P} {g₀ : G} {s : State n P G} (h : Reach T.quiet i₀ g₀ s) : Reach T i₀ g₀ s := by
  induction h with
  | init => exact .init
  | step a ha hr hs ih =>
    cases a with
    | env e => exact e.elim
    | spurious i => exact ha.elim
    | spuriousMain => exact ha.elim
    | main => exact .step .main trivial ih hs
    | worker i => exact .step (.worker i) trivial ih hs

end Cru.Net
