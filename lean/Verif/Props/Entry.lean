import Verif.Model.Entry
import Verif.Props.Build

/-! # C55: what a caller of `cru_built` gets -/

namespace Cru.Entry

open Build

variable {n : Nat} {V L : Type}

/-- A call of `cru_built` on `n` lanes can end in `x`: in some execution of the workers, if any are started. -/
def CanEnd (c : Call V L) (hn : 0 < n) (v₀ : V) (x : CallEnd (Graph n V L) V) : Prop :=
  ∃ build, (∀ b, c.spec = some (.ok b) → Returns b hn v₀ (build b)) ∧ cruBuilt c v₀ build = x

/-- **C55: the defect.** in every execution in which a callback raises an error, or the caller kills the operation, `cru_built`
dereferences a null pointer instead of returning. -/
theorem C55_failure_undefined {b : Builder V L} (hb : b.Sane) {c : Call V L} (ha : c.api = 0) (hc : c.spec = some (.ok b))
    {hn : 0 < n} {v₀ : V} {g : Job n V L} (h : Ends b hn v₀ g)
    (hf : (∃ x ∈ allCalls g, (b.connect x.1 x.2).1 ≠ 0) ∨ g.asked = true) :
    cruBuilt c v₀ (fun b => result b hn v₀ g) = .undefined ∧ CanEnd c hn v₀ (.undefined : CallEnd (Graph n V L) V) := by
  obtain ⟨e, he⟩ := C12_callback_error_fails hb h hf
  have : cruBuilt c v₀ (fun b => result b hn v₀ g) = .undefined := by simp [cruBuilt, ha, hc, he]
  refine ⟨this, fun b => result b hn v₀ g, fun b' hb' => ?_, this⟩
  rw [hc] at hb'
  cases hb'
  exact ⟨g, h, rfl⟩

/-- **C55.** More generally the behaviour is undefined exactly when an accepted specification leads to a failing build. -/
theorem C55_undefined_iff (c : Call V L) (hn : 0 < n) (v₀ : V) (build : Builder V L → Except Int (Graph n V L)) :
    cruBuilt c v₀ build = .undefined ↔ c.api = 0 ∧ ∃ b e, c.spec = some (.ok b) ∧ build b = .error e := by
  unfold cruBuilt Call.giveUp
  by_cases ha : c.api = 0
  · rw [if_neg (by simp [ha])]
    rcases hs : c.spec with _ | (e | b)
    · simp
    · simp
    · cases hb : build b <;> simp [hb, ha]
  · simp [ha]

/-- **C55: successful builds.** If no callback raises an error and no limit or kill request is in force, `cru_built`
returns the graph that was built, with the attribute, without an error and without destroying the initial vertex. -/
theorem C55_success {b : Builder V L} (hb : b.Sane) {c : Call V L} (ha : c.api = 0) (hc : c.spec = some (.ok b))
    {hn : 0 < n} {v₀ : V} {g : Job n V L} (h : Ends b hn v₀ g) (hx : ∀ x ∈ allCalls g, (b.connect x.1 x.2).1 = 0)
    (hl : b.vertexLimit = 0) (hk : g.asked = false) :
    ∃ G, result b hn v₀ g = .ok G ∧ cruBuilt c v₀ (fun b => result b hn v₀ g) = .returned (some (G, c.attr)) 0 [] := by
  obtain ⟨G, hG⟩ := C12_no_error_succeeds hb h hx hl hk
  exact ⟨G, hG, by simp [cruBuilt, ha, hc, hG]⟩

/-- **C55: rejected specifications.** If the library is unusable or the specification is rejected, null is returned with the error code, and
the initial vertex, which the function owns, is destroyed exactly once if it isn't null and there is a destructor. -/
theorem C55_rejected (c : Call V L) (hn : 0 < n) (v₀ : V) (e : Int)
    (h : c.api = e ∧ e ≠ 0 ∨ c.api = 0 ∧ (c.spec = some (.error e) ∨ c.spec = none ∧ e = 0))
    (x : CallEnd (Graph n V L) V) (hx : CanEnd c hn v₀ x) :
    x = .returned none e (if c.isNull v₀ = false ∧ c.vFree = true then [v₀] else []) := by
  obtain ⟨build, -, rfl⟩ := hx
  unfold cruBuilt Call.giveUp
  rcases h with ⟨rfl, h⟩ | ⟨ha, h | ⟨h, rfl⟩⟩
  · rw [if_pos h]
  · simp [ha, h]
  · simp [ha, h]

/-! A builder whose connector always fails, on any number of lanes: the call is undefined. -/

def failB : Builder Nat Nat where
  vEq := (· == ·)
  vHash := id
  eEq := (· == ·)
  eHash := id
  sub := false
  connect _ _ := (5, [])

theorem failB_sane : failB.Sane := by
  refine ⟨⟨?_, ?_, ?_⟩, ?_, ⟨?_, ?_, ?_⟩, ?_⟩ <;> simp +contextual [failB, HashRespects]

def failCall : Call Nat Nat := ⟨0, some (.ok failB), true, fun _ => false, 7⟩

theorem failCall_undefined (hn : 0 < n) : CanEnd failCall hn 3 (.undefined : CallEnd (Graph n Nat Nat) Nat) := by
  have hr : failB.Respects := by intro inc inc' v v' _ _ x hx; simp [failB] at hx
  obtain ⟨g, h1, h2⟩ := (C56_finite_builds_terminate (v₀ := 3) hn failB_sane hr
    [(.whole, 3)] (fun inc v h => by
      cases h with
      | base => exact ⟨_, List.mem_singleton_self _, callEq_iff.1 (show callEq failB (.whole, 3) (.whole, 3) = true by decide)⟩
      | step _ h => simp [failB] at h)).2
  cases hG : result failB hn 3 g with
  | error e =>
    refine ⟨fun b => result b hn 3 g, fun b hb => ?_, (C55_undefined_iff _ hn _ _).2 ⟨rfl, failB, e, rfl, hG⟩⟩
    cases hb
    exact ⟨g, h1, rfl⟩
  | ok G =>
    have h := (C09_called_exactly_once failB_sane hr h1 hG).1 _ _ .base
    have h0 : 0 < timesCalled failB g failB.first 3 := by omega
    obtain ⟨x, hx, -⟩ := List.countP_pos_iff.1 h0
    exact (C55_failure_undefined failB_sane (c := failCall) rfl rfl h1 (.inl ⟨x, hx, show (5 : Int) ≠ 0 by decide⟩)).2

/-- Non-vacuity of the positive part: `demoB` on three lanes. -/
example : ∃ G : Graph 3 Nat Nat, CanEnd ⟨0, some (.ok demoB), true, fun _ => false, 7⟩ (by decide) 0
    (.returned (some (G, 7)) 0 []) := by
  obtain ⟨g, h1, h2⟩ := demoB_ends (n := 3) (by decide)
  obtain ⟨G, h3, h4⟩ := C55_success demoB_sane (c := ⟨0, some (.ok demoB), true, fun _ => false, 7⟩) rfl rfl h1
    (fun _ _ => rfl) rfl h2
  refine ⟨G, _, fun b hb => ?_, h4⟩
  cases hb
  exact ⟨g, h1, rfl⟩

end Cru.Entry
