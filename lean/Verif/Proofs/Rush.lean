import Verif.Proofs.NetExec

/-! # Runs with a given order of precedence among the workers -/

namespace Cru.Net

variable {n : Nat} {P G E : Type}

/-- The first worker in a given order that can make a step does, otherwise the main thread. -/
def rushStep (order : List (Fin n)) (T : Task n P G E) (i₀ : P) (s : State n P G) : Option (State n P G) :=
  (order.findSome? fun i => step T i₀ (.worker i) s) <|> step T i₀ .main s

/-- A run of a number of steps, for demonstrations. -/
def rush (order : List (Fin n)) (T : Task n P G E) (i₀ : P) : Nat → State n P G → State n P G
  | 0, s => s
  | k + 1, s => match rushStep order T i₀ s with
    | none => s
    | some s' => rush order T i₀ k s'

theorem rush_reach {order : List (Fin n)} {T : Task n P G E} {i₀ : P} {g₀ : G} (k : Nat) :
    ∀ s, Reach T i₀ g₀ s → Reach T i₀ g₀ (rush order T i₀ k s) := by
  induction k with
  | zero => intro s h; exact h
  | succ k ih =>
    intro s h
    unfold rush
    rcases hg : rushStep order T i₀ s with _ | s'
    · exact h
    · refine ih s' ?_
      unfold rushStep at hg
      rcases hf : (order.findSome? fun i => step T i₀ (.worker i) s) with _ | s''
      · rw [hf] at hg
        exact Reach.step .main trivial h (by simpa using hg)
      · obtain ⟨i, hi, hs⟩ := List.exists_of_findSome?_eq_some hf
        rw [hf] at hg
        simp at hg
        subst hg
        exact Reach.step (.worker i) trivial h hs

/-- From every reachable state, a terminating job can be run to the end without interference; what's preserved by handling packets on the
lanes where they belong holds at the end. -/
theorem exists_done_dest {T : Task n P G E} {i₀ : P} {g₀ : G} (hn : 0 < n)
    (hb : ∀ x, Bag.Reach T i₀ g₀ x → Acc (fun y x => Bag.Handles T x y) x) (I : G → Prop)
    (hI : ∀ g p, I g → I (T.handle (T.dest p) g p).1) :
    ∀ s : State n P G, Reach T i₀ g₀ s → I s.g → ∃ s', Reach T i₀ g₀ s' ∧ s'.main = .done ∧ I s'.g := by
  intro s h hs
  have ha := threadStep_acc hn hb s h
  induction ha with
  | intro s _ ih =>
    by_cases hd : s.main = .done
    · exact ⟨s, h, hd, hs⟩
    · rcases enabled_of_inv T i₀ (reach_inv hn h) hd with he | ⟨i, he⟩
      · obtain ⟨s', hs'⟩ := Option.isSome_iff_exists.1 he
        exact ih s' (Or.inl hs') (threadStep_reach h (Or.inl hs')) (by rw [mainStep_g hs']; exact hs)
      · obtain ⟨s', hs'⟩ := Option.isSome_iff_exists.1 he
        refine ih s' (Or.inr ⟨i, hs'⟩) (threadStep_reach h (Or.inr ⟨i, hs'⟩)) ?_
        rcases (workerStep_sim (i₀ := i₀) (inv_routed (reach_inv hn h) i) hs').2 with ⟨e, -⟩ | ⟨p, _, -, e, -⟩
        · rw [e]; exact hs
        · rw [e]; exact hI _ _ hs

end Cru.Net
