import Verif.Spec.Graph
import Mathlib.Data.List.Range

/-! # Demonstration graphs are well formed -/

namespace Cru

variable {V L : Type}

/-- Nodes are numbered, edges stay among them, and every node other than the base node has an edge from an earlier one. -/
theorem wf_range {g : Gr Nat V L} {k : Nat} (hn : g.nodes = List.range k) (hb : g.base = 0) (hk : 0 < k)
    (hout : ∀ m < k, ∀ e ∈ g.out m, e.2 < k) (hin : ∀ m < k, m ≠ 0 → ∃ j < m, ∃ e ∈ g.out j, e.2 = m) : g.WF := by
  refine ⟨by rw [hn]; exact List.nodup_range, fun m => ?_⟩
  rw [hn, List.mem_range, hb]
  constructor
  · induction m using Nat.strong_induction_on with
    | _ m ih =>
      intro h
      by_cases h0 : m = 0
      · subst h0; exact .refl
      · obtain ⟨j, hj, e, he, hem⟩ := hin m h h0
        exact (ih j hj (by omega)).tail (by simp only [Gr.next, Bool.false_eq_true, if_false, List.mem_map]; exact ⟨e, he, hem⟩)
  · intro h
    induction h with
    | refl => exact hk
    | tail _ hb ih =>
      simp only [Gr.next, Bool.false_eq_true, if_false, List.mem_map] at hb
      obtain ⟨e, he, rfl⟩ := hb
      exact hout _ ih e he

end Cru
