import Verif.Proofs.Reclaim

/-! # C113: classes are freed exactly once -/

namespace Cru.Reclaim

variable {n : Nat} {V : Type} [DecidableEq V]

/-- Whatever was done to a partition, with whatever allocation failures and duplicate vertices, no class was used after it was freed, and
the classes of its vertices are all there. -/
theorem C113_safe {h : Heap n V} (hh : History h) :
    h.bad = false ∧ h.dead.Nodup ∧ ∀ i, ∀ e ∈ h.maps i, e.2 < h.next ∧ e.2 ∉ h.dead := by
  have hi := history_inv hh
  refine ⟨hi.ok, hi.nodup, fun i e he => ?_⟩
  have := hi.live (c := e.2) (List.mem_map.2 ⟨e, List.mem_flatMap.2 ⟨i, List.mem_finRange i, he⟩, rfl⟩)
  exact ⟨this.2, this.1⟩

/-- The number of references of a class is one less than the number of its vertices. -/
theorem C113_references {h : Heap n V} (hh : History h) {i : Fin n} {e : V × Nat} (he : e ∈ h.maps i) :
    h.refs e.2 + 1 = ((List.finRange n).map fun j => ((h.maps j).map Prod.snd).count e.2).sum := by
  have hi := history_inv hh
  have hm : e.2 ∈ entries h := List.mem_map.2 ⟨e, List.mem_flatMap.2 ⟨i, List.mem_finRange i, he⟩, rfl⟩
  obtain ⟨h1, h2⟩ := hi.live hm
  have h3 := hi.count e.2
  rw [if_neg (by rintro (h | h); exacts [h1 h, absurd h2 (by omega)])] at h3
  rw [← h3, entries, List.map_flatMap, List.count_flatMap]
  rfl

/-- When a partition is freed, every class that was ever allocated has been freed exactly once, none was used after it was freed, and
it makes no difference in what order the maps are visited. -/
theorem C113_freed {h h' : Heap n V} (hh : History h) (hf : Frees h h') :
    h'.bad = false ∧ h'.dead.Nodup ∧ ∀ c, c ∈ h'.dead ↔ c < h'.next := by
  obtain ⟨l, hp, rfl⟩ := hf
  have key : ∀ (l : List (V × Nat)) (h : Heap n V), Inv h (l.map Prod.snd) → Inv (l.foldl (fun h x => freeClass h x.2) h) [] := by
    intro l
    induction l with
    | nil => intro h hi; exact hi
    | cons x l ih => intro h hi; exact ih _ (freeClass_inv hi)
  have hi := key l h ((history_inv hh).perm fun c => (hp.map Prod.snd).count_eq c)
  refine ⟨hi.ok, hi.nodup, fun c => ⟨hi.old c, fun hc => ?_⟩⟩
  have := hi.count c
  by_contra hd
  rw [if_neg (by rintro (h | h); exacts [hd h, absurd hc (by omega)])] at this
  simp at this

/-- Two workers make two classes, one of them for three vertices, with a failure to store a fourth and a duplicate, then unite them. -/
def demo : List (Act 2 Nat) :=
  [.first 0 10 true true, .first 1 20 true true, .again 0 11 10 true true, .first 0 12 true false, .again 0 11 10 true true,
   .again 0 13 11 true true, .again 1 21 20 false true, .first 1 22 false true, .unite 0 1]

example : History (demo.foldl act (empty : Heap 2 Nat)) := by
  have key : ∀ (l : List (Act 2 Nat)) (h : Heap 2 Nat), History h → (∀ k, ∀ a, l[k]? = some a → Proper ((l.take k).foldl act h) a) →
      History (l.foldl act h) := by
    intro l
    induction l with
    | nil => intro h hh _; exact hh
    | cons a l ih =>
      intro h hh hp
      exact ih _ (.act a hh (hp 0 a rfl)) fun k b hk => hp (k + 1) b hk
  refine key _ _ .empty ?_
  intro k a hk
  rcases k with _ | _ | _ | _ | _ | _ | _ | _ | _ | k
  all_goals first
    | (cases hk; trivial)
    | (cases hk; exact ⟨⟨0, (10, 0), by decide, rfl⟩, 1, (20, 1), by decide, rfl⟩)
    | cases hk

example : (demo.foldl act (empty : Heap 2 Nat)).maps 0 = [(10, 0), (11, 0), (13, 0)] ∧
    (demo.foldl act (empty : Heap 2 Nat)).dead = [2] ∧ (demo.foldl act (empty : Heap 2 Nat)).next = 3 ∧
    (demo.foldl act (empty : Heap 2 Nat)).refs 0 = 2 := by decide +kernel

end Cru.Reclaim
