import Verif.Proofs.SaysMerge
import Verif.Props.MergeAcc

/-! # C143: no error is lost in merging -/

namespace Cru.MergeAcc

open Fold Net

variable {A U V : Type}

theorem passes_tells (c : Merger A U V) (first second third : Int) (unstarted : Bool) (visited : Item V → Bool) (ps : List (Port V)) (w : World)
    (hz : (passes c first second third unstarted visited ps w).2.2.err = 0) :
    ((passes c first second third unstarted visited ps w).2.2.upset = true → w.upset = true) ∧ (∀ p ∈ ps, p.err = 0) ∧ first = 0 ∧ second = 0 ∧
      (unstarted = false → third = 0) := by
  unfold passes at hz ⊢
  dsimp only at hz ⊢
  set x := eachPort (fun p w => ({ p with deferred := (fuse c p.deferred w).1 }, (fuse c p.deferred w).2)) Port.err ps w with hx
  by_cases h1 : status x.1 first ≠ 0
  · rw [if_pos h1] at hz; exact absurd hz h1
  rw [if_neg h1] at hz ⊢
  obtain ⟨h2, h3⟩ := (status_zero _ _).1 (not_not.1 h1)
  obtain ⟨h4, h5⟩ := eachPort_tells (fun p w => fuse_says c p.deferred w) Port.err ps w h2
  by_cases hu : unstarted = true
  · rw [if_pos hu] at hz ⊢
    exact ⟨h4, h5, h3, hz, fun h => absurd hu (by simp [h])⟩
  rw [if_neg hu] at hz ⊢
  set y := eachPort (fun p w => ({ p with deferred := [], survivors := (mergeEdges c p.deferred p.survivors w).1 },
      (mergeEdges c p.deferred p.survivors w).2)) (fun _ => 0) x.1 x.2 with hy
  by_cases h6 : status y.1 second ≠ 0
  · rw [if_pos h6] at hz; exact absurd hz h6
  rw [if_neg h6] at hz ⊢
  obtain ⟨h7, h8⟩ := (status_zero _ _).1 (not_not.1 h6)
  obtain ⟨h9, -⟩ := eachPort_tells (fun p w => mergeEdges_says c p.deferred p.survivors w) (fun _ => 0) x.1 x.2 h7
  exact ⟨fun h => h4 (h9 h), h5, h3, h8, fun _ => hz⟩

/-- **C143.** Merging, from the end of the traversal that classifies vertices on: if any function, destructor or comparison has failed since, or any worker had an
error by then or there was an error in one of the launches, then there's an error and no graph is returned.  (The errors of workers that discard things are
raised by launch.c:69, so `reported` holds.) -/
theorem C143_merged (c : Merger A U V) (first second third last : Int) (unstarted : Bool) (visited : Item V → Bool) (ps : List (Port V)) (w : World)
    (h0 : w.upset = false)
    (hu : (merged c first second third last unstarted true visited ps w).2.upset = true ∨ (∃ p ∈ ps, p.err ≠ 0) ∨ first ≠ 0 ∨ second ≠ 0 ∨
      (unstarted = false ∧ third ≠ 0) ∨ last ≠ 0) :
    (merged c first second third last unstarted true visited ps w).1 = [] ∧ (merged c first second third last unstarted true visited ps w).2.err ≠ 0 := by
  have h2 : (merged c first second third last unstarted true visited ps w).2.err ≠ 0 := by
    intro hz
    have hp := passes_tells c first second third unstarted visited ps w
    unfold merged at hz hu
    generalize passes c first second third unstarted visited ps w = x at hp hz hu
    unfold finish at hz hu
    dsimp only at hz hu
    simp only [if_true] at hz hu
    have hs : Says x.2.2 (unpropped c x.1 (x.2.1.foldl (fun w p => demerge c p w) x.2.2)) :=
      (foldl_says _ (fun _ _ => demerge_says c _ _) _ _).trans (destroyAll_says c _ _ _)
    generalize unpropped c x.1 (x.2.1.foldl (fun w p => demerge c p w) x.2.2) = w' at hs hz hu
    have hr : (w'.raise last).err = 0 := by
      by_contra hne
      rw [if_neg hne] at hz
      by_cases hb : (w'.raise last).err = -513
      · rw [if_pos hb] at hz; exact hne hz
      · rw [if_neg hb] at hz; exact hne ((freeNodes_says c _ _ _ _).err hz)
    rw [if_pos hr] at hu
    obtain ⟨h3, h4⟩ := raise_zero.1 hr
    obtain ⟨h5, h6, h7, h8, h9⟩ := hp (hs.err h3)
    rcases hu with hu | ⟨p, hpm, hpe⟩ | h | h | ⟨h, h'⟩ | h
    · have := h5 (hs.upset h3 hu)
      rw [h0] at this; cases this
    · exact hpe (h6 p hpm)
    · exact h h7
    · exact h h8
    · exact h' (h9 h)
    · exact h h4
  refine ⟨?_, h2⟩
  unfold merged at h2 ⊢
  generalize passes c first second third unstarted visited ps w = x at h2 ⊢
  unfold finish at h2 ⊢
  dsimp only at h2 ⊢
  split_ifs at h2 ⊢ <;> first | rfl | contradiction

/-- Non-vacuity: of the demonstration graph, merging succeeds if the pruner doesn't fail, and otherwise it doesn't. -/
example : demoWorld.upset = false ∧
    (merged (demoMerger (some 1) (fun _ => true) 1000) 0 0 0 0 false true (fun _ => true) (portsOf demoItem (fun m => m % 2) id demoRun.g) demoWorld).2.err = 0 ∧
    (merged (demoMerger (some 1) (fun _ => true) 130) 0 0 0 0 false true (fun _ => true) (portsOf demoItem (fun m => m % 2) id demoRun.g) demoWorld).2.upset = true :=
  ⟨rfl, by decide +kernel, by decide +kernel⟩

end Cru.MergeAcc
