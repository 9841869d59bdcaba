import Verif.Spec.Count
import Verif.Proofs.Walk
import Verif.Props.Build

/-! # C14, C15: counting -/

namespace Cru.Count

open Net

variable {n : Nat} {N V L : Type} [DecidableEq N] {W : Nat} {k : Kind} {g : Gr N V L} {hash : N → Nat}

theorem bump_eq (wrapped : Int) (j : Nat) (c : Nat × Int) (h : c.1 + j < W) :
    bump W wrapped j c = (c.1 + j, c.2) := by
  induction j generalizing c with
  | zero => rfl
  | succ j ih =>
    have e : (c.1 + 1) % W = c.1 + 1 := Nat.mod_eq_of_lt (by omega)
    rw [bump]
    simp only [e]
    rw [ih _ (by simp only; omega)]
    simp
    omega

theorem sum_weight (g : Gr N V L) (k : Kind) : (g.nodes.map (k.weight g)).sum = rightCount g k := by
  cases k with
  | vertices =>
    change (g.nodes.map fun _ => 1).sum = g.nodes.length
    simp
  | termini =>
    change (g.nodes.map fun m => if (g.out m).isEmpty then 1 else 0).sum = (g.nodes.filter fun m => (g.out m).isEmpty).length
    induction g.nodes with
    | nil => rfl
    | cons a l ih =>
      rw [List.map_cons, List.sum_cons, ih]
      by_cases h : (g.out a).isEmpty = true
      · rw [if_pos h, List.filter_cons, if_pos h, List.length_cons, Nat.add_comm]
      · rw [if_neg h, List.filter_cons, if_neg h, Nat.zero_add]
  | edges =>
    change (g.nodes.map fun m => (g.out m).length).sum = _
    simp [rightCount, edgeCount, List.length_flatMap]

theorem foldl_mod (f : N → Nat) (l : List N) (a : Nat) (h : a + (l.map f).sum < W) :
    l.foldl (fun c m => (c + f m) % W) a = a + (l.map f).sum := by
  induction l generalizing a with
  | nil => simp
  | cons x l ih =>
    simp only [List.map_cons, List.sum_cons] at h
    rw [List.foldl_cons, Nat.mod_eq_of_lt (by omega), ih _ (by omega)]
    simp; omega

/-- A counting task is a traversal of the outgoing edges. -/
def walker (W : Nat) (k : Kind) (g : Gr N V L) (hash : N → Nat) (hn : 0 < n) :
    Walker (task W k g hash hn) (g.next false) where
  node m := m
  lane m := Build.lane hn (hash m)
  seen s := s.seen
  ok s i := s.err i = 0
  dest _ := rfl
  others s m j hj := by
    have hj' : j ≠ Build.lane hn (hash m) := hj
    simp only [task, handle]
    split_ifs <;> simp [Function.update_of_ne hj']
  undeferred s m := by
    simp only [task, handle]
    split_ifs <;> rfl
  step s m := by
    simp only [task, handle]
    split_ifs with h1 h2
    · exact .inl ⟨rfl, rfl, fun h => ⟨h, h1⟩⟩
    · refine .inr ⟨h1, by simp, by simp, fun h => absurd h h2⟩
    · refine .inr ⟨h1, by simp, fun q hq => hq, fun _ => ⟨not_not.1 h2, fun q hq => ⟨q, hq, rfl⟩⟩⟩
  env e := e.elim

/-- As long as it can't wrap around, the counter of a lane has the sum of the weights of the nodes it has visited. -/
theorem count_inv (hn : 0 < n) (hw : g.WF) (hW : rightCount g k < W) :
    ∀ x, Bag.Reach (task W k g hash hn) g.base start x →
      ∀ i, x.1.err i = 0 ∧ x.1.count i = ((x.1.seen i).map (k.weight g)).sum := by
  intro x hx
  induction hx with
  | init => intro i; simp [start]
  | step hr hs ih =>
    cases hs with
    | env e => exact e.elim
    | handle s m rest =>
      have hinv := Walker.inv_reach (W := walker W k g hash hn) (i₀ := g.base) (fun i => rfl) _ (hr.step (.handle s m rest))
      intro i
      have hle : ((((task W k g hash hn).handle ((task W k g hash hn).dest m) s m).1.seen ((task W k g hash hn).dest m)).map
          (k.weight g)).sum ≤ rightCount g k := by
        rw [← sum_weight]
        have hsub : List.Subperm (((task W k g hash hn).handle ((task W k g hash hn).dest m) s m).1.seen
            ((task W k g hash hn).dest m)) g.nodes :=
          List.Nodup.subperm (hinv.nodup _) fun a ha => (hw.reach a).2 (hinv.reach _ a ha)
        obtain ⟨l, hp, hl⟩ := hsub
        rw [← (hp.map _).sum_eq]
        exact (hl.map _).sum_le_sum (by simp)
      simp only [task] at hle ⊢
      generalize Build.lane hn (hash m) = d at *
      simp only [handle] at hle ⊢
      split_ifs at hle ⊢ with h1 h2
      · exact ih i
      · exact absurd (ih d).1 h2
      · simp only at hle ⊢
        have hd : s.err d = 0 ∧ s.count d = ((s.seen d).map (k.weight g)).sum := ih d
        simp only [Function.update_self, List.map_append, List.sum_append, List.map_cons, List.map_nil, List.sum_cons,
          List.sum_nil] at hle
        rw [bump_eq _ _ _ (by simp only [hd.2]; omega)]
        by_cases hi : i = d
        · subst hi; simp [hd.1, hd.2]
        · simp only [Function.update_of_ne hi]; exact ih i

/-- **C14.** Whatever the number of lanes, the hash function and the schedule, the numbers of vertices, terminal vertices
and edges returned are right, and there's no error, provided they can be represented. -/
theorem C14_count (hw : g.WF) (hW : rightCount g k < W) {n c : Nat} {failed : Prop} (h : Returns W k g hash n c failed) :
    c = rightCount g k ∧ ¬ failed := by
  rcases h with ⟨-, rfl, hf⟩ | ⟨-, hn, s, hs, hd, rfl, hf⟩
  · refine ⟨?_, hf⟩
    rw [listCount, foldl_mod _ _ _ (by rw [sum_weight]; omega), sum_weight, Nat.zero_add]
  · have hb := reach_bag hn hs
    have hc := count_inv hn hw hW _ hb
    refine ⟨?_, fun hx => ?_⟩
    · have hp := (walker W k g hash hn).visited_perm hn (fun i => rfl) hs hd (fun i => (hc i).1) hw.nodup hw.reach
      have hr : ∀ i, s.g.returned i = ((s.g.seen i).map (k.weight g)).sum := by
        intro i; rw [Job.returned, if_neg (not_not.2 (hc i).1), (hc i).2]
      have ht : ((List.finRange n).map s.g.returned).sum = rightCount g k := by
        rw [← sum_weight, ← (hp.map _).sum_eq, Walker.visited, List.map_flatMap]
        simp only [funext hr]
        generalize List.finRange n = l
        induction l with
        | nil => rfl
        | cons a l ih => simp [ih, walker]
      rw [summation, foldl_mod _ _ _ (by rw [ht]; omega), ht, Nat.zero_add]
    · obtain ⟨i, hi⟩ := hf.1 hx
      exact hi (hc i).1

/-- **C14.** The functions always return: no schedule is infinite, and a return is possible. -/
theorem C14_returns (hw : g.WF) (hn : 0 < n) :
    (∀ f : Nat → State n N (Job n N), Net.Reach (task W k g hash hn) g.base start (f 0) →
      ¬ ∀ j, step (task W k g hash hn) g.base .main (f j) = some (f (j + 1)) ∨
        ∃ i, step (task W k g hash hn) g.base (.worker i) (f j) = some (f (j + 1))) ∧
    ∃ c failed, Returns W k g hash n c failed := by
  have ha := (walker W k g hash hn).acc (i₀ := g.base) (g₀ := start) (fun i => rfl) g.nodes (fun m hm => (hw.reach m).2 hm)
  refine ⟨fun f h0 hs => no_infinite_run hn ha f h0 hs, ?_⟩
  by_cases h1 : n = 1
  · exact ⟨_, False, .inl ⟨h1, rfl, id⟩⟩
  · obtain ⟨s, hs, hd, -⟩ := exists_done_inv hn ha (fun _ => True) trivial (fun _ _ _ _ => trivial)
    exact ⟨_, _, .inr ⟨h1, hn, s, hs, hd, rfl, Iff.rfl⟩⟩

/-- **C15.** `cru_singleton` holds if and only if the base is the only vertex reachable. -/
theorem C15_singleton (hw : g.WF) : singleton g = true ↔ ∀ m, Reaches (g.next false) g.base m → m = g.base := by
  have hb : g.base ∈ g.nodes := (hw.reach _).2 .refl
  have h := hw.reach
  have hn := hw.nodup
  unfold singleton
  rcases hl : g.nodes with _ | ⟨a, rest⟩
  · simp [hl] at hb
  · simp only [List.isEmpty_iff]
    rw [hl] at hb h hn
    constructor
    · rintro rfl m hm
      have := (h m).2 hm
      simp only [List.mem_singleton] at this hb
      rw [this, hb]
    · intro hu
      rcases rest with _ | ⟨b, rest⟩
      · rfl
      · have h1 := hu a ((h a).1 (by simp))
        have h2 := hu b ((h b).1 (by simp))
        simp [h1, h2] at hn

/-- **C15.** And if and only if `cru_vertex_count` returns 1. -/
theorem C15_singleton_count (hw : g.WF) (hW : vertexCount g < W) {n c : Nat} {failed : Prop}
    (h : Returns W .vertices g hash n c failed) : singleton g = true ↔ c = 1 := by
  rw [(C14_count (k := .vertices) hw hW h).1]
  have hb : g.base ∈ g.nodes := (hw.reach _).2 .refl
  unfold singleton rightCount vertexCount
  generalize g.nodes = l at *
  rcases l with _ | ⟨a, rest⟩
  · simp at hb
  · simp

/-! A diamond with a cycle: four nodes, six edges, one terminal vertex. -/

def demo : Gr Nat Nat Nat where
  nodes := [0, 1, 2, 3]
  base := 0
  vertex := id
  out m := match m with
    | 0 => [(10, 1), (11, 2)]
    | 1 => [(12, 3), (13, 0)]
    | 2 => [(14, 3), (15, 3)]
    | _ => []
  inn _ := []

theorem demo_wf : demo.WF := by
  refine ⟨by decide, fun m => ⟨fun h => ?_, fun h => ?_⟩⟩
  · have h1 : Reaches (demo.next false) 0 1 := .single (by decide)
    have h2 : Reaches (demo.next false) 0 2 := .single (by decide)
    have h3 : Reaches (demo.next false) 0 3 := h1.tail (by decide)
    have : m = 0 ∨ m = 1 ∨ m = 2 ∨ m = 3 := by simpa [demo] using h
    rcases this with rfl | rfl | rfl | rfl
    · exact .refl
    · exact h1
    · exact h2
    · exact h3
  · induction h with
    | refl => decide
    | tail _ hb ih =>
      rename_i a c _
      have ha : a = 0 ∨ a = 1 ∨ a = 2 ∨ a = 3 := by simpa [demo] using ih
      rcases ha with rfl | rfl | rfl | rfl <;> simp [demo, Gr.next] at hb ⊢ <;> omega

/-- Non-vacuity: on five lanes, the vertices, terminal vertices and edges of the demonstration graph are counted. -/
example : (∃ f, Returns 65536 .vertices demo id 5 4 f) ∧ (∃ f, Returns 65536 .termini demo id 5 1 f) ∧
    ∃ f, Returns 65536 .edges demo id 5 6 f := by
  have h : ∀ k, ∃ f, Returns 65536 k demo id 5 (rightCount demo k) f := by
    intro k
    obtain ⟨c, f, h⟩ := (C14_returns (W := 65536) (k := k) (hash := id) demo_wf (show 0 < 5 by decide)).2
    exact ⟨f, (C14_count demo_wf (by cases k <;> decide) h).1 ▸ h⟩
  exact ⟨h .vertices, h .termini, h .edges⟩

end Cru.Count
