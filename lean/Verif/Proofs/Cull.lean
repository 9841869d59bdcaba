import Verif.Model.Cull
import Verif.Proofs.Trav
import Verif.Proofs.Rover

/-! # Traversals that go on after an error or a kill -/

namespace Cru.Cull

open Net

variable {n : Nat} {N S : Type} {next : N → List N} {visit : Fin n → S → N → S × Int} {hash : N → Nat} {hn : 0 < n}

/-- They're traversals that visit everything whether or not there's an error or a kill. -/
def rover [DecidableEq N] (next : N → List N) (visit : Fin n → S → N → S × Int) (hash : N → Nat) (hn : 0 < n) :
    Rover (task next visit hash hn) next where
  I s := ∀ i, s.mem.culled i ≠ [] → s.err i ≠ 0 ∨ s.stop i = true
  node m := some m
  weight _ := 0
  lane m := Build.lane hn (hash m)
  seen s i := s.seen i ++ (s.mem.culled i).reverse
  ok _ _ := True
  dest p m h := by cases h; rfl
  inv s m hI := by
    simp only [task, handle]
    generalize Build.lane hn (hash m) = i
    obtain ⟨sample, stop, e, h1, h2, h3⟩ := Trav.poll_eq s i
    rw [e]
    dsimp only
    have hI' : ∀ j, s.mem.culled j ≠ [] → s.err j ≠ 0 ∨ stop j = true := by
      intro j hj
      rcases hI j hj with h | h
      · exact .inl h
      · by_cases hji : j = i
        · subst hji
          refine .inr ?_
          by_contra hc
          have := h2 (by simpa using hc)
          rw [this] at h; cases h
        · rw [h1 j hji]; exact .inr h
    split_ifs with c1 c2
    · exact hI'
    · intro j hj
      by_cases hji : j = i
      · subst hji; exact c2
      · simp only [Function.update_of_ne hji] at hj; exact hI' j hj
    · intro j hj
      have := hI' j hj
      by_cases hji : j = i
      · subst hji; exact absurd this c2
      · simp only [Function.update_of_ne hji]; exact this
  others s m j hj := by
    have hj' : j ≠ Build.lane hn (hash m) := hj
    simp only [task, handle]
    generalize Build.lane hn (hash m) = i at *
    obtain ⟨sample, stop, e, -⟩ := Trav.poll_eq s i
    rw [e]
    dsimp only
    split_ifs
    · exact ⟨rfl, fun h => h⟩
    · simp only [Function.update_of_ne hj']; exact ⟨trivial, fun h => h⟩
    · simp only [Function.update_of_ne hj']; exact ⟨trivial, fun h => h⟩
  undeferred s m := by
    simp only [task, handle]
    split_ifs <;> rfl
  mail s m h := by cases h
  step s p m hI hm := by
    cases hm
    simp only [task, handle]
    generalize Build.lane hn (hash p) = i
    obtain ⟨sample, stop, e, h1, h2, h3⟩ := Trav.poll_eq s i
    rw [e]
    dsimp only
    have hfm : ∀ l : List N, l.filterMap (fun m => some m) = l := fun l => List.filterMap_some
    simp only [hfm]
    split_ifs with c1 c2
    · refine .inl ⟨rfl, rfl, fun _ => ⟨trivial, ?_⟩⟩
      rcases c1 with c1 | ⟨-, c1⟩
      · exact List.mem_append_left _ c1
      · exact List.mem_append_right _ (List.mem_reverse.2 c1)
    · refine .inr ⟨?_, ?_, fun q hq => hq, fun _ => ⟨trivial, fun q hq => hq⟩⟩
      · intro h
        rcases List.mem_append.1 h with h | h
        · exact c1 (.inl h)
        · exact c1 (.inr ⟨c2, List.mem_reverse.1 h⟩)
      · simp
    · refine .inr ⟨?_, ?_, fun q hq => hq, fun _ => ⟨trivial, fun q hq => hq⟩⟩
      · intro h
        rcases List.mem_append.1 h with h | h
        · exact c1 (.inl h)
        · have h' := hI i (fun h0 => by rw [h0] at h; simp at h)
          refine c2 ?_
          rcases h' with h' | h'
          · exact .inl h'
          · refine .inr ?_
            by_contra hc
            have := h2 (by simpa using hc)
            rw [this] at h'; cases h'
      · have : s.mem.culled i = [] := by
          by_contra h0
          refine c2 ?_
          rcases hI i h0 with h' | h'
          · exact .inl h'
          · refine .inr ?_
            by_contra hc
            have := h2 (by simpa using hc)
            rw [this] at h'; cases h'
        simp [this]
  env e s := ⟨rfl, fun h => h, fun _ h => h⟩

theorem rover_inv [DecidableEq N] {a : N} {s : S} : ∀ x, Bag.Reach (task next visit hash hn) a (start s) x →
    (rover next visit hash hn).Inv a x.1 x.2 :=
  Rover.inv_reach (fun _ => rfl) (fun i h => absurd rfl h) rfl

/-- What the end is like: every node has been seen or is on a list for deletion, but not both. -/
theorem done_perm [DecidableEq N] {a : N} {s : S} {x : State n N (Trav.Job n N (Mem n N S))}
    (hx : Net.Reach (task next visit hash hn) a (start s) x) (hd : x.main = .done) {ms : List N} (hm : Covers next a ms) :
    ((List.finRange n).flatMap fun i => x.g.seen i ++ (x.g.mem.culled i).reverse).Perm ms :=
  (rover next visit hash hn).visited_perm hn (fun _ => rfl) (fun i h => absurd rfl h) rfl hx hd (fun _ => trivial) hm.nodup hm.mem

theorem acc [DecidableEq N] (visit : Fin n → S → N → S × Int) (hash : N → Nat) (hn : 0 < n) {a : N} (s : S) {ms : List N}
    (hm : ∀ m, Reaches next a m → m ∈ ms) :
    ∀ x, Bag.Reach (task next visit hash hn) a (start s) x → Acc (fun y x => Bag.Handles (task next visit hash hn) x y) x :=
  (rover next visit hash hn).acc (fun _ => rfl) (fun i h => absurd rfl h) rfl ms hm

/-- The first node is seen before anything else is done. -/
theorem first [DecidableEq N] {a : N} {s : S} :
    ∀ x, Bag.Reach (task next visit hash hn) a (start s) x →
      (x.2 = {a} ∧ ∃ k, x.1 = { (start s : Trav.Job n N (Mem n N S)) with killed := k }) ∨ a ∈ x.1.seen (Build.lane hn (hash a)) := by
  intro x hx
  induction hx with
  | init => exact .inl ⟨rfl, 0, rfl⟩
  | step hr hs ih =>
    cases hs with
    | env e s m =>
      rcases ih with ⟨h1, k, h2⟩ | h
      · exact .inl ⟨h1, 1, by simp only at h2; rw [h2]; rfl⟩
      · exact .inr h
    | handle s m rest =>
      refine .inr ?_
      rcases ih with ⟨h1, k, h2⟩ | h
      · have hm : m = a := by
          have : m ∈ ({a} : Multiset N) := by rw [← h1]; exact Multiset.mem_cons_self _ _
          simpa using this
        simp only at h2
        subst hm
        rw [h2]
        simp [task, handle, Trav.poll, start, Trav.start]
      · simp only [task, handle]
        obtain ⟨sample, stop, e, -⟩ := Trav.poll_eq s (Build.lane hn (hash m))
        rw [e]
        dsimp only
        split_ifs with c1 c2
        · exact h
        · exact h
        · by_cases hj : Build.lane hn (hash a) = Build.lane hn (hash m)
          · simp only [hj, Function.update_self]; exact List.mem_append_left _ (hj ▸ h)
          · simp only [Function.update_of_ne hj]; exact h

/-- Induction over the visits made, the base node being the first. -/
theorem induct_first [DecidableEq N] {a : N} {s : S} {motive : (Fin n → List N) → (Fin n → Int) → S → Prop}
    (h0 : motive (fun _ => []) (fun _ => 0) s)
    (hv : ∀ seen err mem m, motive seen err mem → Reaches next a m → err (Build.lane hn (hash m)) = 0 →
      m ∉ seen (Build.lane hn (hash m)) → ((m = a ∧ ∀ i, seen i = []) ∨ a ∈ seen (Build.lane hn (hash a))) →
      motive (Function.update seen (Build.lane hn (hash m)) (seen (Build.lane hn (hash m)) ++ [m]))
        (Function.update err (Build.lane hn (hash m)) (visit (Build.lane hn (hash m)) mem m).2)
        (visit (Build.lane hn (hash m)) mem m).1) :
    ∀ x, Bag.Reach (task next visit hash hn) a (start s) x → motive x.1.seen x.1.err x.1.mem.rest := by
  intro x hx
  induction hx with
  | init => exact h0
  | step hr hs ih =>
    cases hs with
    | env e s m => exact ih
    | handle s m rest =>
      have hf := first _ hr
      have hreach := (rover_inv _ hr).flight m (Multiset.mem_cons_self _ _) m rfl
      simp only [task, handle]
      obtain ⟨sample, stop, e, -⟩ := Trav.poll_eq s (Build.lane hn (hash m))
      rw [e]
      dsimp only
      split_ifs with c1 c2
      · exact ih
      · exact ih
      · rw [not_or] at c1 c2
        refine hv _ _ _ m ih hreach (not_not.1 c2.1) c1.1 ?_
        rcases hf with ⟨h1, k, h2⟩ | h
        · refine .inl ⟨?_, fun i => ?_⟩
          · have : m ∈ ({a} : Multiset N) := by rw [← h1]; exact Multiset.mem_cons_self _ _
            simpa using this
          · simp only at h2; rw [h2]; rfl
        · exact .inr h

/-- Workers don't stop unless killed. -/
theorem stop_inv [DecidableEq N] {a : N} {s : S} :
    ∀ x, Bag.Reach (task next visit hash hn) a (start s) x → x.1.killed = 0 → ∀ i, x.1.stop i = false := by
  intro x hx
  induction hx with
  | init => intro _ i; rfl
  | step hr hs ih =>
    cases hs with
    | env e s m => intro h; exact absurd (show (1 : Nat) = 0 from h) (by decide)
    | handle s m rest =>
      simp only [task, handle]
      generalize Build.lane hn (hash m) = i
      obtain ⟨sample, stop, e, h1, h2, h3⟩ := Trav.poll_eq s i
      rw [e]
      dsimp only
      have key : s.killed = 0 → ∀ j, stop j = false := by
        intro hk j
        by_cases hj : j = i
        · subst hj
          by_contra hs
          rcases h3 (by simpa using hs) with h4 | h4
          · rw [ih hk j] at h4; cases h4
          · exact h4 hk
        · rw [h1 j hj]; exact ih hk j
      split_ifs <;> exact key

/-- Nothing is culled without an error or a kill. -/
theorem culled_nil [DecidableEq N] {a : N} {s : S} {x : Trav.Job n N (Mem n N S) × Multiset N}
    (hx : Bag.Reach (task next visit hash hn) a (start s) x) (hk : x.1.killed = 0) (he : ∀ i, x.1.err i = 0) (i : Fin n) :
    x.1.mem.culled i = [] := by
  by_contra h
  rcases (rover_inv _ hx).I i h with h' | h'
  · exact h' (he i)
  · rw [stop_inv _ hx hk i] at h'; cases h'

/-- If the operation is killed at the beginning, each worker sees at most 31 nodes. -/
theorem killed_few [DecidableEq N] (visit : Fin n → S → N → S × Int) (hash : N → Nat) (hn : 0 < n) {a : N} (s₀ : S) {ms : List N}
    (hm : ∀ m, Reaches next a m → m ∈ ms) :
    ∃ x, Net.Reach (task next visit hash hn) a (start s₀) x ∧ x.main = .done ∧ x.g.killed = 1 ∧ ∀ i, (x.g.seen i).length ≤ 31 := by
  have ha := acc visit hash hn (a := a) s₀ hm
  have h1 : Net.Reach (task next visit hash hn) a (start s₀) { init (start s₀) with g := { start s₀ with killed := 1 } } :=
    .step (.env ()) trivial .init rfl
  obtain ⟨x, hx, hd, hJ⟩ := exists_done_from hn ha
    (fun s => s.killed = 1 ∧ ∀ i, (s.seen i).length ≤ 31 ∧ (s.stop i = false → s.sample i ≤ 31 ∧ (s.seen i).length ≤ s.sample i))
    (by
      rintro i s m ⟨hk, hs⟩
      simp only [task, handle]
      by_cases h : s.stop i = true
      · have hp : Trav.poll s i = s := by unfold Trav.poll; rw [if_pos h]
        rw [hp]
        split_ifs with c1 c2
        · exact ⟨hk, hs⟩
        · exact ⟨hk, hs⟩
        · exact absurd (Or.inr h) c2
      · have hp : Trav.poll s i = { s with
            sample := Function.update s.sample i (s.sample i + 1)
            stop := Function.update s.stop i ((s.sample i + 1) % 32 == 0 && s.killed != 0) } := by unfold Trav.poll; rw [if_neg h]
        rw [hp]
        dsimp only
        have h' : s.stop i = false := by simpa using h
        have key : ∀ j, (Function.update s.stop i ((s.sample i + 1) % 32 == 0 && s.killed != 0)) j = false →
            Function.update s.sample i (s.sample i + 1) j ≤ 31 ∧
            (s.seen j).length ≤ Function.update s.sample i (s.sample i + 1) j ∧
            (j = i → (s.seen j).length + 1 ≤ Function.update s.sample i (s.sample i + 1) j) := by
          intro j
          by_cases hj : j = i
          · subst hj
            simp only [Function.update_self]
            intro hst
            have h4 := (hs j).2 h'
            have h5 : ¬ (s.sample j + 1) % 32 = 0 := by
              intro hc; rw [hc] at hst; simp [hk] at hst
            exact ⟨by omega, by omega, fun _ => by omega⟩
          · rw [Function.update_of_ne hj, Function.update_of_ne hj]
            intro hst
            have := (hs j).2 hst
            exact ⟨this.1, this.2, fun h => absurd h hj⟩
        split_ifs with c1 c2
        · exact ⟨hk, fun j => ⟨(hs j).1, fun hst => ⟨(key j hst).1, (key j hst).2.1⟩⟩⟩
        · exact ⟨hk, fun j => ⟨(hs j).1, fun hst => ⟨(key j hst).1, (key j hst).2.1⟩⟩⟩
        · rw [not_or] at c2
          have c3 := c2.2
          refine ⟨hk, fun j => ?_⟩
          by_cases hj : j = i
          · subst hj
            have hst := key j (by simpa using c3)
            simp only [Function.update_self, List.length_append, List.length_singleton] at hst ⊢
            exact ⟨by have := hst.2.2 trivial; omega, fun _ => ⟨hst.1, hst.2.2 trivial⟩⟩
          · simp only [Function.update_of_ne hj] at key ⊢
            refine ⟨(hs j).1, fun hst => ⟨((hs j).2 hst).1, ((hs j).2 hst).2⟩⟩)
    _ h1 ⟨rfl, fun i => ⟨Nat.zero_le _, fun _ => ⟨Nat.zero_le _, Nat.zero_le _⟩⟩⟩
  exact ⟨x, hx, hd, hJ.1, fun i => (hJ.2 i).1⟩

end Cru.Cull
