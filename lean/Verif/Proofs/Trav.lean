import Verif.Model.Trav
import Verif.Proofs.Walk
import Mathlib.Tactic.SplitIfs

/-! # What traversals have in common -/

namespace Cru.Trav

open Net

variable {n : Nat} {N S : Type} {next : N → List N} {visit : Fin n → S → N → S × Int} {hash : N → Nat}

theorem poll_eq (s : Job n N S) (i : Fin n) : ∃ sample stop, poll s i = { s with sample := sample, stop := stop } ∧
    (∀ j, j ≠ i → stop j = s.stop j) ∧ (stop i = false → s.stop i = false) ∧
    (stop i = true → s.stop i = true ∨ s.killed ≠ 0) := by
  unfold poll
  by_cases h : s.stop i = true
  · rw [if_pos h]; exact ⟨s.sample, s.stop, rfl, fun _ _ => rfl, id, .inl⟩
  · rw [if_neg h]
    refine ⟨_, _, rfl, fun j hj => Function.update_of_ne hj _ _, fun _ => by simpa using h, fun h' => .inr ?_⟩
    simp at h'
    exact h'.2

/-- Traversals are traversals. -/
def walkerE (E : Type) [DecidableEq N] (next : N → List N) (visit : Fin n → S → N → S × Int) (hash : N → Nat) (hn : 0 < n) :
    Walker (taskE E next visit hash hn) next where
  node m := m
  lane m := Build.lane hn (hash m)
  seen s := s.seen
  ok s i := s.err i = 0 ∧ s.stop i = false
  dest _ := rfl
  others s m j hj := by
    have hj' : j ≠ Build.lane hn (hash m) := hj
    simp only [taskE, handle]
    generalize Build.lane hn (hash m) = i at *
    obtain ⟨sample, stop, e, h1, h2, h3⟩ := poll_eq s i
    rw [e]
    split_ifs
    · exact ⟨rfl, fun h => ⟨h.1, by rw [← h1 j hj']; exact h.2⟩⟩
    · exact ⟨rfl, fun h => ⟨h.1, by rw [← h1 j hj']; exact h.2⟩⟩
    · simp only [Function.update_of_ne hj']
      exact ⟨trivial, fun h => ⟨h.1, by rw [← h1 j hj']; exact h.2⟩⟩
  undeferred s m := by
    simp only [taskE, handle]
    split_ifs <;> rfl
  step s m := by
    simp only [taskE, handle]
    generalize Build.lane hn (hash m) = i
    obtain ⟨sample, stop, e, h1, h2, h3⟩ := poll_eq s i
    rw [e]
    split_ifs with c1 c2
    · refine .inl ⟨rfl, rfl, fun h => ?_⟩
      rcases c1 with c1 | c1
      · exact absurd h.1 c1
      · rw [h.2] at c1; cases c1
    · exact .inl ⟨rfl, rfl, fun h => ⟨⟨h.1, h2 h.2⟩, c2⟩⟩
    · rw [not_or] at c1
      exact .inr ⟨c2, by simp, fun q hq => hq, fun _ => ⟨⟨not_not.1 c1.1, h2 (by simpa using c1.2)⟩, fun q hq => ⟨q, hq, rfl⟩⟩⟩
  env e s := ⟨rfl, fun i h => h⟩

abbrev walker [DecidableEq N] (next : N → List N) (visit : Fin n → S → N → S × Int) (hash : N → Nat) (hn : 0 < n) :
    Walker (task next visit hash hn) next := walkerE Unit next visit hash hn

/-- Induction over the visits made. -/
theorem induct [DecidableEq N] {hn : 0 < n} {a : N} {mem : S} {motive : (Fin n → List N) → (Fin n → Int) → S → Prop}
    (h0 : motive (fun _ => []) (fun _ => 0) mem)
    (hv : ∀ seen err mem m, motive seen err mem → Reaches next a m → err (Build.lane hn (hash m)) = 0 →
      m ∉ seen (Build.lane hn (hash m)) →
      motive (Function.update seen (Build.lane hn (hash m)) (seen (Build.lane hn (hash m)) ++ [m]))
        (Function.update err (Build.lane hn (hash m)) (visit (Build.lane hn (hash m)) mem m).2)
        (visit (Build.lane hn (hash m)) mem m).1) :
    ∀ x, Bag.Reach (task next visit hash hn) a (start mem) x → motive x.1.seen x.1.err x.1.mem := by
  intro x hx
  induction hx with
  | init => exact h0
  | step hr hs ih =>
    cases hs with
    | env e s m => exact ih
    | handle s m rest =>
      have hreach := (Walker.inv_reach (W := walker next visit hash hn) (fun i => rfl) _ hr).flight m (Multiset.mem_cons_self _ _)
      simp only [taskE, handle]
      obtain ⟨sample, stop, e, -⟩ := poll_eq s (Build.lane hn (hash m))
      rw [e]
      split_ifs with c1 c2
      · exact ih
      · exact ih
      · rw [not_or] at c1
        exact hv _ _ _ m ih hreach (not_not.1 c1.1) c2

/-- The first node visited is the base node. -/
theorem first [DecidableEq N] {hn : 0 < n} {a : N} {mem : S} :
    ∀ x, Bag.Reach (task next visit hash hn) a (start mem) x →
      (x.2 = {a} ∧ ∃ k, x.1 = { (start mem : Job n N S) with killed := k }) ∨ a ∈ x.1.seen (Build.lane hn (hash a)) := by
  intro x hx
  induction hx with
  | init => exact .inl ⟨rfl, 0, rfl⟩
  | step hr hs ih =>
    cases hs with
    | env e s m =>
      rcases ih with ⟨h1, k, h2⟩ | h
      · exact .inl ⟨h1, 1, by simp only at h2; rw [h2]; rfl⟩
      · exact .inr h
    | handle s m rest =>
      refine .inr ?_
      rcases ih with ⟨h1, k, h2⟩ | h
      · have hm : m = a := by
          have : m ∈ ({a} : Multiset N) := by rw [← h1]; exact Multiset.mem_cons_self _ _
          simpa using this
        simp only at h2
        subst hm
        rw [h2]
        simp [taskE, handle, poll, start]
      · simp only [taskE, handle]
        obtain ⟨sample, stop, e, -⟩ := poll_eq s (Build.lane hn (hash m))
        rw [e]
        split_ifs with c1 c2
        · exact h
        · exact h
        · by_cases hj : Build.lane hn (hash a) = Build.lane hn (hash m)
          · simp only [hj, Function.update_self]; exact List.mem_append_left _ (hj ▸ h)
          · simp only [Function.update_of_ne hj]; exact h

/-- Induction over the visits made, the base node being the first. -/
theorem induct_first [DecidableEq N] {hn : 0 < n} {a : N} {mem : S} {motive : (Fin n → List N) → (Fin n → Int) → S → Prop}
    (h0 : motive (fun _ => []) (fun _ => 0) mem)
    (hv : ∀ seen err mem m, motive seen err mem → Reaches next a m → err (Build.lane hn (hash m)) = 0 →
      m ∉ seen (Build.lane hn (hash m)) → ((m = a ∧ ∀ i, seen i = []) ∨ a ∈ seen (Build.lane hn (hash a))) →
      motive (Function.update seen (Build.lane hn (hash m)) (seen (Build.lane hn (hash m)) ++ [m]))
        (Function.update err (Build.lane hn (hash m)) (visit (Build.lane hn (hash m)) mem m).2)
        (visit (Build.lane hn (hash m)) mem m).1) :
    ∀ x, Bag.Reach (task next visit hash hn) a (start mem) x → motive x.1.seen x.1.err x.1.mem := by
  intro x hx
  induction hx with
  | init => exact h0
  | step hr hs ih =>
    cases hs with
    | env e s m => exact ih
    | handle s m rest =>
      have hf := first _ hr
      have hreach := (Walker.inv_reach (W := walker next visit hash hn) (fun i => rfl) _ hr).flight m (Multiset.mem_cons_self _ _)
      simp only [taskE, handle]
      obtain ⟨sample, stop, e, -⟩ := poll_eq s (Build.lane hn (hash m))
      rw [e]
      split_ifs with c1 c2
      · exact ih
      · exact ih
      · rw [not_or] at c1
        refine hv _ _ _ m ih hreach (not_not.1 c1.1) c2 ?_
        rcases hf with ⟨h1, k, h2⟩ | h
        · refine .inl ⟨?_, fun i => ?_⟩
          · have : m ∈ ({a} : Multiset N) := by rw [← h1]; exact Multiset.mem_cons_self _ _
            simpa using this
          · simp only at h2; rw [h2]; rfl
        · exact .inr h

/-- Workers don't stop unless killed. -/
theorem stop_inv [DecidableEq N] {hn : 0 < n} {a : N} {mem : S} :
    ∀ x, Bag.Reach (task next visit hash hn) a (start mem) x → x.1.killed = 0 → ∀ i, x.1.stop i = false := by
  intro x hx
  induction hx with
  | init => intro _ i; rfl
  | step hr hs ih =>
    cases hs with
    | env e s m => intro h; exact absurd (show (1 : Nat) = 0 from h) (by decide)
    | handle s m rest =>
      simp only [taskE, handle]
      generalize Build.lane hn (hash m) = i
      obtain ⟨sample, stop, e, h1, h2, h3⟩ := poll_eq s i
      rw [e]
      have key : s.killed = 0 → ∀ j, stop j = false := by
        intro hk j
        by_cases hj : j = i
        · subst hj
          by_contra hs
          rcases h3 (by simpa using hs) with h4 | h4
          · rw [ih hk j] at h4; cases h4
          · exact h4 hk
        · rw [h1 j hj]; exact ih hk j
      split_ifs <;> exact key

/-- A worker that stops has been sent something. -/
theorem stop_home [DecidableEq N] {hn : 0 < n} {a : N} {mem : S} :
    ∀ x, Bag.Reach (task next visit hash hn) a (start mem) x → ∀ i, x.1.stop i = true → ∃ m, Reaches next a m ∧ Build.lane hn (hash m) = i := by
  intro x hx
  induction hx with
  | init => intro i h; exact absurd h (by simp [start])
  | step hr hs ih =>
    cases hs with
    | env e s m => exact ih
    | handle s m rest =>
      have hreach := (Walker.inv_reach (W := walker next visit hash hn) (fun i => rfl) _ hr).flight m (Multiset.mem_cons_self _ _)
      intro i hi
      by_cases hj : i = Build.lane hn (hash m)
      · exact ⟨m, hreach, hj.symm⟩
      · refine ih i ?_
        have hp : (poll s (Build.lane hn (hash m))).stop i = s.stop i := by
          unfold poll
          split_ifs
          · rfl
          · exact Function.update_of_ne hj _ _
        have : (handle next visit (Build.lane hn (hash m)) s m).1.stop i = (poll s (Build.lane hn (hash m))).stop i := by
          simp only [handle]
          split_ifs <;> rfl
        exact hp ▸ this ▸ hi

/-- At the end, if the operation wasn't killed and there's no error, every reachable node has been visited once. -/
theorem done_perm [DecidableEq N] {hn : 0 < n} {a : N} {mem : S} {x : State n N (Job n N S)}
    (hx : Net.Reach (task next visit hash hn) a (start mem) x) (hd : x.main = .done) (hk : x.g.killed = 0)
    (he : ∀ i, x.g.err i = 0) {ms : List N} (hm : Covers next a ms) :
    ((List.finRange n).flatMap x.g.seen).Perm ms :=
  (walker next visit hash hn).visited_perm hn (fun i => rfl) hx hd (fun i => ⟨he i, stop_inv _ (reach_bag hn hx) hk i⟩) hm.nodup hm.mem

theorem home [DecidableEq N] {hn : 0 < n} {a : N} {mem : S} :
    ∀ x, Bag.Reach (task next visit hash hn) a (start mem) x → ∀ i, ∀ m ∈ x.1.seen i, Build.lane hn (hash m) = i := by
  intro x hx
  exact (Walker.inv_reach (W := walker next visit hash hn) (fun i => rfl) _ hx).home

theorem nodup [DecidableEq N] {hn : 0 < n} {a : N} {mem : S} :
    ∀ x, Bag.Reach (task next visit hash hn) a (start mem) x → ((List.finRange n).flatMap x.1.seen).Nodup := by
  intro x hx
  exact Walker.visited_nodup (Walker.inv_reach (W := walker next visit hash hn) (fun i => rfl) _ hx)

/-- No schedule goes on forever, and the end can be reached without a kill. -/
theorem ends [DecidableEq N] (visit : Fin n → S → N → S × Int) (hash : N → Nat) (hn : 0 < n) {a : N} (mem : S) {ms : List N}
    (hm : ∀ m, Reaches next a m → m ∈ ms) :
    (∀ h : Nat → State n N (Job n N S), Net.Reach (task next visit hash hn) a (start mem) (h 0) →
      ¬ ∀ j, step (task next visit hash hn) a .main (h j) = some (h (j + 1)) ∨
        ∃ i, step (task next visit hash hn) a (.worker i) (h j) = some (h (j + 1))) ∧
    ∃ x, Net.Reach (task next visit hash hn) a (start mem) x ∧ x.main = .done ∧ x.g.killed = 0 := by
  have ha := (walker next visit hash hn).acc (i₀ := a) (g₀ := start mem) (fun i => rfl) ms hm
  refine ⟨fun f h0 hs => no_infinite_run hn ha f h0 hs, ?_⟩
  refine exists_done_inv hn ha (fun s => s.killed = 0) rfl ?_
  intro i s m h
  simp only [taskE, handle]
  obtain ⟨sample, stop, e, -⟩ := poll_eq s i
  rw [e]
  split_ifs <;> exact h

/-- Executions that can't be killed are executions without a kill. -/
theorem quiet_reach [DecidableEq N] {hn : 0 < n} {a : N} {mem : S} {x : State n N (Job n N S)}
    (hx : Net.Reach (quiet next visit hash hn) a (start mem) x) :
    Net.Reach (task next visit hash hn) a (start mem) x ∧ x.g.killed = 0 := by
  induction hx with
  | init => exact ⟨.init, rfl⟩
  | step act hp _ hs ih =>
    cases act with
    | main => exact ⟨.step .main trivial ih.1 hs, by rw [mainStep_g hs]; exact ih.2⟩
    | worker i =>
      refine ⟨.step (.worker i) trivial ih.1 hs, ?_⟩
      rcases workerStep_g hs with e | ⟨p, e⟩
      · rw [e]; exact ih.2
      · rw [e]
        simp only [taskE, handle]
        rename_i s s' _
        obtain ⟨sample, stop, e, -⟩ := poll_eq s.g i
        rw [e]
        split_ifs <;> exact ih.2
    | spuriousMain => exact absurd hp (by simp [Action.proper])
    | spurious w => exact absurd hp (by simp [Action.proper])
    | env e => exact e.elim

theorem quiet_ends [DecidableEq N] (visit : Fin n → S → N → S × Int) (hash : N → Nat) (hn : 0 < n) {a : N} (mem : S) {ms : List N}
    (hm : ∀ m, Reaches next a m → m ∈ ms) :
    (∀ h : Nat → State n N (Job n N S), Net.Reach (quiet next visit hash hn) a (start mem) (h 0) →
      ¬ ∀ j, step (quiet next visit hash hn) a .main (h j) = some (h (j + 1)) ∨
        ∃ i, step (quiet next visit hash hn) a (.worker i) (h j) = some (h (j + 1))) ∧
    ∃ x, Net.Reach (quiet next visit hash hn) a (start mem) x ∧ x.main = .done := by
  have ha := (walkerE Empty next visit hash hn).acc (i₀ := a) (g₀ := start mem) (fun i => rfl) ms hm
  exact ⟨fun f h0 hs => no_infinite_run hn ha f h0 hs, exists_done hn ha _ .init⟩

/-- If the operation is killed at the beginning, each worker visits at most 31 nodes. -/
theorem killed_few [DecidableEq N] (visit : Fin n → S → N → S × Int) (hash : N → Nat) (hn : 0 < n) {a : N} (mem : S) {ms : List N}
    (hm : ∀ m, Reaches next a m → m ∈ ms) (I : Job n N S → Prop) (h0 : I { start mem with killed := 1 })
    (hI : ∀ i s m, I s → I (handle next visit i s m).1) :
    ∃ x, Net.Reach (task next visit hash hn) a (start mem) x ∧ x.main = .done ∧ (∀ i, (x.g.seen i).length ≤ 31) ∧ I x.g := by
  have ha := (walker next visit hash hn).acc (i₀ := a) (g₀ := start mem) (fun i => rfl) ms hm
  have h1 : Net.Reach (task next visit hash hn) a (start mem) { init (start mem) with g := { start mem with killed := 1 } } :=
    .step (.env ()) trivial .init rfl
  obtain ⟨x, hx, hd, hJ⟩ := exists_done_from hn ha
    (fun s => I s ∧ s.killed ≠ 0 ∧ ∀ i, (s.seen i).length ≤ 31 ∧ (s.stop i = false → s.sample i ≤ 31 ∧ (s.seen i).length ≤ s.sample i))
    (by
      rintro i s m ⟨hi, hk, hs⟩
      refine ⟨hI i s m hi, ?_⟩
      simp only [taskE, handle]
      by_cases h : s.stop i = true
      · have hp : poll s i = s := by unfold poll; rw [if_pos h]
        rw [hp]
        split_ifs with c1
        · exact ⟨hk, hs⟩
        · exact absurd (Or.inr h) c1
        · exact absurd (Or.inr h) c1
      · have hp : poll s i = { s with
            sample := Function.update s.sample i (s.sample i + 1)
            stop := Function.update s.stop i ((s.sample i + 1) % 32 == 0 && s.killed != 0) } := by unfold poll; rw [if_neg h]
        rw [hp]
        have h' : s.stop i = false := by simpa using h
        have key : ∀ j, (Function.update s.stop i ((s.sample i + 1) % 32 == 0 && s.killed != 0)) j = false →
            Function.update s.sample i (s.sample i + 1) j ≤ 31 ∧
            (s.seen j).length ≤ Function.update s.sample i (s.sample i + 1) j ∧
            (j = i → (s.seen j).length + 1 ≤ Function.update s.sample i (s.sample i + 1) j) := by
          intro j
          by_cases hj : j = i
          · subst hj
            simp only [Function.update_self]
            intro hst
            have h4 := (hs j).2 h'
            have h5 : ¬ (s.sample j + 1) % 32 = 0 := by
              intro hc; rw [hc] at hst; simp [hk] at hst
            exact ⟨by omega, by omega, fun _ => by omega⟩
          · rw [Function.update_of_ne hj, Function.update_of_ne hj]
            intro hst
            have := (hs j).2 hst
            exact ⟨this.1, this.2, fun h => absurd h hj⟩
        split_ifs with c1 c2
        · exact ⟨hk, fun j => ⟨(hs j).1, fun hst => ⟨(key j hst).1, (key j hst).2.1⟩⟩⟩
        · exact ⟨hk, fun j => ⟨(hs j).1, fun hst => ⟨(key j hst).1, (key j hst).2.1⟩⟩⟩
        · rw [not_or] at c1
          have c3 := c1.2
          refine ⟨hk, fun j => ?_⟩
          by_cases hj : j = i
          · subst hj
            have hst := key j (by simpa using c3)
            simp only [Function.update_self, List.length_append, List.length_singleton] at hst ⊢
            exact ⟨by have := hst.2.2 trivial; omega, fun _ => ⟨hst.1, hst.2.2 trivial⟩⟩
          · simp only [Function.update_of_ne hj] at key ⊢
            refine ⟨(hs j).1, fun hst => ⟨((hs j).2 hst).1, ((hs j).2 hst).2⟩⟩)
    _ h1 ⟨h0, Nat.one_ne_zero, fun i => ⟨Nat.zero_le _, fun _ => ⟨Nat.zero_le _, Nat.zero_le _⟩⟩⟩
  exact ⟨x, hx, hd, fun i => (hJ.2.2 i).1, hJ.1⟩

/-- If there are enough nodes, two of them aren't visited. -/
theorem two_unvisited [DecidableEq N] {seen : Fin n → List N} {k : Nat} (hfew : ∀ i, (seen i).length ≤ k) {ms : List N} (hd : ms.Nodup)
    (hl : k * n + 2 ≤ ms.length) : ∃ a ∈ ms, ∃ b ∈ ms, a ≠ b ∧ (∀ i, a ∉ seen i) ∧ ∀ i, b ∉ seen i := by
  have hvis : ((List.finRange n).flatMap seen).length ≤ k * n := by
    rw [List.length_flatMap]
    refine le_trans (List.sum_le_card_nsmul _ k (by simpa using hfew)) (by simp [Nat.mul_comm])
  have hmem : ∀ a, a ∉ (List.finRange n).flatMap seen → ∀ i, a ∉ seen i :=
    fun a h i hi => h (List.mem_flatMap.2 ⟨i, List.mem_finRange i, hi⟩)
  generalize (List.finRange n).flatMap seen = vs at *
  have h2 : 2 ≤ (ms.filter (· ∉ vs)).length := by
    have h3 : (ms.filter (· ∈ vs)).length ≤ vs.length := by
      refine (List.Nodup.subperm (hd.filter _) fun a ha => ?_).length_le
      simpa using (List.mem_filter.1 ha).2
    have h4 := List.length_eq_length_filter_add (l := ms) (fun a => decide (a ∈ vs))
    have h5 : (ms.filter fun a => !decide (a ∈ vs)) = ms.filter (· ∉ vs) := by simp
    rw [h5] at h4
    omega
  have hd2 := hd.filter (fun a => decide (a ∉ vs))
  rcases hf : ms.filter (· ∉ vs) with _ | ⟨a, _ | ⟨b, l⟩⟩
  · rw [hf] at h2; simp at h2
  · rw [hf] at h2; simp at h2
  · rw [hf] at hd2
    have ha : a ∈ ms.filter (· ∉ vs) := by rw [hf]; simp
    have hb : b ∈ ms.filter (· ∉ vs) := by rw [hf]; simp
    simp only [List.mem_filter, decide_eq_true_eq] at ha hb
    refine ⟨a, ha.1, b, hb.1, ?_, hmem a ha.2, hmem b hb.2⟩
    rintro rfl
    simp at hd2

end Cru.Trav
