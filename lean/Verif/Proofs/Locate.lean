import Verif.Spec.Locate
import Verif.Proofs.Trav

/-! # Invariants of the search for the initial vertex -/

namespace Cru.Locate

open Net

variable {n : Nat} {N V L : Type} [DecidableEq N] [DecidableEq V] {g : Gr N V L} {eq : V → V → Int × Bool} {v : V} {hash : N → Nat}

omit [DecidableEq N] in
theorem poll_eq (s : Job n N) (i : Fin n) : ∃ sample stop, poll s i = { s with sample := sample, stop := stop } ∧
    (∀ j, j ≠ i → stop j = s.stop j) ∧ (stop i = false → s.stop i = false) ∧
    (stop i = true → s.stop i = true ∨ s.killed = true) := by
  unfold poll
  by_cases h : s.stop i = true
  · rw [if_pos h]; exact ⟨s.sample, s.stop, rfl, fun _ _ => rfl, id, .inl⟩
  · rw [if_neg h]
    refine ⟨_, _, rfl, fun j hj => Function.update_of_ne hj _ _, fun _ => by simpa using h, fun h' => .inr ?_⟩
    simp at h'
    exact h'.2

theorem test_true (w : V) : (test eq v w).2 = true ↔ Matches eq v w := by
  unfold test Matches
  by_cases h : v = w
  · simp [h]
  · rw [if_neg h]
    rcases he : eq v w with ⟨a, b⟩
    have h' : w ≠ v := fun e => h e.symm
    by_cases ha : a = 0 <;> simp [ha, h']

theorem test_clear {m : N} (hc : Clear g eq v) (hm : m ∈ g.nodes) : (test eq v (g.vertex m)).1 = 0 := by
  unfold test
  split
  · rfl
  · rename_i h
    exact hc m hm fun e => h e.symm

/-- What the handling of a packet does. -/
theorem handle_cases (i : Fin n) (s : Job n N) (m : N) : ∃ sample stop, (∀ j, j ≠ i → stop j = s.stop j) ∧ (stop i = false → s.stop i = false) ∧
    (stop i = true → s.stop i = true ∨ s.killed = true) ∧
    ((handle g eq v i s m = ({ s with sample := sample, stop := stop }, [], false) ∧
      (stop i = true ∨ (s.found i).isSome = true ∨ m ∈ s.seen i)) ∨
     (m ∉ s.seen i ∧ s.err i ≠ 0 ∧ handle g eq v i s m =
        ({ s with sample := sample, stop := stop, seen := Function.update s.seen i (s.seen i ++ [m]) }, [], false)) ∨
     (m ∉ s.seen i ∧ s.err i = 0 ∧ stop i = false ∧ s.found i = none ∧ handle g eq v i s m =
        ({ s with sample := sample, stop := stop, seen := Function.update s.seen i (s.seen i ++ [m])
                  err := Function.update s.err i (test eq v (g.vertex m)).1
                  found := if (test eq v (g.vertex m)).2 then Function.update s.found i (some m) else s.found
                  killed := (test eq v (g.vertex m)).2 || s.killed }, (g.out m).map Prod.snd, false))) := by
  obtain ⟨sample, stop, e, h1, h2, h3⟩ := poll_eq s i
  refine ⟨sample, stop, h1, h2, h3, ?_⟩
  unfold handle
  rw [e]
  dsimp only
  by_cases c1 : stop i = true ∨ (s.found i).isSome = true
  · rw [if_pos c1]
    exact .inl ⟨rfl, by tauto⟩
  · rw [if_neg c1]
    by_cases c2 : m ∈ s.seen i
    · rw [if_pos c2]; exact .inl ⟨rfl, .inr (.inr c2)⟩
    · rw [if_neg c2]
      by_cases c3 : s.err i = 0
      · rw [if_neg (not_not.2 c3)]
        rw [not_or] at c1
        refine .inr (.inr ⟨c2, c3, by simpa using c1.1, by simpa using c1.2, ?_⟩)
        rcases ht : (test eq v (g.vertex m)).2 with _ | _ <;> simp
      · rw [if_pos c3]; exact .inr (.inl ⟨c2, c3, rfl⟩)

def walker (g : Gr N V L) (eq : V → V → Int × Bool) (v : V) (hash : N → Nat) (hn : 0 < n) :
    Walker (task g eq v hash hn) (g.next false) where
  node m := m
  lane m := Build.lane hn (hash m)
  seen s := s.seen
  ok s i := s.err i = 0 ∧ s.stop i = false ∧ s.found i = none
  dest _ := rfl
  others s m j hj := by
    have hj' : j ≠ Build.lane hn (hash m) := hj
    simp only [task]
    generalize Build.lane hn (hash m) = i at *
    obtain ⟨sample, stop, h1, h2, h3, ⟨e, -⟩ | ⟨-, -, e⟩ | ⟨-, -, -, -, e⟩⟩ := handle_cases (g := g) (eq := eq) (v := v) i s m
    · rw [e]; exact ⟨rfl, fun h => ⟨h.1, by rw [← h1 j hj']; exact h.2.1, h.2.2⟩⟩
    · rw [e]; exact ⟨Function.update_of_ne hj' _ _, fun h => ⟨h.1, by rw [← h1 j hj']; exact h.2.1, h.2.2⟩⟩
    · rw [e]
      refine ⟨Function.update_of_ne hj' _ _, fun h => ⟨?_, by rw [← h1 j hj']; exact h.2.1, ?_⟩⟩
      · have := h.1; dsimp only at this; rwa [Function.update_of_ne hj'] at this
      · have := h.2.2; dsimp only at this
        split_ifs at this
        · rwa [Function.update_of_ne hj'] at this
        · exact this
  undeferred s m := by
    simp only [task]
    generalize Build.lane hn (hash m) = i
    obtain ⟨sample, stop, h1, h2, h3, ⟨e, -⟩ | ⟨-, -, e⟩ | ⟨-, -, -, -, e⟩⟩ := handle_cases (g := g) (eq := eq) (v := v) i s m <;> rw [e]
  step s m := by
    simp only [task]
    generalize Build.lane hn (hash m) = i
    obtain ⟨sample, stop, h1, h2, h3, ⟨e, h4⟩ | ⟨h5, h6, e⟩ | ⟨h5, h6, h7, h8, e⟩⟩ := handle_cases (g := g) (eq := eq) (v := v) i s m
    · rw [e]
      refine .inl ⟨rfl, rfl, fun h => ⟨⟨h.1, h2 h.2.1, h.2.2⟩, ?_⟩⟩
      rcases h4 with h4 | h4 | h4
      · have := h.2.1; dsimp only at this; rw [this] at h4; cases h4
      · have := h.2.2; dsimp only at this; rw [this] at h4; cases h4
      · exact h4
    · rw [e]
      exact .inr ⟨h5, Function.update_self _ _ _, fun q hq => (by cases hq), fun h => absurd h.1 h6⟩
    · rw [e]
      exact .inr ⟨h5, Function.update_self _ _ _, fun q hq => hq, fun _ => ⟨⟨h6, h2 h7, h8⟩, fun q hq => ⟨q, hq, rfl⟩⟩⟩
  env e s := e.elim

/-- What workers know. -/
structure Inv (g : Gr N V L) (eq : V → V → Int × Bool) (v : V) (s : Job n N) : Prop where
  found : ∀ i m, s.found i = some m → m ∈ s.seen i ∧ Matches eq v (g.vertex m)
  err : ∀ i, s.err i ≠ 0 → ∃ m ∈ s.seen i, s.err i = (test eq v (g.vertex m)).1
  killed : s.killed = true → ∃ i, s.found i ≠ none
  stop : ∀ i, s.stop i = true → s.killed = true
  passed : ∀ i, s.err i = 0 → s.found i = none → ∀ m ∈ s.seen i, ¬ Matches eq v (g.vertex m)

theorem Inv.handle {s : Job n N} (h : Inv g eq v s) (i : Fin n) (m : N) : Inv g eq v (handle g eq v i s m).1 := by
  obtain ⟨sample, stop, h1, h2, h3, ⟨e, -⟩ | ⟨h5, h6, e⟩ | ⟨h5, h6, h7, h8, e⟩⟩ := handle_cases (g := g) (eq := eq) (v := v) i s m
  · rw [e]
    refine ⟨h.found, h.err, h.killed, fun j hj => ?_, h.passed⟩
    by_cases hji : j = i
    · subst hji
      rcases h3 hj with h4 | h4
      · exact h.stop _ h4
      · exact h4
    · exact h.stop j (by rw [← h1 j hji]; exact hj)
  · rw [e]
    refine ⟨fun j x hx => ?_, fun j hj => ?_, h.killed, fun j hj => ?_, fun j hj hf x hx => ?_⟩
    · obtain ⟨a, b⟩ := h.found j x hx
      refine ⟨?_, b⟩
      by_cases hji : j = i
      · subst hji; simp [a]
      · simp [Function.update_of_ne hji, a]
    · obtain ⟨x, a, b⟩ := h.err j hj
      refine ⟨x, ?_, b⟩
      by_cases hji : j = i
      · subst hji; simp [a]
      · simp [Function.update_of_ne hji, a]
    · by_cases hji : j = i
      · subst hji
        rcases h3 hj with h4 | h4
        · exact h.stop _ h4
        · exact h4
      · exact h.stop j (by rw [← h1 j hji]; exact hj)
    · have hji : j ≠ i := by rintro rfl; exact h6 hj
      simp only [Function.update_of_ne hji] at hx
      exact h.passed j hj hf x hx
  · rw [e]
    refine ⟨fun j x hx => ?_, fun j hj => ?_, fun hk => ?_, fun j hj => ?_, fun j hj hf x hx => ?_⟩
    · dsimp only at hx ⊢
      by_cases hji : j = i
      · subst hji
        split_ifs at hx with ht
        · rw [Function.update_self] at hx
          obtain rfl := Option.some.inj hx
          exact ⟨by simp, (test_true _).1 ht⟩
        · rw [h8] at hx; cases hx
      · have hx' : s.found j = some x := by
          split_ifs at hx
          · rwa [Function.update_of_ne hji] at hx
          · exact hx
        rw [Function.update_of_ne hji]
        exact h.found j x hx'
    · dsimp only at hj ⊢
      by_cases hji : j = i
      · subst hji
        rw [Function.update_self] at hj ⊢
        rw [Function.update_self]
        exact ⟨m, by simp, rfl⟩
      · rw [Function.update_of_ne hji] at hj ⊢
        rw [Function.update_of_ne hji]
        exact h.err j hj
    · dsimp only at hk ⊢
      rw [Bool.or_eq_true] at hk
      by_cases ht : (test eq v (g.vertex m)).2 = true
      · exact ⟨i, by rw [if_pos ht, Function.update_self]; simp⟩
      · obtain ⟨j, hj⟩ := h.killed (hk.resolve_left ht)
        exact ⟨j, by rw [if_neg ht]; exact hj⟩
    · dsimp only at hj ⊢
      rw [Bool.or_eq_true]
      refine .inr ?_
      by_cases hji : j = i
      · subst hji; rw [h7] at hj; cases hj
      · exact h.stop j (by rw [← h1 j hji]; exact hj)
    · dsimp only at hj hf hx
      by_cases hji : j = i
      · subst hji
        rw [Function.update_self] at hj hx
        by_cases ht : (test eq v (g.vertex m)).2 = true
        · rw [if_pos ht, Function.update_self] at hf; cases hf
        · rcases List.mem_append.1 hx with hx | hx
          · exact h.passed j h6 h8 x hx
          · rw [List.mem_singleton.1 hx, ← test_true]; exact ht
      · rw [Function.update_of_ne hji] at hj hx
        refine h.passed j hj ?_ x hx
        split_ifs at hf
        · rwa [Function.update_of_ne hji] at hf
        · exact hf

omit [DecidableEq N] in
theorem Inv.start : Inv g eq v (start : Job n N) :=
  ⟨fun i m h => (by cases h), fun i h => absurd rfl h, fun h => (by cases h), fun i h => (by cases h), fun i _ _ m hm => (by cases hm)⟩

theorem inv_bag {hn : 0 < n} {a : N} {x : Job n N × Multiset N} (hx : Bag.Reach (task g eq v hash hn) a start x) : Inv g eq v x.1 := by
  induction hx with
  | init => exact Inv.start
  | step hr hs ih =>
    cases hs with
    | env e s m => exact e.elim
    | handle s p rest => exact ih.handle _ _

/-! ## Joining -/

omit [DecidableEq N] in
theorem raise_ne {a b : Int} (h : raise a b ≠ 0) : raise a b = a ∧ a ≠ 0 ∨ raise a b = b := by
  unfold raise at *
  split_ifs with h1
  · exact .inl ⟨rfl, h1⟩
  · exact .inr rfl

omit [DecidableEq N] in
theorem raise_zero {a b : Int} (h : raise a b = 0) : a = 0 ∧ b = 0 := by
  unfold raise at h
  split_ifs at h with h1
  · exact absurd h h1
  · exact ⟨not_not.1 h1, h⟩

/-- What's known after some workers have been joined. -/
structure Joined (s : Job n N) (l : List (Fin n)) (x : Option N × Int) : Prop where
  result : ∀ m, x.1 = some m → ∃ i ∈ l, s.found i = some m
  empty : x.1 = none → ∀ i ∈ l, s.found i = none
  error : x.2 ≠ 0 → (∃ i ∈ l, x.2 = s.err i ∧ s.err i ≠ 0) ∨
    x.2 = -750 ∧ ∃ i ∈ l, ∃ j ∈ l, i ≠ j ∧ s.found i ≠ none ∧ s.found j ≠ none
  ok : x.2 = 0 → (∀ i ∈ l, s.err i = 0) ∧ ∀ i ∈ l, ∀ j ∈ l, s.found i ≠ none → s.found j ≠ none → i = j

omit [DecidableEq N] in
theorem joined (s : Job n N) (l : List (Fin n)) (hl : l.Nodup) :
    Joined s l (l.foldl (fun x i => join x (s.found i, s.err i)) (none, 0)) := by
  induction l using List.reverseRecOn with
  | nil => exact ⟨fun m h => (by cases h), fun _ i hi => (by cases hi), fun h => absurd rfl h, fun _ => ⟨fun i hi => (by cases hi), fun i hi => (by cases hi)⟩⟩
  | append_singleton l k ih =>
    have hk : k ∉ l := fun h => (List.nodup_append.1 hl).2.2 k h k (by simp) rfl
    have h := ih (List.nodup_append.1 hl).1
    rw [List.foldl_append, List.foldl_cons, List.foldl_nil]
    generalize l.foldl (fun x i => join x (s.found i, s.err i)) (none, 0) = x at *
    have mem : ∀ i, i ∈ l ++ [k] ↔ i ∈ l ∨ i = k := fun i => by simp
    unfold join
    rcases hf : s.found k with _ | m
    · dsimp only
      refine ⟨fun m hm => ?_, fun hm i hi => ?_, fun hne => ?_, fun h0 => ?_⟩
      · obtain ⟨i, hi, e⟩ := h.result m hm; exact ⟨i, (mem i).2 (.inl hi), e⟩
      · rcases (mem i).1 hi with hi | rfl
        · exact h.empty hm i hi
        · exact hf
      · dsimp only at hne ⊢
        rcases raise_ne hne with ⟨e, h0⟩ | e
        · rw [e]
          rcases h.error h0 with ⟨i, hi, h1⟩ | ⟨h1, i, hi, j, hj, h2⟩
          · exact .inl ⟨i, (mem i).2 (.inl hi), h1⟩
          · exact .inr ⟨h1, i, (mem i).2 (.inl hi), j, (mem j).2 (.inl hj), h2⟩
        · rw [e] at hne ⊢
          exact .inl ⟨k, (mem k).2 (.inr rfl), rfl, hne⟩
      · obtain ⟨e1, e2⟩ := raise_zero h0
        obtain ⟨o1, o2⟩ := h.ok e1
        refine ⟨fun i hi => ?_, fun i hi j hj a b => ?_⟩
        · rcases (mem i).1 hi with hi | rfl
          · exact o1 i hi
          · exact e2
        · rcases (mem i).1 hi with hi | rfl
          · rcases (mem j).1 hj with hj | rfl
            · exact o2 i hi j hj a b
            · exact absurd hf b
          · exact absurd hf a
    · rcases hx : x.1 with _ | m'
      · dsimp only
        have hall := h.empty hx
        refine ⟨fun y hy => ⟨k, (mem k).2 (.inr rfl), by rw [hf]; exact hy⟩, fun hy => (by cases hy), fun hne => ?_, fun h0 => ?_⟩
        · rcases raise_ne hne with ⟨e, h0⟩ | e
          · rw [e]
            rcases h.error h0 with ⟨i, hi, h1⟩ | ⟨h1, i, hi, j, hj, h2⟩
            · exact .inl ⟨i, (mem i).2 (.inl hi), h1⟩
            · exact absurd (hall i hi) h2.2.1
          · rw [e] at hne ⊢
            exact .inl ⟨k, (mem k).2 (.inr rfl), rfl, hne⟩
        · obtain ⟨e1, e2⟩ := raise_zero h0
          obtain ⟨o1, o2⟩ := h.ok e1
          refine ⟨fun i hi => ?_, fun i hi j hj a b => ?_⟩
          · rcases (mem i).1 hi with hi | rfl
            · exact o1 i hi
            · exact e2
          · rcases (mem i).1 hi with hi | rfl
            · exact absurd (hall i hi) a
            · rcases (mem j).1 hj with hj | rfl
              · exact absurd (hall j hj) b
              · rfl
      · dsimp only
        obtain ⟨i₀, hi₀, e₀⟩ := h.result m' hx
        have hik : i₀ ≠ k := fun e => hk (e ▸ hi₀)
        refine ⟨fun y hy => ?_, fun hy => ?_, fun hne => ?_, fun h0 => ?_⟩
        · exact ⟨i₀, (mem i₀).2 (.inl hi₀), by rw [e₀]; exact hy⟩
        · cases hy
        · rcases raise_ne hne with ⟨e, h0⟩ | e
          · rw [e]
            rcases raise_ne h0 with ⟨e', h0'⟩ | e'
            · rw [e']
              rcases h.error h0' with ⟨i, hi, h1⟩ | ⟨h1, i, hi, j, hj, h2⟩
              · exact .inl ⟨i, (mem i).2 (.inl hi), h1⟩
              · exact .inr ⟨h1, i, (mem i).2 (.inl hi), j, (mem j).2 (.inl hj), h2⟩
            · rw [e']
              exact .inr ⟨rfl, i₀, (mem i₀).2 (.inl hi₀), k, (mem k).2 (.inr rfl), hik, by rw [e₀]; simp, by rw [hf]; simp⟩
          · rw [e] at hne ⊢
            exact .inl ⟨k, (mem k).2 (.inr rfl), rfl, hne⟩
        · obtain ⟨e1, -⟩ := raise_zero h0
          obtain ⟨-, e2⟩ := raise_zero e1
          cases e2

end Cru.Locate
