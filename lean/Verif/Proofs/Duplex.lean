import Verif.Spec.Duplex
import Verif.Proofs.Rover
import Verif.Proofs.Trav
import Verif.Proofs.Quiet
import Verif.Proofs.Postpone

/-! # Incoming edges: lemmas -/

namespace Cru.Duplex

open Net

variable {n : Nat} {N V L : Type} [DecidableEq N]

omit [DecidableEq N] in
theorem scatter_nodes (out : N → List (L × N)) (m : N) :
    (scatterOut out m).filterMap (fun p => some p.1) = (out m).map (·.2) := by
  simp [scatterOut]

/-- The task that derives incoming edges traverses the graph.  Nodes not visited keep what they had. -/
def fullRover (out inn₀ : N → List (L × N)) (addr : N → Nat) (hn : 0 < n) : Rover (full out addr hn) (fun m => (out m).map (·.2)) where
  I s := ∀ m, m ∉ s.seen (Build.lane hn (addr m)) → s.mem m = inn₀ m
  node p := some p.1
  weight _ := 0
  lane m := Build.lane hn (addr m)
  seen s := s.seen
  ok s i := s.stop i = false
  dest p m h := by cases h; rfl
  inv s p h := by
    simp only [full, fullIt]
    obtain ⟨sample, stop, e', -⟩ := Trav.poll_eq s (Build.lane hn (addr p.1))
    rw [e']
    split_ifs with c1 c2
    · exact h
    · intro m hm
      simp only at hm c2 ⊢
      by_cases hmp : m = p.1
      · subst hmp; exact absurd c2 hm
      · rw [Function.update_of_ne hmp]; exact h m hm
    · intro m hm
      simp only at hm c2 ⊢
      by_cases hmp : m = p.1
      · subst hmp; simp at hm
      · rw [Function.update_of_ne hmp]
        refine h m fun hc => hm ?_
        by_cases hl : Build.lane hn (addr m) = Build.lane hn (addr p.1)
        · rw [hl, Function.update_self]; rw [hl] at hc; simp [hc]
        · rw [Function.update_of_ne hl]; exact hc
  others s p j hj := by
    have hj' : j ≠ Build.lane hn (addr p.1) := hj
    simp only [full, fullIt]
    obtain ⟨sample, stop, e', h1, -⟩ := Trav.poll_eq s (Build.lane hn (addr p.1))
    rw [e']
    split_ifs
    · exact ⟨rfl, fun h => by rw [← h1 j hj']; exact h⟩
    · exact ⟨rfl, fun h => by rw [← h1 j hj']; exact h⟩
    · exact ⟨Function.update_of_ne hj' _ _, fun h => by rw [← h1 j hj']; exact h⟩
  undeferred s p := by
    simp only [full, fullIt]
    split_ifs <;> rfl
  mail s p h := by cases h
  step s p m hI h := by
    cases h
    simp only [full, fullIt]
    obtain ⟨sample, stop, e', h1, h2, -⟩ := Trav.poll_eq s (Build.lane hn (addr p.1))
    rw [e']
    split_ifs with c1 c2
    · exact .inl ⟨rfl, rfl, fun h => by simp only at c1 h; rw [c1] at h; cases h⟩
    · exact .inl ⟨rfl, rfl, fun h => ⟨h2 h, c2⟩⟩
    · refine .inr ⟨c2, by simp, fun q hq => ?_, fun h => ⟨h2 h, fun q hq => ?_⟩⟩
      · rw [scatter_nodes] at hq; exact hq
      · rw [scatter_nodes]; exact hq
  env e s := ⟨rfl, id, fun i h => h⟩

/-- The same without interference. -/
def fullQuiet (out inn₀ : N → List (L × N)) (addr : N → Nat) (hn : 0 < n) :
    Rover (full out addr hn).quiet (fun m => (out m).map (·.2)) :=
  let W := fullRover out inn₀ addr hn
  { I := fun s => W.I s ∧ s.killed = 0 ∧ ∀ i, s.stop i = false
    node := W.node, weight := W.weight, lane := W.lane, seen := W.seen, ok := W.ok, dest := W.dest
    inv := fun s p h => by
      refine ⟨W.inv s p h.1, ?_⟩
      simp only [Task.quiet, full, fullIt]
      obtain ⟨sample, stop, e', h1, h2, h3⟩ := Trav.poll_eq s (Build.lane hn (addr p.1))
      rw [e']
      have : ∀ i, stop i = false := by
        intro i
        by_cases hi : i = Build.lane hn (addr p.1)
        · subst hi
          by_contra hc
          rcases h3 (by simpa using hc) with h4 | h4
          · rw [h.2.2] at h4; cases h4
          · exact h4 h.2.1
        · rw [h1 i hi]; exact h.2.2 i
      split_ifs <;> exact ⟨h.2.1, this⟩
    others := W.others, undeferred := W.undeferred, mail := W.mail
    step := fun s p m h => W.step s p m h.1
    env := fun e => e.elim }

/-- The task that removes incoming edges traverses the graph, and leaves none at the nodes visited. -/
def halfRover (out inn₀ : N → List (L × N)) (addr : N → Nat) (hn : 0 < n) : Rover (half out addr hn) (fun m => (out m).map (·.2)) where
  I s := ∀ m, (m ∈ s.seen (Build.lane hn (addr m)) → s.mem m = []) ∧ (m ∉ s.seen (Build.lane hn (addr m)) → s.mem m = inn₀ m)
  node p := some p.1
  weight _ := 0
  lane m := Build.lane hn (addr m)
  seen s := s.seen
  ok s i := s.stop i = false
  dest p m h := by cases h; rfl
  inv s p h := by
    simp only [half, halfIt]
    obtain ⟨sample, stop, e', -⟩ := Trav.poll_eq s (Build.lane hn (addr p.1))
    rw [e']
    by_cases c1 : p.1 ∈ s.seen (Build.lane hn (addr p.1))
    · rw [if_pos c1]; exact h
    · rw [if_neg c1]
      intro m
      simp only
      by_cases hmp : m = p.1
      · subst hmp; simp
      · rw [Function.update_of_ne hmp]
        by_cases hl : Build.lane hn (addr m) = Build.lane hn (addr p.1)
        · rw [hl, Function.update_self]
          have := h m
          rw [hl] at this
          simpa [hmp] using this
        · rw [Function.update_of_ne hl]; exact h m
  others s p j hj := by
    have hj' : j ≠ Build.lane hn (addr p.1) := hj
    simp only [half, halfIt]
    obtain ⟨sample, stop, e', h1, -⟩ := Trav.poll_eq s (Build.lane hn (addr p.1))
    rw [e']
    split_ifs
    · exact ⟨rfl, fun h => by rw [← h1 j hj']; exact h⟩
    · exact ⟨Function.update_of_ne hj' _ _, fun h => by rw [← h1 j hj']; exact h⟩
    · exact ⟨Function.update_of_ne hj' _ _, fun h => by rw [← h1 j hj']; exact h⟩
  undeferred s p := by
    simp only [half, halfIt]
    split_ifs <;> rfl
  mail s p h := by cases h
  step s p m hI h := by
    cases h
    simp only [half, halfIt]
    obtain ⟨sample, stop, e', h1, h2, -⟩ := Trav.poll_eq s (Build.lane hn (addr p.1))
    rw [e']
    by_cases c2 : p.1 ∈ s.seen (Build.lane hn (addr p.1))
    · rw [if_pos c2]
      exact .inl ⟨rfl, rfl, fun h => ⟨h2 h, c2⟩⟩
    · rw [if_neg c2]
      refine .inr ⟨c2, by simp, fun q hq => ?_, fun h => ⟨h2 h, fun q hq => ?_⟩⟩
      · simp only at hq
        split_ifs at hq
        · cases hq
        · rw [scatter_nodes] at hq; exact hq
      · have h' : stop (Build.lane hn (addr p.1)) = false := h
        simp only [h', Bool.false_eq_true, if_false]
        rw [scatter_nodes]; exact hq
  env e s := ⟨rfl, id, fun i h => h⟩

variable {out inn₀ : N → List (L × N)} {addr : N → Nat} {hn : 0 < n}

/-- Workers stop only if there's a kill request. -/
theorem full_stop {base : N} : ∀ x, Bag.Reach (full out addr hn) (base, none) (Trav.start inn₀) x → x.1.killed = 0 → ∀ i, x.1.stop i = false := by
  intro x hx
  induction hx with
  | init => intro _ i; rfl
  | step _ hs ih =>
    cases hs with
    | env e s m => intro h; cases h
    | handle s p rest =>
      simp only [full, fullIt] at ih ⊢
      obtain ⟨sample, stop, e', h1, h2, h3⟩ := Trav.poll_eq s (Build.lane hn (addr p.1))
      rw [e']
      have : s.killed = 0 → ∀ i, stop i = false := by
        intro hk i
        by_cases hi : i = Build.lane hn (addr p.1)
        · subst hi
          by_contra hc
          rcases h3 (by simpa using hc) with h4 | h4
          · rw [ih hk] at h4; cases h4
          · exact h4 hk
        · rw [h1 i hi]; exact ih hk i
      split_ifs <;> exact this

theorem half_stop {base : N} : ∀ x, Bag.Reach (half out addr hn) (base, none) (Trav.start inn₀) x → x.1.killed = 0 → ∀ i, x.1.stop i = false := by
  intro x hx
  induction hx with
  | init => intro _ i; rfl
  | step _ hs ih =>
    cases hs with
    | env e s m => intro h; cases h
    | handle s p rest =>
      simp only [half, halfIt] at ih ⊢
      obtain ⟨sample, stop, e', h1, h2, h3⟩ := Trav.poll_eq s (Build.lane hn (addr p.1))
      rw [e']
      have : s.killed = 0 → ∀ i, stop i = false := by
        intro hk i
        by_cases hi : i = Build.lane hn (addr p.1)
        · subst hi
          by_contra hc
          rcases h3 (by simpa using hc) with h4 | h4
          · rw [ih hk] at h4; cases h4
          · exact h4 hk
        · rw [h1 i hi]; exact ih hk i
      split_ifs <;> exact this

/-- The edge a packet carries to a given node. -/
def carried (m : N) (p : Pkt N L) : Multiset (L × N) := if p.1 = m then (p.2.toList : Multiset (L × N)) else 0

/-- The reverse edges of those of one node to a given node. -/
def posted (out : N → List (L × N)) (m a : N) : Multiset (L × N) :=
  (((out a).filter fun e => decide (e.2 = m)).map fun e => (e.1, a) : List (L × N))

theorem carried_scatter (m a : N) : ((scatterOut out a).map (carried m)).sum = posted out m a := by
  unfold scatterOut posted
  induction out a with
  | nil => rfl
  | cons e es ih =>
    simp only [List.map_cons, List.sum_cons, List.filter_cons]
    rw [ih]
    by_cases h : e.2 = m
    · simp [carried, h]
    · simp [carried, h]

/-- What a worker does with a packet. -/
theorem full_cases (i : Fin n) (s : Trav.Job n N (N → List (L × N))) (p : Pkt N L) : ∃ sample stop,
    (stop i = true ∧ fullIt out i s p = ({ s with sample := sample, stop := stop }, [], false)) ∨
    (stop i = false ∧ p.1 ∈ s.seen i ∧ fullIt out i s p =
      ({ s with sample := sample, stop := stop, mem := Function.update s.mem p.1 (p.2.toList ++ s.mem p.1) }, [], false)) ∨
    (stop i = false ∧ p.1 ∉ s.seen i ∧ fullIt out i s p =
      ({ s with sample := sample, stop := stop, seen := Function.update s.seen i (s.seen i ++ [p.1]),
                mem := Function.update s.mem p.1 p.2.toList }, scatterOut out p.1, false)) := by
  obtain ⟨sample, stop, e, -⟩ := Trav.poll_eq s i
  refine ⟨sample, stop, ?_⟩
  simp only [fullIt, e]
  by_cases c1 : stop i = true
  · exact .inl ⟨c1, by rw [if_pos c1]⟩
  · have c1' : stop i = false := by simpa using c1
    by_cases c2 : p.1 ∈ s.seen i
    · exact .inr (.inl ⟨c1', c2, by rw [if_neg c1, if_pos c2]⟩)
    · exact .inr (.inr ⟨c1', c2, by rw [if_neg c1, if_neg c2]⟩)

/-- The incoming edges of a node, if it's been visited. -/
def got (addr : N → Nat) (hn : 0 < n) (m : N) (s : Trav.Job n N (N → List (L × N))) : Multiset (L × N) :=
  if m ∈ s.seen (Build.lane hn (addr m)) then (s.mem m : Multiset (L × N)) else 0

/-- In the absence of kill requests, the incoming edges of the nodes visited with those on the way are the reverse edges of those of the
nodes visited. -/
theorem full_mail {base : N} (m : N) :
    ∀ x, Bag.Reach (full out addr hn).quiet (base, none) (Trav.start inn₀) x →
      got addr hn m x.1 + (x.2.map (carried m)).sum = (((fullQuiet out inn₀ addr hn).visited x.1).map (posted out m)).sum := by
  refine (fullQuiet out inn₀ addr hn).mail_inv (got addr hn m) (carried m) (posted out m)
    (fun i => rfl) ⟨fun _ _ => rfl, rfl, fun _ => rfl⟩ rfl ?_ ?_ (fun e => e.elim) ?_ ?_
  · simp [got, Trav.start]
  · simp [carried]
  · intro s p hI hs
    have hstop : ∀ i, (fullIt out (Build.lane hn (addr p.1)) s p).1.stop i = false := ((fullQuiet out inn₀ addr hn).inv s p hI).2.2
    have hs' : (fullIt out (Build.lane hn (addr p.1)) s p).1.seen (Build.lane hn (addr p.1)) = s.seen (Build.lane hn (addr p.1)) := hs
    change got addr hn m (fullIt out (Build.lane hn (addr p.1)) s p).1 +
      ((fullIt out (Build.lane hn (addr p.1)) s p).2.1.map (carried m)).sum = got addr hn m s + carried m p
    obtain ⟨sample, stop, ⟨h1, e⟩ | ⟨h1, h2, e⟩ | ⟨h1, h2, e⟩⟩ := full_cases (out := out) (Build.lane hn (addr p.1)) s p <;> rw [e] at hstop hs' ⊢
    · exact absurd (h1.symm.trans (hstop _)) (by decide)
    · simp only [got, List.map_nil, List.sum_nil, add_zero]
      by_cases hm : p.1 = m
      · subst hm
        rw [Function.update_self, if_pos h2, if_pos h2, carried, if_pos rfl, ← Multiset.coe_add, add_comm]
      · rw [Function.update_of_ne (Ne.symm hm), carried, if_neg hm, add_zero]
    · simp at hs'
  · intro s p k hI hk hks hs
    cases hk
    have hstop : ∀ i, (fullIt out (Build.lane hn (addr p.1)) s p).1.stop i = false := ((fullQuiet out inn₀ addr hn).inv s p hI).2.2
    have hs' : (fullIt out (Build.lane hn (addr p.1)) s p).1.seen (Build.lane hn (addr p.1)) = s.seen (Build.lane hn (addr p.1)) ++ [p.1] := hs
    change got addr hn m (fullIt out (Build.lane hn (addr p.1)) s p).1 +
      ((fullIt out (Build.lane hn (addr p.1)) s p).2.1.map (carried m)).sum = got addr hn m s + carried m p + posted out m p.1
    obtain ⟨sample, stop, ⟨h1, e⟩ | ⟨h1, h2, e⟩ | ⟨h1, h2, e⟩⟩ := full_cases (out := out) (Build.lane hn (addr p.1)) s p <;> rw [e] at hstop hs' ⊢
    · exact absurd (h1.symm.trans (hstop _)) (by decide)
    · simp at hs'
    · simp only [got]
      rw [carried_scatter]
      by_cases hm : p.1 = m
      · subst hm
        rw [Function.update_self, Function.update_self, carried, if_pos rfl, if_pos (by simp), if_neg h2, zero_add]
      · rw [Function.update_of_ne (Ne.symm hm), carried, if_neg hm, add_zero]
        have hiff : m ∈ Function.update s.seen (Build.lane hn (addr p.1)) (s.seen (Build.lane hn (addr p.1)) ++ [p.1])
            (Build.lane hn (addr m)) ↔ m ∈ s.seen (Build.lane hn (addr m)) := by
          by_cases hl : Build.lane hn (addr m) = Build.lane hn (addr p.1)
          · rw [hl, Function.update_self]; simp [Ne.symm hm]
          · rw [Function.update_of_ne hl]
        simp only [hiff]

theorem coe_flatMap (nodes : List N) (m : N) :
    (reversed out nodes m : Multiset (L × N)) = (nodes.map (posted out m)).sum := by
  induction nodes with
  | nil => rfl
  | cons a l ih =>
    rw [List.map_cons, List.sum_cons, ← ih, posted, Multiset.coe_add]
    rfl

/-- A kill request is never withdrawn. -/
theorem full_killed (i : Fin n) (s : Trav.Job n N (N → List (L × N))) (p : Pkt N L) :
    ((full out addr hn).handle i s p).1.killed = s.killed := by
  simp only [full, fullIt]
  obtain ⟨sample, stop, e', -⟩ := Trav.poll_eq s i
  rw [e']
  split_ifs <;> rfl

end Cru.Duplex
