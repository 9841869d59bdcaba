import Verif.Spec.Graph
import Verif.Proofs.NetExec

/-!
# Traversals visit every reachable node once

What the tasks that traverse a graph have in common, stated for any task that marks nodes as seen and sends a packet for
each arc of a node seen for the first time.
-/

namespace Cru

open Net

variable {n : Nat} {P G E N : Type}

/-- A job terminates if handling a packet decreases some number, or else adds no packets. -/
theorem Bag.acc_of_measure {T : Task n P G E} {i₀ : P} {g₀ : G} (μ : G → Nat)
    (hμ : ∀ g p rest, Bag.Reach T i₀ g₀ (g, p ::ₘ rest) → μ (T.handle (T.dest p) g p).1 < μ g ∨
      μ (T.handle (T.dest p) g p).1 ≤ μ g ∧ Bag.produced T g p = 0) :
    ∀ x, Bag.Reach T i₀ g₀ x → Acc (fun y x => Bag.Handles T x y) x := by
  have : ∀ a b, ∀ x, Bag.Reach T i₀ g₀ x → μ x.1 ≤ a → Multiset.card x.2 ≤ b →
      Acc (fun y x => Bag.Handles T x y) x := by
    intro a
    induction a using Nat.strong_induction_on with
    | _ a iha =>
      intro b
      induction b with
      | zero =>
        rintro ⟨g, m⟩ hx _ hm
        refine Acc.intro _ ?_
        rintro y ⟨p, rest, h1, _⟩
        simp only at h1 hm
        rw [h1] at hm; simp at hm
      | succ b ihb =>
        rintro ⟨g, m⟩ hx ha hm
        refine Acc.intro _ ?_
        rintro y ⟨p, rest, h1, h2⟩
        simp only at h1 h2 ha hm
        subst h1 h2
        have hy := Bag.Reach.step hx (Bag.Step.handle g p rest)
        rcases hμ g p rest hx with h | ⟨h, h0⟩
        · exact iha _ (lt_of_lt_of_le h ha) _ _ hy le_rfl le_rfl
        · refine ihb _ hy (h.trans ha) ?_
          simp only [h0, zero_add]
          simpa using hm
  exact fun x hx => this _ _ x hx le_rfl le_rfl

/-- A task that traverses the arcs `out`: what it does to the lists `seen` of nodes visited by each lane, as long as the lane
is `ok`, that is, neither killed nor in error. -/
structure Walker (T : Task n P G E) (out : N → List N) where
  node : P → N
  lane : N → Fin n
  seen : G → Fin n → List N
  ok : G → Fin n → Prop
  dest : ∀ p, T.dest p = lane (node p)
  others : ∀ g p j, j ≠ T.dest p → seen (T.handle (T.dest p) g p).1 j = seen g j ∧
    (ok (T.handle (T.dest p) g p).1 j → ok g j)
  undeferred : ∀ g p, (T.handle (T.dest p) g p).2.2 = false
  step : ∀ g p,
    (seen (T.handle (T.dest p) g p).1 (T.dest p) = seen g (T.dest p) ∧ (T.handle (T.dest p) g p).2.1 = [] ∧
      (ok (T.handle (T.dest p) g p).1 (T.dest p) → ok g (T.dest p) ∧ node p ∈ seen g (T.dest p))) ∨
    (node p ∉ seen g (T.dest p) ∧ seen (T.handle (T.dest p) g p).1 (T.dest p) = seen g (T.dest p) ++ [node p] ∧
      (∀ q ∈ (T.handle (T.dest p) g p).2.1, node q ∈ out (node p)) ∧
      (ok (T.handle (T.dest p) g p).1 (T.dest p) → ok g (T.dest p) ∧
        ∀ m ∈ out (node p), ∃ q ∈ (T.handle (T.dest p) g p).2.1, node q = m))
  env : ∀ e g, seen (T.env e g) = seen g ∧ ∀ i, ok (T.env e g) i → ok g i

namespace Walker

variable {T : Task n P G E} {out : N → List N}

/-- The nodes visited, lane after lane, in the order each lane visited them. -/
def visited (W : Walker T out) (g : G) : List N := (List.finRange n).flatMap (W.seen g)

theorem mem_visited {W : Walker T out} {g : G} {m : N} : m ∈ W.visited g ↔ ∃ i, m ∈ W.seen g i := by
  simp [visited]

/-- The invariant of a traversal from the node `a`. -/
structure Inv (W : Walker T out) (a : N) (g : G) (bag : Multiset P) : Prop where
  nodup : ∀ i, (W.seen g i).Nodup
  home : ∀ i, ∀ m ∈ W.seen g i, W.lane m = i
  reach : ∀ i, ∀ m ∈ W.seen g i, Reaches out a m
  flight : ∀ p ∈ bag, Reaches out a (W.node p)
  start : (∀ i, W.ok g i) → a ∈ W.seen g (W.lane a) ∨ ∃ p ∈ bag, W.node p = a
  closed : (∀ i, W.ok g i) → ∀ i, ∀ m ∈ W.seen g i, ∀ m' ∈ out m, m' ∈ W.seen g (W.lane m') ∨ ∃ p ∈ bag, W.node p = m'

theorem inv_handle {W : Walker T out} {a : N} {g : G} {p : P} {rest : Multiset P} (h : W.Inv a g (p ::ₘ rest)) :
    W.Inv a (T.handle (T.dest p) g p).1 (Bag.produced T g p + rest) := by
  have hp : Bag.produced T g p = ((T.handle (T.dest p) g p).2.1 : Multiset P) := by
    simp [Bag.produced, W.undeferred]
  have hrp := h.flight p (Multiset.mem_cons_self _ _)
  have oth : ∀ j, j ≠ T.dest p → W.seen (T.handle (T.dest p) g p).1 j = W.seen g j := fun j hj => (W.others g p j hj).1
  have hok : (∀ i, W.ok (T.handle (T.dest p) g p).1 i) → ∀ i, W.ok g i := by
    intro hi j
    by_cases hj : j = T.dest p
    · subst hj
      rcases W.step g p with ⟨-, -, h3⟩ | ⟨-, -, -, h4⟩
      · exact (h3 (hi _)).1
      · exact (h4 (hi _)).1
    · exact (W.others g p j hj).2 (hi j)
  -- the handled packet's node is seen afterwards, if all is well
  have hnew : (∀ i, W.ok (T.handle (T.dest p) g p).1 i) → W.node p ∈ W.seen (T.handle (T.dest p) g p).1 (T.dest p) := by
    intro hi
    rcases W.step g p with ⟨h1, -, h3⟩ | ⟨-, h2, -, -⟩
    · rw [h1]; exact (h3 (hi _)).2
    · rw [h2]; simp
  have hmono : ∀ i, ∀ m ∈ W.seen g i, m ∈ W.seen (T.handle (T.dest p) g p).1 i := by
    intro i m hm
    by_cases hj : i = T.dest p
    · subst hj
      rcases W.step g p with ⟨h1, -, -⟩ | ⟨-, h2, -, -⟩
      · rw [h1]; exact hm
      · rw [h2]; simp [hm]
    · rw [oth i hj]; exact hm
  have hkeep : (∀ i, W.ok (T.handle (T.dest p) g p).1 i) → ∀ m, (m ∈ W.seen g (W.lane m) ∨ ∃ q ∈ p ::ₘ rest, W.node q = m) →
      m ∈ W.seen (T.handle (T.dest p) g p).1 (W.lane m) ∨ ∃ q ∈ Bag.produced T g p + rest, W.node q = m := by
    rintro hi m (h1 | ⟨q, h1, rfl⟩)
    · exact .inl (hmono _ _ h1)
    · rcases Multiset.mem_cons.1 h1 with rfl | h1
      · left; rw [← W.dest]; exact hnew hi
      · exact .inr ⟨q, Multiset.mem_add.2 (.inr h1), rfl⟩
  refine ⟨?_, ?_, ?_, ?_, ?_, ?_⟩
  · intro i
    by_cases hj : i = T.dest p
    · subst hj
      rcases W.step g p with ⟨h1, -, -⟩ | ⟨h0, h2, -, -⟩
      · rw [h1]; exact h.nodup _
      · rw [h2]
        exact List.nodup_append.2 ⟨h.nodup _, by simp, by rintro x hx y hy rfl; simp at hy; exact h0 (hy ▸ hx)⟩
    · rw [oth i hj]; exact h.nodup i
  · intro i m hm
    by_cases hj : i = T.dest p
    · subst hj
      rcases W.step g p with ⟨h1, -, -⟩ | ⟨h0, h2, -, -⟩
      · rw [h1] at hm; exact h.home _ m hm
      · rw [h2] at hm
        rcases List.mem_append.1 hm with hm | hm
        · exact h.home _ m hm
        · rw [List.mem_singleton.1 hm, W.dest]
    · rw [oth i hj] at hm; exact h.home i m hm
  · intro i m hm
    by_cases hj : i = T.dest p
    · subst hj
      rcases W.step g p with ⟨h1, -, -⟩ | ⟨h0, h2, -, -⟩
      · rw [h1] at hm; exact h.reach _ m hm
      · rw [h2] at hm
        rcases List.mem_append.1 hm with hm | hm
        · exact h.reach _ m hm
        · rw [List.mem_singleton.1 hm]; exact hrp
    · rw [oth i hj] at hm; exact h.reach i m hm
  · intro q hq
    rcases Multiset.mem_add.1 hq with hq | hq
    · rw [hp, Multiset.mem_coe] at hq
      rcases W.step g p with ⟨-, h2, -⟩ | ⟨-, -, h3, -⟩
      · rw [h2] at hq; cases hq
      · exact hrp.tail (h3 q hq)
    · exact h.flight q (Multiset.mem_cons_of_mem hq)
  · intro hi
    exact hkeep hi _ (h.start (hok hi))
  · intro hi i m hm m' hm'
    by_cases hold : m ∈ W.seen g i
    · exact hkeep hi _ (h.closed (hok hi) i m hold m' hm')
    · have hj : i = T.dest p := by
        by_contra hj
        rw [oth i hj] at hm; exact hold hm
      subst hj
      rcases W.step g p with ⟨h1, -, -⟩ | ⟨-, h2, -, h4⟩
      · rw [h1] at hm; exact absurd hm hold
      · rw [h2] at hm
        have : m = W.node p := by
          rcases List.mem_append.1 hm with hm | hm
          · exact absurd hm hold
          · exact List.mem_singleton.1 hm
        subst this
        obtain ⟨q, hq, e⟩ := (h4 (hi _)).2 m' hm'
        exact .inr ⟨q, Multiset.mem_add.2 (.inl (by rw [hp]; exact hq)), e⟩

theorem inv_reach {W : Walker T out} {i₀ : P} {g₀ : G} (h0 : ∀ i, W.seen g₀ i = []) :
    ∀ x, Bag.Reach T i₀ g₀ x → W.Inv (W.node i₀) x.1 x.2 := by
  intro x hx
  induction hx with
  | init =>
    refine ⟨?_, ?_, ?_, ?_, ?_, ?_⟩
    · intro i; simp [h0]
    · intro i m hm; simp [h0] at hm
    · intro i m hm; simp [h0] at hm
    · intro p hp; rw [Multiset.mem_singleton.1 hp]
    · intro _; exact .inr ⟨i₀, by simp, rfl⟩
    · intro _ i m hm; simp [h0] at hm
  | step _ hs ih =>
    cases hs with
    | handle g p rest => exact inv_handle ih
    | env e g m =>
      obtain ⟨h1, h2⟩ := W.env e g
      refine ⟨?_, ?_, ?_, ih.flight, ?_, ?_⟩
      · rw [h1]; exact ih.nodup
      · rw [h1]; exact ih.home
      · rw [h1]; exact ih.reach
      · rw [h1]; exact fun hi => ih.start fun i => h2 i (hi i)
      · rw [h1]; exact fun hi => ih.closed fun i => h2 i (hi i)

/-- Nothing is visited twice. -/
theorem visited_nodup {W : Walker T out} {a : N} {g : G} {bag : Multiset P} (h : W.Inv a g bag) : (W.visited g).Nodup := by
  unfold visited
  rw [List.nodup_flatMap]
  refine ⟨fun i _ => h.nodup i, ?_⟩
  refine List.Pairwise.imp ?_ (List.nodup_finRange n)
  intro i j hij m hi hj
  exact hij ((h.home i m hi).symm.trans (h.home j m hj))

/-- At the end, if nothing went wrong, the nodes visited are those reachable. -/
theorem visited_iff {W : Walker T out} {a : N} {g : G} (h : W.Inv a g 0) (hok : ∀ i, W.ok g i) (m : N) :
    m ∈ W.visited g ↔ Reaches out a m := by
  refine ⟨fun hm => ?_, fun hm => ?_⟩
  · obtain ⟨i, hi⟩ := mem_visited.1 hm
    exact h.reach i m hi
  · refine mem_visited.2 ⟨W.lane m, ?_⟩
    induction hm with
    | refl =>
      rcases h.start hok with h1 | ⟨p, hp, -⟩
      · exact h1
      · simp at hp
    | tail _ hb ih =>
      rcases h.closed hok _ _ ih _ hb with h1 | ⟨p, hp, -⟩
      · exact h1
      · simp at hp

/-- A traversal of finitely many reachable nodes terminates. -/
theorem acc (W : Walker T out) {i₀ : P} {g₀ : G} (h0 : ∀ i, W.seen g₀ i = []) (nodes : List N)
    (hf : ∀ m, Reaches out (W.node i₀) m → m ∈ nodes) :
    ∀ x, Bag.Reach T i₀ g₀ x → Acc (fun y x => Bag.Handles T x y) x := by
  classical
  refine Bag.acc_of_measure (fun g => (nodes.toFinset \ (W.visited g).toFinset).card) ?_
  intro g p rest hx
  have hi := inv_reach (W := W) h0 _ hx
  have hr := hi.flight p (Multiset.mem_cons_self _ _)
  have hmono : ∀ m ∈ W.visited g, m ∈ W.visited (T.handle (T.dest p) g p).1 := by
    intro m hm
    obtain ⟨i, hm⟩ := mem_visited.1 hm
    refine mem_visited.2 ⟨i, ?_⟩
    by_cases hj : i = T.dest p
    · subst hj
      rcases W.step g p with ⟨h1, -, -⟩ | ⟨-, h2, -, -⟩
      · rw [h1]; exact hm
      · rw [h2]; simp [hm]
    · rw [(W.others g p i hj).1]; exact hm
  rcases W.step g p with ⟨h1, h2, -⟩ | ⟨h1, h2, -, -⟩
  · right
    refine ⟨?_, ?_⟩
    · refine Finset.card_le_card (Finset.sdiff_subset_sdiff le_rfl ?_)
      intro m hm
      rw [List.mem_toFinset] at hm ⊢
      exact hmono m hm
    · simp [Bag.produced, W.undeferred, h2]
  · left
    refine Finset.card_lt_card ?_
    rw [Finset.ssubset_iff_of_subset]
    · refine ⟨W.node p, ?_, ?_⟩
      · rw [Finset.mem_sdiff, List.mem_toFinset, List.mem_toFinset]
        refine ⟨hf _ hr, fun hv => ?_⟩
        obtain ⟨i, hv⟩ := mem_visited.1 hv
        have := hi.home i _ hv
        rw [← W.dest] at this
        exact h1 (this ▸ hv)
      · rw [Finset.mem_sdiff, not_and_not_right]
        intro _
        rw [List.mem_toFinset]
        exact mem_visited.2 ⟨T.dest p, by rw [h2]; simp⟩
    · refine Finset.sdiff_subset_sdiff le_rfl ?_
      intro m hm
      rw [List.mem_toFinset] at hm ⊢
      exact hmono m hm

/-- The end of a traversal by the worker protocol: if nothing went wrong, the visited nodes are the given ones, when those
are the ones reachable. -/
theorem visited_perm (W : Walker T out) (hn : 0 < n) {i₀ : P} {g₀ : G} (h0 : ∀ i, W.seen g₀ i = []) {s : State n P G}
    (h : Net.Reach T i₀ g₀ s) (hd : s.main = .done) (hok : ∀ i, W.ok s.g i) {nodes : List N} (hnd : nodes.Nodup)
    (hf : ∀ m, m ∈ nodes ↔ Reaches out (W.node i₀) m) : (W.visited s.g).Perm nodes := by
  have hb := reach_bag hn h
  have hp := (inv_finished (i₀ := i₀) (reach_inv hn h) (by rw [hd]; trivial)).1
  rw [hp] at hb
  have hi := inv_reach (W := W) h0 _ hb
  refine (List.perm_ext_iff_of_nodup (visited_nodup hi) hnd).2 fun m => ?_
  rw [visited_iff hi hok, hf]

end Walker

end Cru
