import Verif.Proofs.Walk

/-!
# Traversals with other messages

Like `Walker`, but packets may also be messages that aren't visits, and what a visit does may depend on the memory, as long as
an invariant holds.
-/

namespace Cru

open Net

variable {n : Nat} {P G E N : Type}

/-- A job terminates if handling a packet decreases some triple of numbers. -/
theorem Bag.acc_of_lex {T : Task n P G E} {i₀ : P} {g₀ : G} (f : G × Multiset P → Nat × Nat × Nat)
    (hf : ∀ x y, Bag.Reach T i₀ g₀ x → Bag.Handles T x y →
      (f y).1 < (f x).1 ∨ (f y).1 ≤ (f x).1 ∧ ((f y).2.1 < (f x).2.1 ∨ (f y).2.1 ≤ (f x).2.1 ∧ (f y).2.2 < (f x).2.2)) :
    ∀ x, Bag.Reach T i₀ g₀ x → Acc (fun y x => Bag.Handles T x y) x := by
  have : ∀ a b c, ∀ x, Bag.Reach T i₀ g₀ x → (f x).1 ≤ a → (f x).2.1 ≤ b → (f x).2.2 ≤ c →
      Acc (fun y x => Bag.Handles T x y) x := by
    intro a
    induction a using Nat.strong_induction_on with
    | _ a iha =>
      intro b
      induction b using Nat.strong_induction_on with
      | _ b ihb =>
        intro c
        induction c using Nat.strong_induction_on with
        | _ c ihc =>
          intro x hx ha hb hc
          refine Acc.intro _ fun y hy => ?_
          have hry : Bag.Reach T i₀ g₀ y := by
            obtain ⟨p, rest, h1, h2⟩ := hy
            obtain ⟨g, bag⟩ := x
            simp only at h1 h2
            subst h1 h2
            exact hx.step (Bag.Step.handle g p rest)
          rcases hf x y hx hy with h | ⟨h, h' | ⟨h', h''⟩⟩
          · exact iha _ (lt_of_lt_of_le h ha) _ _ y hry le_rfl le_rfl le_rfl
          · exact ihb _ (lt_of_lt_of_le h' hb) _ y hry (h.trans ha) le_rfl le_rfl
          · exact ihc _ (lt_of_lt_of_le h'' hc) y hry (h.trans ha) (h'.trans hb) le_rfl
  exact fun x hx => this _ _ _ x hx le_rfl le_rfl le_rfl

/-- A task that traverses the arcs `out`, where `node` is the node a packet asks to visit, if it does. -/
structure Rover (T : Task n P G E) (out : N → List N) where
  I : G → Prop
  node : P → Option N
  weight : P → Nat
  lane : N → Fin n
  seen : G → Fin n → List N
  ok : G → Fin n → Prop
  dest : ∀ p m, node p = some m → T.dest p = lane m
  inv : ∀ g p, I g → I (T.handle (T.dest p) g p).1
  others : ∀ g p j, j ≠ T.dest p → seen (T.handle (T.dest p) g p).1 j = seen g j ∧
    (ok (T.handle (T.dest p) g p).1 j → ok g j)
  undeferred : ∀ g p, (T.handle (T.dest p) g p).2.2 = false
  mail : ∀ g p, node p = none → seen (T.handle (T.dest p) g p).1 (T.dest p) = seen g (T.dest p) ∧
    (T.handle (T.dest p) g p).2.1.filterMap node = [] ∧
    ((T.handle (T.dest p) g p).2.1.map weight).sum < weight p ∧
    (ok (T.handle (T.dest p) g p).1 (T.dest p) → ok g (T.dest p))
  step : ∀ g p m, I g → node p = some m →
    (seen (T.handle (T.dest p) g p).1 (T.dest p) = seen g (T.dest p) ∧ (T.handle (T.dest p) g p).2.1.filterMap node = [] ∧
      (ok (T.handle (T.dest p) g p).1 (T.dest p) → ok g (T.dest p) ∧ m ∈ seen g (T.dest p))) ∨
    (m ∉ seen g (T.dest p) ∧ seen (T.handle (T.dest p) g p).1 (T.dest p) = seen g (T.dest p) ++ [m] ∧
      (∀ q ∈ (T.handle (T.dest p) g p).2.1.filterMap node, q ∈ out m) ∧
      (ok (T.handle (T.dest p) g p).1 (T.dest p) → ok g (T.dest p) ∧
        ∀ q ∈ out m, q ∈ (T.handle (T.dest p) g p).2.1.filterMap node))
  env : ∀ e g, seen (T.env e g) = seen g ∧ (I g → I (T.env e g)) ∧ ∀ i, ok (T.env e g) i → ok g i

namespace Rover

variable {T : Task n P G E} {out : N → List N}

/-- The nodes visited, lane after lane, in the order each lane visited them. -/
def visited (W : Rover T out) (g : G) : List N := (List.finRange n).flatMap (W.seen g)

theorem mem_visited {W : Rover T out} {g : G} {m : N} : m ∈ W.visited g ↔ ∃ i, m ∈ W.seen g i := by
  simp [visited]

/-- The invariant of a traversal from the node `a`. -/
structure Inv (W : Rover T out) (a : N) (g : G) (bag : Multiset P) : Prop where
  I : W.I g
  nodup : ∀ i, (W.seen g i).Nodup
  home : ∀ i, ∀ m ∈ W.seen g i, W.lane m = i
  reach : ∀ i, ∀ m ∈ W.seen g i, Reaches out a m
  flight : ∀ p ∈ bag, ∀ m, W.node p = some m → Reaches out a m
  start : (∀ i, W.ok g i) → a ∈ W.seen g (W.lane a) ∨ ∃ p ∈ bag, W.node p = some a
  closed : (∀ i, W.ok g i) → ∀ i, ∀ m ∈ W.seen g i, ∀ m' ∈ out m, m' ∈ W.seen g (W.lane m') ∨ ∃ p ∈ bag, W.node p = some m'

theorem mono (W : Rover T out) {g : G} (hI : W.I g) (p : P) : ∀ i, ∀ m ∈ W.seen g i, m ∈ W.seen (T.handle (T.dest p) g p).1 i := by
  intro i m hm
  by_cases hj : i = T.dest p
  · subst hj
    rcases hn : W.node p with _ | k
    · rw [(W.mail g p hn).1]; exact hm
    · rcases W.step g p k hI hn with ⟨h1, -, -⟩ | ⟨-, h2, -, -⟩
      · rw [h1]; exact hm
      · rw [h2]; simp [hm]
  · rw [(W.others g p i hj).1]; exact hm

theorem inv_handle {W : Rover T out} {a : N} {g : G} {p : P} {rest : Multiset P} (h : W.Inv a g (p ::ₘ rest)) :
    W.Inv a (T.handle (T.dest p) g p).1 (Bag.produced T g p + rest) := by
  have hp : Bag.produced T g p = ((T.handle (T.dest p) g p).2.1 : Multiset P) := by
    simp [Bag.produced, W.undeferred]
  have hrp := h.flight p (Multiset.mem_cons_self _ _)
  have oth : ∀ j, j ≠ T.dest p → W.seen (T.handle (T.dest p) g p).1 j = W.seen g j := fun j hj => (W.others g p j hj).1
  have hok : (∀ i, W.ok (T.handle (T.dest p) g p).1 i) → ∀ i, W.ok g i := by
    intro hi j
    by_cases hj : j = T.dest p
    · subst hj
      rcases hn : W.node p with _ | k
      · exact (W.mail g p hn).2.2.2 (hi _)
      · rcases W.step g p k h.I hn with ⟨-, -, h3⟩ | ⟨-, -, -, h4⟩
        · exact (h3 (hi _)).1
        · exact (h4 (hi _)).1
    · exact (W.others g p j hj).2 (hi j)
  have hnew : (∀ i, W.ok (T.handle (T.dest p) g p).1 i) → ∀ k, W.node p = some k →
      k ∈ W.seen (T.handle (T.dest p) g p).1 (T.dest p) := by
    intro hi k hn
    rcases W.step g p k h.I hn with ⟨h1, -, h3⟩ | ⟨-, h2, -, -⟩
    · rw [h1]; exact (h3 (hi _)).2
    · rw [h2]; simp
  have hmono := W.mono h.I p
  have hkeep : (∀ i, W.ok (T.handle (T.dest p) g p).1 i) → ∀ m, (m ∈ W.seen g (W.lane m) ∨ ∃ q ∈ p ::ₘ rest, W.node q = some m) →
      m ∈ W.seen (T.handle (T.dest p) g p).1 (W.lane m) ∨ ∃ q ∈ Bag.produced T g p + rest, W.node q = some m := by
    rintro hi m (h1 | ⟨q, h1, hq⟩)
    · exact .inl (hmono _ _ h1)
    · rcases Multiset.mem_cons.1 h1 with rfl | h1
      · left; rw [← W.dest _ _ hq]; exact hnew hi m hq
      · exact .inr ⟨q, Multiset.mem_add.2 (.inr h1), hq⟩
  -- what is seen by the lane that handles the packet
  have hs : W.seen (T.handle (T.dest p) g p).1 (T.dest p) = W.seen g (T.dest p) ∨ ∃ k, W.node p = some k ∧
      k ∉ W.seen g (T.dest p) ∧ W.seen (T.handle (T.dest p) g p).1 (T.dest p) = W.seen g (T.dest p) ++ [k] := by
    rcases hn : W.node p with _ | k
    · exact .inl (W.mail g p hn).1
    · rcases W.step g p k h.I hn with ⟨h1, -, -⟩ | ⟨h0, h2, -, -⟩
      · exact .inl h1
      · exact .inr ⟨k, rfl, h0, h2⟩
  refine ⟨W.inv g p h.I, ?_, ?_, ?_, ?_, ?_, ?_⟩
  · intro i
    by_cases hj : i = T.dest p
    · subst hj
      rcases hs with h1 | ⟨k, -, h0, h2⟩
      · rw [h1]; exact h.nodup _
      · rw [h2]
        exact List.nodup_append.2 ⟨h.nodup _, by simp, by rintro x hx y hy rfl; simp at hy; exact h0 (hy ▸ hx)⟩
    · rw [oth i hj]; exact h.nodup i
  · intro i m hm
    by_cases hj : i = T.dest p
    · subst hj
      rcases hs with h1 | ⟨k, hk, h0, h2⟩
      · rw [h1] at hm; exact h.home _ m hm
      · rw [h2] at hm
        rcases List.mem_append.1 hm with hm | hm
        · exact h.home _ m hm
        · rw [List.mem_singleton.1 hm, W.dest p k hk]
    · rw [oth i hj] at hm; exact h.home i m hm
  · intro i m hm
    by_cases hj : i = T.dest p
    · subst hj
      rcases hs with h1 | ⟨k, hk, h0, h2⟩
      · rw [h1] at hm; exact h.reach _ m hm
      · rw [h2] at hm
        rcases List.mem_append.1 hm with hm | hm
        · exact h.reach _ m hm
        · rw [List.mem_singleton.1 hm]; exact hrp k hk
    · rw [oth i hj] at hm; exact h.reach i m hm
  · intro q hq m hqm
    rcases Multiset.mem_add.1 hq with hq | hq
    · rw [hp, Multiset.mem_coe] at hq
      have hqf : m ∈ (T.handle (T.dest p) g p).2.1.filterMap W.node := List.mem_filterMap.2 ⟨q, hq, hqm⟩
      rcases hn : W.node p with _ | k
      · rw [(W.mail g p hn).2.1] at hqf; cases hqf
      · rcases W.step g p k h.I hn with ⟨-, h2, -⟩ | ⟨-, -, h3, -⟩
        · rw [h2] at hqf; cases hqf
        · exact (hrp k hn).tail (h3 m hqf)
    · exact h.flight q (Multiset.mem_cons_of_mem hq) m hqm
  · intro hi
    exact hkeep hi _ (h.start (hok hi))
  · intro hi i m hm m' hm'
    by_cases hold : m ∈ W.seen g i
    · exact hkeep hi _ (h.closed (hok hi) i m hold m' hm')
    · have hj : i = T.dest p := by
        by_contra hj
        rw [oth i hj] at hm; exact hold hm
      subst hj
      rcases hn : W.node p with _ | k
      · rw [(W.mail g p hn).1] at hm; exact absurd hm hold
      rcases W.step g p k h.I hn with ⟨h1, -, -⟩ | ⟨-, h2, -, h4⟩
      · rw [h1] at hm; exact absurd hm hold
      · rw [h2] at hm
        have : m = k := by
          rcases List.mem_append.1 hm with hm | hm
          · exact absurd hm hold
          · exact List.mem_singleton.1 hm
        subst this
        obtain ⟨q, hq, e⟩ := List.mem_filterMap.1 ((h4 (hi _)).2 m' hm')
        exact .inr ⟨q, Multiset.mem_add.2 (.inl (by rw [hp]; exact hq)), e⟩

theorem inv_reach {W : Rover T out} {i₀ : P} {a : N} {g₀ : G} (h0 : ∀ i, W.seen g₀ i = []) (hI : W.I g₀)
    (ha : W.node i₀ = some a) : ∀ x, Bag.Reach T i₀ g₀ x → W.Inv a x.1 x.2 := by
  intro x hx
  induction hx with
  | init =>
    refine ⟨hI, ?_, ?_, ?_, ?_, ?_, ?_⟩
    · intro i; simp [h0]
    · intro i m hm; simp [h0] at hm
    · intro i m hm; simp [h0] at hm
    · intro p hp m hm
      rw [Multiset.mem_singleton.1 hp, ha] at hm
      cases hm; exact .refl
    · intro _; exact .inr ⟨i₀, by simp, ha⟩
    · intro _ i m hm; simp [h0] at hm
  | step _ hs ih =>
    cases hs with
    | handle g p rest => exact inv_handle ih
    | env e g m =>
      obtain ⟨h1, h3, h2⟩ := W.env e g
      refine ⟨h3 ih.I, ?_, ?_, ?_, ih.flight, ?_, ?_⟩
      · rw [h1]; exact ih.nodup
      · rw [h1]; exact ih.home
      · rw [h1]; exact ih.reach
      · rw [h1]; exact fun hi => ih.start fun i => h2 i (hi i)
      · rw [h1]; exact fun hi => ih.closed fun i => h2 i (hi i)

/-- Nothing is visited twice. -/
theorem visited_nodup {W : Rover T out} {a : N} {g : G} {bag : Multiset P} (h : W.Inv a g bag) : (W.visited g).Nodup := by
  unfold visited
  rw [List.nodup_flatMap]
  refine ⟨fun i _ => h.nodup i, ?_⟩
  refine List.Pairwise.imp ?_ (List.nodup_finRange n)
  intro i j hij m hi hj
  exact hij ((h.home i m hi).symm.trans (h.home j m hj))

/-- At the end, if nothing went wrong, the nodes visited are those reachable. -/
theorem visited_iff {W : Rover T out} {a : N} {g : G} (h : W.Inv a g 0) (hok : ∀ i, W.ok g i) (m : N) :
    m ∈ W.visited g ↔ Reaches out a m := by
  refine ⟨fun hm => ?_, fun hm => ?_⟩
  · obtain ⟨i, hi⟩ := mem_visited.1 hm
    exact h.reach i m hi
  · refine mem_visited.2 ⟨W.lane m, ?_⟩
    induction hm with
    | refl =>
      rcases h.start hok with h1 | ⟨p, hp, -⟩
      · exact h1
      · simp at hp
    | tail _ hb ih =>
      rcases h.closed hok _ _ ih _ hb with h1 | ⟨p, hp, -⟩
      · exact h1
      · simp at hp

/-- A traversal of finitely many reachable nodes terminates. -/
theorem acc (W : Rover T out) {i₀ : P} {a : N} {g₀ : G} (h0 : ∀ i, W.seen g₀ i = []) (hI : W.I g₀)
    (ha : W.node i₀ = some a) (nodes : List N) (hf : ∀ m, Reaches out a m → m ∈ nodes) :
    ∀ x, Bag.Reach T i₀ g₀ x → Acc (fun y x => Bag.Handles T x y) x := by
  classical
  refine Bag.acc_of_lex (fun x => ((nodes.toFinset \ (W.visited x.1).toFinset).card, Multiset.card (x.2.filterMap W.node),
    ((x.2.filter fun p => W.node p = none).map W.weight).sum)) ?_
  rintro ⟨g, bag⟩ y hx ⟨p, rest, h1, h2⟩
  simp only at h1 h2
  subst h1 h2
  have hi := inv_reach (W := W) h0 hI ha _ hx
  have hprod : Bag.produced T g p = ((T.handle (T.dest p) g p).2.1 : Multiset P) := by
    simp [Bag.produced, W.undeferred]
  simp only [hprod]
  have hle : (nodes.toFinset \ (W.visited (T.handle (T.dest p) g p).1).toFinset).card ≤
      (nodes.toFinset \ (W.visited g).toFinset).card := by
    refine Finset.card_le_card (Finset.sdiff_subset_sdiff le_rfl ?_)
    intro m hm
    rw [List.mem_toFinset] at hm ⊢
    obtain ⟨i, hm⟩ := mem_visited.1 hm
    exact mem_visited.2 ⟨i, W.mono hi.I p i m hm⟩
  rcases hn : W.node p with _ | k
  · right
    refine ⟨hle, .inr ?_⟩
    obtain ⟨-, h2, h3, -⟩ := W.mail g p hn
    refine ⟨?_, ?_⟩
    · rw [Multiset.filterMap_add, Multiset.filterMap_cons_none _ _ hn]
      simp [h2]
    · rw [Multiset.filter_add, Multiset.filter_cons_of_pos (p := fun p => W.node p = none) _ hn, Multiset.map_add, Multiset.sum_add, Multiset.map_cons, Multiset.sum_cons]
      refine Nat.add_lt_add_right ?_ _
      have h4 : ((T.handle (T.dest p) g p).2.1 : Multiset P).filter (fun p => W.node p = none) =
          ((T.handle (T.dest p) g p).2.1 : Multiset P) := by
        rw [Multiset.filter_eq_self]
        intro q hq
        rcases hc : W.node q with _ | c
        · rfl
        · have : c ∈ (T.handle (T.dest p) g p).2.1.filterMap W.node := List.mem_filterMap.2 ⟨q, hq, hc⟩
          rw [h2] at this; cases this
      rw [h4]
      simpa using h3
  · have hr := hi.flight p (Multiset.mem_cons_self _ _) k hn
    rcases W.step g p k hi.I hn with ⟨-, h2, -⟩ | ⟨h1, h2, -, -⟩
    · right
      refine ⟨hle, .inl ?_⟩
      rw [Multiset.filterMap_add, Multiset.filterMap_cons_some _ _ _ hn]
      simp [h2]
    · left
      refine Finset.card_lt_card ?_
      rw [Finset.ssubset_iff_of_subset]
      · refine ⟨k, ?_, ?_⟩
        · rw [Finset.mem_sdiff, List.mem_toFinset, List.mem_toFinset]
          refine ⟨hf _ hr, fun hv => ?_⟩
          obtain ⟨i, hv⟩ := mem_visited.1 hv
          have := hi.home i _ hv
          rw [← W.dest p k hn] at this
          exact h1 (this ▸ hv)
        · rw [Finset.mem_sdiff, not_and_not_right]
          intro _
          rw [List.mem_toFinset]
          exact mem_visited.2 ⟨T.dest p, by rw [h2]; simp⟩
      · refine Finset.sdiff_subset_sdiff le_rfl ?_
        intro m hm
        rw [List.mem_toFinset] at hm ⊢
        obtain ⟨i, hm⟩ := mem_visited.1 hm
        exact mem_visited.2 ⟨i, W.mono hi.I p i m hm⟩

theorem perm_flatMap_append {f f' : Fin n → List N} {i : Fin n} {m : N} (hi : f' i = f i ++ [m]) (hj : ∀ j, j ≠ i → f' j = f j) :
    ((List.finRange n).flatMap f').Perm (m :: (List.finRange n).flatMap f) := by
  obtain ⟨l₁, l₂, e⟩ := List.append_of_mem (List.mem_finRange i)
  have hd := List.nodup_finRange n
  rw [e, List.nodup_append] at hd
  obtain ⟨-, h2, h3⟩ := hd
  have e1 : l₁.flatMap f' = l₁.flatMap f :=
    List.flatMap_congr fun j hj' => hj j fun h => h3 j hj' i (by simp) h
  have e2 : l₂.flatMap f' = l₂.flatMap f :=
    List.flatMap_congr fun j hj' => hj j fun h => (List.nodup_cons.1 h2).1 (h ▸ hj')
  rw [e]
  simp only [List.flatMap_append, List.flatMap_cons, e1, e2, hi]
  rw [List.append_assoc, ← List.append_assoc, List.singleton_append]
  exact (List.perm_middle (l₁ := l₁.flatMap f ++ f i)).trans (by simp)

/-- What's been delivered or is on its way is what was sent by the nodes visited, if that's so for each packet. -/
theorem mail_inv (W : Rover T out) {α : Type} [AddCommMonoid α] (got : G → α) (msg : P → α) (posts : N → α)
    {i₀ : P} {a : N} {g₀ : G} (h0 : ∀ i, W.seen g₀ i = []) (hI : W.I g₀) (ha : W.node i₀ = some a)
    (hg : got g₀ = 0) (hm : msg i₀ = 0) (he : ∀ e g, got (T.env e g) = got g)
    (hs : ∀ g p, W.I g → W.seen (T.handle (T.dest p) g p).1 (T.dest p) = W.seen g (T.dest p) →
      got (T.handle (T.dest p) g p).1 + ((T.handle (T.dest p) g p).2.1.map msg).sum = got g + msg p)
    (hv : ∀ g p m, W.I g → W.node p = some m → m ∉ W.seen g (T.dest p) →
      W.seen (T.handle (T.dest p) g p).1 (T.dest p) = W.seen g (T.dest p) ++ [m] →
      got (T.handle (T.dest p) g p).1 + ((T.handle (T.dest p) g p).2.1.map msg).sum = got g + msg p + posts m) :
    ∀ x, Bag.Reach T i₀ g₀ x → got x.1 + (x.2.map msg).sum = ((W.visited x.1).map posts).sum := by
  intro x hx
  induction hx with
  | init =>
    have : W.visited g₀ = [] := by simp [visited, h0]
    simp [hg, hm, this]
  | step hr hst ih =>
    cases hst with
    | env e g m =>
      simp only [he]
      have : W.visited (T.env e g) = W.visited g := by simp [visited, (W.env e g).1]
      rw [this]; exact ih
    | handle g p rest =>
      have hI' := (inv_reach (W := W) h0 hI ha _ hr).I
      have hprod : Bag.produced T g p = ((T.handle (T.dest p) g p).2.1 : Multiset P) := by
        simp [Bag.produced, W.undeferred]
      simp only [hprod, Multiset.map_add, Multiset.sum_add, Multiset.map_coe, Multiset.sum_coe]
      simp only [Multiset.map_cons, Multiset.sum_cons] at ih
      have oth : ∀ j, j ≠ T.dest p → W.seen (T.handle (T.dest p) g p).1 j = W.seen g j := fun j hj => (W.others g p j hj).1
      have hsame : W.seen (T.handle (T.dest p) g p).1 (T.dest p) = W.seen g (T.dest p) →
          got (T.handle (T.dest p) g p).1 + (((T.handle (T.dest p) g p).2.1.map msg).sum + (rest.map msg).sum) =
          ((W.visited (T.handle (T.dest p) g p).1).map posts).sum := by
        intro h1
        have e : W.seen (T.handle (T.dest p) g p).1 = W.seen g := by
          funext j
          by_cases hj : j = T.dest p
          · subst hj; exact h1
          · exact oth j hj
        have : W.visited (T.handle (T.dest p) g p).1 = W.visited g := by simp [visited, e]
        rw [this, ← ih, ← add_assoc, hs g p hI' h1, add_assoc]
      rcases hn : W.node p with _ | k
      · exact hsame (W.mail g p hn).1
      · rcases W.step g p k hI' hn with ⟨h1, -, -⟩ | ⟨h1, h2, -, -⟩
        · exact hsame h1
        · have hp := (perm_flatMap_append h2 oth).map posts
          rw [visited, hp.sum_eq, List.map_cons, List.sum_cons, ← visited, ← ih, ← add_assoc, hv g p k hI' hn h1 h2]
          rw [add_comm (posts k)]
          simp only [add_assoc]
          rw [add_comm (posts k)]

/-- The end of a traversal: there are no packets left. -/
theorem done_bag (hn : 0 < n) {i₀ : P} {g₀ : G} {s : State n P G} (h : Net.Reach T i₀ g₀ s) (hd : s.main = .done) :
    Bag.Reach T i₀ g₀ (s.g, 0) := by
  have hb := reach_bag hn h
  have hp := (inv_finished (i₀ := i₀) (reach_inv hn h) (by rw [hd]; trivial)).1
  rw [hp] at hb
  exact hb

/-- The end of a traversal by the worker protocol: if nothing went wrong, the visited nodes are the given ones, when those
are the ones reachable. -/
theorem visited_perm (W : Rover T out) (hn : 0 < n) {i₀ : P} {a : N} {g₀ : G} (h0 : ∀ i, W.seen g₀ i = []) (hI : W.I g₀)
    (ha : W.node i₀ = some a) {s : State n P G}
    (h : Net.Reach T i₀ g₀ s) (hd : s.main = .done) (hok : ∀ i, W.ok s.g i) {nodes : List N} (hnd : nodes.Nodup)
    (hf : ∀ m, m ∈ nodes ↔ Reaches out a m) : (W.visited s.g).Perm nodes := by
  have hi := inv_reach (W := W) h0 hI ha _ (done_bag hn h hd)
  refine (List.perm_ext_iff_of_nodup (visited_nodup hi) hnd).2 fun m => ?_
  rw [visited_iff hi hok, hf]

end Rover

end Cru
