import Verif.Model.Spread
import Verif.Spec.Spread
import Verif.Proofs.Rover
import Verif.Proofs.MutateOrder

/-! # The prespreading task -/

namespace Cru.Spread

open Net Build

variable {n : Nat} {N V L : Type} [DecidableEq N] {b : Builder V L} {g : Gr N V L} {hn : 0 < n}

theorem matching_iff (hb : b.Sane) (v w : V) : matching b v w = true ↔ b.vEq v w = true := by
  unfold matching
  constructor
  · intro h; simp only [Bool.and_eq_true] at h; exact h.2
  · intro h
    have := hb.vh v w h
    simp [h, this]

/-- The lane of a vertex. -/
def spot (b : Builder V L) (hn : 0 < n) (v : V) : Fin n := lane hn (b.vHash v)

theorem spot_eq (hb : b.Sane) {v w : V} (h : b.vEq v w = true) : spot b hn v = spot b hn w := by
  unfold spot; rw [hb.vh v w h]

theorem produced_pre (s : Pre n N L) (m : N) : Bag.produced (pre b g hn) s m = ((preHandle b g (spot b hn (g.vertex m)) s m).2.1 : Multiset N) := by
  show ((preHandle b g (spot b hn (g.vertex m)) s m).2.1 : Multiset N) + (if (preHandle b g (spot b hn (g.vertex m)) s m).2.2 then {m} else 0) = _
  have : (preHandle b g (spot b hn (g.vertex m)) s m).2.2 = false := by
    unfold preHandle; dsimp only; split_ifs <;> rfl
  rw [this]; simp

/-- What holds as long as nobody has asked for a kill. -/
structure Clean (b : Builder V L) (g : Gr N V L) (hn : 0 < n) (s : Pre n N L) (bag : Multiset N) : Prop where
  stop : ∀ i, s.stop i = false
  out : s.out = g.out
  del : ∀ i, s.del i = (s.tab i).reverse
  seen : ∀ i, s.seen i = []
  twice : s.twice = false
  home : ∀ i, ∀ m ∈ s.tab i, spot b hn (g.vertex m) = i
  apart : ∀ i, (s.tab i).Pairwise fun c d => b.vEq (g.vertex c) (g.vertex d) = false
  mem : ∀ i, ∀ m ∈ s.tab i, m ∈ g.nodes
  flight : ∀ m ∈ bag, m ∈ g.nodes
  start : (∃ c ∈ s.tab (spot b hn (g.vertex g.base)), b.vEq (g.vertex g.base) (g.vertex c) = true) ∨ g.base ∈ bag
  closed : ∀ i, ∀ m ∈ s.tab i, ∀ m' ∈ g.next false m,
    (∃ c ∈ s.tab (spot b hn (g.vertex m')), b.vEq (g.vertex m') (g.vertex c) = true) ∨ m' ∈ bag

theorem next_mem (hw : g.WF) {m m' : N} (hm : m ∈ g.nodes) (h : m' ∈ g.next false m) : m' ∈ g.nodes :=
  (hw.reach m').2 (((hw.reach m).1 hm).tail h)

theorem base_mem (hw : g.WF) : g.base ∈ g.nodes := (hw.reach _).2 .refl

theorem prePoll_killed (s : Pre n N L) (i : Fin n) (h : (prePoll s i).killed = 0) : s.killed = 0 := by
  unfold prePoll at h
  dsimp only at h
  split_ifs at h <;> first | exact h | simp at h

theorem prePoll_clean (s : Pre n N L) (i : Fin n) (hs : ∀ i, s.stop i = false) (h : s.killed = 0) :
    prePoll s i = { s with sample := Function.update s.sample i (s.sample i + 1) } := by
  unfold prePoll
  have h1 : s.stop i = false := hs i
  have h2 : Function.update s.stop i false = s.stop := by rw [← h1]; exact Function.update_eq_self i s.stop
  simp [h1, h, h2]

theorem preHandle_killed (s : Pre n N L) (i : Fin n) (m : N) (h : (preHandle b g i s m).1.killed = 0) : s.killed = 0 := by
  apply prePoll_killed s i
  unfold preHandle at h
  dsimp only at h
  split_ifs at h <;> exact h

theorem clean_step (hb : b.Sane) (hw : g.WF) {s : Pre n N L} {m : N} {rest : Multiset N} (h : Clean b g hn s (m ::ₘ rest)) (hk : s.killed = 0) :
    Clean b g hn (preHandle b g (spot b hn (g.vertex m)) s m).1 ((preHandle b g (spot b hn (g.vertex m)) s m).2.1 + rest) := by
  have hm : m ∈ g.nodes := h.flight m (by simp)
  set i := spot b hn (g.vertex m) with hi
  unfold preHandle
  rw [prePoll_clean s i h.stop hk]
  dsimp only
  rw [if_neg (by rw [h.seen]; simp), if_pos (h.stop i)]
  by_cases hc : (s.tab i).any (fun c => matching b (g.vertex m) (g.vertex c)) = true
  · rw [if_pos hc]
    have hc' : ∃ c ∈ s.tab (spot b hn (g.vertex m)), b.vEq (g.vertex m) (g.vertex c) = true := by
      rw [List.any_eq_true] at hc
      obtain ⟨c, hc1, hc2⟩ := hc
      exact ⟨c, hc1, (matching_iff hb _ _).1 hc2⟩
    refine ⟨h.stop, h.out, h.del, h.seen, h.twice, h.home, h.apart, h.mem, ?_, ?_, ?_⟩
    · intro m' hm'; exact h.flight m' (by simp at hm'; simp [hm'])
    · rcases h.start with h1 | h1
      · exact .inl h1
      · rw [Multiset.mem_cons] at h1
        rcases h1 with h1 | h1
        · rw [h1]; exact .inl hc'
        · exact .inr (by simp [h1])
    · intro j c hcj m' hm'
      rcases h.closed j c hcj m' hm' with h1 | h1
      · exact .inl h1
      · rw [Multiset.mem_cons] at h1
        rcases h1 with h1 | h1
        · rw [h1]; exact .inl hc'
        · exact .inr (by simp [h1])
  · rw [if_neg hc]
    have hno : ∀ c ∈ s.tab i, b.vEq (g.vertex m) (g.vertex c) = false := by
      intro c hcm
      rw [Bool.eq_false_iff]
      intro h1
      exact hc (List.any_eq_true.2 ⟨c, hcm, (matching_iff hb _ _).2 h1⟩)
    have hmono : ∀ j, ∀ c ∈ s.tab j, c ∈ Function.update s.tab i (s.tab i ++ [m]) j := by
      intro j c hcj
      by_cases hj : j = i
      · subst hj; simp [hcj]
      · rw [Function.update_of_ne hj]; exact hcj
    have hinv : ∀ j, ∀ c ∈ Function.update s.tab i (s.tab i ++ [m]) j, c ∈ s.tab j ∨ (j = i ∧ c = m) := by
      intro j c hcj
      by_cases hj : j = i
      · subst hj
        rw [Function.update_self, List.mem_append, List.mem_singleton] at hcj
        rcases hcj with h1 | h1
        · exact .inl h1
        · exact .inr ⟨rfl, h1⟩
      · rw [Function.update_of_ne hj] at hcj; exact .inl hcj
    have hself : ∃ c ∈ Function.update s.tab i (s.tab i ++ [m]) (spot b hn (g.vertex m)), b.vEq (g.vertex m) (g.vertex c) = true :=
      ⟨m, by rw [← hi]; simp, hb.v.refl _⟩
    have hout : (s.out m).map Prod.snd = g.next false m := by rw [h.out]; rfl
    rw [hout]
    refine ⟨h.stop, h.out, ?_, h.seen, h.twice, ?_, ?_, ?_, ?_, ?_, ?_⟩
    · intro j
      by_cases hj : j = i
      · subst hj; simp [h.del]
      · simp only; rw [Function.update_of_ne hj, Function.update_of_ne hj]; exact h.del j
    · intro j c hcj
      rcases hinv j c hcj with h1 | ⟨h1, h2⟩
      · exact h.home j c h1
      · rw [h1, h2]
    · intro j
      by_cases hj : j = i
      · subst hj
        simp only [Function.update_self]
        rw [List.pairwise_append]
        refine ⟨h.apart _, by simp, ?_⟩
        intro c hcm d hd
        rw [List.mem_singleton] at hd
        rw [hd, Bool.eq_false_iff]
        intro h1
        have := hno c hcm
        rw [hb.v.symm _ _ h1] at this
        exact absurd this (by decide)
      · simp only; rw [Function.update_of_ne hj]; exact h.apart j
    · intro j c hcj
      rcases hinv j c hcj with h1 | ⟨-, h2⟩
      · exact h.mem j c h1
      · rw [h2]; exact hm
    · intro m' hm'
      rw [Multiset.mem_add] at hm'
      rcases hm' with h1 | h1
      · exact next_mem hw hm h1
      · exact h.flight m' (by simp [h1])
    · rcases h.start with ⟨c, h1, h2⟩ | h1
      · exact .inl ⟨c, hmono _ c h1, h2⟩
      · rw [Multiset.mem_cons] at h1
        rcases h1 with h1 | h1
        · rw [h1]; exact .inl hself
        · exact .inr (by simp [h1])
    · intro j c hcj m' hm'
      rcases hinv j c hcj with h1 | ⟨-, h2⟩
      · rcases h.closed j c h1 m' hm' with ⟨d, h3, h4⟩ | h3
        · exact .inl ⟨d, hmono _ d h3, h4⟩
        · rw [Multiset.mem_cons] at h3
          rcases h3 with h3 | h3
          · rw [h3]; exact .inl hself
          · exact .inr (by simp [h3])
      · rw [h2] at hm'
        exact .inr (by simp [hm'])

theorem clean_reach (hb : b.Sane) (hw : g.WF) {x : Pre n N L × Multiset N} (h : Bag.Reach (pre b g hn) g.base (preStart g) x) :
    x.1.killed = 0 → Clean b g hn x.1 x.2 := by
  induction h with
  | init =>
    intro _
    refine ⟨fun _ => rfl, rfl, fun _ => rfl, fun _ => rfl, rfl, ?_, ?_, ?_, ?_, ?_, ?_⟩
    · intro i m hm; simp [preStart] at hm
    · intro i; exact List.Pairwise.nil
    · intro i m hm; simp [preStart] at hm
    · intro m hm; rw [Multiset.mem_singleton] at hm; rw [hm]; exact base_mem hw
    · exact .inr (by simp)
    · intro i m hm; simp [preStart] at hm
  | step hr hs ih =>
    cases hs with
    | handle s p rest =>
      intro hk
      have hk0 := preHandle_killed _ _ _ hk
      rw [produced_pre]
      exact clean_step hb hw (ih hk0) hk0
    | env e s m => intro hk; exact absurd hk (by show (1 : Nat) ≠ 0; decide)

/-- The tables and lists at the end of the prespreading task, as far as it matters for the spreading task. -/
structure Sorted (b : Builder V L) (g : Gr N V L) (hn : 0 < n) (x : Pre n N L) : Prop where
  out : x.out = g.out
  del : ∀ i, x.del i = (x.tab i).reverse
  mem : ∀ i m, m ∈ x.tab i ↔ m ∈ g.nodes ∧ spot b hn (g.vertex m) = i
  nodup : ∀ i, (x.tab i).Nodup

theorem clean_end (hb : b.Sane) (hw : g.WF) {x : Pre n N L} (h : PreEnds b g hn x) (hk : x.killed = 0) : Clean b g hn x 0 := by
  obtain ⟨s, hr, hd, rfl⟩ := h
  exact clean_reach hb hw (Rover.done_bag hn hr hd) hk

theorem clean_sorted (hb : b.Sane) (hw : g.WF) (hd : Distinct b g) {x : Pre n N L} (hc : Clean b g hn x 0) : Sorted b g hn x := by
  have hall : ∀ m, m ∈ g.nodes → m ∈ x.tab (spot b hn (g.vertex m)) := by
    intro m hm
    have := (hw.reach m).1 hm
    clear hm
    induction this with
    | refl =>
      rcases hc.start with ⟨c, h1, h2⟩ | h1
      · have := hd _ (base_mem hw) c (hc.mem _ c h1) h2
        rw [← this] at h1; exact h1
      · simp at h1
    | @tail c d hcd hdd ih =>
      have hdm : d ∈ g.nodes := next_mem hw (hc.mem _ _ ih) hdd
      rcases hc.closed _ _ ih d hdd with ⟨e, h1, h2⟩ | h1
      · have := hd _ hdm e (hc.mem _ e h1) h2
        rw [← this] at h1; exact h1
      · simp at h1
  refine ⟨hc.out, hc.del, ?_, ?_⟩
  · intro i m
    refine ⟨fun h => ⟨hc.mem i m h, hc.home i m h⟩, fun h => ?_⟩
    have := hall m h.1; rw [h.2] at this; exact this
  · intro i
    refine (hc.apart i).imp ?_
    intro c d h hcd
    rw [hcd, hb.v.refl] at h
    exact absurd h (by decide)

/-- The nodes that aren't in the tables and those that have edges. -/
def togo (b : Builder V L) (g : Gr N V L) (hn : 0 < n) (s : Pre n N L) : Nat :=
  (g.nodes.filter fun m => decide (m ∉ s.tab (spot b hn (g.vertex m)))).length + (g.nodes.filter fun m => !(s.out m).isEmpty).length

theorem filter_le (l : List N) {q r : N → Bool} (h : ∀ m, q m = true → r m = true) : (l.filter q).length ≤ (l.filter r).length :=
  (List.monotone_filter_right l (fun m hm => h m hm)).length_le

theorem filter_lt {l : List N} {q r : N → Bool} (h : ∀ m, q m = true → r m = true) {p : N} (hp : p ∈ l) (h1 : q p = false) (h2 : r p = true) :
    (l.filter q).length < (l.filter r).length := by
  refine lt_of_le_of_ne (filter_le l h) ?_
  intro heq
  have := (List.monotone_filter_right l (fun m hm => h m hm)).eq_of_length heq
  have hpr : p ∈ l.filter r := List.mem_filter.2 ⟨hp, h2⟩
  rw [← this, List.mem_filter, h1] at hpr
  exact absurd hpr.2 (by decide)

theorem togo_step (hb : b.Sane) (s : Pre n N L) {p : N} (hp : p ∈ g.nodes) :
    togo b g hn (preHandle b g (spot b hn (g.vertex p)) s p).1 < togo b g hn s ∨
      togo b g hn (preHandle b g (spot b hn (g.vertex p)) s p).1 ≤ togo b g hn s ∧ (preHandle b g (spot b hn (g.vertex p)) s p).2.1 = [] := by
  set i := spot b hn (g.vertex p) with hi
  have hpo : (prePoll s i).out = s.out ∧ (prePoll s i).tab = s.tab := by unfold prePoll; dsimp only; split_ifs <;> exact ⟨rfl, rfl⟩
  have htogo : togo b g hn (prePoll s i) = togo b g hn s := by unfold togo; rw [hpo.1, hpo.2]
  unfold preHandle
  dsimp only
  split_ifs with h1 h2 h3
  · exact .inr ⟨htogo.le, rfl⟩
  · exact .inr ⟨htogo.le, rfl⟩
  · left
    rw [← htogo]
    unfold togo
    rw [hpo.1, hpo.2] at *
    refine Nat.add_lt_add_of_lt_of_le ?_ le_rfl
    refine filter_lt ?_ hp ?_ ?_
    · intro m hm
      rw [decide_eq_true_eq] at hm ⊢
      intro h4
      apply hm
      by_cases hj : spot b hn (g.vertex m) = i
      · rw [hj] at h4 ⊢; simp [h4]
      · dsimp only; rw [Function.update_of_ne hj]; exact h4
    · rw [← hi]; simp
    · rw [← hi, decide_eq_true_eq]
      intro h4
      exact h3 (List.any_eq_true.2 ⟨p, h4, (matching_iff hb _ _).2 (hb.v.refl _)⟩)
  · by_cases he : s.out p = []
    · right
      refine ⟨?_, by rw [hpo.1, he]; rfl⟩
      rw [← htogo]
      unfold togo
      dsimp only
      refine Nat.add_le_add le_rfl (filter_le _ ?_)
      intro m hm
      by_cases hmp : m = p
      · subst hmp; simp at hm
      · rw [Function.update_of_ne hmp] at hm; exact hm
    · left
      rw [← htogo]
      unfold togo
      dsimp only
      refine Nat.add_lt_add_of_le_of_lt le_rfl (filter_lt ?_ hp ?_ ?_)
      · intro m hm
        by_cases hmp : m = p
        · subst hmp; simp at hm
        · rw [Function.update_of_ne hmp] at hm; exact hm
      · simp
      · rw [hpo.1]; simp [he]

/-- The prespreading task always ends. -/
theorem pre_acc (hb : b.Sane) (hw : g.WF) : ∀ x, Bag.Reach (pre b g hn) g.base (preStart g) x → Acc (fun y x => Bag.Handles (pre b g hn) x y) x := by
  have hmem : ∀ x : Pre n N L × Multiset N, Bag.Reach (pre b g hn) g.base (preStart g) x →
      (∀ m ∈ x.2, m ∈ g.nodes) ∧ ∀ m, ∀ e ∈ x.1.out m, e ∈ g.out m := by
    intro x h
    induction h with
    | init => exact ⟨fun m hm => by rw [Multiset.mem_singleton] at hm; rw [hm]; exact base_mem hw, fun m e he => he⟩
    | step hr hs ih =>
      cases hs with
      | env e s m => exact ih
      | handle s p rest =>
        rw [produced_pre]
        have hp : p ∈ g.nodes := ih.1 p (by simp)
        have hrest : ∀ m ∈ rest, m ∈ g.nodes := fun m hm => ih.1 m (by simp [hm])
        have hpo : (prePoll s (spot b hn (g.vertex p))).out = s.out := by unfold prePoll; dsimp only; split_ifs <;> rfl
        have hsend : ∀ m ∈ (s.out p).map Prod.snd, m ∈ g.nodes := by
          intro m hm
          rw [List.mem_map] at hm
          obtain ⟨e, he, rfl⟩ := hm
          exact next_mem hw hp (List.mem_map_of_mem (ih.2 p e he))
        constructor
        · intro m hm
          rw [Multiset.mem_add] at hm
          rcases hm with h1 | h1
          · rw [Multiset.mem_coe] at h1
            unfold preHandle at h1
            dsimp only at h1
            split_ifs at h1
            · simp at h1
            · simp at h1
            · exact hsend m (by rw [← hpo]; exact h1)
            · exact hsend m (by rw [← hpo]; exact h1)
          · exact hrest m h1
        · intro m e he
          apply ih.2 m e
          show e ∈ s.out m
          rw [← hpo]
          revert he
          show e ∈ (preHandle b g (spot b hn (g.vertex p)) s p).1.out m → _
          unfold preHandle
          dsimp only
          split_ifs
          · exact id
          · exact id
          · exact id
          · intro he
            by_cases hmp : m = p
            · subst hmp; simp at he
            · dsimp only at he
              rw [Function.update_of_ne hmp] at he; exact he
  refine Mutate.acc_of_weight (togo b g hn) (fun _ => 1) ?_
  intro s p rest hr
  rw [produced_pre]
  rcases togo_step (hn := hn) hb s ((hmem _ hr).1 p (by simp)) with h | ⟨h, h'⟩
  · exact .inl h
  · refine .inr ⟨h, ?_⟩
    rw [h']; simp

end Cru.Spread
