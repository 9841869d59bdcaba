import Verif.Proofs.SpreadEnd

/-! # The spreading task comes to an end -/

namespace Cru.Spread

open Net Build

variable {n : Nat} {N V L : Type} {b : Builder V L} {g : Gr N V L} {hn : 0 < n}
variable [DecidableEq N] [DecidableEq V] {x : Pre n N L} {s : Job n N V L} {bag : Multiset (Pkt N V L)}

/-- Workers that haven't started. -/
def waiting (s : Job n N V L) : Nat := ∑ i, if s.started i then 0 else 1

/-- Known nodes for which no edges were made. -/
def bare (g : Gr N V L) (s : Job n N V L) : Nat := (g.nodes.filter fun m => (s.made (.old m)).isEmpty).length

/-- Nodes in the tables. -/
def filled (s : Job n N V L) : Nat := ∑ i, (s.tab i).length

/-- What's left to be done, when there can be no more than `k` nodes in the tables. -/
def left (g : Gr N V L) (k : Nat) (s : Job n N V L) : Nat := waiting s + bare g s + (k - filled s)

omit [DecidableEq N] [DecidableEq V] in
theorem left_alike {s s' : Job n N V L} (h : Alike s s') (k : Nat) : left g k s' = left g k s := by
  unfold left waiting bare filled
  rw [h.started, h.made, h.tab]

omit [DecidableEq N] [DecidableEq V] in
theorem left_lt {s s' : Job n N V L} (h : waiting s' + bare g s' < waiting s + bare g s) (h' : filled s' = filled s) (k : Nat) :
    left g k s' < left g k s := by
  unfold left
  omega

omit [DecidableEq N] [DecidableEq V] in
theorem begin_left (s : Job n N V L) (i : Fin n) (k : Nat) :
    left g k (begin x s i).1 < left g k s ∨ left g k (begin x s i).1 = left g k s ∧ (begin x s i).2 = ([] : List (Pkt N V L)) := by
  unfold begin
  split_ifs with h
  · exact .inr ⟨rfl, rfl⟩
  · left
    have : waiting { s with started := Function.update s.started i true, queue := Function.update s.queue i ((x.del i).map .old) } < waiting s := by
      unfold waiting
      dsimp only
      refine Finset.sum_lt_sum ?_ ⟨i, Finset.mem_univ _, ?_⟩
      · intro j _
        by_cases hj : j = i
        · subst hj; simp
        · simp only [Function.update_of_ne hj]; exact Nat.le_refl _
      · simp [h]
    exact left_lt (Nat.add_lt_add_right this (bare g s)) rfl k

theorem known_left (hsub : b.sub = false) (a : Addr N V) (i : Fin n) {m : N} (l : Option L) (hm : m ∈ g.nodes) (k : Nat) :
    left g k (breakOut b g a x i s m l).1 < left g k s ∨
      left g k (breakOut b g a x i s m l).1 = left g k s ∧ (breakOut b g a x i s m l).2 = [] := by
  rw [breakOut_eq hsub]
  split_ifs with h1 h2 h3
  · exact .inr ⟨rfl, rfl⟩
  · exact .inr ⟨rfl, rfl⟩
  · exact .inr ⟨rfl, rfl⟩
  · push Not at h1
    by_cases hC : (b.connect .whole (g.vertex m)).2 = []
    · right
      rw [hC]
      refine ⟨?_, rfl⟩
      have : Function.update s.made (.old m) ([] : List (L × V)) = s.made := by rw [← h1.2.1]; exact Function.update_eq_self _ _
      rw [this]; rfl
    · left
      have h2 : bare g { hand s i (.old m) .whole with made := Function.update s.made (.old m) (b.connect .whole (g.vertex m)).2 } < bare g s := by
        unfold bare
        refine filter_lt ?_ hm ?_ ?_
        · intro m' hm'
          by_cases hmm : m' = m
          · subst hmm; rw [h1.2.1]; rfl
          · dsimp only at hm'; rw [Function.update_of_ne (by simp [hmm])] at hm'; exact hm'
        · dsimp only
          rw [Function.update_self]
          simp [hC]
        · rw [h1.2.1]; rfl
      exact left_lt (s := s) (s' := { hand s i (.old m) .whole with made := Function.update s.made (.old m) (b.connect .whole (g.vertex m)).2 })
        (Nat.add_lt_add_left h2 (waiting s)) rfl k

theorem new_left (i : Fin n) (v : V) (l : L) (t : Nd N V) (j : Nat) (k : Nat) (hk : filled (reachNew b i s v l t j).1 ≤ k) :
    left g k (reachNew b i s v l t j).1 < left g k s ∨
      left g k (reachNew b i s v l t j).1 = left g k s ∧ (reachNew b i s v l t j).2 = [] := by
  unfold reachNew at hk ⊢
  dsimp only at hk ⊢
  split_ifs with h1
  · exact .inr ⟨rfl, rfl⟩
  · rw [if_neg h1] at hk
    left
    set s' := ({ setLink (hand s i (.new v) (b.along l)) t j (.new v) with
      tab := Function.update (setLink (hand s i (.new v) (b.along l)) t j (.new v)).tab i
        ((setLink (hand s i (.new v) (b.along l)) t j (.new v)).tab i ++ [⟨.new v, [b.along l]⟩])
      queue := Function.update (setLink (hand s i (.new v) (b.along l)) t j (.new v)).queue i
        ((setLink (hand s i (.new v) (b.along l)) t j (.new v)).queue i ++ [.new v])
      made := Function.update (setLink (hand s i (.new v) (b.along l)) t j (.new v)).made (.new v)
        (b.uniq (b.connect (b.along l) v).2) } : Job n N V L) with hs'
    have h2 : filled s' = filled s + 1 := by
      unfold filled
      rw [← Finset.add_sum_erase _ _ (Finset.mem_univ i), ← Finset.add_sum_erase _ (fun j => (s.tab j).length) (Finset.mem_univ i)]
      have h3 : (s'.tab i).length = (s.tab i).length + 1 := by
        show (Function.update s.tab i (s.tab i ++ [⟨.new v, [b.along l]⟩]) i).length = _
        rw [Function.update_self, List.length_append, List.length_singleton]
      have h4 : ∑ j ∈ Finset.univ.erase i, (s'.tab j).length = ∑ j ∈ Finset.univ.erase i, (s.tab j).length := by
        refine Finset.sum_congr rfl ?_
        intro j hj
        show (Function.update s.tab i (s.tab i ++ [⟨.new v, [b.along l]⟩]) j).length = _
        rw [Function.update_of_ne (Finset.ne_of_mem_erase hj)]
      rw [h3, h4]; omega
    have h5 : waiting s' = waiting s := rfl
    have h6 : bare g s' = bare g s := by
      unfold bare
      congr 2
    have h7 : filled s' ≤ k := hk
    have h8 : left g k s' < left g k s := by unfold left; omega
    exact h8

theorem fresh_left (hsub : b.sub = false) (i : Fin n) (v : V) (l : L) (t : Nd N V) (j : Nat) (k : Nat) (hk : filled (admit b g i s v l t j).1 ≤ k) :
    left g k (admit b g i s v l t j).1 < left g k s ∨ left g k (admit b g i s v l t j).1 = left g k s ∧ (admit b g i s v l t j).2 = [] := by
  unfold admit at hk ⊢
  by_cases hstop : s.err i ≠ 0 ∨ s.stop i = true
  · rw [if_pos hstop]; exact .inr ⟨rfl, rfl⟩
  · rw [if_neg hstop] at hk ⊢
    split
    · split
      · unfold reachExtant
        dsimp only
        rw [if_pos (.inl hsub)]
        exact .inr ⟨rfl, rfl⟩
      · exact .inr ⟨rfl, rfl⟩
    · rename_i h0
      rw [h0] at hk
      dsimp only at hk ⊢
      split_ifs with h1 h2
      · rw [if_pos h1] at hk
        exact new_left i v l t j k hk
      · rw [if_neg h1, if_pos h2] at hk
        exact new_left (s := { s with count := Function.update s.count i (s.count i + 1) }) i v l t j k hk
      · right
        refine ⟨?_, rfl⟩
        exact (left_alike ((Alike.poll _ i).trans (.discard _ i)) k).trans rfl

/-- If there is a bound on the number of new vertices, the spreading task ends. -/
theorem spread_acc (hb : b.Sane) (hsub : b.sub = false) (hw : g.WF) (hd : Distinct b g) (hx : Sorted b g hn x) (a : Addr N V) (k : Nat)
    (hk : ∀ ns s bag, Sound b g x hn ns s bag → ∑ i, (ns i).length ≤ k) :
    ∀ y, Bag.Reach (task b g a x hn) (.known g.base none) (start x) y → Acc (fun y x' => Bag.Handles (task b g a x hn) x' y) y := by
  refine Mutate.acc_of_weight (left g ((∑ i, (x.tab i).length) + k)) (fun _ => 1) ?_
  intro s p rest hr
  have hfill : ∀ s' bag', Inv b g x hn s' bag' → filled s' ≤ (∑ i, (x.tab i).length) + k := by
    rintro s' bag' ⟨ns, h1, -⟩
    have := hk ns s' bag' h1
    unfold filled
    simp only [h1.tab, List.length_append, List.length_map, Finset.sum_add_distrib]
    omega
  have hI := inv_reach hb hsub hw hd hx a hr
  have hpost := hfill _ _ (inv_handle hb hsub hw hd hx a hI)
  rw [produced_eq]
  show left g _ (handle b g a x (lane hn (hashOf b g p)) s p).1 < _ ∨ left g _ (handle b g a x (lane hn (hashOf b g p)) s p).1 ≤ _ ∧ _
  have hknown : ∀ m l, p = .known m l → m ∈ g.nodes := by
    obtain ⟨ns, h1, -⟩ := hI
    rintro m l rfl
    exact h1.known m l (by simp)
  set K := (∑ i, (x.tab i).length) + k
  set i := lane hn (hashOf b g p) with hi
  unfold handle at hpost ⊢
  dsimp only at hpost ⊢
  have h1 := begin_left (g := g) (x := x) (poll s i) i K
  rw [left_alike (.poll s i)] at h1
  have h2 : left g K (match p with
        | .known m l => breakOut b g a x i (begin x (poll s i) i).1 m l
        | .fresh v l t j => admit b g i (begin x (poll s i) i).1 v l t j).1 < left g K (begin x (poll s i) i).1 ∨
      left g K (match p with
        | .known m l => breakOut b g a x i (begin x (poll s i) i).1 m l
        | .fresh v l t j => admit b g i (begin x (poll s i) i).1 v l t j).1 = left g K (begin x (poll s i) i).1 ∧
      (match p with
        | .known m l => breakOut b g a x i (begin x (poll s i) i).1 m l
        | .fresh v l t j => admit b g i (begin x (poll s i) i).1 v l t j).2 = [] := by
    rcases p with ⟨m, l⟩ | ⟨v, l, t, j⟩
    · exact known_left hsub a i l (hknown m l rfl) K
    · exact fresh_left hsub i v l t j K hpost
  rcases h1 with h1 | ⟨h1, h1'⟩ <;> rcases h2 with h2 | ⟨h2, h2'⟩
  · exact .inl (Nat.lt_trans h2 h1)
  · exact .inl (h2 ▸ h1)
  · exact .inl (h1 ▸ h2)
  · refine .inr ⟨Nat.le_of_eq (h2.trans h1), ?_⟩
    rw [h1']
    refine lt_of_eq_of_lt (congrArg (fun q : List (Pkt N V L) => ((q : Multiset (Pkt N V L)).map fun _ => 1).sum) h2') ?_
    simp

omit [DecidableEq N] [DecidableEq V] in
/-- There's a bound if there are finitely many vertices up to equality. -/
theorem bound_of_classes (hb : b.Sane) (cls : List V) (hf : ∀ v, Due b g v → ∃ c ∈ cls, b.vEq v c = true) {ns : Fin n → List V}
    (h : Sound b g x hn ns s bag) : ∑ i, (ns i).length ≤ cls.length := by
  classical
  have hlen : ∑ i, (ns i).length = ((List.finRange n).flatMap ns).length := by
    rw [sum_finRange, List.length_flatMap]
  rw [hlen]
  have hap : ((List.finRange n).flatMap ns).Pairwise fun v w => b.vEq v w = false := by
    rw [List.pairwise_flatMap]
    refine ⟨fun i _ => h.apart i, ?_⟩
    refine List.Pairwise.imp ?_ (List.nodup_finRange n)
    intro i j hij v hv w hw
    rw [Bool.eq_false_iff]
    intro he
    apply hij
    rw [← (h.novel i v hv).2.2.2, ← (h.novel j w hw).2.2.2]
    exact spot_eq hb he
  have hin : ∀ v ∈ (List.finRange n).flatMap ns, ∃ c ∈ cls, b.vEq v c = true := by
    intro v hv
    rw [List.mem_flatMap] at hv
    obtain ⟨i, -, hi⟩ := hv
    exact hf v (h.novel i v hi).2.1
  choose! f hf1 hf2 using hin
  have hnd : (((List.finRange n).flatMap ns).map f).Nodup := by
    rw [List.Nodup, List.pairwise_map]
    refine hap.imp_of_mem ?_
    intro v w hv hw hvw he
    have h1 := hf2 v hv
    rw [he] at h1
    rw [hb.v.trans _ _ _ h1 (hb.v.symm _ _ (hf2 w hw))] at hvw
    cases hvw
  have hsub : ((List.finRange n).flatMap ns).map f ⊆ cls := by
    intro c hc
    rw [List.mem_map] at hc
    obtain ⟨v, hv, rfl⟩ := hc
    exact hf1 v hv
  have := (hnd.subperm hsub).length_le
  rwa [List.length_map] at this

omit [DecidableEq N] [DecidableEq V] in
/-- There's a bound if there's a vertex limit. -/
theorem bound_of_limit (hl : b.limit n ≠ 0) {ns : Fin n → List V} (h : Sound b g x hn ns s bag) : ∑ i, (ns i).length ≤ n * b.limit n := by
  have : ∑ i, (ns i).length ≤ ∑ _i : Fin n, b.limit n := Finset.sum_le_sum fun i _ => (h.count hl i).1
  simpa using this

section
variable (g) (x)

omit [DecidableEq N] [DecidableEq V] in
theorem begin_asked (s : Job n N V L) (i : Fin n) : (begin x s i).1.asked = s.asked := by
  unfold begin
  split_ifs <;> rfl

omit [DecidableEq N] [DecidableEq V] in
theorem poll_asked (s : Job n N V L) (i : Fin n) : (poll s i).asked = s.asked := by
  unfold poll
  split_ifs <;> rfl

theorem breakOut_asked (a : Addr N V) (i : Fin n) (s : Job n N V L) (m : N) (l : Option L) : (breakOut b g a x i s m l).1.asked = s.asked := by
  unfold breakOut
  by_cases h : x.out m ≠ [] ∨ s.made (.old m) ≠ [] ∨ s.err i ≠ 0
  · rw [if_pos h]
    dsimp only
    split_ifs <;> rfl
  · rw [if_neg h]
    split
    · rfl
    · dsimp only
      split_ifs <;> rfl

theorem reachNew_asked (i : Fin n) (s : Job n N V L) (v : V) (l : L) (t : Nd N V) (j : Nat) : (reachNew b i s v l t j).1.asked = s.asked := by
  unfold reachNew
  dsimp only
  split_ifs <;> rfl

theorem admit_asked (i : Fin n) (s : Job n N V L) (v : V) (l : L) (t : Nd N V) (j : Nat) : (admit b g i s v l t j).1.asked = s.asked := by
  unfold admit
  by_cases hstop : s.err i ≠ 0 ∨ s.stop i = true
  · rw [if_pos hstop]; rfl
  · rw [if_neg hstop]
    split
    · split
      · unfold reachExtant
        dsimp only
        split_ifs <;> rfl
      · rfl
    · dsimp only
      split_ifs
      · exact reachNew_asked i s v l t j
      · exact reachNew_asked i _ v l t j
      · exact (poll_asked _ i).trans rfl

theorem handle_asked (a : Addr N V) (i : Fin n) (s : Job n N V L) (p : Pkt N V L) : (handle b g a x i s p).1.asked = s.asked := by
  unfold handle
  dsimp only
  refine Eq.trans ?_ ((begin_asked x (poll s i) i).trans (poll_asked s i))
  rcases p with ⟨m, l⟩ | ⟨v, l, t, j⟩
  · exact breakOut_asked g x a i _ m l
  · exact admit_asked g i _ v l t j

/-! ## Lists -/

omit [DecidableEq N] [DecidableEq V] in
theorem poll_queue (s : Job n N V L) (i : Fin n) : (poll s i).queue = s.queue := by
  unfold poll
  split_ifs <;> rfl

theorem breakOut_queue (a : Addr N V) (i : Fin n) (s : Job n N V L) (m : N) (l : Option L) : (breakOut b g a x i s m l).1.queue = s.queue := by
  unfold breakOut
  by_cases h : x.out m ≠ [] ∨ s.made (.old m) ≠ [] ∨ s.err i ≠ 0
  · rw [if_pos h]
    dsimp only
    split_ifs <;> rfl
  · rw [if_neg h]
    split
    · rfl
    · dsimp only
      split_ifs <;> rfl

theorem admit_queue (i : Fin n) (s : Job n N V L) (v : V) (l : L) (t : Nd N V) (j : Nat) (k : Fin n) (m : N)
    (h : .old m ∈ (admit b g i s v l t j).1.queue k) : .old m ∈ s.queue k := by
  have hnew : ∀ s : Job n N V L, .old m ∈ (reachNew b i s v l t j).1.queue k → .old m ∈ s.queue k := by
    intro s h
    unfold reachNew at h
    dsimp only at h
    split_ifs at h
    · exact h
    · change .old m ∈ Function.update s.queue i (s.queue i ++ [.new v]) k at h
      by_cases hk : k = i
      · subst hk
        rw [Function.update_self, List.mem_append] at h
        rcases h with h | h
        · exact h
        · simp at h
      · rwa [Function.update_of_ne hk] at h
  unfold admit at h
  by_cases hstop : s.err i ≠ 0 ∨ s.stop i = true
  · rw [if_pos hstop] at h; exact h
  · rw [if_neg hstop] at h
    split at h
    · split at h
      · unfold reachExtant at h
        dsimp only at h
        split_ifs at h <;> exact h
      · exact h
    · dsimp only at h
      split_ifs at h
      · exact hnew _ h
      · exact hnew { s with count := Function.update s.count i (s.count i + 1) } h
      · change .old m ∈ (poll _ i).queue k at h
        rw [poll_queue] at h
        exact h

/-- Known nodes listed at the end were listed by the prespreading task. -/
theorem queue_reach (a : Addr N V) {y : Job n N V L × Multiset (Pkt N V L)} (h : Bag.Reach (task b g a x hn) (.known g.base none) (start x) y) :
    ∀ i m, .old m ∈ y.1.queue i → m ∈ x.del i := by
  induction h with
  | init => intro i m h; simp [start] at h
  | step hr hs ih =>
    cases hs with
    | env e s m => exact ih
    | handle s p rest =>
      intro k m h
      change .old m ∈ (handle b g a x (lane hn (hashOf b g p)) s p).1.queue k at h
      set i := lane hn (hashOf b g p)
      have h1 : .old m ∈ (begin x (poll s i) i).1.queue k := by
        unfold handle at h
        dsimp only at h
        rcases p with ⟨m, l⟩ | ⟨v, l, t, j⟩
        · rwa [breakOut_queue] at h
        · exact admit_queue g i _ v l t j k m h
      unfold begin at h1
      split_ifs at h1
      · rw [poll_queue] at h1
        exact ih k m h1
      · change .old m ∈ Function.update (poll s i).queue i ((x.del i).map .old) k at h1
        by_cases hk : k = i
        · rw [hk, Function.update_self, List.mem_map] at h1
          obtain ⟨m', h2, h3⟩ := h1
          cases h3
          rw [hk]; exact h2
        · rw [Function.update_of_ne hk, poll_queue] at h1
          exact ih k m h1

end

end Cru.Spread
