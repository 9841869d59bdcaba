import Verif.Proofs.Induce

/-! # Induction comes to an end on acyclic graphs -/

namespace Cru.Induce

open Net

variable {n : Nat} {N V L A : Type} [DecidableEq N] {d : Inducer V L A} {vertex : N → V} {arcs : N → List (L × N)} {b : N}
  {lane : N → Fin n} {reach : Fin n → Option (List N)} {s : Job n N A}

theorem try1_frame (i : Fin n) (m : N) : (try1 lane reach d vertex arcs b i s m).1.seen = s.seen ∧
    (try1 lane reach d vertex arcs b i s m).1.stale = s.stale ∧
    ((try1 lane reach d vertex arcs b i s m).2 = true → (try1 lane reach d vertex arcs b i s m).1 = s ∧
      readiness lane reach i s (pre arcs m) = .later) := by
  unfold try1
  split
  · exact ⟨rfl, rfl, fun h => by cases h⟩
  · rename_i h; exact ⟨rfl, rfl, fun _ => ⟨rfl, h⟩⟩
  · refine ⟨?_, ?_, fun h => by cases h⟩
    · unfold visit
      dsimp only
      repeat' split
      all_goals rfl
    · unfold visit
      dsimp only
      repeat' split
      all_goals rfl

theorem readiness_congr {s s' : Job n N A} {i : Fin n} (h1 : s'.off = s.off) (h2 : s'.visited = s.visited) (h3 : s'.stale = s.stale) (os : List N) :
    readiness lane reach i s' os = readiness lane reach i s os := by
  induction os with
  | nil => rfl
  | cons o os ih => unfold readiness; rw [h1, h2, h3, ih]

/-- The packet won't be deferred. -/
def Ready (lane : N → Fin n) (reach : Fin n → Option (List N)) (arcs : N → List (L × N)) (s : Job n N A) (p : N) : Prop :=
  s.off (lane p) = true ∨ s.err (lane p) ≠ 0 ∨ s.stop (lane p) = true ∨ p ∈ s.visited (lane p) ∨ p ∉ s.seen (lane p) ∨
    readiness lane reach (lane p) s (pre arcs p) ≠ .later

theorem handle_progress (m : N) :
    (handle lane reach d vertex arcs b (lane m) s m).1.stale = s.stale ∧
    ((m ∉ s.seen (lane m) ∧ (handle lane reach d vertex arcs b (lane m) s m).1.seen = Function.update s.seen (lane m) (s.seen (lane m) ++ [m])) ∨
    ((handle lane reach d vertex arcs b (lane m) s m).1.seen = s.seen ∧ (handle lane reach d vertex arcs b (lane m) s m).2 = ([], false)) ∨
    ((handle lane reach d vertex arcs b (lane m) s m).2 = ([], true) ∧ ¬ Ready lane reach arcs s m ∧
      (handle lane reach d vertex arcs b (lane m) s m).1 = { s with sample := Function.update s.sample (lane m) (s.sample (lane m) + 1) })) := by
  unfold handle
  obtain ⟨sample, stop, e, h1, h2, h3⟩ := poll_eq s (lane m)
  have hs1 : (poll s (lane m)).seen = s.seen := by rw [e]
  have hs2 : (poll s (lane m)).stale = s.stale := by rw [e]
  dsimp only
  by_cases c1 : (poll s (lane m)).off (lane m) = true
  · rw [if_pos c1]
    exact ⟨hs2, .inr (.inl ⟨hs1, rfl⟩)⟩
  rw [if_neg c1]
  by_cases c2 : (poll s (lane m)).err (lane m) ≠ 0 ∨ (poll s (lane m)).stop (lane m) = true
  · rw [if_pos c2]
    exact ⟨hs2, .inr (.inl ⟨hs1, rfl⟩)⟩
  rw [if_neg c2]
  rw [not_or, not_not] at c2
  by_cases c3 : m ∈ (poll s (lane m)).visited (lane m)
  · rw [if_pos c3]
    exact ⟨hs2, .inr (.inl ⟨hs1, rfl⟩)⟩
  rw [if_neg c3]
  by_cases c4 : m ∈ (poll s (lane m)).seen (lane m)
  · rw [if_pos c4]
    obtain ⟨f1, f2, f3⟩ := try1_frame (reach := reach) (d := d) (vertex := vertex) (arcs := arcs) (b := b) (lane := lane) (s := poll s (lane m)) (lane m) m
    refine ⟨by rw [f2, hs2], .inr ?_⟩
    rcases hd : (try1 lane reach d vertex arcs b (lane m) (poll s (lane m)) m).2 with _ | _
    · exact .inl ⟨by rw [f1, hs1], rfl⟩
    · obtain ⟨f4, f5⟩ := f3 hd
      have hstop : s.stop (lane m) = false := by
        have := c2.2
        rw [e] at this
        exact h2 (by simpa using this)
      refine .inr ⟨rfl, ?_, ?_⟩
      · rw [e] at c1 c2 c3 c4 f5
        rintro (hr | hr | hr | hr | hr | hr)
        · exact c1 hr
        · exact hr c2.1
        · rw [hr] at hstop; cases hstop
        · exact c3 hr
        · exact hr c4
        · exact hr ((readiness_congr (s := s) (s' := { s with sample := sample, stop := stop }) rfl rfl rfl _).symm.trans f5)
      · rw [f4]
        have hst2 := c2.2
        unfold poll at hst2 ⊢
        rw [if_neg (by rw [hstop]; simp)] at hst2 ⊢
        simp only [Function.update_self] at hst2
        have : ((s.sample (lane m) + 1) % 32 == 0 && s.killed != 0) = s.stop (lane m) := by
          rw [hstop]; simpa using hst2
        rw [this, Function.update_eq_self]
  · rw [if_neg c4]
    obtain ⟨f1, f2, f3⟩ := try1_frame (reach := reach) (d := d) (vertex := vertex) (arcs := arcs) (b := b) (lane := lane)
      (s := { poll s (lane m) with seen := Function.update (poll s (lane m)).seen (lane m) ((poll s (lane m)).seen (lane m) ++ [m]) }) (lane m) m
    refine ⟨by rw [f2]; exact hs2, .inl ⟨by rw [← hs1]; exact c4, ?_⟩⟩
    show (try1 lane reach d vertex arcs b (lane m) _ m).1.seen = _
    rw [f1, hs1]

/-- Nodes not seen yet. -/
def unseen (lane : N → Fin n) (nodes : List N) (s : Job n N A) : Nat :=
  (nodes.filter fun m => decide (m ∉ s.seen (lane m))).length

theorem unseen_lt {nodes : List N} {s s' : Job n N A} {m : N} (hm : m ∈ nodes) (h1 : m ∉ s.seen (lane m))
    (h2 : s'.seen = Function.update s.seen (lane m) (s.seen (lane m) ++ [m])) : unseen lane nodes s' < unseen lane nodes s := by
  unfold unseen
  have hsub : ∀ q, q ∉ s'.seen (lane q) → q ∉ s.seen (lane q) := by
    intro q hq hc
    apply hq
    rw [h2]
    by_cases hj : lane q = lane m
    · rw [hj, Function.update_self]; rw [hj] at hc; exact List.mem_append_left _ hc
    · rw [Function.update_of_ne hj]; exact hc
  have hnot : ¬ (m ∉ s'.seen (lane m)) := by rw [h2]; simp
  induction nodes with
  | nil => cases hm
  | cons q nodes ih =>
    have hle : ∀ l : List N, (l.filter fun m => decide (m ∉ s'.seen (lane m))).length ≤ (l.filter fun m => decide (m ∉ s.seen (lane m))).length := by
      intro l
      induction l with
      | nil => simp
      | cons a l ihl =>
        by_cases ha : a ∉ s'.seen (lane a)
        · have ha' := hsub a ha
          simp only [List.filter_cons, ha, ha', not_false_eq_true, decide_true, if_true, List.length_cons]
          omega
        · simp only [List.filter_cons, ha, decide_false, if_neg (by simp : ¬ false = true)]
          refine Nat.le_trans ihl ?_
          split
          · simp
          · exact Nat.le_refl _
    by_cases e : q = m
    · subst e
      simp only [List.filter_cons, hnot, h1, not_false_eq_true, decide_true, decide_false, if_true, if_neg (by simp : ¬ false = true), List.length_cons]
      have := hle nodes
      omega
    · have hm' : m ∈ nodes := by
        rcases List.mem_cons.1 hm with h | h
        · exact absurd h.symm e
        · exact h
      have := ih hm'
      by_cases ha : q ∉ s'.seen (lane q)
      · have ha' := hsub q ha
        simp only [List.filter_cons, ha, ha', not_false_eq_true, decide_true, if_true, List.length_cons]
        omega
      · simp only [List.filter_cons, ha, decide_false, if_neg (by simp : ¬ false = true)]
        refine Nat.lt_of_lt_of_le this ?_
        split
        · simp
        · exact Nat.le_refl _

def measure (lane : N → Fin n) (nodes : List N) (x : Job n N A × Multiset N) : Nat ×ₗ Nat :=
  toLex (unseen lane nodes x.1, Multiset.card x.2)

variable {hash : N → Nat} {hn : 0 < n} {nil : A}

/-- States in which every worker's view of the others is up to date. -/
def Fresh (reach : Fin n → Option (List N)) (d : Inducer V L A) (vertex : N → V) (arcs : N → List (L × N)) (b : N) (hash : N → Nat)
    (hn : 0 < n) (nil : A) (x : Job n N A × Multiset N) : Prop :=
  Bag.Reach (task reach d vertex arcs b hash hn) b (start nil) x ∧ ∀ i j, x.1.stale i j = false

theorem advances (hc : ∀ m, Reaches (pre arcs) b m → Complete (fun m => Build.lane hn (hash m)) reach m)
    (hac : Acyclic (pre arcs) b) (nodes : List N) (hnodes : ∀ m, Reaches (pre arcs) b m → m ∈ nodes) :
    Advances (task reach d vertex arcs b hash hn) (Fresh reach d vertex arcs b hash hn nil)
      (measure (fun m => Build.lane hn (hash m)) nodes) (Ready (fun m => Build.lane hn (hash m)) reach arcs) where
  keep g p rest h := by
    refine ⟨.step h.1 (.handle g p rest), ?_⟩
    have := (handle_progress (lane := fun m => Build.lane hn (hash m)) (reach := reach) (d := d) (vertex := vertex) (arcs := arcs) (b := b) (s := g) p).1
    show ∀ i j, (handle _ reach d vertex arcs b (Build.lane hn (hash p)) g p).1.stale i j = false
    intro i j
    rw [this]; exact h.2 i j
  handle g p rest h := by
    have hp := (handle_progress (lane := fun m => Build.lane hn (hash m)) (reach := reach) (d := d) (vertex := vertex) (arcs := arcs) (b := b) (s := g) p).2
    have hin := hnodes p ((inv_bag (d := d) (vertex := vertex) hc _ h.1).flight p (Multiset.mem_cons_self _ _))
    rcases hp with ⟨h1, h2⟩ | ⟨h1, h2⟩ | ⟨h1, h2, h3⟩
    · left
      show measure _ nodes _ < measure _ nodes _
      unfold measure
      rw [Prod.Lex.lt_iff]
      exact .inl (unseen_lt (lane := fun m => Build.lane hn (hash m)) hin h1 h2)
    · left
      have hpr : Bag.produced (task reach d vertex arcs b hash hn) g p = 0 := by
        have h2' : ((task reach d vertex arcs b hash hn).handle ((task reach d vertex arcs b hash hn).dest p) g p).2 = ([], false) := h2
        unfold Bag.produced
        simp only [h2']
        simp
      have h1' : ((task reach d vertex arcs b hash hn).handle ((task reach d vertex arcs b hash hn).dest p) g p).1.seen = g.seen := h1
      rw [hpr]
      unfold measure unseen
      rw [Prod.Lex.lt_iff]
      refine .inr ⟨?_, ?_⟩
      · simp only [ofLex_toLex]
        rw [h1']
      · simp
    · right
      refine ⟨h1, h2, fun q hq => ?_, ?_⟩
      · have h3' : ((task reach d vertex arcs b hash hn).handle ((task reach d vertex arcs b hash hn).dest p) g p).1 = _ := h3
        rw [h3']
        rcases hq with hr | hr | hr | hr | hr | hr
        · exact .inl hr
        · exact .inr (.inl hr)
        · exact .inr (.inr (.inl hr))
        · exact .inr (.inr (.inr (.inl hr)))
        · exact .inr (.inr (.inr (.inr (.inl hr))))
        · exact .inr (.inr (.inr (.inr (.inr (fun hc' => hr ((readiness_congr (s := g) (s' := { g with sample := Function.update g.sample (Build.lane hn (hash p)) (g.sample (Build.lane hn (hash p)) + 1) }) rfl rfl rfl _).symm.trans hc'))))))
      · have h3' : ((task reach d vertex arcs b hash hn).handle ((task reach d vertex arcs b hash hn).dest p) g p).1 = _ := h3
        rw [h3']; rfl
  exists_ready g bag h hne := by
    by_contra hno
    push Not at hno
    have hi := inv_bag (d := d) (vertex := vertex) hc _ h.1
    -- every pending node has a pending prerequisite
    have hchain : ∀ p ∈ bag, ∃ t ∈ bag, t ∈ pre arcs p := by
      intro p hp
      have hr := hno p hp
      unfold Ready at hr
      push Not at hr
      obtain ⟨h1, h2, h3, h4, h5, h6⟩ := hr
      obtain ⟨t, ht, h7, h8⟩ := readiness_later (fun j => h.2 _ j) h6
      refine ⟨t, ?_, ht⟩
      rcases hi.sent p h5 t ht with h9 | h9 | h9
      · rcases hi.pend t h9 with h10 | ⟨rfl, _⟩ | h10 | h10
        · exact absurd h10 h8
        · exact absurd (Relation.TransGen.tail' (hi.flight p hp) ht) (hac _ .refl)
        · exact h10
        · rw [h7] at h10; cases h10
      · exact h9
      · rw [h7] at h9; cases h9
    have hfin : Finite { m // m ∈ bag } := by
      have : Finite { m // m ∈ bag.toFinset } := inferInstance
      exact Finite.of_injective (fun x : { m // m ∈ bag } => (⟨x.1, Multiset.mem_toFinset.2 x.2⟩ : { m // m ∈ bag.toFinset }))
        (fun x y hxy => Subtype.ext (Subtype.mk.inj hxy))
    let r : { m // m ∈ bag } → { m // m ∈ bag } → Prop := fun x y => Relation.TransGen (fun x y => y ∈ pre arcs x) y.1 x.1
    have htr : IsTrans _ r := ⟨fun x y z h1 h2 => Relation.TransGen.trans h2 h1⟩
    have hir : Std.Irrefl r := ⟨fun x h1 => hac _ (hi.flight _ x.2) h1⟩
    have hwf : WellFounded r := Finite.wellFounded_of_trans_of_irrefl r
    obtain ⟨p₀, hp₀⟩ := Multiset.exists_mem_of_ne_zero hne
    obtain ⟨p, _, hmin⟩ := hwf.has_min Set.univ ⟨⟨p₀, hp₀⟩, trivial⟩
    obtain ⟨t, ht, htp⟩ := hchain p.1 p.2
    exact hmin ⟨t, ht⟩ trivial (Relation.TransGen.single htp)

end Cru.Induce
