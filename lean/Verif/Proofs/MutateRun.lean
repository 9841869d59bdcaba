import Verif.Proofs.Mutate

/-! # Mutating nodes, by many workers -/

namespace Cru.Mutate

open Net

variable {n : Nat} {N V L : Type} [DecidableEq N]

/-- The packets sent for a node. -/
def deps (n : Nat) (p : Plan) (g : Gr N V L) (m : N) : List (Packet n N) := ((after p g m).map Prod.snd).map .node

/-- What's always true: edges keep their ends, and errors come from user functions. -/
structure Shape (k : Kernel V L) (p : Plan) (g : Gr N V L) (s : Job n N V L) : Prop where
  pre : ∀ m, (s.pre p m).map Prod.snd = prior p g m
  post : ∀ m, (s.post p m).map Prod.snd = (after p g m).map Prod.snd
  err : ∀ i, s.err i ≠ 0 → Raised k (s.err i)

omit [DecidableEq N] in
theorem Shape.deps {k : Kernel V L} {p : Plan} {g : Gr N V L} {s : Job n N V L} (h : Shape k p g s) (m : N) :
    ((s.post p m).map fun e => (Packet.node e.2 : Packet n N)) = Mutate.deps n p g m := by
  unfold Mutate.deps
  rw [← h.post, List.map_map]; rfl

theorem Shape.fire {k : Kernel V L} {p : Plan} {g : Gr N V L} {s s' : Job n N V L} {m : N} (h : Shape k p g s)
    (hm : mutate k p s m = .ok s') : Shape k p g s' := by
  obtain ⟨v, es, -, h2, h3⟩ := mutate_ok hm
  refine ⟨fun t => ?_, fun t => ?_, ?_⟩
  · rw [h3.pre]
    split
    · rw [relabel_targets, h.pre]
    · exact h.pre t
  · rw [h3.post]
    by_cases ht : t = m
    · subst ht; rw [Function.update_self, h2.targets, h.post]
    · rw [Function.update_of_ne ht, h.post]
  · rw [h3.err]; exact h.err

theorem Shape.fail {k : Kernel V L} {p : Plan} {g : Gr N V L} {s : Job n N V L} {m : N} {x : Failure} (h : Shape k p g s)
    (hm : mutate k p s m = .error x) (i : Fin n) : Shape k p g (fail s i m x) := by
  refine ⟨h.pre, h.post, fun j hj => ?_⟩
  simp only [Mutate.fail] at hj ⊢
  by_cases hji : j = i
  · subst hji; rw [Function.update_self]; exact mutate_error hm
  · rw [Function.update_of_ne hji] at hj ⊢; exact h.err j hj

omit [DecidableEq N] in
theorem poll_eq (s : Job n N V L) (i : Fin n) :
    ∃ sample stop, s.poll i = { s with sample := sample, stop := stop } ∧
      (s.killed = 0 → (∀ j, s.stop j = false) → ∀ j, stop j = false) := by
  unfold Job.poll
  by_cases h : s.stop i = true
  · rw [if_pos h]
    exact ⟨s.sample, s.stop, rfl, fun _ h => h⟩
  · rw [if_neg h]
    refine ⟨_, _, rfl, fun hk h j => ?_⟩
    by_cases hj : j = i
    · subst hj; rw [Function.update_self, hk]; simp
    · rw [Function.update_of_ne hj]; exact h j

omit [DecidableEq N] in
theorem Shape.poll {k : Kernel V L} {p : Plan} {g : Gr N V L} {s : Job n N V L} (h : Shape k p g s) (i : Fin n) :
    Shape k p g (s.poll i) := by
  obtain ⟨a, b, e, -⟩ := poll_eq s i
  rw [e]
  exact ⟨h.pre, h.post, h.err⟩

/-- Marks that have been set aren't cleared. -/
def Kept (s s' : Job n N V L) : Prop := ∀ m, s.mark m ≠ .clear → s'.mark m ≠ .clear

theorem begin1_shape {k : Kernel V L} {p : Plan} {g : Gr N V L} {i : Fin n} : ∀ {ms : List N} {s : Job n N V L}, Shape k p g s →
    Shape k p g (begin1 k p i s ms).1 ∧ (begin1 k p i s ms).1.started = s.started ∧ Kept s (begin1 k p i s ms).1 ∧
    ∀ q ∈ (begin1 k p i s ms).2, ∃ m ∈ ms, ∃ e ∈ after p g m, q = .node e.2 := by
  intro ms
  induction ms with
  | nil => intro s h; exact ⟨h, rfl, fun _ h => h, by simp [begin1]⟩
  | cons m ms ih =>
    intro s h
    simp only [begin1]
    split
    · rename_i x hx
      refine ⟨h.fail hx i, rfl, fun t ht => ?_, by simp⟩
      simp only [Mutate.fail]
      by_cases htm : t = m
      · subst htm; rw [Function.update_self]; simp
      · rw [Function.update_of_ne htm]; exact ht
    · rename_i s' hs
      obtain ⟨v, es, -, -, h3⟩ := mutate_ok hs
      have hs' := h.fire hs
      obtain ⟨h4, h5, h6, h7⟩ := ih hs'
      refine ⟨h4, h5.trans h3.started, fun t ht => h6 t ?_, fun q hq => ?_⟩
      · rw [h3.mark]
        by_cases htm : t = m
        · subst htm; rw [Function.update_self]; simp
        · rw [Function.update_of_ne htm]; exact ht
      · rcases List.mem_append.1 hq with hq | hq
        · rw [dependants_eq, hs'.deps] at hq
          simp only [deps, List.map_map, List.mem_map] at hq
          obtain ⟨e, he, rfl⟩ := hq
          exact ⟨m, by simp, e, he, rfl⟩
        · obtain ⟨m', hm', e, he, rfl⟩ := h7 q hq
          exact ⟨m', by simp [hm'], e, he, rfl⟩

theorem begin_shape {k : Kernel V L} {p : Plan} {g : Gr N V L} {i : Fin n} {surv : Fin n → List N} {s : Job n N V L} (h : Shape k p g s) :
    Shape k p g (s.begin k p surv i).1 ∧ (s.begin k p surv i).1.started = Function.update s.started i true ∧
    Kept s (s.begin k p surv i).1 ∧
    ∀ q ∈ (s.begin k p surv i).2, ∃ m ∈ surv i, ∃ e ∈ after p g m, q = .node e.2 := by
  unfold Job.begin
  by_cases c : s.started i = true
  · rw [if_pos c]
    exact ⟨h, by rw [← c, Function.update_eq_self], fun _ h => h, by simp⟩
  · rw [if_neg c]
    have h0 : Shape k p g { s with started := Function.update s.started i true } := ⟨h.pre, h.post, h.err⟩
    obtain ⟨h1, h2, h3, h4⟩ := begin1_shape (i := i) (ms := surv i) h0
    exact ⟨h1, h2, h3, h4⟩

theorem attempt_shape {k : Kernel V L} {p : Plan} {g : Gr N V L} {i : Fin n} {s : Job n N V L} {m : N} (h : Shape k p g s) :
    Shape k p g (attempt k p i s m).1 ∧ (attempt k p i s m).1.started = s.started ∧ Kept s (attempt k p i s m).1 ∧
    (∀ q ∈ (attempt k p i s m).2, ∃ e ∈ after p g m, q = .node e.2) ∧
    ((attempt k p i s m).1 = s ∧ (attempt k p i s m).2 = [] ∨ (attempt k p i s m).1.mark m ≠ .clear) := by
  unfold attempt
  split_ifs with c1 c2
  · refine ⟨⟨h.pre, h.post, h.err⟩, rfl, fun t ht => ?_, fun q hq => ?_, .inr ?_⟩
    · dsimp only
      by_cases htm : t = m
      · subst htm; rw [Function.update_self]; simp
      · rw [Function.update_of_ne htm]; exact ht
    · rw [dependants_eq, h.deps] at hq
      simp only [deps, List.map_map, List.mem_map] at hq
      obtain ⟨e, he, rfl⟩ := hq
      exact ⟨e, he, rfl⟩
    · dsimp only; rw [Function.update_self]; simp
  · split
    · rename_i x hx
      refine ⟨h.fail hx i, rfl, fun t ht => ?_, by simp, .inr ?_⟩
      · simp only [Mutate.fail]
        by_cases htm : t = m
        · subst htm; rw [Function.update_self]; simp
        · rw [Function.update_of_ne htm]; exact ht
      · simp only [Mutate.fail]; rw [Function.update_self]; simp
    · rename_i s' hs
      obtain ⟨v, es, -, -, h3⟩ := mutate_ok hs
      have hs' := h.fire hs
      refine ⟨hs', h3.started, fun t ht => ?_, fun q hq => ?_, .inr ?_⟩
      · rw [h3.mark]
        by_cases htm : t = m
        · subst htm; rw [Function.update_self]; simp
        · rw [Function.update_of_ne htm]; exact ht
      · rw [dependants_eq, hs'.deps] at hq
        simp only [deps, List.map_map, List.mem_map] at hq
        obtain ⟨e, he, rfl⟩ := hq
        exact ⟨e, he, rfl⟩
      · rw [h3.mark, Function.update_self]; simp
  · exact ⟨h, rfl, fun _ h => h, by simp, .inl ⟨rfl, rfl⟩⟩

omit [DecidableEq N] in
theorem interrupt_eq (i : Fin n) (s : Job n N V L) : ∃ c, interrupt i s = { s with killed := c } ∧ (s.err i = 0 → c = s.killed) := by
  unfold interrupt
  split_ifs with h
  · exact ⟨1, rfl, fun h0 => absurd h0 h.2⟩
  · exact ⟨s.killed, rfl, fun _ => rfl⟩

/-! ## What's true whatever the errors -/

variable {k : Kernel V L} {p : Plan} {g : Gr N V L} {surv : Fin n → List N} {hash : N → Nat} {hn : 0 < n}

structure Base (k : Kernel V L) (p : Plan) (g : Gr N V L) (s : Job n N V L) (bag : Multiset (Packet n N)) : Prop where
  shape : Shape k p g s
  flight : ∀ m, .node m ∈ bag → m ∈ g.nodes
  pings : ∀ i, s.started i = false → ∃ j, j ≤ i ∧ .ping j ∈ bag

/-- Edges lead to nodes of the graph, and what's started with is in it. -/
structure Closed (p : Plan) (g : Gr N V L) (surv : Fin n → List N) : Prop where
  after : ∀ m ∈ g.nodes, ∀ e ∈ after p g m, e.2 ∈ g.nodes
  surv : ∀ i, ∀ m ∈ surv i, m ∈ g.nodes

theorem Base.handle (hc : Closed p g surv) {s : Job n N V L} {q : Packet n N} {rest : Multiset (Packet n N)} (h : Base k p g s (q ::ₘ rest)) :
    Base k p g ((task k p surv hash hn).handle ((task k p surv hash hn).dest q) s q).1
      (Bag.produced (task k p surv hash hn) s q + rest) := by
  cases q with
  | ping i =>
    obtain ⟨h1, h2, h3, h4⟩ := begin_shape (surv := surv) (i := i) (h.shape.poll i)
    obtain ⟨a, b, e, -⟩ := poll_eq s i
    have hpr : Bag.produced (task k p surv hash hn) s (.ping i) = (((if h : i.1 + 1 < n then [Packet.ping ⟨i.1 + 1, h⟩] else []) ++
        ((s.poll i).begin k p surv i).2 : List (Packet n N)) : Multiset (Packet n N)) := by
      simp [Bag.produced, task, Mutate.handle]
    rw [hpr]
    refine ⟨h1, fun m hm => ?_, fun j hj => ?_⟩
    · rcases Multiset.mem_add.1 hm with hm | hm
      · rw [Multiset.mem_coe] at hm
        rcases List.mem_append.1 hm with hm | hm
        · split_ifs at hm <;> simp at hm
        · obtain ⟨t, ht, x, hx, hq⟩ := h4 _ hm
          cases hq
          exact hc.after t (hc.surv i t ht) x hx
      · exact h.flight m (Multiset.mem_cons_of_mem hm)
    · have hj' : (Function.update (s.poll i).started i true) j = false := by rw [← h2]; exact hj
      have hji : j ≠ i := by rintro rfl; rw [Function.update_self] at hj'; cases hj'
      rw [Function.update_of_ne hji, e] at hj'
      obtain ⟨j', hle, hm⟩ := h.pings j hj'
      rcases Multiset.mem_cons.1 hm with hm | hm
      · have hii : j' = i := by injection hm
        subst hii
        have hlt : j'.1 < j.1 := lt_of_le_of_ne hle fun h => hji (Fin.ext h.symm)
        have hlt' : j'.1 + 1 < n := lt_of_le_of_lt hlt j.2
        refine ⟨⟨j'.1 + 1, hlt'⟩, hlt, Multiset.mem_add.2 (.inl ?_)⟩
        rw [dif_pos hlt']
        exact Multiset.mem_coe.2 (by simp)
      · exact ⟨j', hle, Multiset.mem_add.2 (.inr hm)⟩
  | node m =>
    have hmn := h.flight m (Multiset.mem_cons_self _ _)
    obtain ⟨h1, h2, h3, h4⟩ := begin_shape (surv := surv) (i := Build.lane hn (hash m)) (h.shape.poll (Build.lane hn (hash m)))
    obtain ⟨a, b, e, -⟩ := poll_eq s (Build.lane hn (hash m))
    obtain ⟨h5, h6, h7, h8, -⟩ := attempt_shape (i := Build.lane hn (hash m)) (m := m) h1
    have hfl : ∀ l : List (Packet n N), (∀ q ∈ l, ∃ t ∈ g.nodes, ∃ e ∈ after p g t, q = .node e.2) → ∀ x, .node x ∈ (l : Multiset (Packet n N)) + rest →
        x ∈ g.nodes := by
      intro l hl x hx
      rcases Multiset.mem_add.1 hx with hx | hx
      · obtain ⟨t, ht, e, he, hq⟩ := hl _ (Multiset.mem_coe.1 hx)
        cases hq
        exact hc.after t ht e he
      · exact h.flight x (Multiset.mem_cons_of_mem hx)
    have hpi : ∀ (l : List (Packet n N)) (st : Fin n → Bool), st = Function.update s.started (Build.lane hn (hash m)) true → ∀ j, st j = false →
        ∃ j', j' ≤ j ∧ .ping j' ∈ (l : Multiset (Packet n N)) + rest := by
      rintro l st rfl j hj
      have hji : j ≠ Build.lane hn (hash m) := by rintro rfl; rw [Function.update_self] at hj; cases hj
      rw [Function.update_of_ne hji] at hj
      obtain ⟨j', hle, hm⟩ := h.pings j hj
      rcases Multiset.mem_cons.1 hm with hm | hm
      · cases hm
      · exact ⟨j', hle, Multiset.mem_add.2 (.inr hm)⟩
    have hst : ((s.poll (Build.lane hn (hash m))).begin k p surv (Build.lane hn (hash m))).1.started =
        Function.update s.started (Build.lane hn (hash m)) true := by rw [h2, e]
    by_cases c : ((s.poll (Build.lane hn (hash m))).begin k p surv (Build.lane hn (hash m))).1.mark m ≠ .clear
    · have hh : (task k p surv hash hn).handle ((task k p surv hash hn).dest (.node m)) s (.node m) =
          (((s.poll (Build.lane hn (hash m))).begin k p surv (Build.lane hn (hash m))).1,
            ((s.poll (Build.lane hn (hash m))).begin k p surv (Build.lane hn (hash m))).2, false) := by
        simp only [task, Mutate.handle]
        rw [if_pos c]
      have hpr : Bag.produced (task k p surv hash hn) s (.node m) =
          (((s.poll (Build.lane hn (hash m))).begin k p surv (Build.lane hn (hash m))).2 : Multiset (Packet n N)) := by
        simp [Bag.produced, hh]
      rw [hpr, hh]
      refine ⟨h1, hfl _ fun q hq => ?_, hpi _ _ hst⟩
      obtain ⟨t, ht, x, hx, e⟩ := h4 q hq
      exact ⟨t, hc.surv _ t ht, x, hx, e⟩
    · have hh : (task k p surv hash hn).handle ((task k p surv hash hn).dest (.node m)) s (.node m) =
          (interrupt (Build.lane hn (hash m)) (attempt k p (Build.lane hn (hash m)) ((s.poll (Build.lane hn (hash m))).begin k p surv (Build.lane hn (hash m))).1 m).1,
            ((s.poll (Build.lane hn (hash m))).begin k p surv (Build.lane hn (hash m))).2 ++
            (attempt k p (Build.lane hn (hash m)) ((s.poll (Build.lane hn (hash m))).begin k p surv (Build.lane hn (hash m))).1 m).2, false) := by
        simp only [task, Mutate.handle]
        rw [if_neg c]
      have hpr : Bag.produced (task k p surv hash hn) s (.node m) =
          ((((s.poll (Build.lane hn (hash m))).begin k p surv (Build.lane hn (hash m))).2 ++
            (attempt k p (Build.lane hn (hash m)) ((s.poll (Build.lane hn (hash m))).begin k p surv (Build.lane hn (hash m))).1 m).2 : List (Packet n N)) :
            Multiset (Packet n N)) := by
        simp [Bag.produced, hh]
      rw [hpr, hh]
      obtain ⟨c, hc', -⟩ := interrupt_eq (Build.lane hn (hash m)) (attempt k p (Build.lane hn (hash m)) ((s.poll (Build.lane hn (hash m))).begin k p surv (Build.lane hn (hash m))).1 m).1
      dsimp only
      rw [hc']
      refine ⟨⟨h5.pre, h5.post, h5.err⟩, hfl _ fun q hq => ?_, hpi _ _ ?_⟩
      · rcases List.mem_append.1 hq with hq | hq
        · obtain ⟨t, ht, x, hx, e⟩ := h4 q hq
          exact ⟨t, hc.surv _ t ht, x, hx, e⟩
        · obtain ⟨x, hx, e⟩ := h8 q hq
          exact ⟨m, hmn, x, hx, e⟩
      · dsimp only; rw [h6, hst]

end Cru.Mutate
