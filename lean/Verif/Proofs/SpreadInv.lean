import Verif.Proofs.SpreadPre

/-! # Invariants of the spreading task -/

namespace Cru.Spread

open Net Build

variable {n : Nat} {N V L : Type} {b : Builder V L} {g : Gr N V L} {hn : 0 < n}

/-- Nodes of the given graph, and those made for the vertices `ns`. -/
def Has (g : Gr N V L) (ns : Fin n → List V) (u : Nd N V) : Prop := (∃ m ∈ g.nodes, u = .old m) ∨ ∃ i, ∃ v ∈ ns i, u = .new v

/-- An edge of the given graph or one that was made. -/
def Arc (g : Gr N V L) (s : Job n N V L) (t u : Nd N V) : Prop :=
  (∃ m, ∃ e ∈ g.out m, t = .old m ∧ u = .old e.2) ∨ ∃ j, s.link t j = some u

/-- What's always the case. -/
structure Sound (b : Builder V L) (g : Gr N V L) (x : Pre n N L) (hn : 0 < n) (ns : Fin n → List V) (s : Job n N V L) (bag : Multiset (Pkt N V L)) :
    Prop where
  tab : ∀ i, s.tab i = ((x.tab i).map fun m => (⟨.old m, []⟩ : Entry N V L)) ++ (ns i).map fun v => ⟨.new v, [.whole]⟩
  queue : ∀ i, s.queue i = if s.started i then (x.del i).map .old ++ (ns i).map .new else []
  idle : ∀ i, s.started i = false → ns i = []
  novel : ∀ i, ∀ v ∈ ns i, Novel b g v ∧ Due b g v ∧ (b.connect .whole v).1 = 0 ∧ spot b hn v = i
  apart : ∀ i, (ns i).Pairwise fun v w => b.vEq v w = false
  madeNew : ∀ i, ∀ v ∈ ns i, s.made (.new v) = b.uniq (b.connect .whole v).2
  madeNo : ∀ v, (∀ i, v ∉ ns i) → s.made (.new v) = []
  madeOld : ∀ m, s.made (.old m) = [] ∨
    m ∈ g.nodes ∧ g.out m = [] ∧ (b.connect .whole (g.vertex m)).1 = 0 ∧ s.made (.old m) = (b.connect .whole (g.vertex m)).2
  link : ∀ t j u, s.link t j = some u → Has g ns u ∧ ∃ e, (s.made t)[j]? = some e ∧ b.vEq e.2 (vertex g u) = true
  known : ∀ m l, .known m l ∈ bag → m ∈ g.nodes
  fresh : ∀ v l t j, .fresh v l t j ∈ bag → (s.made t)[j]? = some (l, v)
  reach : ∀ i, ∀ v ∈ ns i, Relation.ReflTransGen (Arc g s) (.old g.base) (.new v)
  err : ∀ i, s.err i ≠ 0 → Raised b g (s.err i) ∨ s.err i = intOvf ∧ b.limit n ≠ 0 ∧ Crowded b g n (b.limit n)
  count : b.limit n ≠ 0 → ∀ i, (ns i).length ≤ b.limit n ∧ (ns i).length ≤ s.count i ∧ (s.err i = 0 → s.count i = (ns i).length)
  halt : ∀ i, s.stop i = true → s.killed ≠ 0
  base : s.started (spot b hn (g.vertex g.base)) = true ∨ ∃ l, .known g.base l ∈ bag
  closed : ∀ m ∈ g.nodes, s.started (spot b hn (g.vertex m)) = true → ∀ m' ∈ g.next false m,
    s.started (spot b hn (g.vertex m')) = true ∨ ∃ l, .known m' l ∈ bag

/-- The known node a packet is for. -/
def Pkt.hit : Pkt N V L → Option N
  | .known m _ => some m
  | .fresh _ _ _ _ => none

/-- How many packets are for a known node. -/
def hits [DecidableEq N] (ps : Multiset (Pkt N V L)) (m : N) : Nat := (ps.filterMap Pkt.hit).count m

/-- How many packets have yet to be sent to a known node when workers start. -/
def unsent [DecidableEq N] (x : Pre n N L) (s : Job n N V L) (m : N) : Nat :=
  ∑ i, if s.started i then 0 else hits (notices (V := V) x i : Multiset (Pkt N V L)) m

/-- How many packets are sent to a known node in all. -/
def total [DecidableEq N] (g : Gr N V L) (x : Pre n N L) (m : N) : Nat :=
  (∑ i, hits (notices (V := V) x i : Multiset (Pkt N V L)) m) + if m = g.base then 1 else 0

/-- What's the case as long as there are no errors and no kills. -/
structure Full [DecidableEq N] [DecidableEq V] (b : Builder V L) (g : Gr N V L) (x : Pre n N L) (ns : Fin n → List V) (s : Job n N V L)
    (bag : Multiset (Pkt N V L)) : Prop where
  pend : ∀ t j e, (s.made t)[j]? = some e → (∃ u, s.link t j = some u) ∨ .fresh e.2 e.1 t j ∈ bag
  leaf : ∀ m ∈ g.nodes, g.out m = [] →
    ((b.connect .whole (g.vertex m)).2 ≠ [] ∧ s.made (.old m) = (b.connect .whole (g.vertex m)).2 ∧ callsOf s (.old m) = 1) ∨
    (s.made (.old m) = [] ∧ ((b.connect .whole (g.vertex m)).2 = [] ∨ callsOf s (.old m) = 0) ∧
      callsOf s (.old m) + hits bag m + unsent x s m = total (V := V) g x m)
  code : ∀ m ∈ g.nodes, callsOf s (.old m) ≠ 0 → (b.connect .whole (g.vertex m)).1 = 0
  callNew : ∀ i, ∀ v ∈ ns i, callsOf s (.new v) = 1
  callNo : ∀ v, (∀ i, v ∉ ns i) → callsOf s (.new v) = 0
  callOld : ∀ m, m ∉ g.nodes ∨ g.out m ≠ [] → callsOf s (.old m) = 0

/-- No errors and no kills so far. -/
def Fine (s : Job n N V L) : Prop := s.killed = 0 ∧ ∀ i, s.err i = 0

/-- The invariant. -/
def Inv [DecidableEq N] [DecidableEq V] (b : Builder V L) (g : Gr N V L) (x : Pre n N L) (hn : 0 < n) (s : Job n N V L) (bag : Multiset (Pkt N V L)) : Prop :=
  ∃ ns : Fin n → List V, Sound b g x hn ns s bag ∧ (Fine s → Full b g x ns s bag)

/-- Nothing that matters has changed. -/
structure Alike (s s' : Job n N V L) : Prop where
  tab : s'.tab = s.tab
  queue : s'.queue = s.queue
  made : s'.made = s.made
  link : s'.link = s.link
  calls : s'.calls = s.calls
  started : s'.started = s.started
  err : s'.err = s.err
  count : s'.count = s.count

theorem Alike.refl (s : Job n N V L) : Alike s s := ⟨rfl, rfl, rfl, rfl, rfl, rfl, rfl, rfl⟩

theorem Alike.poll (s : Job n N V L) (i : Fin n) : Alike s (poll s i) := by
  unfold Spread.poll; split_ifs <;> exact ⟨rfl, rfl, rfl, rfl, rfl, rfl, rfl, rfl⟩

theorem Alike.discard (s : Job n N V L) (i : Fin n) : Alike s (discard s i) := ⟨rfl, rfl, rfl, rfl, rfl, rfl, rfl, rfl⟩

theorem Alike.trans {s s' s'' : Job n N V L} (h : Alike s s') (h' : Alike s' s'') : Alike s s'' :=
  ⟨h'.tab.trans h.tab, h'.queue.trans h.queue, h'.made.trans h.made, h'.link.trans h.link, h'.calls.trans h.calls, h'.started.trans h.started,
    h'.err.trans h.err, h'.count.trans h.count⟩

theorem Sound.alike {x : Pre n N L} {ns : Fin n → List V} {s s' : Job n N V L} {bag : Multiset (Pkt N V L)} (h : Sound b g x hn ns s bag) (ha : Alike s s')
    (hh : ∀ i, s'.stop i = true → s'.killed ≠ 0) : Sound b g x hn ns s' bag := by
  obtain ⟨tab, queue, made, link, calls, started, err, stop, sample, count, killed, asked⟩ := s
  obtain ⟨tab', queue', made', link', calls', started', err', stop', sample', count', killed', asked'⟩ := s'
  obtain ⟨h1, h2, h3, h4, h5, h6, h7, h8⟩ := ha
  dsimp only at h1 h2 h3 h4 h5 h6 h7 h8
  subst h1 h2 h3 h4 h5 h6 h7 h8
  exact ⟨h.tab, h.queue, h.idle, h.novel, h.apart, h.madeNew, h.madeNo, h.madeOld, h.link, h.known, h.fresh, h.reach, h.err, h.count, hh, h.base,
    h.closed⟩

theorem Full.alike [DecidableEq N] [DecidableEq V] {x : Pre n N L} {ns : Fin n → List V} {s s' : Job n N V L} {bag : Multiset (Pkt N V L)}
    (h : Full b g x ns s bag) (ha : Alike s s') : Full b g x ns s' bag := by
  obtain ⟨tab, queue, made, link, calls, started, err, stop, sample, count, killed, asked⟩ := s
  obtain ⟨tab', queue', made', link', calls', started', err', stop', sample', count', killed', asked'⟩ := s'
  obtain ⟨h1, h2, h3, h4, h5, h6, h7, h8⟩ := ha
  dsimp only at h1 h2 h3 h4 h5 h6 h7 h8
  subst h1 h2 h3 h4 h5 h6 h7 h8
  exact ⟨h.pend, h.leaf, h.code, h.callNew, h.callNo, h.callOld⟩

theorem halt_poll {s : Job n N V L} (h : ∀ i, s.stop i = true → s.killed ≠ 0) (i : Fin n) :
    ∀ j, (poll s i).stop j = true → (poll s i).killed ≠ 0 := by
  intro j
  unfold poll
  split_ifs with h1
  · exact h j
  · dsimp only
    by_cases hj : j = i
    · subst hj
      rw [Function.update_self]
      intro h2 h3
      rw [h3] at h2
      simp at h2
    · rw [Function.update_of_ne hj]; exact h j

theorem killed_poll (s : Job n N V L) (i : Fin n) : (poll s i).killed = s.killed := by
  unfold poll; split_ifs <;> rfl

theorem killed_discard {s : Job n N V L} (h : ∀ i, s.stop i = true → s.killed ≠ 0) (i : Fin n) : (discard s i).killed ≠ 0 := by
  unfold discard
  dsimp only
  split_ifs with h1
  · exact h i h1
  · decide

section

variable [DecidableEq N] [DecidableEq V] {x : Pre n N L} {s : Job n N V L} {bag : Multiset (Pkt N V L)}

theorem inv_poll (h : Inv b g x hn s bag) (i : Fin n) : Inv b g x hn (poll s i) bag := by
  obtain ⟨ns, h1, h2⟩ := h
  refine ⟨ns, h1.alike (.poll s i) (halt_poll h1.halt i), fun h3 => (h2 ?_).alike (.poll s i)⟩
  exact ⟨by rw [← killed_poll s i]; exact h3.1, fun j => by rw [← (Alike.poll s i).err]; exact h3.2 j⟩

theorem inv_discard {ns : Fin n → List V} (h : Sound b g x hn ns s bag) (i : Fin n) : Inv b g x hn (discard s i) bag := by
  have := killed_discard h.halt i
  exact ⟨ns, h.alike (.discard s i) (fun _ _ => this), fun h3 => absurd h3.1 this⟩

theorem hits_add (p q : Multiset (Pkt N V L)) (m : N) : hits (p + q) m = hits p m + hits q m := by
  unfold hits; rw [Multiset.filterMap_add, Multiset.count_add]

theorem hits_known (m m' : N) (l : Option L) (p : Multiset (Pkt N V L)) : hits (.known m' l ::ₘ p) m = hits p m + if m = m' then 1 else 0 := by
  unfold hits
  rw [Multiset.filterMap_cons_some _ _ _ (show Pkt.hit (.known m' l : Pkt N V L) = some m' from rfl), Multiset.count_cons]

theorem hits_fresh (m : N) (v : V) (l : L) (t : Nd N V) (j : Nat) (p : Multiset (Pkt N V L)) : hits (.fresh v l t j ::ₘ p) m = hits p m := by
  unfold hits
  rw [Multiset.filterMap_cons_none _ _ (show Pkt.hit (.fresh v l t j : Pkt N V L) = none from rfl)]

theorem hits_scatter (t : Nd N V) (k : Nat) (es : List (L × V)) (m : N) : hits (scatterOut t k es : Multiset (Pkt N V L)) m = 0 := by
  unfold hits scatterOut
  rw [Multiset.filterMap_coe]
  have : ((es.zipIdx k).map fun e => (Pkt.fresh e.1.2 e.1.1 t e.2 : Pkt N V L)).filterMap Pkt.hit = [] := by
    rw [List.filterMap_eq_nil_iff]
    intro p hp
    rw [List.mem_map] at hp
    obtain ⟨e, -, rfl⟩ := hp
    rfl
  rw [this]; rfl

theorem mem_scatter {t : Nd N V} {k : Nat} {es : List (L × V)} {p : Pkt N V L} :
    p ∈ scatterOut t k es ↔ ∃ j e, es[j]? = some e ∧ p = .fresh e.2 e.1 t (k + j) := by
  unfold scatterOut
  rw [List.mem_map]
  constructor
  · rintro ⟨⟨e, j⟩, h1, rfl⟩
    rw [List.mk_mem_zipIdx_iff_le_and_getElem?_sub] at h1
    exact ⟨j - k, e, h1.2, by rw [Nat.add_sub_cancel' h1.1]⟩
  · rintro ⟨j, e, h1, rfl⟩
    refine ⟨(e, k + j), ?_, rfl⟩
    rw [List.mk_mem_zipIdx_iff_le_and_getElem?_sub]
    exact ⟨Nat.le_add_right _ _, by rw [Nat.add_sub_cancel_left]; exact h1⟩

theorem calls_hand (s : Job n N V L) (i : Fin n) (t u : Nd N V) (inc : Incident L) :
    callsOf (hand s i t inc) u = callsOf s u + if u = t then 1 else 0 := by
  unfold callsOf hand
  dsimp only
  rw [← Finset.add_sum_erase _ _ (Finset.mem_univ i), ← Finset.add_sum_erase _ (fun j => ((s.calls j).map Prod.fst).count u) (Finset.mem_univ i)]
  rw [Function.update_self]
  have : ∑ j ∈ Finset.univ.erase i, (((Function.update s.calls i (s.calls i ++ [(t, inc)])) j).map Prod.fst).count u =
      ∑ j ∈ Finset.univ.erase i, ((s.calls j).map Prod.fst).count u := by
    refine Finset.sum_congr rfl ?_
    intro j hj
    rw [Function.update_of_ne (Finset.ne_of_mem_erase hj)]
  rw [this, List.map_append, List.count_append]
  have h2 : List.count u (List.map Prod.fst [(t, inc)]) = if u = t then 1 else 0 := by
    rw [List.map_singleton, List.count_singleton]
    by_cases h : u = t
    · simp [h]
    · simp [h, Ne.symm h]
  rw [h2]; omega

theorem mem_notices {i : Fin n} {p : Pkt N V L} : p ∈ notices x i ↔ ∃ m ∈ x.del i, ∃ e ∈ x.out m, p = .known e.2 (some e.1) := by
  unfold notices
  rw [List.mem_flatMap]
  constructor
  · rintro ⟨m, h1, h2⟩
    rw [List.mem_map] at h2
    obtain ⟨e, h3, rfl⟩ := h2
    exact ⟨m, h1, e, h3, rfl⟩
  · rintro ⟨m, h1, e, h3, rfl⟩
    exact ⟨m, h1, List.mem_map.2 ⟨e, h3, rfl⟩⟩

/-- Starting a worker. -/
theorem inv_begin (hx : Sorted b g hn x) (hw : g.WF) (h : Inv b g x hn s bag) (i : Fin n) :
    Inv b g x hn (begin x s i).1 ((begin x s i).2 + bag) ∧ (begin x s i).1.started i = true := by
  unfold begin
  split_ifs with hi
  · refine ⟨?_, hi⟩
    rw [Multiset.coe_nil, zero_add]; exact h
  · refine ⟨?_, by simp⟩
    have hi' : s.started i = false := by simpa using hi
    obtain ⟨ns, h1, h2⟩ := h
    have hns := h1.idle i hi'
    have hst : ∀ j, s.started j = true → Function.update s.started i true j = true := by
      intro j hj
      by_cases hji : j = i
      · subst hji; simp
      · rw [Function.update_of_ne hji]; exact hj
    refine ⟨ns, ⟨h1.tab, ?_, ?_, h1.novel, h1.apart, h1.madeNew, h1.madeNo, h1.madeOld, h1.link, ?_, ?_, ?_, h1.err, h1.count, h1.halt, ?_, ?_⟩, ?_⟩
    · intro j
      by_cases hji : j = i
      · subst hji; simp [hns]
      · simp only [Function.update_of_ne hji]; exact h1.queue j
    · intro j hj
      by_cases hji : j = i
      · subst hji; exact hns
      · dsimp only at hj; rw [Function.update_of_ne hji] at hj; exact h1.idle j hj
    · intro m l hm
      rw [Multiset.mem_add] at hm
      rcases hm with h3 | h3
      · rw [Multiset.mem_coe, mem_notices] at h3
        obtain ⟨c, hc, e, he, heq⟩ := h3
        cases heq
        rw [hx.del, List.mem_reverse, hx.mem] at hc
        rw [hx.out] at he
        exact next_mem hw hc.1 (List.mem_map_of_mem he)
      · exact h1.known m l h3
    · intro v l t j hm
      rw [Multiset.mem_add] at hm
      rcases hm with h3 | h3
      · rw [Multiset.mem_coe, mem_notices] at h3
        obtain ⟨c, hc, e, he, heq⟩ := h3
        cases heq
      · exact h1.fresh v l t j h3
    · exact h1.reach
    · rcases h1.base with h3 | ⟨l, h3⟩
      · exact .inl (hst _ h3)
      · exact .inr ⟨l, by simp [h3]⟩
    · intro m hm hs m' hm'
      by_cases hmi : spot b hn (g.vertex m) = i
      · right
        have : m ∈ x.del i := by rw [hx.del, List.mem_reverse, hx.mem]; exact ⟨hm, hmi⟩
        unfold Gr.next at hm'
        rw [if_neg (by decide), List.mem_map] at hm'
        obtain ⟨e, he, rfl⟩ := hm'
        refine ⟨some e.1, ?_⟩
        rw [Multiset.mem_add, Multiset.mem_coe, mem_notices]
        exact .inl ⟨m, this, e, by rw [hx.out]; exact he, rfl⟩
      · dsimp only at hs
        rw [Function.update_of_ne hmi] at hs
        rcases h1.closed m hm hs m' hm' with h3 | ⟨l, h3⟩
        · exact .inl (hst _ h3)
        · exact .inr ⟨l, by simp [h3]⟩
    · intro hf
      have h3 := h2 hf
      refine ⟨?_, ?_, h3.code, h3.callNew, h3.callNo, h3.callOld⟩
      · intro t j e he
        rcases h3.pend t j e he with h4 | h4
        · exact .inl h4
        · exact .inr (by simp [h4])
      · intro m hm hl
        rcases h3.leaf m hm hl with h4 | ⟨h4, h5, h6⟩
        · exact .inl h4
        · refine .inr ⟨h4, h5, ?_⟩
          rw [← h6, hits_add]
          have : unsent x s m = hits (notices (V := V) x i : Multiset (Pkt N V L)) m +
              unsent x { s with started := Function.update s.started i true, queue := Function.update s.queue i ((x.del i).map .old) } m := by
            unfold unsent
            dsimp only
            rw [← Finset.add_sum_erase _ _ (Finset.mem_univ i), ← Finset.add_sum_erase Finset.univ
              (fun j => if Function.update s.started i true j = true then 0 else hits (notices (V := V) x j : Multiset (Pkt N V L)) m) (Finset.mem_univ i)]
            rw [hi', Function.update_self]
            simp only [Bool.false_eq_true, if_false, if_true, zero_add]
            congr 1
            refine Finset.sum_congr rfl ?_
            intro j hj
            rw [Function.update_of_ne (Finset.ne_of_mem_erase hj)]
          rw [this]
          show callsOf s (.old m) + (hits (notices (V := V) x i : Multiset (Pkt N V L)) m + hits bag m) +
            unsent x { s with started := Function.update s.started i true, queue := Function.update s.queue i ((x.del i).map .old) } m = _
          omega

/-- A packet that doesn't change anything. -/
theorem sound_skip {ns : Fin n → List V} {p : Pkt N V L} (h : Sound b g x hn ns s (p ::ₘ bag)) (hp : s.started (lane hn (hashOf b g p)) = true) :
    Sound b g x hn ns s bag := by
  refine ⟨h.tab, h.queue, h.idle, h.novel, h.apart, h.madeNew, h.madeNo, h.madeOld, h.link, fun m l hm => h.known m l (by simp [hm]),
    fun v l t j hm => h.fresh v l t j (by simp [hm]), h.reach, h.err, h.count, h.halt, ?_, ?_⟩
  · rcases h.base with h1 | ⟨l, h1⟩
    · exact .inl h1
    · rw [Multiset.mem_cons] at h1
      rcases h1 with h1 | h1
      · rw [← h1] at hp; exact .inl hp
      · exact .inr ⟨l, h1⟩
  · intro m hm hs m' hm'
    rcases h.closed m hm hs m' hm' with h1 | ⟨l, h1⟩
    · exact .inl h1
    · rw [Multiset.mem_cons] at h1
      rcases h1 with h1 | h1
      · rw [← h1] at hp; exact .inl hp
      · exact .inr ⟨l, h1⟩

end

end Cru.Spread
