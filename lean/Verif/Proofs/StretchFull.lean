import Verif.Proofs.StretchStep
import Verif.Proofs.DedupEnd

/-! # The outcome of the stretching task -/

namespace Cru.Stretch

open Net Dedup

variable {n : Nat} {N V L : Type} [DecidableEq N] [DecidableEq V] [DecidableEq L]
variable {o : Orders V L} {ask : N → L × N → Answer V L} {g : Gr N V L} {addr : Nd N V L → Nat} {limit : Nat} {hn : 0 < n}

/-- What errors are about. -/
def Blamed (o : Orders V L) (ask : N → L × N → Answer V L) (g : Gr N V L) (limit : Nat) (M : Mem n N V L) (i : Fin n) (e : Int) : Prop :=
  (∃ a b : Nd N V L, Real ask g a ∧ Real ask g b ∧ Reaches (g.next false) g.base a.root ∧ Reaches (g.next false) g.base b.root ∧
    (o.equal (vertex g a) (vertex g b)).2 = e) ∨
  (∃ m, Reaches (g.next false) g.base m ∧ failure ask g m = e) ∨ (e = Build.intOvf ∧ limit ≠ 0 ∧ limit < (M.tab i).length)

/-- What holds of the state and the packets in flight. -/
structure Full (o : Orders V L) (ask : N → L × N → Answer V L) (g : Gr N V L) (limit : Nat) (hn : 0 < n) (s : Job n N V L) (bag : Multiset (Pkt N V L)) :
    Prop where
  inv : Inv o ask g hn s.mem
  fly : ∀ p ∈ bag, Flies o ask g hn s.mem p
  once : ∀ p rest, bag = p ::ₘ rest → p.node.isNew = true → ∀ q ∈ rest, q.node ≠ p.node
  first : (∀ i, s.err i = 0) → initial g ∈ bag ∨ s.mem.mark g.base = true
  next : (∀ i, s.err i = 0) → ∀ m, s.mem.mark m = true → ∀ e ∈ g.out m, s.mem.mark e.2 = true ∨ ∃ p ∈ bag, p.node = .old e.2
  made : (∀ i, s.err i = 0) → ∀ c : Nd N V L, c.isNew = true → Real ask g c → s.mem.mark c.root = true → Done o g hn s.mem c ∨ ∃ p ∈ bag, p.node = c
  changed : ∀ i, s.changed i = fresh s.mem i
  count : limit ≠ 0 → ∀ i, s.count i = (s.mem.tab i).length
  fit : limit ≠ 0 → ∀ i, s.err i = 0 → (s.mem.tab i).length ≤ limit
  errs : ∀ i, s.err i ≠ 0 → Blamed o ask g limit s.mem i (s.err i)

omit [DecidableEq N] [DecidableEq V] [DecidableEq L] in
theorem full_start : Full o ask g limit hn (start g : Job n N V L) {initial g} where
  inv := inv_start
  fly p hp := by rw [Multiset.mem_singleton.1 hp]; exact .inl ⟨_, rfl, .refl⟩
  once p rest h hp := by
    have : p = initial g := Multiset.mem_singleton.1 (by rw [h]; exact Multiset.mem_cons_self _ _)
    rw [this] at hp; cases hp
  first _ := .inl (Multiset.mem_singleton_self _)
  next _ m h := by cases h
  made _ c _ _ h := by cases h
  changed _ := rfl
  count _ _ := rfl
  fit _ _ _ := Nat.zero_le _
  errs _ h := absurd rfl h

omit [DecidableEq N] [DecidableEq V] [DecidableEq L] in
/-- A packet for a node that's been stored can be dropped. -/
theorem full_drop {s : Job n N V L} {p : Pkt N V L} {rest : Multiset (Pkt N V L)} (hf : Full o ask g limit hn s (p ::ₘ rest))
    (hp : (∀ i, s.err i = 0) → ∃ m, p.node = .old m ∧ s.mem.mark m = true) : Full o ask g limit hn s rest where
  inv := hf.inv
  fly q hq := hf.fly q (Multiset.mem_cons_of_mem hq)
  once q r h hq x hx := hf.once q (p ::ₘ r) (by rw [h, Multiset.cons_swap]) hq x (Multiset.mem_cons_of_mem hx)
  first h := by
    obtain ⟨m, h1, h2⟩ := hp h
    rcases hf.first h with h3 | h3
    · rcases Multiset.mem_cons.1 h3 with h4 | h4
      · rw [← h4] at h1; cases h1; exact .inr h2
      · exact .inl h4
    · exact .inr h3
  next h a ha e he := by
    obtain ⟨m, h1, h2⟩ := hp h
    rcases hf.next h a ha e he with h3 | ⟨q, h3, h4⟩
    · exact .inl h3
    · rcases Multiset.mem_cons.1 h3 with rfl | h5
      · rw [h1] at h4; cases h4; exact .inl h2
      · exact .inr ⟨q, h5, h4⟩
  made h c hc hr ha := by
    obtain ⟨m, h1, h2⟩ := hp h
    rcases hf.made h c hc hr ha with h3 | ⟨q, h3, h4⟩
    · exact .inl h3
    · rcases Multiset.mem_cons.1 h3 with rfl | h5
      · rw [← h4, h1] at hc; cases hc
      · exact .inr ⟨q, h5, h4⟩
  changed := hf.changed
  count := hf.count
  fit := hf.fit
  errs := hf.errs

omit [DecidableEq N] [DecidableEq V] [DecidableEq L] in
theorem Flies.real {M : Mem n N V L} (hi : Inv o ask g hn M) {p : Pkt N V L} (h : Flies o ask g hn M p) :
    Real ask g p.node ∧ Reaches (g.next false) g.base p.node.root := by
  rcases h with ⟨m, h1, h2⟩ | ⟨e, -, -, -, h1, h2, -⟩
  · rw [h1]; exact ⟨trivial, h2⟩
  · exact ⟨h1, hi.reach _ h2⟩

omit [DecidableEq N] [DecidableEq V] [DecidableEq L] in
theorem Inv.st_real {M : Mem n N V L} (hi : Inv o ask g hn M) {c : Nd N V L} (h : St o g hn M c) :
    Real ask g c ∧ Reaches (g.next false) g.base c.root :=
  ⟨(hi.real c (.inl h)).1, hi.reach _ (hi.real c (.inl h)).2⟩

omit [DecidableEq N] [DecidableEq V] [DecidableEq L] in
theorem full_fail {s : Job n N V L} {p : Pkt N V L} {rest : Multiset (Pkt N V L)} (hf : Full o ask g limit hn s (p ::ₘ rest)) {i : Fin n} {e : Int}
    (he : e ≠ 0) (hb : Blamed o ask g limit s.mem i e) : Full o ask g limit hn (s.fail i e) rest := by
  have hz : ¬ ∀ j, (s.fail i e).err j = 0 := fun h => he ((show (s.fail i e).err i = e from Function.update_self _ _ _).symm.trans (h i))
  exact {
    inv := hf.inv
    fly := fun q hq => hf.fly q (Multiset.mem_cons_of_mem hq)
    once := fun q r h hq x hx => hf.once q (p ::ₘ r) (by rw [h, Multiset.cons_swap]) hq x (Multiset.mem_cons_of_mem hx)
    first := fun h => absurd h hz
    next := fun h => absurd h hz
    made := fun h => absurd h hz
    changed := hf.changed
    count := hf.count
    fit := fun hl j hj => by
      by_cases h : j = i
      · subst h
        have : (s.fail j e).err j = e := Function.update_self _ _ _
        exact absurd (this.symm.trans hj) he
      · exact hf.fit hl j ((show (s.fail i e).err j = s.err j from Function.update_of_ne h _ _).symm.trans hj)
    errs := fun j hj => by
      by_cases h : j = i
      · subst h
        have : (s.fail j e).err j = e := Function.update_self _ _ _
        rw [this]; exact hb
      · have : (s.fail i e).err j = s.err j := Function.update_of_ne h _ _
        rw [this] at hj ⊢
        exact hf.errs j hj }

omit [DecidableEq N] [DecidableEq V] [DecidableEq L] in
theorem mem_sent {M : Mem n N V L} {m : N} {q : Pkt N V L} (h : q ∈ sent ask g M m) :
    (∃ e ∈ g.out m, q.node = .old e.2) ∨ ∃ e ∈ antes ask g m, q = ⟨e.tgt, some e⟩ := by
  rcases List.mem_append.1 h with h | h
  · obtain ⟨⟨e, k⟩, h1, rfl⟩ := List.mem_map.1 h
    refine .inl ⟨e, ?_, rfl⟩
    have := (List.mem_filter.1 h1).1
    exact List.mem_of_getElem? (List.mem_zipIdx_iff_getElem?.1 this)
  · obtain ⟨e, h1, rfl⟩ := List.mem_map.1 h
    exact .inr ⟨e, h1, rfl⟩

omit [DecidableEq N] [DecidableEq V] [DecidableEq L] in
theorem sent_old {M : Mem n N V L} {m : N} {e : L × N} (he : e ∈ g.out m) (h : M.mark e.2 = false) : ∃ q ∈ sent ask g M m, q.node = .old e.2 := by
  obtain ⟨k, hk⟩ := List.getElem?_of_mem he
  exact ⟨_, List.mem_append_left _ (List.mem_map.2 ⟨(e, k), List.mem_filter.2 ⟨List.mem_zipIdx_iff_getElem?.2 hk, by simp [h]⟩, rfl⟩), rfl⟩

omit [DecidableEq N] [DecidableEq V] [DecidableEq L] in
theorem sent_new {M : Mem n N V L} {c : Nd N V L} (hc : c.isNew = true) (hr : Real ask g c) : ∃ q ∈ sent ask g M c.root, q.node = c := by
  cases c with
  | old => cases hc
  | new m pos k r t =>
    refine ⟨⟨.new m pos k r t, some ⟨.old m, .ante pos k, r.ante, .new m pos k r t⟩⟩, List.mem_append_right _ (List.mem_map.2 ⟨_, mem_antes.2 ⟨⟨m, pos, k, r, t, rfl⟩, rfl, hr⟩, rfl⟩), rfl⟩

/-- Packets for new nodes are sent only once. -/
theorem sent_once {M : Mem n N V L} {m : N} {q : Pkt N V L} (hq : q.node.isNew = true) :
    ((sent ask g M m : List (Pkt N V L)).countP fun x => decide (x.node = q.node)) ≤ 1 := by
  unfold sent
  rw [List.countP_append]
  have h1 : (((((g.out m).zipIdx.filter fun e => !M.mark e.1.2).map fun e => (⟨.old e.1.2, some (oldEdge m e)⟩ : Pkt N V L))).countP
      fun x => decide (x.node = q.node)) = 0 := by
    rw [List.countP_eq_zero]
    intro x hx
    obtain ⟨e, -, rfl⟩ := List.mem_map.1 hx
    simp only [decide_eq_true_eq]
    intro h
    rw [← h] at hq; cases hq
  rw [h1, zero_add, List.countP_map]
  have hnd : ((antes ask g m).map Edge.tgt).Nodup := by
    refine List.Nodup.map_on (fun x hx y hy h => ?_) (antes_nodup m)
    exact (mem_antes.1 hx).1.eq (mem_antes.1 hy).1 h
  have h2 : (antes ask g m).countP ((fun x : Pkt N V L => decide (x.node = q.node)) ∘ fun e => ⟨e.tgt, some e⟩) = ((antes ask g m).map Edge.tgt).count q.node := by
    rw [List.count, List.countP_map]
    refine List.countP_congr fun x _ => ?_
    simp [Function.comp]
  rw [h2]
  exact List.nodup_iff_count_le_one.1 hnd _

theorem full_moves (ho : o.Lawful) {s t : Job n N V L} {p : Pkt N V L} {qs : List (Pkt N V L)} {rest : Multiset (Pkt N V L)}
    (hf : Full o ask g limit hn s (p ::ₘ rest)) (he0 : s.err (ln o g hn p.node) = 0) (hm : Moves o ask g limit hn s p t qs) :
    Full o ask g limit hn t ((qs : Multiset (Pkt N V L)) + rest) := by
  have hfp := hf.fly p (Multiset.mem_cons_self _ _)
  have hov : ¬ (Build.intOvf = 0) := by decide
  have hzero : (∀ i, t.err i = 0) → ∀ i, s.err i = 0 := by
    intro h
    rcases hm.err with ⟨h1, -⟩ | ⟨-, h1, -⟩
    · rw [← h1]; exact h
    · have := h (ln o g hn p.node)
      rw [h1, Function.update_self] at this
      exact absurd this hov
  have hpm : ∀ m, p.node = .old m → t.mem.mark m = true := fun m h => (hm.mark m).2 (.inr h)
  have hpd : Done o g hn t.mem p.node := (hm.done _).2 (.inr rfl)
  have hrest : ∀ q ∈ rest, q.node.isNew = true → q.node ≠ p.node := by
    intro q hq hqn h
    exact hf.once p rest rfl (h ▸ hqn) q hq h
  have hflyr : ∀ q ∈ rest, Flies o ask g hn t.mem q := by
    intro q hq
    rcases hf.fly q (Multiset.mem_cons_of_mem hq) with h | ⟨e, h1, h2, h3, h4, h5, h6⟩
    · exact .inl h
    · refine .inr ⟨e, h1, h2, h3, h4, (hm.mark _).2 (.inl h5), fun h => ?_⟩
      rcases (hm.done _).1 h with h | h
      · exact h6 h
      · exact hrest q hq (h3 ▸ h2.isNew) h
  -- new nodes of a node that wasn't marked haven't been seen
  have hunseen : ∀ m, s.mem.mark m = false → ∀ c : Nd N V L, c.root = m → ¬ Done o g hn s.mem c ∧ ∀ q ∈ p ::ₘ rest, c.isNew = true → q.node ≠ c := by
    intro m hmm c hc
    refine ⟨fun h => ?_, fun q hq hcn h => ?_⟩
    · have := (hf.inv.real c h).2
      rw [hc, hmm] at this; cases this
    · rcases hf.fly q hq with ⟨a, h1, -⟩ | ⟨e, -, -, -, -, h1, -⟩
      · rw [← h, h1] at hcn; cases hcn
      · rw [h, hc, hmm] at h1; cases h1
  have hcount : ∀ i, limit ≠ 0 → (t.mem.tab i).length ≤ max limit (s.mem.tab i).length ∨ t.err i ≠ 0 := by
    intro i hl
    rcases hm.err with ⟨-, h⟩ | ⟨-, h1, -, h2⟩
    · exact .inl (h hl (hf.count hl) i)
    · by_cases hi : i = ln o g hn p.node
      · right; rw [hi, h1, Function.update_self]; exact hov
      · left; rw [h2 i hi]; exact le_max_right _ _
  refine ⟨hm.inv, fun q hq => ?_, ?_, fun h => ?_, fun h a ha e he => ?_, fun h c hcn hcr hcm => ?_, hm.changed hf.changed, fun hl => hm.count hl (hf.count hl),
    fun hl i hi => ?_, fun i hi => ?_⟩
  · rcases Multiset.mem_add.1 hq with hq | hq
    · rcases hm.sent with ⟨m, h1, h2, h3, rfl⟩ | ⟨-, rfl⟩
      · rcases mem_sent (Multiset.mem_coe.1 hq) with ⟨e, he, h⟩ | ⟨e, he, rfl⟩
        · exact .inl ⟨_, h, h3.tail (List.mem_map.2 ⟨e, he, rfl⟩)⟩
        · obtain ⟨h4, h5, h6⟩ := mem_antes.1 he
          have hroot : e.tgt.root = m := by rw [h4.src] at h5; cases h5; rfl
          refine .inr ⟨e, rfl, h4, rfl, h6, by rw [hroot]; exact hpm m h1, fun h => ?_⟩
          rcases (hm.done _).1 h with h | h
          · exact (hunseen m h2 _ hroot).1 h
          · have := h4.isNew; dsimp only at h; rw [h, h1] at this; cases this
      · simp at hq
    · exact hflyr q hq
  · intro q r hqr hqn
    have hle : Multiset.countP (fun x : Pkt N V L => x.node = q.node) ((qs : Multiset (Pkt N V L)) + rest) ≤ 1 := by
      have hrest1 : Multiset.countP (fun x : Pkt N V L => x.node = q.node) rest ≤ 1 := by
        by_contra hc
        have hpos : 0 < Multiset.countP (fun x : Pkt N V L => x.node = q.node) rest := by omega
        obtain ⟨x, hx, hxq⟩ := Multiset.countP_pos.1 hpos
        obtain ⟨r', rfl⟩ := Multiset.exists_cons_of_mem hx
        rw [Multiset.countP_cons_of_pos (p := fun x : Pkt N V L => x.node = q.node) _ hxq] at hc
        have hpos' : 0 < Multiset.countP (fun x : Pkt N V L => x.node = q.node) r' := by omega
        obtain ⟨y, hy, hyq⟩ := Multiset.countP_pos.1 hpos'
        exact hf.once x (p ::ₘ r') (Multiset.cons_swap _ _ _) (by rw [hxq]; exact hqn) y (Multiset.mem_cons_of_mem hy) (hyq.trans hxq.symm)
      rw [Multiset.countP_add]
      rcases hm.sent with ⟨m, h1, h2, h3, rfl⟩ | ⟨-, rfl⟩
      · by_cases hroot : q.node.root = m
        · have : Multiset.countP (fun x : Pkt N V L => x.node = q.node) rest = 0 := by
            rw [Multiset.countP_eq_zero]
            intro x hx
            exact (hunseen m h2 q.node hroot).2 x (Multiset.mem_cons_of_mem hx) hqn
          rw [this, add_zero, Multiset.coe_countP]
          exact sent_once hqn
        · have : Multiset.countP (fun x : Pkt N V L => x.node = q.node) ((sent ask g s.mem m : List (Pkt N V L)) : Multiset (Pkt N V L)) = 0 := by
            rw [Multiset.countP_eq_zero]
            intro x hx hxq
            rcases mem_sent (Multiset.mem_coe.1 hx) with ⟨e, he, h⟩ | ⟨e, he, rfl⟩
            · rw [← hxq, h] at hqn; cases hqn
            · obtain ⟨h4, h5, h6⟩ := mem_antes.1 he
              rw [h4.src] at h5
              cases h5
              exact hroot (by rw [← hxq])
          rw [this, zero_add]
          exact hrest1
      · simpa using hrest1
    rw [hqr, Multiset.countP_cons_of_pos (p := fun x : Pkt N V L => x.node = q.node) _ rfl] at hle
    have : Multiset.countP (fun x : Pkt N V L => x.node = q.node) r = 0 := by omega
    exact Multiset.countP_eq_zero.1 this
  · rcases hf.first (hzero h) with h1 | h1
    · rcases Multiset.mem_cons.1 h1 with h2 | h2
      · exact .inr (hpm _ (by rw [← h2]; rfl))
      · exact .inl (Multiset.mem_add.2 (.inr h2))
    · exact .inr ((hm.mark _).2 (.inl h1))
  · have hold : s.mem.mark a = true → t.mem.mark e.2 = true ∨ ∃ q ∈ (qs : Multiset (Pkt N V L)) + rest, q.node = .old e.2 := by
      intro ha'
      rcases hf.next (hzero h) a ha' e he with h1 | ⟨q, h1, h2⟩
      · exact .inl ((hm.mark _).2 (.inl h1))
      · rcases Multiset.mem_cons.1 h1 with rfl | h3
        · exact .inl (hpm _ h2)
        · exact .inr ⟨q, Multiset.mem_add.2 (.inr h3), h2⟩
    rcases (hm.mark a).1 ha with ha' | ha'
    · exact hold ha'
    · rcases hm.sent with ⟨m, h1, h2, h3, rfl⟩ | ⟨h1, -⟩
      · rw [h1] at ha'
        cases ha'
        cases hmk : s.mem.mark e.2 with
        | true => exact .inl ((hm.mark _).2 (.inl hmk))
        | false =>
          obtain ⟨q, hq, hq'⟩ := sent_old (ask := ask) he hmk
          exact .inr ⟨q, Multiset.mem_add.2 (.inl (Multiset.mem_coe.2 hq)), hq'⟩
      · rw [ha'] at h1; cases h1
  · rcases (hm.mark _).1 hcm with ha' | ha'
    · rcases hf.made (hzero h) c hcn hcr ha' with h1 | ⟨q, h1, h2⟩
      · exact .inl ((hm.done _).2 (.inl h1))
      · rcases Multiset.mem_cons.1 h1 with rfl | h3
        · exact .inl (h2 ▸ hpd)
        · exact .inr ⟨q, Multiset.mem_add.2 (.inr h3), h2⟩
    · rcases hm.sent with ⟨m, h1, h2, h3, rfl⟩ | ⟨h1, -⟩
      · rw [h1] at ha'
        cases ha'
        obtain ⟨q, hq, hq'⟩ := sent_new (M := s.mem) hcn hcr
        exact .inr ⟨q, Multiset.mem_add.2 (.inl (Multiset.mem_coe.2 hq)), hq'⟩
      · rw [ha'] at h1; cases h1
  · have hsi : s.err i = 0 := by
      rcases hm.err with ⟨h1, -⟩ | ⟨-, h1, -⟩
      · rw [← h1]; exact hi
      · by_cases h : i = ln o g hn p.node
        · rw [h]; exact he0
        · rw [h1, Function.update_of_ne h] at hi; exact hi
    rcases hcount i hl with h | h
    · have := hf.fit hl i hsi
      omega
    · exact absurd hi h
  · have hkeep : s.err i ≠ 0 → Blamed o ask g limit t.mem i (s.err i) := by
      intro h
      rcases hf.errs i h with h | h | ⟨h1, h2, h3⟩
      · exact .inl h
      · exact .inr (.inl h)
      · exact .inr (.inr ⟨h1, h2, lt_of_lt_of_le h3 (hm.long i)⟩)
    rcases hm.err with ⟨h1, -⟩ | ⟨hl, h1, h2, -⟩
    · rw [h1] at hi ⊢; exact hkeep hi
    · by_cases h : i = ln o g hn p.node
      · subst h
        rw [h1, Function.update_self]
        exact .inr (.inr ⟨rfl, hl, h2 (hf.count hl)⟩)
      · rw [h1, Function.update_of_ne h] at hi ⊢
        exact hkeep hi

theorem handled {s : Job n N V L} {p : Pkt N V L} (h : s.err (ln o g hn p.node) = 0) :
    ((task o ask g addr limit hn).handle ((task o ask g addr limit hn).dest p) s p).1 = (act o ask g addr limit (ln o g hn p.node) s p).1 ∧
    Bag.produced (task o ask g addr limit hn) s p = ((act o ask g addr limit (ln o g hn p.node) s p).2 : Multiset (Pkt N V L)) := by
  have h' : ¬ s.err ((task o ask g addr limit hn).dest p) ≠ 0 := not_not.2 h
  have : (task o ask g addr limit hn).handle ((task o ask g addr limit hn).dest p) s p =
    ((act o ask g addr limit (ln o g hn p.node) s p).1, (act o ask g addr limit (ln o g hn p.node) s p).2, false) := if_neg h'
  unfold Bag.produced
  rw [this]
  simp

theorem unhandled {s : Job n N V L} {p : Pkt N V L} (h : s.err (ln o g hn p.node) ≠ 0) :
    ((task o ask g addr limit hn).handle ((task o ask g addr limit hn).dest p) s p).1 = s ∧ Bag.produced (task o ask g addr limit hn) s p = 0 := by
  have : (task o ask g addr limit hn).handle ((task o ask g addr limit hn).dest p) s p = (s, [], false) := if_pos h
  unfold Bag.produced
  rw [this]
  simp

/-- What a step does to the invariants. -/
theorem full_act (ho : o.Lawful) (ha : Function.Injective addr) (hw : g.WF) (hdi : Distinct o g) {s : Job n N V L} {p : Pkt N V L} {rest : Multiset (Pkt N V L)}
    (hf : Full o ask g limit hn s (p ::ₘ rest)) (he : s.err (ln o g hn p.node) = 0) :
    Full o ask g limit hn (act o ask g addr limit (ln o g hn p.node) s p).1 (((act o ask g addr limit (ln o g hn p.node) s p).2 : Multiset (Pkt N V L)) + rest) := by
  have hfp := hf.fly p (Multiset.mem_cons_self _ _)
  have hd := act_does (addr := addr) (limit := limit) ho hw hdi hf.inv hfp hf.changed
  generalize hr : act o ask g addr limit (ln o g hn p.node) s p = r at hd
  obtain ⟨t, qs⟩ := r
  rcases does_moves ho ha hf.inv hd with ⟨rfl, ⟨e, h1, rfl, h2⟩ | ⟨rfl, h⟩⟩ | h
  · simp only [Multiset.coe_nil, zero_add]
    refine full_fail hf h1 ?_
    rcases h2 with ⟨c, h2, h3⟩ | h2
    · exact .inl ⟨p.node, c, (hfp.real hf.inv).1, (hf.inv.st_real h2).1, (hfp.real hf.inv).2, (hf.inv.st_real h2).2, h3⟩
    · exact .inr (.inl h2)
  · simp only [Multiset.coe_nil, zero_add]
    exact full_drop hf fun _ => h
  · exact full_moves ho hf he h

theorem full_reach (ho : o.Lawful) (ha : Function.Injective addr) (hw : g.WF) (hdi : Distinct o g) :
    ∀ x, Bag.Reach (task o ask g addr limit hn) (initial g) (start g) x → Full o ask g limit hn x.1 x.2 := by
  intro x hx
  induction hx with
  | init => exact full_start
  | step hr hs ih =>
    cases hs with
    | env e s m => exact nomatch e
    | handle s p rest =>
      dsimp only at ih ⊢
      by_cases he : s.err (ln o g hn p.node) = 0
      · obtain ⟨h1, h2⟩ := handled (ask := ask) (addr := addr) (limit := limit) he
        rw [h1, h2]
        exact full_act ho ha hw hdi ih he
      · obtain ⟨h1, h2⟩ := unhandled (ask := ask) (addr := addr) (limit := limit) he
        rw [h1, h2, zero_add]
        exact full_drop ih fun h => absurd (h _) he

/-- The job terminates. -/
theorem acc (ho : o.Lawful) (ha : Function.Injective addr) (hw : g.WF) (hdi : Distinct o g) :
    ∀ x, Bag.Reach (task o ask g addr limit hn) (initial g) (start g) x → Acc (fun y x => Bag.Handles (task o ask g addr limit hn) x y) x := by
  classical
  refine Bag.acc_of_lex (fun x => ((g.nodes.toFinset.filter fun m => x.1.mem.mark m = false).card, Multiset.card x.2, 0)) ?_
  rintro ⟨s, bag⟩ y hx ⟨p, rest, h1, h2⟩
  simp only at h1 h2
  subst h1 h2
  have hf := full_reach ho ha hw hdi _ hx
  dsimp only at hf ⊢
  have hfp := hf.fly p (Multiset.mem_cons_self _ _)
  by_cases he : s.err (ln o g hn p.node) = 0
  · obtain ⟨h1, h2⟩ := handled (ask := ask) (addr := addr) (limit := limit) he
    rw [h1, h2]
    have hd := act_does (addr := addr) (limit := limit) ho hw hdi hf.inv hfp hf.changed
    generalize hr : act o ask g addr limit (ln o g hn p.node) s p = r at hd
    obtain ⟨t, qs⟩ := r
    rcases does_moves ho ha hf.inv hd with ⟨rfl, ⟨e, h1, rfl, h2⟩ | ⟨rfl, h⟩⟩ | h
    · right; exact ⟨le_rfl, .inl (by simp)⟩
    · right; exact ⟨le_rfl, .inl (by simp)⟩
    · rcases h.sent with ⟨m, h1, h2, h3, rfl⟩ | ⟨h1, rfl⟩
      · left
        refine Finset.card_lt_card (Finset.ssubset_iff_of_subset ?_ |>.2 ⟨m, ?_, ?_⟩)
        · intro a ha
          rw [Finset.mem_filter] at ha ⊢
          refine ⟨ha.1, ?_⟩
          by_contra hc
          have := (h.mark a).2 (.inl (by simpa using hc))
          rw [ha.2] at this; cases this
        · rw [Finset.mem_filter]; exact ⟨List.mem_toFinset.2 ((hw.reach _).2 h3), h2⟩
        · rw [Finset.mem_filter]
          rintro ⟨-, h'⟩
          have := (h.mark m).2 (.inr h1)
          rw [h'] at this; cases this
      · right
        refine ⟨Finset.card_le_card fun a ha => ?_, .inl (by simp)⟩
        rw [Finset.mem_filter] at ha ⊢
        refine ⟨ha.1, ?_⟩
        by_contra hc
        have := (h.mark a).2 (.inl (by simpa using hc))
        rw [ha.2] at this; cases this
  · obtain ⟨h1, h2⟩ := unhandled (ask := ask) (addr := addr) (limit := limit) he
    rw [h1, h2]
    right
    exact ⟨le_rfl, .inl (by simp)⟩

end Cru.Stretch
