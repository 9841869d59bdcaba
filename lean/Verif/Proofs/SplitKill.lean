import Verif.Proofs.SplitEnd

/-! # Splitting: executions that are killed -/

namespace Cru.Split

open Net

variable {n : Nat} {N V L P : Type}

variable {sp : Splitter V P L} {g : Gr N V L} {prop : N → P} [DecidableEq N] [DecidableEq L] {null : L} {vfree : Bool} {limit : Nat}
  {addr : Twin N → Nat} {hn : 0 < n}

theorem mem_replace {α : Type} [BEq α] [LawfulBEq α] {l : List α} {a b e : α} (h : e ∈ l) (ha : e ≠ a) : e ∈ l.replace a b := by
  by_cases hm : a ∈ l
  · obtain ⟨r, h1, h2⟩ := replace_perm b hm
    rw [h2.mem_iff]
    rw [h1.mem_iff] at h
    exact List.mem_cons_of_mem _ ((List.mem_cons.1 h).resolve_left ha)
  · rw [List.replace_of_not_mem (by simpa using hm)]; exact h

theorem of_mem_replace {α : Type} [BEq α] [LawfulBEq α] {l : List α} {a b e : α} (h : e ∈ l.replace a b) : e ∈ l ∨ e = b := by
  by_cases hm : a ∈ l
  · obtain ⟨r, h1, h2⟩ := replace_perm b hm
    rw [h2.mem_iff] at h
    rw [h1.mem_iff]
    rcases List.mem_cons.1 h with h | h
    · exact .inr h
    · exact .inl (List.mem_cons_of_mem _ h)
  · rw [List.replace_of_not_mem (by simpa using hm)] at h; exact .inl h

/-- What `fan_in` does to edges, and what it sends. -/
theorem fanIn_out {M : Mem n N V L P} {m : N} {c : Option (Twin N × L)} :
    (∀ o e, e ∈ M.out o → e.2.1 ≠ m → e ∈ (fanIn sp null M m c).1.out o) ∧
    (∀ o e, e ∈ (fanIn sp null M m c).1.out o → e ∈ M.out o ∨ e.2.1 = m ∧ ∃ l, c = some (o, l)) ∧
    (∀ o, (∀ l, c ≠ some (o, l)) → (fanIn sp null M m c).1.out o = M.out o) ∧
    ∀ q ∈ (fanIn sp null M m c).2, ∃ o l e, c = some (o, l) ∧ e.2.1 = m ∧ (q = .connect o e ∨ q = .disconnect o e) := by
  have alt : ∀ (s : Twin N) (l : L) (e' : L × Twin N), e'.2.1 = m →
      (∀ o e, e ∈ M.out o → e.2.1 ≠ m → e ∈ (alter M s (l, (m, false)) e').out o) ∧
      (∀ o e, e ∈ (alter M s (l, (m, false)) e').out o → e ∈ M.out o ∨ e.2.1 = m ∧ ∃ k, some (s, l) = some (o, k)) ∧
      (∀ o, (∀ k, some (s, l) ≠ some (o, k)) → (alter M s (l, (m, false)) e').out o = M.out o) := by
    intro s l e' he'
    refine ⟨fun o e he hm => ?_, fun o e he => ?_, fun o ho => ?_⟩
    · simp only [alter]
      by_cases hos : o = s
      · subst hos
        rw [Function.update_self]
        exact mem_replace he fun h => hm (by rw [h])
      · rw [Function.update_of_ne hos]; exact he
    · simp only [alter] at he
      by_cases hos : o = s
      · subst hos
        rw [Function.update_self] at he
        rcases of_mem_replace he with h | h
        · exact .inl h
        · exact .inr ⟨by rw [h]; exact he', l, rfl⟩
      · rw [Function.update_of_ne hos] at he; exact .inl he
    · simp only [alter]
      have hos : o ≠ s := fun h => ho l (by rw [h])
      rw [Function.update_of_ne hos]
  unfold fanIn
  split
  · exact ⟨fun _ _ h _ => h, fun _ _ h => .inl h, fun _ _ => rfl, fun q hq => by cases hq⟩
  · rename_i s l
    by_cases hsp : M.split m = true
    · rw [if_pos hsp]
      split
      · obtain ⟨h1, h2, h3⟩ := alt s l (null, (m, false)) rfl
        refine ⟨h1, h2, h3, fun q hq => ⟨s, l, (null, (m, false)), rfl, rfl, .inr (by simpa using hq)⟩⟩
      · rename_i c _ _
        obtain ⟨h1, h2, h3⟩ := alt s l (c, (m, true)) rfl
        exact ⟨h1, h2, h3, fun q hq => by cases hq⟩
      · rename_i a _ _
        obtain ⟨h1, h2, h3⟩ := alt s l (a, (m, false)) rfl
        exact ⟨h1, h2, h3, fun q hq => by cases hq⟩
      · rename_i a c _ _
        obtain ⟨h1, h2, h3⟩ := alt s l (a, (m, false)) rfl
        exact ⟨h1, h2, h3, fun q hq => ⟨s, l, (c, (m, true)), rfl, rfl, .inl (by simpa using hq)⟩⟩
    · rw [if_neg hsp]
      exact ⟨fun _ _ h _ => h, fun _ _ h => .inl h, fun _ _ => rfl, fun q hq => by cases hq⟩

/-- What `fan_out` does to edges. -/
theorem fanOut_out {i : Fin n} {M : Mem n N V L P} {m : N} (hp : ∀ m, M.prop (m, false) = prop m)
    (ho : ∀ b, M.out (m, b) = if b then [] else (g.out m).map fun e => (e.1, (e.2, false))) (o : Twin N) :
    (fanOut sp vfree g i M m).1.out o = if o.1 = m then (stage sp g prop o).map fun e => (e.1, (e.2, false)) else M.out o := by
  obtain ⟨a, b⟩ := o
  unfold fanOut stage
  simp only
  by_cases hff : sp.fissile (g.vertex m) (M.prop (m, false)) = true
  · rw [if_pos hff]
    simp only [hp]
    by_cases ha : a = m
    · subst ha
      have hf : fissile sp g prop a = true := by rw [fissile, ← hp]; exact hff
      cases b <;> simp [hf, Function.update]
    · have h1 : ((a, b) : Twin N) ≠ (m, false) := fun h => ha (congrArg Prod.fst h)
      have h2 : ((a, b) : Twin N) ≠ (m, true) := fun h => ha (congrArg Prod.fst h)
      rw [Function.update_of_ne h1, Function.update_of_ne h2, if_neg ha]
  · rw [if_neg hff]
    by_cases ha : a = m
    · subst ha
      have hf : ¬ fissile sp g prop a = true := by rw [fissile, ← hp]; exact hff
      rw [if_pos rfl, if_neg hf, ho]
      cases b <;> simp
    · rw [if_neg ha]

theorem fanOut_old {i : Fin n} {M : Mem n N V L P} {m : N} (hp : ∀ m, M.prop (m, false) = prop m) (j : Fin n) :
    M.old j ≤ (fanOut sp vfree g i M m).1.old j ∧ (vfree = true → fissile sp g prop m = true → 0 < (fanOut sp vfree g i M m).1.old i) := by
  unfold fanOut
  simp only
  by_cases hff : sp.fissile (g.vertex m) (M.prop (m, false)) = true
  · rw [if_pos hff]
    cases vfree
    · exact ⟨le_rfl, fun h => by cases h⟩
    · simp only [if_true]
      refine ⟨?_, fun _ _ => by simp⟩
      by_cases hj : j = i
      · subst hj; simp
      · rw [Function.update_of_ne hj]
  · rw [if_neg hff]
    refine ⟨le_rfl, fun _ hf => absurd ?_ hff⟩
    rw [hp]; exact hf

/-- What's known about a packet. -/
def sound (g : Gr N V L) (vis : N → Prop) : Pkt N L → Prop
  | .visit m (some c) => vis c.1.1 ∧ m ∈ g.next false c.1.1
  | .connect o e => vis o.1 ∧ e.2.1 ∈ g.next false o.1 ∧ vis e.2.1
  | .disconnect o e => vis o.1 ∧ vis e.2.1
  | _ => True

omit [DecidableEq N] [DecidableEq L] in
theorem sound_mono {vis vis' : N → Prop} (h : ∀ m, vis m → vis' m) {p : Pkt N L} (hp : sound g vis p) : sound g vis' p := by
  cases p with
  | visit m c => cases c with
    | none => trivial
    | some c => exact ⟨h _ hp.1, hp.2⟩
  | create m => trivial
  | connect o e => exact ⟨h _ hp.1, hp.2.1, h _ hp.2.2⟩
  | disconnect o e => exact ⟨h _ hp.1, h _ hp.2⟩

/-- An invariant that holds whether or not anything goes wrong. -/
structure Loose (sp : Splitter V P L) (g : Gr N V L) (prop : N → P) (vfree : Bool) (addr : Twin N → Nat) (hn : 0 < n)
    (vis : N → Prop) (M : Mem n N V L P) (bag : Multiset (Pkt N L)) : Prop where
  fresh : ∀ o : Twin N, ¬ vis o.1 → M.out o = if o.2 then [] else (g.out o.1).map fun e => (e.1, (e.2, false))
  sound : ∀ p ∈ bag, sound g vis p
  kept : ∀ o : Twin N, vis o.1 → ∀ e ∈ stage sp g prop o, ¬ vis e.2 → (e.1, (e.2, false)) ∈ M.out o
  near : ∀ o, ∀ e ∈ M.out o, e.2.1 ∈ g.next false o.1 ∧ (e.2.2 = true → vis e.2.1)
  old : vfree = true → ∀ m, vis m → fissile sp g prop m = true → 0 < M.old (Build.lane hn (addr (m, false)))

theorem loose_fanIn {vis : N → Prop} {M : Mem n N V L P} {m : N} {c : Option (Twin N × L)} {rest : Multiset (Pkt N L)}
    (h : Loose sp g prop vfree addr hn vis M (.visit m c ::ₘ rest)) (hm : vis m) :
    Loose sp g prop vfree addr hn vis (fanIn sp null M m c).1 (((fanIn sp null M m c).2 : Multiset (Pkt N L)) + rest) := by
  obtain ⟨h1, h2, h3, h4⟩ := fanIn_out (sp := sp) (null := null) (M := M) (m := m) (c := c)
  have hs := h.sound _ (Multiset.mem_cons_self _ _)
  refine ⟨fun o ho => ?_, fun p hp => ?_, fun o ho e he hv => ?_, fun o e he => ?_, fun hv a ha hf => ?_⟩
  · rw [h3 o, h.fresh o ho]
    rintro l rfl
    exact ho hs.1
  · rcases Multiset.mem_add.1 hp with hp | hp
    · obtain ⟨o, l, e, rfl, he, rfl | rfl⟩ := h4 p hp
      · exact ⟨hs.1, by rw [he]; exact hs.2, by rw [he]; exact hm⟩
      · exact ⟨hs.1, by rw [he]; exact hm⟩
    · exact h.sound p (Multiset.mem_cons_of_mem hp)
  · exact h1 _ _ (h.kept o ho e he hv) fun hc => hv (by rw [show e.2 = m from hc]; exact hm)
  · rcases h2 o e he with he | ⟨hem, l, rfl⟩
    · exact h.near o e he
    · rw [hem]; exact ⟨hs.2, fun _ => hm⟩
  · obtain ⟨out, eo⟩ := fanIn_fields (sp := sp) (null := null) (M := M) (m := m) (c := c)
    rw [eo]; exact h.old hv a ha hf

theorem loose_fanOut {vis : N → Prop} {M : Mem n N V L P} {m : N} {c : Option (Twin N × L)} {rest : Multiset (Pkt N L)}
    (hp : ∀ m, M.prop (m, false) = prop m) (h : Loose sp g prop vfree addr hn vis M (.visit m c ::ₘ rest)) (hm : ¬ vis m) :
    Loose sp g prop vfree addr hn (fun a => a = m ∨ vis a) (fanOut sp vfree g (Build.lane hn (addr (m, false))) M m).1
      (.visit m c ::ₘ (((fanOut sp vfree g (Build.lane hn (addr (m, false))) M m).2 : Multiset (Pkt N L)) + rest)) := by
  have hout := fanOut_out (sp := sp) (vfree := vfree) (i := Build.lane hn (addr (m, false))) hp fun b => h.fresh (m, b) hm
  refine ⟨fun o ho => ?_, fun p hpk => ?_, fun o ho e he hv => ?_, fun o e he => ?_, fun hv a ha hf => ?_⟩
  · rw [not_or] at ho
    rw [hout, if_neg ho.1, h.fresh o ho.2]
  · rcases Multiset.mem_cons.1 hpk with rfl | hpk
    · exact sound_mono (fun _ => .inr) (h.sound _ (Multiset.mem_cons_self _ _))
    · rcases Multiset.mem_add.1 hpk with hpk | hpk
      · rw [fanOut_sends hp] at hpk
        simp only [Multiset.mem_coe, List.mem_append, scatter, List.mem_map] at hpk
        rcases hpk with hpk | ⟨e, he, rfl⟩ | ⟨e, he, rfl⟩
        · split_ifs at hpk
          · simp only [List.mem_singleton] at hpk
            subst hpk; trivial
          · cases hpk
        · exact ⟨.inl rfl, stage_mem he⟩
        · exact ⟨.inl rfl, stage_mem he⟩
      · exact sound_mono (fun _ => .inr) (h.sound p (Multiset.mem_cons_of_mem hpk))
  · rw [hout]
    rw [not_or] at hv
    by_cases hom : o.1 = m
    · rw [if_pos hom]
      exact List.mem_map.2 ⟨e, he, rfl⟩
    · rw [if_neg hom]
      exact h.kept o (ho.resolve_left hom) e he hv.2
  · rw [hout] at he
    split_ifs at he
    · obtain ⟨d, hd, rfl⟩ := List.mem_map.1 he
      exact ⟨stage_mem hd, fun h => by cases h⟩
    · exact ⟨(h.near o e he).1, fun hc => .inr ((h.near o e he).2 hc)⟩
  · rcases ha with rfl | ha
    · exact (fanOut_old hp (Build.lane hn (addr (a, false)))).2 hv hf
    · exact lt_of_lt_of_le (h.old hv a ha hf) (fanOut_old hp _).1

theorem Loose.drop {vis : N → Prop} {M : Mem n N V L P} {p : Pkt N L} {rest : Multiset (Pkt N L)}
    (h : Loose sp g prop vfree addr hn vis M (p ::ₘ rest)) : Loose sp g prop vfree addr hn vis M rest :=
  ⟨h.1, fun q hq => h.2 q (Multiset.mem_cons_of_mem hq), h.3, h.4, h.5⟩

theorem loose_reach : ∀ x, Bag.Reach (splitting sp null vfree limit g addr hn) (.visit g.base none) (Trav.start (mem g prop addr hn)) x →
    Loose sp g prop vfree addr hn (vis addr hn x.1) x.1.mem x.2 := by
  intro x hx
  induction hx with
  | init =>
    refine ⟨fun o _ => rfl, fun p hp => ?_, fun o ho => ?_, fun o e he => ?_, fun _ m hm => ?_⟩
    · simp only [Multiset.mem_singleton] at hp
      subst hp; trivial
    · simp [vis, Trav.start] at ho
    · simp only [Trav.start, mem] at he
      split_ifs at he
      · cases he
      · obtain ⟨d, hd, rfl⟩ := List.mem_map.1 he
        exact ⟨List.mem_map.2 ⟨d, hd, rfl⟩, fun h => by cases h⟩
    · simp [vis, Trav.start] at hm
  | step hr hs ih =>
    cases hs with
    | env e s bag => exact ih
    | handle s p rest =>
      have hI := (inv_reach _ hr).fields.same
      simp only at ih hI
      generalize hi : Build.lane hn (addr p.receiver) = i
      change Loose sp g prop vfree addr hn (vis addr hn (splitIt sp null vfree limit g (Build.lane hn (addr p.receiver)) s p).1)
        (splitIt sp null vfree limit g (Build.lane hn (addr p.receiver)) s p).1.mem
        (((splitIt sp null vfree limit g (Build.lane hn (addr p.receiver)) s p).2.1 : Multiset (Pkt N L)) +
          (if (splitIt sp null vfree limit g (Build.lane hn (addr p.receiver)) s p).2.2 = true then {p} else 0) + rest)
      rw [hi]
      obtain ⟨sample, stop, h1, h2, h3, ⟨hc, e⟩ | ⟨he, hst, e⟩⟩ :=
        splitIt_cases (sp := sp) (null := null) (vfree := vfree) (limit := limit) (g := g) i s p <;> rw [e] <;> clear e
      · obtain ⟨st, e⟩ := discard_eq i { s with sample := sample, stop := stop } p
        rw [e]
        simp only [Multiset.coe_nil, Bool.false_eq_true, if_false, zero_add]
        have := ih.drop
        exact ⟨this.1, this.2, this.3, this.4, this.5⟩
      · cases p with
        | connect o d =>
          simp only [act, Multiset.coe_nil, Bool.false_eq_true, if_false, zero_add]
          have hs := ih.sound _ (Multiset.mem_cons_self _ _)
          have := ih.drop
          refine ⟨fun a ha => ?_, this.2, fun a ha e he hv => ?_, fun a e he => ?_, this.5⟩
          · have hao : a ≠ o := fun h => ha (by rw [h]; exact hs.1)
            simp only [Function.update_of_ne hao]
            exact this.1 a ha
          · have := this.3 a ha e he hv
            by_cases hao : a = o
            · subst hao
              simp only [Function.update_self]
              exact List.mem_cons_of_mem _ this
            · simp only [Function.update_of_ne hao]; exact this
          · by_cases hao : a = o
            · subst hao
              simp only [Function.update_self] at he
              rcases List.mem_cons.1 he with rfl | he
              · exact ⟨hs.2.1, fun _ => hs.2.2⟩
              · exact this.4 _ e he
            · simp only [Function.update_of_ne hao] at he; exact this.4 a e he
        | disconnect o d =>
          simp only [act, Multiset.coe_nil, Bool.false_eq_true, if_false, zero_add]
          have hs := ih.sound _ (Multiset.mem_cons_self _ _)
          have := ih.drop
          refine ⟨fun a ha => ?_, this.2, fun a ha e he hv => ?_, fun a e he => ?_, this.5⟩
          · have hao : a ≠ o := fun h => ha (by rw [h]; exact hs.1)
            simp only [Function.update_of_ne hao]
            exact this.1 a ha
          · have := this.3 a ha e he hv
            by_cases hao : a = o
            · subst hao
              simp only [Function.update_self]
              have hne : (e.1, ((e.2, false) : Twin N)) ≠ d := by
                rintro rfl
                exact hv hs.2
              exact (List.mem_erase_of_ne hne).2 this
            · simp only [Function.update_of_ne hao]; exact this
          · by_cases hao : a = o
            · subst hao
              simp only [Function.update_self] at he
              exact this.4 _ e (List.mem_of_mem_erase he)
            · simp only [Function.update_of_ne hao] at he; exact this.4 a e he
        | create m =>
          have := ih.drop
          by_cases hl : limit ≠ 0 ∧ limit < s.mem.count i
          · simp only [act, if_pos hl, Multiset.coe_nil, Bool.false_eq_true, if_false, zero_add]
            exact ⟨this.1, this.2, this.3, this.4, this.5⟩
          · simp only [act, if_neg hl, Multiset.coe_nil, Bool.false_eq_true, if_false, zero_add, keep]
            exact ⟨this.1, this.2, this.3, this.4, this.5⟩
        | visit m c =>
          have hmi : Build.lane hn (addr (m, false)) = i := hi
          by_cases hm : m ∈ s.seen i
          · rw [act_again (by exact hm)]
            have hv : vis addr hn s m := by rw [vis, hmi]; exact hm
            simp only [Bool.false_eq_true, if_false, add_zero]
            exact loose_fanIn ih hv
          · rw [act_first (by exact hm)]
            have hv : ¬ vis addr hn s m := by rw [vis, hmi]; exact hm
            simp only [Bool.false_eq_true, if_false, add_zero]
            have hvis : vis addr hn { s with sample := sample, stop := stop, seen := Function.update s.seen i (s.seen i ++ [m]), mem := (fanIn sp null (fanOut sp vfree g i s.mem m).1 m c).1 } =
                fun a => a = m ∨ vis addr hn s a := by
              funext a
              refine propext ?_
              simp only [vis]
              by_cases hl : Build.lane hn (addr (a, false)) = i
              · rw [hl, Function.update_self]; simp [or_comm]
              · rw [Function.update_of_ne hl]
                exact ⟨.inr, fun h => h.resolve_left fun hc => hl (hc ▸ hmi)⟩
            rw [hvis]
            have h5 := loose_fanOut hI ih hv
            rw [hmi] at h5
            have h6 := loose_fanIn (null := null) h5 (.inl rfl)
            rw [← Multiset.coe_add]
            convert h6 using 1
            abel

/-- The first node received is the base node. -/
theorem splitting_first : ∀ x, Bag.Reach (splitting sp null vfree limit g addr hn) (.visit g.base none) (Trav.start (mem g prop addr hn)) x →
    (x.2 = {.visit g.base none} ∧ ∃ k, x.1 = { (Trav.start (mem g prop addr hn) : Trav.Job n N (Mem n N V L P)) with killed := k }) ∨
      vis addr hn x.1 g.base := by
  intro x hx
  induction hx with
  | init => exact .inl ⟨rfl, 0, rfl⟩
  | step hr hs ih =>
    cases hs with
    | env e s bag =>
      rcases ih with ⟨h1, k, h2⟩ | h
      · exact .inl ⟨h1, 1, by simp only at h2; rw [h2]; rfl⟩
      · exact .inr h
    | handle s p rest =>
      refine .inr ?_
      rcases ih with ⟨h1, k, h2⟩ | h
      · have hm : p = .visit g.base none := by
          have : p ∈ ({.visit g.base none} : Multiset (Pkt N L)) := by rw [← h1]; exact Multiset.mem_cons_self _ _
          simpa using this
        simp only at h2
        subst hm
        rw [h2]
        simp [splitting, splitIt, act, Trav.poll, Trav.start, vis, Pkt.receiver]
      · exact (rover sp null vfree limit g prop addr hn).mono (inv_reach _ hr).fields.same p _ _ h

/-- Each worker receives few nodes if the operation is killed at the beginning. -/
theorem splitting_few (i : Fin n) (s : Trav.Job n N (Mem n N V L P)) (p : Pkt N L)
    (h : Postpone.Few s ∧ (∀ i, (s.seen i).length ≤ 31) ∧ (limit = 0 → ∀ i, s.err i = 0)) :
    Postpone.Few (splitIt sp null vfree limit g i s p).1 ∧ (∀ j, ((splitIt sp null vfree limit g i s p).1.seen j).length ≤ 31) ∧
      (limit = 0 → ∀ i', (splitIt sp null vfree limit g i s p).1.err i' = 0) := by
  obtain ⟨h1, h2, h3, h4⟩ := Postpone.poll_few h.1 i
  obtain ⟨sample, stop, e, -⟩ := Trav.poll_eq s i
  have herr : (Trav.poll s i).err = s.err := by rw [e]
  simp only [splitIt]
  generalize Trav.poll s i = s' at *
  by_cases c : s'.err i ≠ 0 ∨ s'.stop i = true
  · rw [if_pos c]
    obtain ⟨st, e⟩ := discard_eq i s' p
    rw [e]
    exact ⟨h1, by simp only [h2]; exact h.2.1, by simp only [herr]; exact h.2.2⟩
  · rw [if_neg c]
    rw [not_or] at c
    have c1 : s'.stop i = false := by simpa using c.2
    cases p with
    | connect o d => exact ⟨h1, by simp only [act, h2]; exact h.2.1, by simp only [act, herr]; exact h.2.2⟩
    | disconnect o d => exact ⟨h1, by simp only [act, h2]; exact h.2.1, by simp only [act, herr]; exact h.2.2⟩
    | create m =>
      by_cases hl : limit ≠ 0 ∧ limit < s'.mem.count i
      · simp only [act, if_pos hl]
        exact ⟨h1, by simp only [h2]; exact h.2.1, fun h0 => absurd h0 hl.1⟩
      · simp only [act, if_neg hl]
        exact ⟨h1, by simp only [h2]; exact h.2.1, by simp only [herr]; exact h.2.2⟩
    | visit m k =>
      by_cases hm : m ∈ s'.seen i
      · rw [act_again hm]
        exact ⟨h1, by simp only [h2]; exact h.2.1, by simp only [herr]; exact h.2.2⟩
      · rw [act_first hm]
        refine ⟨Postpone.few_append h1 m _ (by rw [h2]; exact h4), fun j => ?_, by simp only [herr]; exact h.2.2⟩
        simp only
        rw [h2]
        by_cases hj : j = i
        · subst hj
          rw [Function.update_self, List.length_append, List.length_singleton]
          exact (h4 c1).trans (h1.2 j c1).1
        · rw [Function.update_of_ne hj]; exact h.2.1 j

end Cru.Split
