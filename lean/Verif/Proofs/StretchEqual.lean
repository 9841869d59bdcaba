import Verif.Proofs.StretchEnd

/-! # Stretching a graph in which vertices are equal -/

namespace Cru.Stretch

open Net Dedup

variable {n : Nat} {N V L : Type} [DecidableEq N] [DecidableEq V] [DecidableEq L]
variable {o : Orders V L} {ask : N → L × N → Answer V L} {g : Gr N V L} {addr : Nd N V L → Nat} {hn : 0 < n}

/-- What holds when nothing is requested and there's no limit. -/
structure Idle (o : Orders V L) (g : Gr N V L) (hn : 0 < n) (s : Job n N V L) (bag : Multiset (Pkt N V L)) : Prop where
  tab : ∀ i, ∀ a ∈ s.mem.tab i, ∃ m, a.node = .old m ∧ Reaches (g.next false) g.base m ∧ ln o g hn a.node = i
  reps : ∀ i, (s.mem.tab i).Pairwise fun a b => ¬ Eqv o g a.node b.node
  changed : ∀ i, s.changed i = 0
  fly : ∀ p ∈ bag, ∃ m, p.node = .old m ∧ Reaches (g.next false) g.base m
  err : ∀ i, s.err i = 0 ∨ s.err i = -1658
  mark : (∀ i, s.err i = 0) → ∀ m, s.mem.mark m = true ↔ St o g hn s.mem (.old m)
  sound : s.mem.bad = false
  first : (∀ i, s.err i = 0) → initial g ∈ bag ∨ s.mem.mark g.base = true
  next : (∀ i, s.err i = 0) → ∀ m, s.mem.mark m = true → ∀ e ∈ g.out m, s.mem.mark e.2 = true ∨ ∃ p ∈ bag, p.node = .old e.2

omit [DecidableEq N] [DecidableEq V] [DecidableEq L] in
theorem idle_start : Idle o g hn (start g : Job n N V L) {initial g} where
  tab i a h := by cases h
  reps i := List.Pairwise.nil
  changed _ := rfl
  fly p hp := by rw [Multiset.mem_singleton.1 hp]; exact ⟨_, rfl, .refl⟩
  err _ := .inl rfl
  mark _ m := ⟨fun h => (by cases h), (by rintro ⟨a, h, -⟩; cases h)⟩
  sound := rfl
  first _ := .inl (Multiset.mem_singleton_self _)
  next _ m h := by cases h

omit [DecidableEq N] [DecidableEq V] [DecidableEq L] in
theorem idle_drop {s : Job n N V L} {p : Pkt N V L} {rest : Multiset (Pkt N V L)} (hf : Idle o g hn s (p ::ₘ rest))
    (hp : (∀ i, s.err i = 0) → ∃ m, p.node = .old m ∧ s.mem.mark m = true) : Idle o g hn s rest where
  tab := hf.tab
  reps := hf.reps
  changed := hf.changed
  fly q hq := hf.fly q (Multiset.mem_cons_of_mem hq)
  err := hf.err
  mark := hf.mark
  sound := hf.sound
  first h := by
    obtain ⟨m, h1, h2⟩ := hp h
    rcases hf.first h with h3 | h3
    · rcases Multiset.mem_cons.1 h3 with h4 | h4
      · rw [← h4] at h1; cases h1; exact .inr h2
      · exact .inl h4
    · exact .inr h3
  next h a ha e he := by
    obtain ⟨m, h1, h2⟩ := hp h
    rcases hf.next h a ha e he with h3 | ⟨q, h3, h4⟩
    · exact .inl h3
    · rcases Multiset.mem_cons.1 h3 with rfl | h5
      · rw [h1] at h4; cases h4; exact .inl h2
      · exact .inr ⟨q, h5, h4⟩

theorem idle_act (ho : o.Lawful) (hw : g.WF) (hreq : ∀ m ∈ g.nodes, ∀ e ∈ g.out m, (ask m e).reqs = [] ∧ (ask m e).err = 0)
    (hcmp : ∀ a ∈ g.nodes, ∀ b ∈ g.nodes, (o.equal (g.vertex a) (g.vertex b)).2 = 0) {s : Job n N V L} {p : Pkt N V L} {rest : Multiset (Pkt N V L)}
    (hf : Idle o g hn s (p ::ₘ rest)) :
    Idle o g hn (act o ask g addr 0 (ln o g hn p.node) s p).1 (((act o ask g addr 0 (ln o g hn p.node) s p).2 : Multiset (Pkt N V L)) + rest) := by
  obtain ⟨m, hp, hr⟩ := hf.fly p (Multiset.mem_cons_self _ _)
  have hm := (hw.reach _).2 hr
  have hfail : failure ask g m = 0 := by
    by_contra h
    obtain ⟨e, h1, h2⟩ := failure_mem h
    exact h (h2.symm.trans (hreq m hm e h1).2)
  have hante : ∀ e, e ∉ antes ask g m := by
    intro e he
    obtain ⟨⟨m', pos, k, r, t, rfl⟩, h2, f, h3, -, h4⟩ := mem_antes.1 he
    cases h2
    rw [(hreq m hm f (List.mem_of_getElem? h3)).1] at h4
    simp at h4
  have hsentr : ∀ M : Mem n N V L, ∀ q ∈ sent ask g M m, ∃ e ∈ g.out m, q.node = .old e.2 := by
    intro M q hq
    rcases mem_sent hq with h | ⟨e, h, -⟩
    · exact h
    · exact absurd h (hante e)
  have huniq : ∀ {a b : Nd N V L}, St o g hn s.mem a → St o g hn s.mem b → Eqv o g a b → a = b := by
    rintro _ _ ⟨x, hx, rfl⟩ ⟨y, hy, rfl⟩ h
    rw [← Eqv.ln ho h] at hy
    by_contra hne
    haveI : Std.Symm fun a b : Entry N V L => ¬ Eqv o g a.node b.node := ⟨fun x y h h' => h (Eqv.symm ho h')⟩
    exact (hf.reps _).forall hx hy (fun h => hne (by rw [h])) h
  have hstold : ∀ c, St o g hn s.mem c → ∃ a, c = .old a ∧ Reaches (g.next false) g.base a := by
    rintro c ⟨x, hx, rfl⟩
    obtain ⟨a, h1, h2, -⟩ := hf.tab _ x hx
    exact ⟨a, h1, h2⟩
  unfold act
  rcases hl : lookup o (vertex g) p.node (bin o g s.mem.tab (ln o g hn p.node) p.node) with ⟨w, x⟩
  dsimp only
  have hx : x = 0 := by
    by_contra hx
    obtain ⟨c, h1, h2⟩ := lookup_error (o := o) (v := vertex g) (m := p.node) (cs := bin o g s.mem.tab (ln o g hn p.node) p.node) (by rw [hl]; exact hx)
    rw [hl] at h2
    obtain ⟨a, rfl, h3⟩ := hstold c (mem_bin.1 h1).1
    rw [hp] at h2
    exact hx (h2.symm.trans (hcmp m hm a ((hw.reach _).2 h3)))
  subst hx
  rw [if_neg (by simp)]
  have hnone : w = none → ∀ d, St o g hn s.mem d → ¬ Eqv o g p.node d := by
    rintro rfl d hd h
    exact lookup_none ho hl d (mem_bin.2 ⟨hd, (ho.hash _ _ h).symm⟩) h
  have hsome : ∀ c, w = some c → St o g hn s.mem c ∧ Eqv o g p.node c := by
    rintro c rfl
    obtain ⟨h1, h2, -⟩ := lookup_some ho hl
    exact ⟨(mem_bin.1 h1).1, h2⟩
  clear hl
  by_cases hwp : w = some p.node
  · rw [if_pos hwp]
    simp only [Multiset.coe_nil, zero_add]
    refine idle_drop hf fun h => ⟨m, hp, (hf.mark h m).2 ?_⟩
    rw [← hp]
    exact (hsome _ hwp).1
  · rw [if_neg hwp]
    obtain ⟨pn, pc⟩ := p
    dsimp only at hp
    subst hp
    dsimp only at *
    rw [if_neg (not_not.2 hfail)]
    have hfly : ∀ q ∈ ((sent ask g s.mem m : List (Pkt N V L)) : Multiset (Pkt N V L)) + rest, ∃ m, q.node = .old m ∧ Reaches (g.next false) g.base m := by
      intro q hq
      rcases Multiset.mem_add.1 hq with hq | hq
      · obtain ⟨e, he, h⟩ := hsentr _ q (Multiset.mem_coe.1 hq)
        exact ⟨_, h, hr.tail (List.mem_map.2 ⟨e, he, rfl⟩)⟩
      · exact hf.fly q (Multiset.mem_cons_of_mem hq)
    cases w with
    | some c =>
      obtain ⟨hc1, hc2⟩ := hsome c rfl
      unfold settle
      dsimp only
      rw [if_neg (by simp [Nd.isNew]), if_pos (hf.changed _)]
      have hz : ¬ ∀ j, (Job.fail { s with mem := scatter ask g s.mem m } (ln o g hn (.old m)) (-1658)).err j = 0 := by
        intro h
        have h1 := h (ln o g hn (.old m))
        have h2 : (Job.fail { s with mem := scatter ask g s.mem m } (ln o g hn (.old m)) (-1658)).err (ln o g hn (.old m)) = -1658 := Function.update_self _ _ _
        rw [h2] at h1
        cases h1
      refine ⟨hf.tab, hf.reps, hf.changed, hfly, fun j => ?_, fun h => absurd h hz, hf.sound, fun h => absurd h hz, fun h => absurd h hz⟩
      by_cases hj : j = ln o g hn (.old m)
      · right; rw [hj]; exact Function.update_self _ _ _
      · have : (Job.fail { s with mem := scatter ask g s.mem m } (ln o g hn (.old m)) (-1658)).err j = s.err j := Function.update_of_ne hj _ _
        rw [this]; exact hf.err j
    | none =>
      have hno := hnone rfl
      unfold settle
      have hS : ∀ {d}, St o g hn (grown 0 (ln o g hn (.old m)) { s with mem := scatter ask g s.mem m } (⟨.old m, pc⟩ : Pkt N V L)).mem d ↔ St o g hn s.mem d ∨ d = .old m := by
        intro d
        exact st_push (M := scatter ask g s.mem m) (x := pc)
      have hmk : (grown 0 (ln o g hn (.old m)) { s with mem := scatter ask g s.mem m } (⟨.old m, pc⟩ : Pkt N V L)).mem.mark = Function.update s.mem.mark m true := rfl
      have herr : (grown 0 (ln o g hn (.old m)) { s with mem := scatter ask g s.mem m } (⟨.old m, pc⟩ : Pkt N V L)).err = s.err := rfl
      have hmono : ∀ a, s.mem.mark a = true ∨ a = m → Function.update s.mem.mark m true a = true := by
        intro a h
        by_cases ha : a = m
        · rw [ha]; exact Function.update_self _ _ _
        · rw [Function.update_of_ne ha]; exact h.resolve_right ha
      refine ⟨?_, ?_, hf.changed, hfly, hf.err, fun h a => ?_, hf.sound, fun h => ?_, fun h a ha e he => ?_⟩
      · intro i a hai
        have hai' : a ∈ Function.update s.mem.tab (ln o g hn (.old m)) (s.mem.tab (ln o g hn (.old m)) ++ [⟨.old m, [pc]⟩]) i := hai
        by_cases hi : i = ln o g hn (.old m)
        · subst hi
          rw [Function.update_self] at hai'
          rcases List.mem_append.1 hai' with h | h
          · exact hf.tab _ a h
          · rw [List.mem_singleton.1 h]; exact ⟨m, rfl, hr, rfl⟩
        · rw [Function.update_of_ne hi] at hai'
          exact hf.tab _ a hai'
      · exact reps_push (M := scatter ask g s.mem m) (x := pc) hf.reps ho (fun i a h => (hf.tab i a h).choose_spec.2.2) hno
      · rw [hmk, hS]
        by_cases ha : a = m
        · subst ha; simp
        · rw [Function.update_of_ne ha]
          refine (hf.mark h a).trans ⟨.inl, fun h' => h'.resolve_right fun h' => ha ?_⟩
          cases h'; rfl
      · rw [hmk]
        rcases hf.first h with h1 | h1
        · rcases Multiset.mem_cons.1 h1 with h2 | h2
          · right
            refine hmono _ (.inr ?_)
            have : (initial g : Pkt N V L).node = .old m := by rw [h2]
            cases this; rfl
          · exact .inl (Multiset.mem_add.2 (.inr h2))
        · exact .inr (hmono _ (.inl h1))
      · rw [hmk] at ha ⊢
        by_cases ham : a = m
        · subst ham
          cases hmke : s.mem.mark e.2 with
          | true => exact .inl (hmono _ (.inl hmke))
          | false =>
            obtain ⟨q, hq, hq'⟩ := sent_old (ask := ask) he hmke
            exact .inr ⟨q, Multiset.mem_add.2 (.inl (Multiset.mem_coe.2 hq)), hq'⟩
        · rw [Function.update_of_ne ham] at ha
          rcases hf.next h a ha e he with h1 | ⟨q, h1, h2⟩
          · exact .inl (hmono _ (.inl h1))
          · rcases Multiset.mem_cons.1 h1 with rfl | h3
            · cases h2; exact .inl (hmono _ (.inr rfl))
            · exact .inr ⟨q, Multiset.mem_add.2 (.inr h3), h2⟩

theorem idle_reach (ho : o.Lawful) (hw : g.WF) (hreq : ∀ m ∈ g.nodes, ∀ e ∈ g.out m, (ask m e).reqs = [] ∧ (ask m e).err = 0)
    (hcmp : ∀ a ∈ g.nodes, ∀ b ∈ g.nodes, (o.equal (g.vertex a) (g.vertex b)).2 = 0) :
    ∀ x, Bag.Reach (task o ask g addr 0 hn) (initial g) (start g) x → Idle o g hn x.1 x.2 := by
  intro x hx
  induction hx with
  | init => exact idle_start
  | step hr hs ih =>
    cases hs with
    | env e s m => exact nomatch e
    | handle s p rest =>
      dsimp only at ih ⊢
      by_cases he : s.err (ln o g hn p.node) = 0
      · obtain ⟨h1, h2⟩ := handled (ask := ask) (addr := addr) (limit := 0) he
        rw [h1, h2]
        exact idle_act ho hw hreq hcmp ih
      · obtain ⟨h1, h2⟩ := unhandled (ask := ask) (addr := addr) (limit := 0) he
        rw [h1, h2, zero_add]
        exact idle_drop ih fun h => absurd (h _) he

theorem idle_fails (ho : o.Lawful) (hw : g.WF) (hreq : ∀ m ∈ g.nodes, ∀ e ∈ g.out m, (ask m e).reqs = [] ∧ (ask m e).err = 0)
    (hcmp : ∀ a ∈ g.nodes, ∀ b ∈ g.nodes, (o.equal (g.vertex a) (g.vertex b)).2 = 0) {a b : N} (ha : a ∈ g.nodes) (hb : b ∈ g.nodes) (hne : a ≠ b)
    (hs : o.Same (g.vertex a) (g.vertex b)) {y : Job n N V L} (hy : Runs o ask g addr 0 hn y) : y.mem.bad = false ∧ status y = -1658 := by
  obtain ⟨s, h1, h2, rfl⟩ := hy
  have hf := idle_reach ho hw hreq hcmp _ (Rover.done_bag hn h1 h2)
  dsimp only at hf
  refine ⟨hf.sound, ?_⟩
  by_cases hz : status s.g = 0
  · have hz' := status_zero.1 hz
    have hall : ∀ m, Reaches (g.next false) g.base m → s.g.mem.mark m = true := by
      intro m h
      induction h with
      | refl => exact (hf.first hz').resolve_left (by simp)
      | tail _ hb ih =>
        obtain ⟨e, he, rfl⟩ := List.mem_map.1 hb
        exact (hf.next hz' _ ih e he).resolve_right (by simp)
    obtain ⟨x, hx1, hx2⟩ := (hf.mark hz' a).1 (hall a ((hw.reach _).1 ha))
    obtain ⟨y, hy1, hy2⟩ := (hf.mark hz' b).1 (hall b ((hw.reach _).1 hb))
    rw [Eqv.ln ho (show Eqv o g (.old a) (.old b) from hs)] at hx1
    haveI : Std.Symm fun a b : Entry N V L => ¬ Eqv o g a.node b.node := ⟨fun x y h h' => h (Eqv.symm ho h')⟩
    refine absurd ?_ ((hf.reps _).forall hx1 hy1 fun h => hne ?_)
    · rw [hx2, hy2]; exact hs
    · rw [h, hy2] at hx2; cases hx2; rfl
  · obtain ⟨i, hi⟩ := status_mem hz
    rw [← hi] at hz ⊢
    exact (hf.err i).resolve_left hz

end Cru.Stretch
