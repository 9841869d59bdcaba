import Verif.Proofs.Split
import Verif.Proofs.NetExec
import Verif.Proofs.Postpone

/-! # Splitting: the ends of executions -/

namespace Cru.Split

open Net

variable {n : Nat} {N V L P : Type}

variable {sp : Splitter V P L} {g : Gr N V L} {prop : N → P}

theorem stage_iff (m : N) (b : Bool) (l : L) (t : N) : (l, t) ∈ stage sp g prop (m, b) ↔
    ∃ e ∈ g.out m, e.2 = t ∧ ((m, b), l) ∈ origins sp g prop m e := by
  unfold stage origins
  simp only
  by_cases hf : fissile sp g prop m = true
  · simp only [hf, if_true]
    cases b
    · simp only [Bool.false_eq_true, if_false]
      rw [(fanEdges_perm _ _).1.mem_iff]
      simp only [List.mem_flatMap, List.mem_map, Option.mem_toList, Prod.mk.injEq, List.mem_append, true_and, Bool.true_eq_false, false_and,
        and_false, exists_false, or_false]
      refine ⟨fun ⟨e, h, k, h1, h2, h3⟩ => ⟨e, h, h3, k, h1, h2⟩, fun ⟨e, h, h3, k, h1, h2⟩ => ⟨e, h, k, h1, h2, h3⟩⟩
    · simp only [if_true]
      rw [(fanEdges_perm _ _).2.mem_iff]
      simp only [List.mem_flatMap, List.mem_map, Option.mem_toList, Prod.mk.injEq, List.mem_append, true_and, Bool.false_eq_true, false_and,
        and_false, exists_false, false_or]
      refine ⟨fun ⟨e, h, k, h1, h2, h3⟩ => ⟨e, h, h3, k, h1, h2⟩, fun ⟨e, h, h3, k, h1, h2⟩ => ⟨e, h, k, h1, h2, h3⟩⟩
  · simp only [hf]
    cases b
    · simp only [Bool.false_eq_true, if_false, List.mem_singleton, Prod.mk.injEq, true_and]
      refine ⟨fun h => ⟨(l, t), h, rfl, rfl⟩, fun ⟨e, h, h1, h2⟩ => by subst h1 h2; exact h⟩
    · simp

theorem mem_arcs (m t : N) : t ∈ arcs sp g prop m ↔ t ∈ passages sp g prop m := by
  unfold arcs passages
  rw [List.mem_append]
  have key : ∀ b, t ∈ (stage sp g prop (m, b)).map (·.2) ↔ ∃ l, ∃ e ∈ g.out m, e.2 = t ∧ ((m, b), l) ∈ origins sp g prop m e := by
    intro b
    rw [List.mem_map]
    refine ⟨?_, fun ⟨l, h⟩ => ⟨(l, t), (stage_iff m b l t).2 h, rfl⟩⟩
    rintro ⟨⟨l, t'⟩, h, rfl⟩
    exact ⟨l, (stage_iff m b l t').1 h⟩
  rw [key, key, List.mem_map]
  constructor
  · rintro (⟨l, e, h1, h2, h3⟩ | ⟨l, e, h1, h2, h3⟩) <;>
    · refine ⟨e, List.mem_filter.2 ⟨h1, ?_⟩, h2⟩
      cases ho : origins sp g prop m e with
      | nil => rw [ho] at h3; cases h3
      | cons _ _ => rfl
  · rintro ⟨e, h, h2⟩
    obtain ⟨h1, h3⟩ := List.mem_filter.1 h
    have hne : ∃ o, o ∈ origins sp g prop m e := by
      cases ho : origins sp g prop m e with
      | nil => rw [ho] at h3; cases h3
      | cons o _ => exact ⟨o, by simp⟩
    obtain ⟨⟨⟨m', b⟩, l⟩, ho⟩ := hne
    have hm : m' = m := by
      unfold origins at ho
      split_ifs at ho
      · simp only [List.mem_append, List.mem_map, Prod.mk.injEq] at ho
        rcases ho with ⟨_, -, ⟨h, -⟩, -⟩ | ⟨_, -, ⟨h, -⟩, -⟩ <;> exact h.symm
      · simp only [List.mem_singleton, Prod.mk.injEq] at ho
        exact ho.1.1
    subst hm
    cases b
    · exact .inr ⟨l, e, h1, h2, ho⟩
    · exact .inl ⟨l, e, h1, h2, ho⟩

theorem reaches_arcs (a m : N) : Reaches (arcs sp g prop) a m ↔ Reaches (passages sp g prop) a m := by
  have : (fun x y => y ∈ arcs sp g prop x) = fun x y => y ∈ passages sp g prop x := by
    funext x y; exact propext (mem_arcs x y)
  unfold Reaches
  rw [this]

theorem arcs_next {m t : N} (h : t ∈ arcs sp g prop m) : t ∈ g.next false m := by
  rcases List.mem_append.1 h with h | h <;>
  · obtain ⟨e, he, rfl⟩ := List.mem_map.1 h
    exact stage_mem he

theorem reaches_next {m : N} (h : Reaches (arcs sp g prop) g.base m) : Reaches (g.next false) g.base m := by
  induction h with
  | refl => exact .refl
  | tail _ h ih => exact ih.tail (arcs_next h)

theorem termini_mem {q : P} {l : L} {t : N} {e : L × Twin N} (h : e ∈ termini sp g prop q l t) :
    e.2.1 = t ∧ (e.2.2 = true → fissile sp g prop t = true) := by
  unfold termini at h
  split_ifs at h with hf
  · simp only [List.mem_append, List.mem_map] at h
    rcases h with ⟨_, -, rfl⟩ | ⟨_, -, rfl⟩ <;> exact ⟨rfl, fun _ => hf⟩
  · simp only [List.mem_singleton] at h
    subst h
    exact ⟨rfl, fun h => by cases h⟩

theorem copies_mem [DecidableEq N] {cp : N → P} {s : Twin N} {e : L × Twin N} (h : e ∈ copies sp g prop cp s) :
    e.2.1 ∈ arcs sp g prop s.1 ∧ (e.2.2 = true → fissile sp g prop e.2.1 = true) := by
  rw [← (stage_copies cp s).mem_iff] at h
  obtain ⟨d, hd, h⟩ := List.mem_flatMap.1 h
  obtain ⟨h1, h2⟩ := termini_mem h
  rw [h1]
  refine ⟨?_, h2⟩
  obtain ⟨m, b⟩ := s
  unfold arcs
  rw [List.mem_append]
  cases b
  · exact .inr (List.mem_map.2 ⟨d, hd, rfl⟩)
  · exact .inl (List.mem_map.2 ⟨d, hd, rfl⟩)

/-- Reachability depends only on the arcs of the nodes with a property that they preserve. -/
theorem reaches_congr_on {A : Type} {out out' : A → List A} {a : A} (Q : A → Prop) (h0 : Q a) (hc : ∀ x, Q x → ∀ y ∈ out x, Q y)
    (he : ∀ x, Q x → ∀ y, y ∈ out x ↔ y ∈ out' x) (b : A) : Reaches out a b ↔ Reaches out' a b := by
  have fwd : ∀ b, Reaches out a b → Q b ∧ Reaches out' a b := by
    intro b h
    induction h with
    | refl => exact ⟨h0, .refl⟩
    | tail _ h ih => exact ⟨hc _ ih.1 _ h, ih.2.tail ((he _ ih.1 _).1 h)⟩
  have bwd : ∀ b, Reaches out' a b → Q b ∧ Reaches out a b := by
    intro b h
    induction h with
    | refl => exact ⟨h0, .refl⟩
    | tail _ h ih => exact ⟨hc _ ih.1 _ ((he _ ih.1 _).2 h), ih.2.tail ((he _ ih.1 _).2 h)⟩
  exact ⟨fun h => (fwd b h).2, fun h => (bwd b h).2⟩

/-! ## The specification depends only on the properties of given vertices -/

theorem origins_congr {prop' : N → P} {m : N} {e : L × N} (h1 : prop m = prop' m) (h2 : prop e.2 = prop' e.2) :
    origins sp g prop m e = origins sp g prop' m e := by
  unfold origins fissile
  rw [h1, h2]

theorem termini_congr {prop' : N → P} {q : P} {l : L} {t : N} (h : prop t = prop' t) :
    termini sp g prop q l t = termini sp g prop' q l t := by
  unfold termini fissile
  rw [h]

theorem copies_congr [DecidableEq N] {prop' cp : N → P} {s : Twin N} (h1 : prop s.1 = prop' s.1) (h2 : ∀ e ∈ g.out s.1, prop e.2 = prop' e.2) :
    copies sp g prop cp s = copies sp g prop' cp s := by
  unfold copies copiesBy
  refine List.flatMap_congr fun e he => ?_
  simp only [origins_congr h1 (h2 e he), h1]
  exact List.flatMap_congr fun o _ => termini_congr (h2 e he)

theorem vertices_congr {prop' : N → P} {s : Twin N} (h : prop s.1 = prop' s.1) : vertices sp g prop s = vertices sp g prop' s := by
  unfold vertices fissile
  rw [h]

theorem IsSplit.congr [DecidableEq N] {prop' cp : N → P} {R : Gr (Twin N) V L} (hw : g.WF) (h : ∀ m ∈ g.nodes, prop m = prop' m)
    (hs : IsSplit sp g prop cp R) : IsSplit sp g prop' cp R := by
  have hn : ∀ m ∈ g.nodes, ∀ e ∈ g.out m, e.2 ∈ g.nodes := by
    intro m hm e he
    rw [hw.reach] at hm ⊢
    exact hm.tail (List.mem_map.2 ⟨e, he, rfl⟩)
  have hc : ∀ s : Twin N, s.1 ∈ g.nodes → copies sp g prop cp s = copies sp g prop' cp s :=
    fun s hs => copies_congr (h _ hs) fun e he => h _ (hn _ hs e he)
  have hcl : ∀ s : Twin N, s.1 ∈ g.nodes → ∀ t ∈ (copies sp g prop cp s).map (·.2), t.1 ∈ g.nodes := by
    intro s hs t ht
    obtain ⟨e, he, rfl⟩ := List.mem_map.1 ht
    obtain ⟨d, hd, h⟩ := List.mem_map.1 (arcs_next (copies_mem he).1)
    rw [← h]
    exact hn _ hs d hd
  have hb : g.base ∈ g.nodes := (hw.reach _).2 .refl
  have hin : ∀ s ∈ R.nodes, s.1 ∈ g.nodes := by
    intro s hs'
    have := (hs.nodes.mem s).1 hs'
    clear hs'
    induction this with
    | refl => exact hb
    | tail _ h ih => exact hcl _ ih _ h
  refine ⟨hs.base, ⟨hs.nodes.nodup, fun s => ?_⟩, fun s hs' => ?_, fun s hs' => ?_, hs.inn⟩
  · rw [hs.nodes.mem]
    exact reaches_congr_on (fun s => s.1 ∈ g.nodes) hb hcl (fun s hs y => by rw [hc s hs]) s
  · rw [hs.vertex s hs']
    exact vertices_congr (h _ (hin s hs'))
  · rw [← hc s (hin s hs')]
    exact hs.out s hs'

theorem IsCataProperty.congr {prop' : N → P} {m : N} {q : P} (h : prop m = prop' m) (hn : ∀ e ∈ g.out m, prop e.2 = prop' e.2)
    (hc : IsCataProperty sp g prop m q) : IsCataProperty sp g prop' m q := by
  classical
  obtain ⟨w, h1, h2⟩ := hc
  refine ⟨fun t => if t ∈ (g.out m).map (·.2) then w t else g.vertex t, fun t => ?_, ?_⟩
  · by_cases ht : t ∈ (g.out m).map (·.2)
    · simp only [if_pos ht]
      obtain ⟨e, he, rfl⟩ := List.mem_map.1 ht
      rcases h1 e.2 with h1 | h1
      · exact .inl h1
      · exact .inr (h1.trans (vertices_congr (hn e he)))
    · simp only [if_neg ht]; exact .inl trivial
  · rw [h2, h]
    congr 1
    refine List.map_congr_left fun e he => ?_
    have : e.2 ∈ (g.out m).map (·.2) := List.mem_map.2 ⟨e, he, rfl⟩
    simp only [if_pos this]

/-! ## Property setting -/

variable [DecidableEq N]

theorem setting_mem {addr : N → Nat} {hn : 0 < n} : ∀ x, Bag.Reach (setting sp g addr hn) g.base (Trav.start fun _ => none) x →
    (∀ i, x.1.err i = 0) ∧ ∀ m, x.1.mem m = if m ∈ x.1.seen (Build.lane hn (addr m)) then some (property sp g m) else none := by
  refine Trav.induct (S := N → Option P) (motive := fun seen err mem => (∀ i, err i = 0) ∧ ∀ m, mem m = if m ∈ seen (Build.lane hn (addr m)) then some (property sp g m) else none)
    ⟨fun _ => rfl, fun m => by simp⟩ ?_
  rintro seen err mem m ⟨h1, h2⟩ - - hm
  refine ⟨fun i => ?_, fun a => ?_⟩
  · by_cases hi : i = Build.lane hn (addr m)
    · subst hi; simp
    · rw [Function.update_of_ne hi]; exact h1 i
  · by_cases ha : a = m
    · subst ha
      simp [property]
    · simp only [Function.update_of_ne ha]
      rw [h2]
      by_cases hl : Build.lane hn (addr a) = Build.lane hn (addr m)
      · rw [hl]; simp [ha]
      · rw [Function.update_of_ne hl]

theorem setting_done (hw : g.WF) {addr : N → Nat} {hn : 0 < n} {x : State n N (Trav.Job n N (N → Option P))}
    (hx : Net.Reach (setting sp g addr hn) g.base (Trav.start fun _ => none) x) (hd : x.main = .done) (hk : x.g.killed = 0) :
    ∀ m ∈ g.nodes, x.g.mem m = some (property sp g m) := by
  intro m hm
  obtain ⟨h1, h2⟩ := setting_mem _ (reach_bag hn hx)
  have hp := Trav.done_perm hx hd hk h1 ⟨hw.nodup, hw.reach⟩
  rw [h2, if_pos]
  obtain ⟨i, -, hi⟩ := List.mem_flatMap.1 (hp.mem_iff.2 hm)
  rw [Trav.home _ (reach_bag hn hx) i m hi]
  exact hi

/-! ## Splitting -/

variable [DecidableEq L] {null : L} {vfree : Bool} {limit : Nat} {addr : Twin N → Nat} {hn : 0 < n}

theorem splitIt_killed (i : Fin n) (s : Trav.Job n N (Mem n N V L P)) (p : Pkt N L) :
    (splitIt sp null vfree limit g i s p).1.killed = s.killed ∧ ∀ j, (splitIt sp null vfree limit g i s p).1.stop j = (Trav.poll s i).stop j := by
  obtain ⟨sample, stop, e, h1, h2, h3⟩ := Trav.poll_eq s i
  simp only [splitIt, e]
  by_cases c : s.err i ≠ 0 ∨ stop i = true
  · rw [if_pos c]
    obtain ⟨st, e⟩ := discard_eq i { s with sample := sample, stop := stop } p
    rw [e]; exact ⟨rfl, fun _ => rfl⟩
  · rw [if_neg c]
    rcases hp : p.node with _ | m
    · obtain ⟨err, mem, e, -⟩ := act_mail (sp := sp) (null := null) (vfree := vfree) (limit := limit) (g := g)
        (i := i) (s := { s with sample := sample, stop := stop }) hp
      rw [e]; exact ⟨rfl, fun _ => rfl⟩
    · cases p with
      | visit m c =>
        by_cases hm : m ∈ s.seen i
        · rw [act_again (by exact hm)]; exact ⟨rfl, fun _ => rfl⟩
        · rw [act_first (by exact hm)]; exact ⟨rfl, fun _ => rfl⟩
      | _ => cases hp

theorem splitting_stop : ∀ x, Bag.Reach (splitting sp null vfree limit g addr hn) (.visit g.base none) (Trav.start (mem g prop addr hn)) x →
    x.1.killed = 0 → ∀ i, x.1.stop i = false := by
  intro x hx
  induction hx with
  | init => intro _ i; rfl
  | step hr hs ih =>
    cases hs with
    | env e s bag => intro h; exact absurd h (by simp [splitting])
    | handle s p rest =>
      intro hk j
      obtain ⟨h1, h2⟩ := splitIt_killed (sp := sp) (null := null) (vfree := vfree) (limit := limit) (g := g) (Build.lane hn (addr p.receiver)) s p
      have hk' : s.killed = 0 := h1.symm.trans hk
      refine (h2 j).trans ?_
      obtain ⟨sample, stop, e, h3, h4, h5⟩ := Trav.poll_eq s (Build.lane hn (addr p.receiver))
      rw [e]
      by_cases hj : j = Build.lane hn (addr p.receiver)
      · rw [hj]
        by_contra hc
        rcases h5 (by simpa using hc) with h | h
        · exact absurd (h.symm.trans (ih hk' _)) (by decide)
        · exact h hk'
      · exact (h3 j hj).trans (ih hk' j)

omit [DecidableEq N] in
theorem status_zero {S : Type} {s : Trav.Job n N S} : status s = 0 ↔ ∀ i, s.err i = 0 := by
  have : ∀ (l : List Int) (r : Int), l.foldl (fun r e => if r = 0 then e else r) r = 0 ↔ r = 0 ∧ ∀ e ∈ l, e = 0 := by
    intro l
    induction l with
    | nil => intro r; simp
    | cons a l ih =>
      intro r
      rw [List.foldl_cons, ih]
      by_cases h : r = 0
      · simp [h]
      · simp [h]
  rw [status, this]
  simp

omit [DecidableEq N] in
theorem status_mem {S : Type} {s : Trav.Job n N S} (h : status s ≠ 0) : ∃ i, status s = s.err i := by
  have : ∀ (l : List Int) (r : Int), l.foldl (fun r e => if r = 0 then e else r) r = r ∨ l.foldl (fun r e => if r = 0 then e else r) r ∈ l := by
    intro l
    induction l with
    | nil => intro r; simp
    | cons a l ih =>
      intro r
      rw [List.foldl_cons]
      split_ifs with hr
      · rcases ih a with h | h
        · right; rw [h]; simp
        · right; exact List.mem_cons_of_mem _ h
      · rcases ih r with h | h
        · exact .inl h
        · right; exact List.mem_cons_of_mem _ h
  rcases this ((List.finRange n).map s.err) 0 with h' | h'
  · exact absurd h' h
  · obtain ⟨i, -, hi⟩ := List.mem_map.1 h'
    exact ⟨i, hi.symm⟩

/-- The state at the end, when nothing went wrong. -/
theorem splitting_done {y : State n (Pkt N L) (Trav.Job n N (Mem n N V L P))}
    (hy : Net.Reach (splitting sp null vfree limit g addr hn) (.visit g.base none) (Trav.start (mem g prop addr hn)) y) (hd : y.main = .done)
    (hk : y.g.killed = 0) (he : ∀ i, y.g.err i = 0) :
    (∀ m, vis addr hn y.g m ↔ Reaches (arcs sp g prop) g.base m) ∧ Fields sp g prop (vis addr hn y.g) y.g.mem ∧
    ∀ s : Twin N, vis addr hn y.g s.1 → ∀ cp : N → P, (vis addr hn y.g s.1 → cp s.1 = y.g.mem.prop (s.1, true)) →
      (y.g.mem.out s).Perm (copies sp g prop cp s) := by
  have hb := Rover.done_bag hn hy hd
  have hi := inv_reach _ hb
  have hr := (rover sp null vfree limit g prop addr hn).inv_reach (a := g.base) (fun _ => rfl) (fun _ => rfl) rfl _ hb
  have hok : ∀ i, y.g.err i = 0 ∧ y.g.stop i = false := fun i => ⟨he i, splitting_stop _ hb hk i⟩
  refine ⟨fun m => ?_, hi.fields, fun s hs cp hcp => ?_⟩
  · rw [← Rover.visited_iff hr hok m, Rover.mem_visited]
    refine ⟨fun h => ⟨_, h⟩, fun ⟨i, h⟩ => ?_⟩
    have := hr.home i m h
    rw [vis, show Build.lane hn (addr (m, false)) = i from this]
    exact h
  · obtain ⟨A, h1, h2⟩ := (hi.ledger hok s).1 hs
    simp only [Multiset.map_zero, Multiset.sum_zero, add_zero] at h1 h2
    rw [h2] at h1
    refine (Multiset.coe_eq_coe.1 h1).trans ?_
    have hq : y.g.mem.prop s = if s.2 then cp s.1 else prop s.1 := by
      obtain ⟨m, b⟩ := s
      cases b
      · exact hi.fields.same m
      · exact (hcp hs).symm
    rw [hq]
    exact stage_copies cp s

/-- The graph returned, when nothing went wrong. -/
theorem outcome {y : State n (Pkt N L) (Trav.Job n N (Mem n N V L P))}
    (hy : Net.Reach (splitting sp null vfree limit g addr hn) (.visit g.base none) (Trav.start (mem g prop addr hn)) y) (hd : y.main = .done)
    (hk : y.g.killed = 0) (he : ∀ i, y.g.err i = 0) {z : State n (Twin N) (Trav.Job n (Twin N) Unit)}
    (hz : Net.Reach (pruning y.g.mem.out addr hn) (g.base, false) (Trav.start ()) z) (hdz : z.main = .done) (hkz : z.g.killed = 0) :
    ∃ cp, IsSplit sp g prop cp (result g y.g.mem z.g) ∧ ∀ m, fissile sp g prop m = true → IsCataProperty sp g prop m (cp m) := by
  classical
  obtain ⟨hv, hf, ho⟩ := splitting_done hy hd hk he
  have hb := Rover.done_bag hn hz hdz
  have hstop := Trav.stop_inv _ hb hkz
  have hez := fun i => (Trav.induct (motive := fun _ err _ => ∀ i, err i = 0) (fun _ => rfl)
    (fun seen err mem m h _ _ _ i => by
      by_cases hi : i = Build.lane hn (addr m)
      · subst hi; simp
      · rw [Function.update_of_ne hi]; exact h i) _ hb : ∀ i, z.g.err i = 0) i
  let cp : N → P := fun m => if vis addr hn y.g m then y.g.mem.prop (m, true) else
    sp.probe (sp.cata (g.vertex m) (prop m)) [] ((g.out m).map fun e => (e.1, g.vertex e.2))
  have hcp : ∀ m, vis addr hn y.g m → cp m = y.g.mem.prop (m, true) := fun m h => if_pos h
  have hwi : (Trav.walker (fun s => (y.g.mem.out s).map fun e => e.2) (fun (_ : Fin n) (_ : Unit) _ => ((), 0)) addr hn).Inv (g.base, false) z.g 0 := by
    exact Walker.inv_reach (g₀ := Trav.start ()) (fun i => rfl) (z.g, 0) hb
  have hleft : left z.g = (List.finRange n).flatMap z.g.seen := by
    unfold left
    refine List.flatMap_congr fun i _ => ?_
    rw [show z.g.stop i = false from hstop i]; rfl
  have hcov : Covers (fun s => (y.g.mem.out s).map (·.2)) (g.base, false) (left z.g) := by
    rw [hleft]
    exact ⟨Walker.visited_nodup hwi, fun m => Walker.visited_iff hwi (fun i => ⟨hez i, hstop i⟩) m⟩
  let Q : Twin N → Prop := fun s => vis addr hn y.g s.1 ∧ (s.2 = true → fissile sp g prop s.1 = true)
  have hQ0 : Q (g.base, false) := ⟨(hv _).2 .refl, fun h => by cases h⟩
  have hmem : ∀ s, Q s → ∀ t, t ∈ (y.g.mem.out s).map (·.2) ↔ t ∈ (copies sp g prop cp s).map (·.2) :=
    fun s hs t => ((ho s hs.1 cp (hcp _)).map _).mem_iff
  have hQ : ∀ s, Q s → ∀ t ∈ (y.g.mem.out s).map (·.2), Q t := by
    intro s hs t ht
    rw [hmem s hs] at ht
    obtain ⟨e, h, rfl⟩ := List.mem_map.1 ht
    obtain ⟨h1, h2⟩ := copies_mem h
    exact ⟨(hv _).2 (((hv _).1 hs.1).tail h1), h2⟩
  have hin : ∀ s ∈ left z.g, Q s := by
    intro s hs
    have := (hcov.mem s).1 hs
    clear hs
    induction this with
    | refl => exact hQ0
    | tail _ h ih => exact hQ _ ih _ h
  refine ⟨cp, ⟨rfl, ⟨hcov.nodup, fun s => ?_⟩, fun s hs => ?_, fun s hs => ho s (hin s hs).1 cp (hcp _), fun _ => rfl⟩, fun m hm => ?_⟩
  · exact (hcov.mem s).trans (reaches_congr_on Q hQ0 hQ hmem s)
  · obtain ⟨m, b⟩ := s
    obtain ⟨h1, h2⟩ := hin _ hs
    cases b
    · exact hf.seen m h1
    · exact (hf.cata m h1 (h2 rfl)).1
  · by_cases h : vis addr hn y.g m
    · rw [hcp m h]; exact (hf.cata m h hm).2
    · exact ⟨g.vertex, fun _ => .inl rfl, if_neg h⟩

/-! ## Overflow -/

omit [DecidableEq N] [DecidableEq L] in
theorem splits_perm {i : Fin n} {a b : List N} (h : a.Perm b) : splits sp g prop addr hn i a = splits sp g prop addr hn i b := h.countP_eq _

/-- When overflow is reported. -/
theorem overflow {y : State n (Pkt N L) (Trav.Job n N (Mem n N V L P))}
    (hy : Net.Reach (splitting sp null vfree limit g addr hn) (.visit g.base none) (Trav.start (mem g prop addr hn)) y) (hd : y.main = .done)
    (hk : y.g.killed = 0) {ms : List N} (hc : Covers (passages sp g prop) g.base ms) :
    (status y.g = 0 ∨ status y.g = Build.intOvf) ∧ (status y.g ≠ 0 ↔
      limit ≠ 0 ∧ ∃ i, 0 < splits sp g prop addr hn i ms ∧ limit + 1 < homes g addr hn i + splits sp g prop addr hn i ms) := by
  have hb := Rover.done_bag hn hy hd
  have hi : Inv sp g prop limit addr hn y.g 0 := inv_reach _ hb
  have hr := (rover sp null vfree limit g prop addr hn).inv_reach (a := g.base) (fun _ => rfl) (fun _ => rfl) rfl _ hb
  have hst : ∀ i, y.g.stop i = false := splitting_stop _ hb hk
  refine ⟨?_, fun h => ?_, fun ⟨h0, i, h1, h2⟩ hs => ?_⟩
  · by_cases h : status y.g = 0
    · exact .inl h
    · obtain ⟨i, e⟩ := status_mem h
      exact .inr (e.trans (hi.over i (by rw [← e]; exact h)).1)
  · obtain ⟨i, e⟩ := status_mem h
    obtain ⟨-, h1, h2, h3⟩ := hi.over i (by rw [← e]; exact h)
    have h4 := hi.count_le i
    simp only [Multiset.map_zero, Multiset.sum_zero, add_zero] at h4
    have h5 : splits sp g prop addr hn i ((List.finRange n).flatMap y.g.seen) ≤ splits sp g prop addr hn i ms := by
      refine List.Subperm.countP_le _ (List.subperm_of_subset (Rover.visited_nodup hr) fun m hm => ?_)
      obtain ⟨j, -, hj⟩ := List.mem_flatMap.1 hm
      rw [hc.mem, ← reaches_arcs]
      exact hr.reach j m hj
    exact ⟨h1, i, by omega, by omega⟩
  · have hok : ∀ i, y.g.err i = 0 ∧ y.g.stop i = false := fun i => ⟨status_zero.1 hs i, hst i⟩
    have hp : ((List.finRange n).flatMap y.g.seen).Perm ms := by
      refine (List.perm_ext_iff_of_nodup (Rover.visited_nodup hr) hc.nodup).2 fun m => ?_
      rw [hc.mem, ← reaches_arcs]
      exact Rover.visited_iff hr hok m
    have h3 := hi.count_eq hok i
    simp only [Multiset.map_zero, Multiset.sum_zero, add_zero] at h3
    rw [splits_perm hp] at h3
    rcases hi.under i (hok i).1 with h | h
    · exact h0 h
    · rcases le_max_iff.1 h with h | h <;> omega

/-! ## Termination -/

theorem splitting_acc (hw : g.WF) : ∀ x, Bag.Reach (splitting sp null vfree limit g addr hn) (.visit g.base none) (Trav.start (mem g prop addr hn)) x →
    Acc (fun y x => Bag.Handles (splitting sp null vfree limit g addr hn) x y) x :=
  (rover sp null vfree limit g prop addr hn).acc (a := g.base) (fun _ => rfl) (fun _ => rfl) rfl g.nodes fun m h => (hw.reach m).2 (reaches_next h)

end Cru.Split
