import Verif.Proofs.Filter
import Verif.Proofs.SplitEnd
import Verif.Props.Merge

/-! # Filtering: the phases put together -/

namespace Cru.Filter

open Net

variable {n : Nat} {N V L : Type} [DecidableEq N] {f : Filter V L} {g : Gr N V L} {backwards : Bool} {del : Fin n → List N}
  {addr : N → Nat} {hn : 0 < n} {a : N}

omit [DecidableEq N] in
theorem status_zero {S : Type} {s : Trav.Job n N S} : status s = 0 ↔ ∀ i, s.err i = 0 := Split.status_zero

omit [DecidableEq N] in
theorem status_mem {S : Type} {s : Trav.Job n N S} (h : status s ≠ 0) : ∃ i, status s = s.err i := Split.status_mem h

/-! ## Testing vertices -/

omit [DecidableEq N] in
theorem deletable_error {m : N} {e : Int} : ProbeError f g m e ↔ e ≠ 0 ∧ (deletable f g m (g.out m)).2 = e := by
  unfold ProbeError deletable
  rcases f.probe with _ | p
  · simp; intro h h'; exact h h'.symm
  · simp only [Option.some.injEq, exists_eq_left']
    have : ends g = view g := rfl
    rw [this]
    by_cases hc : (p (g.vertex m) (view g (g.inn m)) (view g (g.out m))).2 = 0
    · rw [if_neg (by simpa using hc)]
    · rw [if_pos hc]

omit [DecidableEq N] in
theorem deletable_ok {m : N} (h : (deletable f g m (g.out m)).2 = 0) : (deletable f g m (g.out m)).1 = fails f g m := by
  unfold deletable fails at *
  rcases hp : f.probe with _ | p
  · rfl
  · rw [hp] at h
    dsimp only at h ⊢
    split at h
    · rename_i hc; exact absurd h hc
    · rename_i hc
      rw [if_neg hc]
      rfl

/-- What's known about the sets of deleted nodes and the errors. -/
theorem marking_inv : ∀ x, Bag.Reach (marking f g backwards addr hn) a (Trav.start fun _ => []) x →
    (∀ i m, m ∈ x.1.mem i ↔ m ∈ x.1.seen i ∧ (deletable f g m (g.out m)).1 = true ∧ (deletable f g m (g.out m)).2 = 0) ∧
    (∀ i, x.1.err i = 0 → ∀ m ∈ x.1.seen i, (deletable f g m (g.out m)).2 = 0) ∧
    (∀ i, x.1.err i ≠ 0 → ∃ m, Reaches (g.next backwards) a m ∧ x.1.err i = (deletable f g m (g.out m)).2) := by
  refine Trav.induct (motive := fun seen err (D : Fin n → List N) =>
    (∀ i m, m ∈ D i ↔ m ∈ seen i ∧ (deletable f g m (g.out m)).1 = true ∧ (deletable f g m (g.out m)).2 = 0) ∧
    (∀ i, err i = 0 → ∀ m ∈ seen i, (deletable f g m (g.out m)).2 = 0) ∧
    (∀ i, err i ≠ 0 → ∃ m, Reaches (g.next backwards) a m ∧ err i = (deletable f g m (g.out m)).2)) ⟨?_, ?_, ?_⟩ ?_
  · intro i m; simp
  · intro i _ m hm; cases hm
  · intro i h; exact absurd rfl h
  · intro seen err D m ⟨h1, h2, h3⟩ hr he hm
    generalize Build.lane hn (addr m) = i at *
    dsimp only
    refine ⟨fun j m' => ?_, fun j hj m' hm' => ?_, fun j hj => ?_⟩
    · by_cases hji : j = i
      · subst hji
        rw [Function.update_self]
        split
        · rename_i hc
          rw [Function.update_self, List.mem_cons, h1, List.mem_append, List.mem_singleton]
          constructor
          · rintro (rfl | h)
            · exact ⟨.inr rfl, hc⟩
            · exact ⟨.inl h.1, h.2⟩
          · rintro ⟨h | rfl, h'⟩
            · exact .inr ⟨h, h'⟩
            · exact .inl rfl
        · rename_i hc
          rw [h1, List.mem_append, List.mem_singleton]
          constructor
          · rintro h
            exact ⟨.inl h.1, h.2⟩
          · rintro ⟨h | rfl, h'⟩
            · exact ⟨h, h'⟩
            · exact absurd h' hc
      · rw [Function.update_of_ne hji]
        split
        · rw [Function.update_of_ne hji]; exact h1 j m'
        · exact h1 j m'
    · by_cases hji : j = i
      · subst hji
        rw [Function.update_self] at hj hm'
        rcases List.mem_append.1 hm' with hm' | hm'
        · exact h2 j he m' hm'
        · rw [List.mem_singleton.1 hm']; exact hj
      · rw [Function.update_of_ne hji] at hj hm'
        exact h2 j hj m' hm'
    · by_cases hji : j = i
      · subst hji
        rw [Function.update_self] at hj ⊢
        exact ⟨m, hr, rfl⟩
      · rw [Function.update_of_ne hji] at hj ⊢
        exact h3 j hj

/-- A deleted node fails the test. -/
theorem marks_sound {k : Nat} {e : Int} (h : Marks f g backwards a addr hn k del e) {m : N} (hm : Dead del addr hn m) :
    fails f g m = true ∧ Reaches (g.next backwards) a m := by
  unfold Marks at h
  split at h
  · obtain ⟨-, rfl, -⟩ := h; cases hm
  · obtain ⟨x, hx, hd, -, rfl, -⟩ := h
    have hb := Rover.done_bag hn hx hd
    obtain ⟨h1, h2, h3⟩ := ((marking_inv _ hb).1 _ m).1 hm
    refine ⟨by rw [← deletable_ok h3]; exact h2, ?_⟩
    exact (Walker.inv_reach (W := Trav.walker (g.next backwards) _ addr hn) (fun i => rfl) _ hb).reach _ m h1

/-- If nothing goes wrong, nodes are deleted if and only if they fail the test, which doesn't raise an error. -/
theorem marks_done (ht : f.thinner = none) (h : Marks f g backwards a addr hn 0 del 0) {m : N} (hm : Reaches (g.next backwards) a m) :
    (Dead del addr hn m ↔ fails f g m = true) ∧ ∀ e, ¬ ProbeError f g m e := by
  refine ⟨⟨fun hd => (marks_sound h hd).1, ?_⟩, ?_⟩
  all_goals
    unfold Marks at h
    rw [ht] at h
    simp only [Option.isSome_none, Bool.false_eq_true, false_or] at h
    rcases hp : f.probe with _ | p
  · intro hf; simp [fails, hp] at hf
  · rw [hp] at h
    simp only [Option.isNone_some, Bool.false_eq_true, if_false] at h
    obtain ⟨x, hx, hd, hk, rfl, hs⟩ := h
    have hb := Rover.done_bag hn hx hd
    have he := status_zero.1 hs
    obtain ⟨h1, h2, -⟩ := marking_inv _ hb
    have hw := Walker.inv_reach (W := Trav.walker (g.next backwards) _ addr hn) (fun i => rfl) _ hb
    have hv := (Walker.visited_iff hw (fun i => ⟨he i, Trav.stop_inv _ hb hk i⟩) m).2 hm
    obtain ⟨i, hi⟩ := Walker.mem_visited.1 hv
    have hl := hw.home i m hi
    have hl : Build.lane hn (addr m) = i := hl
    have h0 := h2 i (he i) m hi
    intro hf
    rw [Dead, hl]
    exact (h1 i m).2 ⟨hi, by rw [deletable_ok h0]; exact hf, h0⟩
  · rintro e ⟨-, p, h', -⟩; rw [hp] at h'; cases h'
  · rw [hp] at h
    simp only [Option.isNone_some, Bool.false_eq_true, if_false] at h
    obtain ⟨x, hx, hd, hk, rfl, hs⟩ := h
    have hb := Rover.done_bag hn hx hd
    have he := status_zero.1 hs
    obtain ⟨-, h2, -⟩ := marking_inv _ hb
    have hw := Walker.inv_reach (W := Trav.walker (g.next backwards) _ addr hn) (fun i => rfl) _ hb
    have hv := (Walker.visited_iff hw (fun i => ⟨he i, Trav.stop_inv _ hb hk i⟩) m).2 hm
    obtain ⟨i, hi⟩ := Walker.mem_visited.1 hv
    intro e hpe
    rw [deletable_error] at hpe
    exact hpe.1 (hpe.2.symm.trans (h2 i (he i) m hi))

theorem marks_error {k : Nat} {e : Int} (h : Marks f g backwards a addr hn k del e) (he : e ≠ 0) :
    ∃ m, Reaches (g.next backwards) a m ∧ ProbeError f g m e := by
  unfold Marks at h
  split at h
  · exact absurd h.2.2 he
  · obtain ⟨x, hx, hd, -, rfl, rfl⟩ := h
    obtain ⟨i, hi⟩ := status_mem he
    obtain ⟨m, h1, h2⟩ := (marking_inv _ (Rover.done_bag hn hx hd)).2.2 i (hi ▸ he)
    exact ⟨m, h1, deletable_error.2 ⟨he, by rw [hi]; exact h2.symm⟩⟩

theorem marks_del {k : Nat} {e : Int} (h : Marks f g backwards a addr hn k del e) : f.thinner = none ∨ ∀ i, del i = [] := by
  rcases ht : f.thinner with _ | t
  · exact .inl rfl
  · right
    unfold Marks at h
    rw [ht] at h
    simp only [Option.isSome_some, true_or, if_true] at h
    intro i
    rw [h.2.1]

theorem marks_exists (f : Filter V L) (g : Gr N V L) (backwards : Bool) (addr : N → Nat) (hn : 0 < n) {ms : List N}
    (hms : ∀ m, Reaches (g.next backwards) a m → m ∈ ms) : ∃ del e, Marks f g backwards a addr hn 0 del e := by
  unfold Marks
  split
  · exact ⟨_, 0, rfl, rfl, rfl⟩
  · obtain ⟨x, hx, hd, hk⟩ := (Trav.ends (fun i (D : Fin n → List N) m =>
      let r := deletable f g m (g.out m)
      (if r.1 = true ∧ r.2 = 0 then Function.update D i (m :: D i) else D, r.2)) addr hn (fun _ => []) hms).2
    exact ⟨_, _, x, hx, hd, hk, rfl, rfl⟩

/-! ## Without deleted nodes -/

variable [DecidableEq L]

/-- What's known when there are no deleted nodes. -/
theorem plain_reach (hdel : ∀ i, del i = []) :
    ∀ x, Bag.Reach (cutting f g backwards del addr hn) (.visit a none) (Trav.start (mem g)) x →
      (∀ p ∈ x.2, p.node ≠ none) ∧ (∀ i, ∀ m ∈ x.1.seen i, Build.lane hn (addr m) = i) ∧
      (∀ m, (m ∈ x.1.seen (Build.lane hn (addr m)) → x.1.mem.out m = (pick f g m (g.out m)).1) ∧
        (m ∉ x.1.seen (Build.lane hn (addr m)) → x.1.mem.out m = g.out m)) ∧
      Errs f g del x.1.seen x.1.err := by
  intro x hx
  induction hx with
  | init =>
    refine ⟨?_, ?_, ?_, ⟨?_, ?_⟩⟩
    · intro p hp; rw [Multiset.mem_singleton.1 hp]; simp [Pkt.node]
    · intro i m hm; cases hm
    · intro m; exact ⟨fun h => absurd h (List.not_mem_nil), fun _ => rfl⟩
    · intro i hi; exact absurd rfl hi
    · intro i _ m hm; cases hm
  | step hr hs ih =>
    cases hs with
    | env e s m => exact ih
    | handle s p rest =>
      obtain ⟨ih1, ih2, ih3, ie⟩ := ih
      dsimp only at ih1 ih2 ih3 ie ⊢
      have hprod : Bag.produced (cutting f g backwards del addr hn) s p =
          (((cutting f g backwards del addr hn).handle (Build.lane hn (addr p.receiver)) s p).2.1 : Multiset (Pkt N L)) := by
        simp only [Bag.produced, cutting, (handle_killed _ s p).2]
        simp
      rw [hprod]
      simp only [Filter.cutting]
      have hrest : ∀ q ∈ rest, q.node ≠ none := fun q hq => ih1 q (Multiset.mem_cons_of_mem hq)
      generalize hi : Build.lane hn (addr p.receiver) = i
      obtain ⟨sample, stop, hs1, hs2, -, ⟨e, h4⟩ | ⟨e, h4⟩⟩ := handle_cases (f := f) (g := g) (backwards := backwards) (del := del) i s p
      · rw [e]
        refine ⟨?_, ih2, ih3, ie⟩
        rw [show (([] : List (Pkt N L)) : Multiset (Pkt N L)) + rest = rest from zero_add _]
        exact hrest
      · rw [e]
        cases p with
        | cutBack o d b => exact absurd rfl (ih1 _ (Multiset.mem_cons_self _ _))
        | cutForward o d => exact absurd rfl (ih1 _ (Multiset.mem_cons_self _ _))
        | visit m c =>
          have hi' : Build.lane hn (addr m) = i := hi
          simp only [act, hdel i, List.not_mem_nil, and_false, if_false]
          by_cases c1 : m ∈ s.seen i
          · rw [if_pos c1]
            refine ⟨?_, ih2, ih3, ie⟩
            rw [show (([] : List (Pkt N L)) : Multiset (Pkt N L)) + rest = rest from zero_add _]
            exact hrest
          · rw [if_neg c1]
            have ho : s.mem.out m = g.out m := (ih3 m).2 (by rw [hi']; exact c1)
            simp only [ho]
            refine ⟨fun q hq => ?_, fun j m' hm' => ?_, fun m' => ?_, fun j hj => ?_, fun j hj m' hm' hx' => ?_⟩
            · rcases Multiset.mem_add.1 hq with hq | hq
              · simp only [scatter, Multiset.mem_coe] at hq
                split at hq
                · obtain ⟨d, -, rfl⟩ := List.mem_map.1 hq; simp [Pkt.node]
                · obtain ⟨d, -, rfl⟩ := List.mem_map.1 hq; simp [Pkt.node]
              · exact hrest q hq
            · rcases Fwd.seen_new hm' with hm' | ⟨rfl, rfl⟩
              · exact ih2 j m' hm'
              · exact hi'
            · by_cases hne : m' = m
              · subst hne
                rw [Function.update_self, hi', Function.update_self]
                exact ⟨fun _ => rfl, fun h => absurd (by simp) h⟩
              · rw [Function.update_of_ne hne]
                refine ⟨fun h => (ih3 m').1 ?_, fun h => (ih3 m').2 fun h' => h (Fwd.seen_mono h')⟩
                rcases Fwd.seen_new h with h | ⟨h, -⟩
                · exact h
                · exact absurd h hne
            · by_cases hji : j = i
              · subst hji
                simp only [Function.update_self] at hj ⊢
                exact ⟨m, by simp, by rw [hdel]; simp, rfl⟩
              · simp only [Function.update_of_ne hji] at hj ⊢
                exact ie.raised j hj
            · rcases Fwd.seen_new hm' with hm' | ⟨rfl, rfl⟩
              · refine ie.none j ?_ m' hm' hx'
                by_cases hji : j = i
                · subst hji; exact h4.1
                · rwa [Function.update_of_ne hji] at hj
              · rwa [Function.update_self] at hj

/-! ## Pruning -/

omit [DecidableEq L] in
/-- The nodes left. -/
theorem pruned {out : N → List (L × N)} {z : State n N (Trav.Job n N Unit)} (hz : Net.Reach (pruning out addr hn) a (Trav.start ()) z)
    (hd : z.main = .done) (hk : z.g.killed = 0) : Covers (fun m => (out m).map Prod.snd) a (left z.g) := by
  have hb := Rover.done_bag hn hz hd
  have hstop := Trav.stop_inv _ hb hk
  have hez := fun i => (Trav.induct (motive := fun _ err _ => ∀ i, err i = 0) (fun _ => rfl)
    (fun seen err mem m h _ _ _ i => by
      by_cases hi : i = Build.lane hn (addr m)
      · subst hi; simp
      · rw [Function.update_of_ne hi]; exact h i) _ hb : ∀ i, z.g.err i = 0) i
  have hwi := Walker.inv_reach (W := Trav.walker (fun s => (out s).map fun e : L × N => e.2) (fun (_ : Fin n) (_ : Unit) _ => ((), 0)) addr hn)
    (g₀ := Trav.start ()) (fun i => rfl) (z.g, 0) hb
  have hleft : left z.g = (List.finRange n).flatMap z.g.seen := by
    unfold left
    refine List.flatMap_congr fun i _ => ?_
    rw [show z.g.stop i = false from hstop i]; rfl
  rw [hleft]
  exact ⟨Walker.visited_nodup hwi, fun m => Walker.visited_iff hwi (fun i => ⟨hez i, hstop i⟩) m⟩

/-- The graph returned by a traversal that isn't backwards, if the last two phases aren't killed, when nothing went wrong. -/
theorem outcome (hdel : f.thinner = none ∨ ∀ i, del i = []) (hbase : ¬ Dead del addr hn g.base)
    {y : State n (Pkt N L) (Trav.Job n N (Mem N L))}
    (hy : Net.Reach (cutting f g false del addr hn) (.visit g.base none) (Trav.start (mem g)) y) (hd : y.main = .done) (hk : y.g.killed = 0)
    (hs : status y.g = 0) {z : State n N (Trav.Job n N Unit)} (hz : Net.Reach (pruning y.g.mem.out addr hn) g.base (Trav.start ()) z)
    (hdz : z.main = .done) (hkz : z.g.killed = 0) :
    IsFiltered g (fun m rs => rs.Perm ((pick f g m (g.out m)).1.filter fun e => decide (¬ Dead del addr hn e.2))) (result g y.g.mem z.g) ∧
    ∀ m ∈ (result g y.g.mem z.g).nodes, ¬ Dead del addr hn m ∧ (pick f g m (g.out m)).2.2 = 0 := by
  have hfine : Fine y.g := fun i => ⟨status_zero.1 hs i, cutting_stop _ (reach_bag hn hy) hk i⟩
  have hv := cutting_visited hdel hy hd hfine
  have hcov := pruned hz hdz hkz
  have hin : ∀ m ∈ left z.g, m ∈ y.g.seen (Build.lane hn (addr m)) ∧ ¬ Dead del addr hn m := by
    intro m hm
    have := (hcov.mem m).1 hm
    clear hm
    induction this with
    | refl => exact ⟨(hv _).2 .refl, hbase⟩
    | @tail b c _ h ih =>
      obtain ⟨e, he, rfl⟩ := List.mem_map.1 h
      have h1 := (cutting_done hdel hy hd hfine ih.1 ih.2).mem_iff.1 he
      obtain ⟨h1, h2⟩ := List.mem_filter.1 h1
      refine ⟨(hv _).2 (((hv _).1 ih.1).tail ?_), by simpa using h2⟩
      unfold arcs
      rw [if_neg ih.2]
      simp only [Bool.false_eq_true, if_false]
      exact List.mem_map.2 ⟨e, h1, rfl⟩
  refine ⟨⟨rfl, fun _ _ => rfl, hcov, fun m hm => cutting_done hdel hy hd hfine (hin m hm).1 (hin m hm).2⟩, fun m hm => ⟨(hin m hm).2, ?_⟩⟩
  exact (fwd_reach hdel _ (reach_bag hn hy)).2.none _ (hfine _).1 m (hin m hm).1 (hin m hm).2

/-- The graph returned if there are no deleted nodes, in any direction. -/
theorem outcome_plain (hdel : ∀ i, del i = [])
    {y : State n (Pkt N L) (Trav.Job n N (Mem N L))}
    (hy : Net.Reach (cutting f g backwards del addr hn) (.visit a none) (Trav.start (mem g)) y) (hd : y.main = .done) (hk : y.g.killed = 0)
    (hs : status y.g = 0) {z : State n N (Trav.Job n N Unit)} (hz : Net.Reach (pruning y.g.mem.out addr hn) g.base (Trav.start ()) z)
    (hdz : z.main = .done) (hkz : z.g.killed = 0) :
    IsFiltered g (fun m rs => (Reaches (arcs f g backwards del addr hn) a m → rs = (pick f g m (g.out m)).1 ∧ (pick f g m (g.out m)).2.2 = 0) ∧
      (¬ Reaches (arcs f g backwards del addr hn) a m → rs = g.out m)) (result g y.g.mem z.g) := by
  have hfine : Fine y.g := fun i => ⟨status_zero.1 hs i, cutting_stop _ (reach_bag hn hy) hk i⟩
  have hv := cutting_visited (.inr hdel) hy hd hfine
  obtain ⟨-, -, h3, he⟩ := plain_reach hdel _ (reach_bag hn hy)
  refine ⟨rfl, fun _ _ => rfl, pruned hz hdz hkz, fun m hm => ⟨fun hr => ?_, fun hr => ?_⟩⟩
  · rw [← hv m] at hr
    refine ⟨(h3 m).1 hr, he.none _ (hfine _).1 m hr (by rw [hdel]; simp)⟩
  · rw [← hv m] at hr
    exact (h3 m).2 hr

/-- Everything that can be reached in the end is in the given graph. -/
theorem reachable (hw : g.WF) (hl : f.Lawful) {x} (hx : Bag.Reach (cutting f g backwards del addr hn) (.visit a none) (Trav.start (mem g)) x) (m : N)
    (h : Reaches (fun m => (x.1.mem.out m).map fun e => e.2) g.base m) : m ∈ g.nodes := by
  induction h with
  | refl => exact (hw.reach _).2 .refl
  | tail _ hb ih =>
    obtain ⟨e, he, rfl⟩ := List.mem_map.1 hb
    rw [hw.reach] at ih ⊢
    exact ih.tail (List.mem_map.2 ⟨e, out_sub hl hx he, rfl⟩)

theorem exists_cutting (hl : f.Lawful) (hdel : f.thinner = none ∨ ∀ i, del i = []) (addr : N → Nat) (hn : 0 < n) {ms : List N}
    (hms : ∀ m, Reaches (g.next backwards) a m → m ∈ ms) :
    ∃ y, Net.Reach (cutting f g backwards del addr hn) (.visit a none) (Trav.start (mem g)) y ∧ y.main = .done ∧ y.g.killed = 0 :=
  exists_done_inv hn (cutting_acc hl hdel hms) (fun s => s.killed = 0) rfl fun i s p h => (handle_killed i s p).1.trans h

theorem exists_pruning (hw : g.WF) (hl : f.Lawful) {x} (hx : Bag.Reach (cutting f g backwards del addr hn) (.visit a none) (Trav.start (mem g)) x) :
    ∃ z, Net.Reach (pruning x.1.mem.out addr hn) g.base (Trav.start ()) z ∧ z.main = .done ∧ z.g.killed = 0 :=
  (Trav.ends _ _ hn _ (ms := g.nodes) fun m h => reachable hw hl hx m h).2

omit [DecidableEq N] [DecidableEq L] in
/-- Errors raised by edge tests are those of user code. -/
theorem pick_error {u : Filter V L} {m : N} {e : Int} (he : e ≠ 0) (h : (pick u.inferred g m (g.out m)).2.2 = e) :
    ProbeError u g m e ∨ EdgeError u g m e := by
  have hfil : (filtered u.inferred g m (g.out m)).2.2 = e → EdgeError u g m e := by
    intro h
    unfold filtered at h
    dsimp only at h
    split at h
    · exact absurd h.symm he
    · rename_i hc
      refine ⟨he, ?_, ?_⟩
      · unfold Filter.inferred at hc
        split at hc
        · rename_i ht; exact .inr ht
        · rcases h1 : u.edge with _ | t
          · rw [h1] at hc
            rcases h2 : u.thinner with _ | t
            · rw [h2] at hc; simp at hc
            · exact .inr rfl
          · exact .inl rfl
      · have : u.inferred.fault = u.fault := by unfold Filter.inferred; split <;> rfl
        rw [this] at h
        exact h
  unfold pick at h
  dsimp only at h
  split at h
  · exact .inr (hfil h)
  · left
    unfold eligible at h
    split at h
    · exact absurd h.symm he
    · rename_i ht
      have ht : u.thinner.isSome = true := by
        rw [inferred_thinner] at ht
        rcases h2 : u.thinner with _ | t
        · rw [h2] at ht; simp at ht
        · rfl
      unfold Filter.inferred deletable at h
      rw [if_pos ht] at h
      dsimp only at h
      unfold ProbeError
      rcases hp : u.probe with _ | p
      · rw [hp] at h; simp at h; exact absurd h.symm he
      · refine ⟨he, p, rfl, ?_⟩
        rw [hp] at h
        simp only [Option.getD_some] at h
        split at h <;> exact h

end Cru.Filter
