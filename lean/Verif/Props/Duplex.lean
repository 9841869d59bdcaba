import Verif.Proofs.Duplex
import Verif.Proofs.Demo
import Verif.Props.MapReduce

/-! # C31 and C73: incoming edges -/

namespace Cru.Duplex

open Net

variable {n : Nat} {N V L : Type} [DecidableEq N]

omit [DecidableEq N] in
theorem next_out (g : Gr N V L) : g.next false = fun m => (g.out m).map (·.2) := by
  funext m; simp [Gr.next]

/-- **C31.** In a call that isn't killed, whatever the number of lanes and the schedule, every vertex of the graph gets the reverse edges of
all edges to it, each as often as there is one, and nothing else.  Nothing outside the graph is changed. -/
theorem C31_exact {g : Gr N V L} (hg : g.WF) {addr : N → Nat} {hn : 0 < n} {inn : N → List (L × N)}
    (h : Launched (full g.out addr hn) g inn 0) : Exact g inn ∧ ∀ m, m ∉ g.nodes → inn m = g.inn m := by
  obtain ⟨x, hx, hd, rfl, hk⟩ := h
  have hk' : x.g.killed = 0 := by
    by_contra hc
    rw [if_neg hc] at hk; cases hk
  have hq := reach_quiet (fun s => s.killed = 0) (fun e s h => by cases h) (fun i s p h => by rwa [full_killed] at h) hx hk'
  have hr : ∀ m, m ∈ g.nodes ↔ Reaches (fun m => (g.out m).map (·.2)) g.base m := fun m => by rw [hg.reach, next_out]
  have hp := (fullQuiet g.out g.inn addr hn).visited_perm hn (fun i => rfl) ⟨fun _ _ => rfl, rfl, fun _ => rfl⟩ rfl hq hd
    (fun i => full_stop _ (reach_bag hn hx) hk' i) hg.nodup hr
  have hi := Rover.inv_reach (W := fullQuiet g.out g.inn addr hn) (fun i => rfl) ⟨fun _ _ => rfl, rfl, fun _ => rfl⟩ rfl _ (Rover.done_bag hn hq hd)
  have hseen : ∀ m, m ∈ x.g.seen (Build.lane hn (addr m)) ↔ m ∈ g.nodes := by
    intro m
    rw [← hp.mem_iff, Rover.mem_visited]
    refine ⟨fun h => ⟨_, h⟩, fun ⟨i, h⟩ => ?_⟩
    have h' : m ∈ x.g.seen i := h
    rwa [← (show Build.lane hn (addr m) = i from hi.home i m h)] at h'
  refine ⟨fun m hm => ?_, fun m hm => hi.I.1 m fun h => hm ((hseen m).1 h)⟩
  have := full_mail m _ (Rover.done_bag hn hq hd)
  rw [got, if_pos ((hseen m).2 hm), Multiset.map_zero, Multiset.sum_zero, add_zero, (hp.map _).sum_eq, ← coe_flatMap] at this
  exact Multiset.coe_eq_coe.1 this

theorem count_reversed [DecidableEq L] (out : N → List (L × N)) (nodes : List N) (hnd : nodes.Nodup) (l : L) (a m : N) :
    (reversed out nodes m).count (l, a) = if a ∈ nodes then (out a).count (l, m) else 0 := by
  have h1 : ∀ b, (((out b).filter fun e => decide (e.2 = m)).map fun e => (e.1, b)).count (l, a) =
      if b = a then (out a).count (l, m) else 0 := by
    intro b
    split_ifs with hb
    · subst hb
      induction out b with
      | nil => rfl
      | cons e es ih =>
        obtain ⟨e1, e2⟩ := e
        by_cases h : e2 = m
        · simp only [List.filter_cons, h, decide_true, if_true, List.map_cons, List.count_cons, ih]
          by_cases h2 : e1 = l <;> simp [h2]
        · simp only [List.filter_cons, h, decide_false, Bool.false_eq_true, if_false, ih, List.count_cons]
          simp [h]
    · rw [List.count_eq_zero]
      intro hc
      simp only [List.mem_map, Prod.mk.injEq] at hc
      obtain ⟨_, _, _, h⟩ := hc
      exact hb h
  unfold reversed
  induction nodes with
  | nil => rfl
  | cons b bs ih =>
    rw [List.flatMap_cons, List.count_append, h1, ih (List.nodup_cons.1 hnd).2]
    by_cases hb : b = a
    · subst hb
      simp [(List.nodup_cons.1 hnd).1]
    · simp [hb, Ne.symm hb]

/-- **C31.** The same in terms of the numbers of edges: as many edges labelled `l` come in from `a` as go out to `b`. -/
theorem C31_duplex [DecidableEq L] {g : Gr N V L} (hg : g.WF) {addr : N → Nat} {hn : 0 < n} {inn : N → List (L × N)}
    (h : Launched (full g.out addr hn) g inn 0) :
    ({ g with inn := inn } : Gr N V L).Duplex ∧ ∀ b ∈ g.nodes, ∀ e ∈ inn b, e.2 ∈ g.nodes := by
  have hE := (C31_exact hg h).1
  refine ⟨fun a ha b hb l => ?_, fun b hb e he => ?_⟩
  · have := (hE b hb).count_eq (l, a)
    rw [count_reversed _ _ hg.nodup, if_pos ha] at this
    exact this.symm
  · rw [(hE b hb).mem_iff, reversed] at he
    simp only [List.mem_flatMap, List.mem_map] at he
    obtain ⟨a, ha, _, _, rfl⟩ := he
    exact ha

/-- **C31.** Removing incoming edges, in a call that isn't killed, leaves none in the graph, and changes nothing outside it. -/
theorem C31_removed {g : Gr N V L} (hg : g.WF) {addr : N → Nat} {hn : 0 < n} {inn : N → List (L × N)}
    (h : Launched (half g.out addr hn) g inn 0) : (∀ m ∈ g.nodes, inn m = []) ∧ ∀ m, m ∉ g.nodes → inn m = g.inn m := by
  obtain ⟨x, hx, hd, rfl, hk⟩ := h
  have hk' : x.g.killed = 0 := by
    by_contra hc
    rw [if_neg hc] at hk; cases hk
  have hI : (halfRover g.out g.inn addr hn).I (Trav.start g.inn) := fun m => ⟨fun h => (by cases h), fun _ => rfl⟩
  have hr : ∀ m, m ∈ g.nodes ↔ Reaches (fun m => (g.out m).map (·.2)) g.base m := fun m => by rw [hg.reach, next_out]
  have hp := (halfRover g.out g.inn addr hn).visited_perm hn (fun i => rfl) hI rfl hx hd
    (fun i => half_stop _ (reach_bag hn hx) hk' i) hg.nodup hr
  have hi := Rover.inv_reach (W := halfRover g.out g.inn addr hn) (fun i => rfl) hI rfl _ (Rover.done_bag hn hx hd)
  have hseen : ∀ m, m ∈ x.g.seen (Build.lane hn (addr m)) ↔ m ∈ g.nodes := by
    intro m
    rw [← hp.mem_iff, Rover.mem_visited]
    refine ⟨fun h => ⟨_, h⟩, fun ⟨i, h⟩ => ?_⟩
    have h' : m ∈ x.g.seen i := h
    rwa [← (show Build.lane hn (addr m) = i from hi.home i m h)] at h'
  exact ⟨fun m hm => (hi.I m).1 ((hseen m).2 hm), fun m hm => (hi.I m).2 fun h => hm ((hseen m).1 h)⟩

/-- **C31.** Removing the incoming edges that were derived restores the graph. -/
theorem C31_restored {g : Gr N V L} (hg : g.WF) (h0 : g.inn = fun _ => []) {addr : N → Nat} {hn : 0 < n} {inn inn' : N → List (L × N)}
    (h : Launched (full g.out addr hn) g inn 0) (h' : Launched (half g.out addr hn) { g with inn := inn } inn' 0) : inn' = g.inn := by
  have h1 := (C31_exact hg h).2
  obtain ⟨h2, h3⟩ := C31_removed (g := { g with inn := inn }) ⟨hg.nodup, hg.reach⟩ h'
  funext m
  by_cases hm : m ∈ g.nodes
  · rw [h2 m hm, h0]
  · rw [h3 m hm]; exact h1 m hm

/-- **C31.** Both operations finish on every schedule, and can finish without being killed. -/
theorem C31_terminates {g : Gr N V L} (hg : g.WF) (addr : N → Nat) (hn : 0 < n) :
    (∀ T : Task n (Pkt N L) (Trav.Job n N (N → List (L × N))) Unit, T = full g.out addr hn ∨ T = half g.out addr hn →
      ∀ f : Nat → State n (Pkt N L) (Trav.Job n N (N → List (L × N))), Net.Reach T (g.base, none) (Trav.start g.inn) (f 0) →
        ¬ ∀ j, step T (g.base, none) .main (f j) = some (f (j + 1)) ∨ ∃ i, step T (g.base, none) (.worker i) (f j) = some (f (j + 1))) ∧
    (∃ inn, Launched (full g.out addr hn) g inn 0) ∧ ∃ inn, Launched (half g.out addr hn) g inn 0 := by
  have hr : ∀ m, Reaches (fun m => (g.out m).map (·.2)) g.base m → m ∈ g.nodes := fun m h => by
    rw [hg.reach, next_out]; exact h
  have hf := (fullRover g.out g.inn addr hn).acc (i₀ := (g.base, none)) (g₀ := Trav.start g.inn) (fun i => rfl) (fun _ _ => rfl) rfl
    g.nodes hr
  have hI : (halfRover g.out g.inn addr hn).I (Trav.start g.inn) := fun m => ⟨fun h => (by cases h), fun _ => rfl⟩
  have hh := (halfRover g.out g.inn addr hn).acc (i₀ := (g.base, none)) (g₀ := Trav.start g.inn) (fun i => rfl) hI rfl g.nodes hr
  refine ⟨?_, ?_, ?_⟩
  · rintro T (rfl | rfl) f h0 hs
    · exact no_infinite_run hn hf f h0 hs
    · exact no_infinite_run hn hh f h0 hs
  · obtain ⟨x, hx, hd, hk⟩ := exists_done_inv hn hf (fun s => s.killed = 0) rfl (fun i s p h => by rw [full_killed]; exact h)
    exact ⟨_, x, hx, hd, rfl, by rw [if_pos hk]⟩
  · obtain ⟨x, hx, hd, hk⟩ := exists_done_inv hn hh (fun s => s.killed = 0) rfl (by
      intro i s p h
      simp only [half, halfIt]
      obtain ⟨sample, stop, e', -⟩ := Trav.poll_eq s i
      rw [e']
      split_ifs <;> exact h)
    exact ⟨_, x, hx, hd, rfl, by rw [if_pos hk]⟩

omit [DecidableEq N] in
theorem halfDuplex_cons {g : Gr N V L} {e : L × N} {es : List (L × N)} (h : g.out g.base = e :: es) :
    halfDuplex g = (g.inn e.2).isEmpty := by
  unfold halfDuplex; rw [h]

/-- **C31.** The test for incoming edges, which looks at one vertex, is right about graphs that have either all of them or none. -/
theorem C31_recognized {g : Gr N V L} (hg : g.WF) :
    ((∀ m ∈ g.nodes, g.inn m = []) → halfDuplex g = true) ∧
    (Exact g g.inn → halfDuplex g = true → ∀ m ∈ g.nodes, g.inn m = []) := by
  have hb : g.base ∈ g.nodes := (hg.reach _).2 .refl
  have hnext : ∀ e ∈ g.out g.base, e.2 ∈ g.nodes := by
    intro e he
    refine (hg.reach _).2 (.single ?_)
    simp only [Gr.next, Bool.false_eq_true, if_false]
    exact List.mem_map.2 ⟨e, he, rfl⟩
  constructor
  · intro h
    unfold halfDuplex
    rcases ho : g.out g.base with _ | ⟨e, es⟩
    · rfl
    · simp [h e.2 (hnext e (by rw [ho]; simp))]
  · intro hE hh
    have ho : g.out g.base = [] := by
      unfold halfDuplex at hh
      rcases ho : g.out g.base with _ | ⟨e, es⟩
      · rfl
      · rw [ho] at hh
        have hin : g.inn e.2 = [] := by simpa using hh
        have hmem : (e.1, g.base) ∈ reversed g.out g.nodes e.2 := by
          simp only [reversed, List.mem_flatMap, List.mem_map, List.mem_filter]
          exact ⟨g.base, hb, e, ⟨by rw [ho]; simp, by simp⟩, rfl⟩
        rw [← (hE e.2 (hnext e (by rw [ho]; simp))).mem_iff, hin] at hmem
        cases hmem
    have hone : ∀ m ∈ g.nodes, m = g.base := by
      intro m hm
      have := (hg.reach m).1 hm
      induction this with
      | refl => rfl
      | @tail b c hr hb ih =>
        have : b = g.base := ih ((hg.reach b).2 hr)
        subst this
        simp [Gr.next, ho] at hb
    intro m hm
    refine List.eq_nil_iff_forall_not_mem.2 fun e he => ?_
    rw [(hE m hm).mem_iff] at he
    simp only [reversed, List.mem_flatMap, List.mem_map, List.mem_filter] at he
    obtain ⟨a, ha, f, ⟨hf, -⟩, -⟩ := he
    rw [hone a ha, ho] at hf
    cases hf

/-- **C31.** So an operation that needs incoming edges has exactly the right ones, if the graph had all of them or none. -/
theorem C31_prepared {g : Gr N V L} (hg : g.WF) (h0 : (∀ m ∈ g.nodes, g.inn m = []) ∨ Exact g g.inn) {addr : N → Nat} {hn : 0 < n}
    {inn : N → List (L × N)} (h : Prepared true addr hn g inn 0) : Exact g inn := by
  unfold Prepared at h
  split_ifs at h with c
  · exact (C31_exact hg h).1
  · rw [Bool.and_true] at c
    rcases h0 with h0 | h0
    · exact absurd ((C31_recognized hg).1 h0) c
    · rw [h.1]; exact h0

/-- **C31.** A backwards traversal over them visits the vertices that the initial one is reachable from (cru_zone(7)). -/
theorem C31_backwards {g : Gr N V L} (hg : g.WF) {inn : N → List (L × N)} (hE : Exact g inn) {a : N} (ha : a ∈ g.nodes) (m : N) :
    Reaches (({ g with inn := inn } : Gr N V L).next true) a m ↔ m ∈ g.nodes ∧ Reaches (g.next false) m a := by
  have hstep : ∀ b ∈ g.nodes, ∀ c, c ∈ ({ g with inn := inn } : Gr N V L).next true b ↔ c ∈ g.nodes ∧ b ∈ g.next false c := by
    intro b hb c
    simp only [Gr.next, if_true, Bool.false_eq_true, if_false, List.mem_map]
    constructor
    · rintro ⟨e, he, rfl⟩
      rw [(hE b hb).mem_iff] at he
      simp only [reversed, List.mem_flatMap, List.mem_map, List.mem_filter, decide_eq_true_eq] at he
      obtain ⟨d, hd, f, ⟨hf, hfb⟩, rfl⟩ := he
      exact ⟨hd, f, hf, hfb⟩
    · rintro ⟨hc, f, hf, hfb⟩
      refine ⟨(f.1, c), ?_, rfl⟩
      rw [(hE b hb).mem_iff]
      simp only [reversed, List.mem_flatMap, List.mem_map, List.mem_filter, decide_eq_true_eq]
      exact ⟨c, hc, f, ⟨hf, hfb⟩, rfl⟩
  constructor
  · intro h
    induction h with
    | refl => exact ⟨ha, .refl⟩
    | tail _ hbc ih =>
      obtain ⟨hb, hr⟩ := ih
      obtain ⟨hc, hs⟩ := (hstep _ hb _).1 hbc
      exact ⟨hc, .head hs hr⟩
  · rintro ⟨hm, h⟩
    induction h using Relation.ReflTransGen.head_induction_on with
    | refl => exact .refl
    | @head b c hbc hca ih =>
      have hc : c ∈ g.nodes := (hg.reach c).2 (((hg.reach b).1 hm).tail hbc)
      exact (ih hc).tail ((hstep c hc b).2 ⟨hm, hbc⟩)

/-- A graph with a loop, two parallel edges, and two ways to the last vertex. -/
def kite : Gr Nat Nat Nat where
  nodes := List.range 4
  base := 0
  vertex := id
  out m := [[(7, 1), (7, 1), (8, 2)], [(9, 3)], [(9, 3), (6, 2)], [(5, 0)]].getD m []
  inn _ := []

theorem kite_wf : kite.WF := wf_range (k := 4) rfl rfl (by decide) (by decide) (by decide)

/-- Non-vacuity of C31: on three lanes, the last vertex gets two edges, the second gets two with the same label, and the third one gets its
loop. -/
example : ∃ inn, Launched (full kite.out id (show 0 < 3 by decide)) kite inn 0 ∧ (inn 3).Perm [(9, 1), (9, 2)] ∧ (inn 1).Perm [(7, 0), (7, 0)] ∧
    (inn 2).Perm [(8, 0), (6, 2)] ∧ (inn 0).Perm [(5, 3)] ∧ halfDuplex { kite with inn := inn } = false := by
  obtain ⟨inn, h⟩ := (C31_terminates kite_wf id (show 0 < 3 by decide)).2.1
  have hE := (C31_exact kite_wf h).1
  refine ⟨inn, h, hE 3 (by decide), hE 1 (by decide), hE 2 (by decide), hE 0 (by decide), ?_⟩
  have h1 : (inn 1).Perm [(7, 0), (7, 0)] := hE 1 (by decide)
  have h2 : halfDuplex { kite with inn := inn } = (inn 1).isEmpty := rfl
  rw [h2]
  rcases hi : inn 1 with _ | ⟨e, es⟩
  · rw [hi] at h1; exact absurd h1.symm.eq_nil (by decide)
  · rfl

/-- Non-vacuity: the incoming edges can be removed again. -/
example : ∃ inn inn', Launched (full kite.out id (show 0 < 3 by decide)) kite inn 0 ∧ inn 1 ≠ [] ∧
    Launched (half kite.out id (show 0 < 3 by decide)) { kite with inn := inn } inn' 0 ∧ inn' = kite.inn := by
  obtain ⟨inn, h⟩ := (C31_terminates kite_wf id (show 0 < 3 by decide)).2.1
  obtain ⟨inn', h'⟩ := (C31_terminates (g := { kite with inn := inn }) ⟨kite_wf.nodup, kite_wf.reach⟩ id (show 0 < 3 by decide)).2.2
  have hE := (C31_exact kite_wf h).1
  have h1 : (inn 1).Perm [(7, 0), (7, 0)] := hE 1 (by decide)
  exact ⟨inn, inn', h, fun hi => by rw [hi] at h1; exact absurd h1.symm.eq_nil (by decide), h', C31_restored kite_wf rfl h h'⟩

/-- Non-vacuity: only the second and the first vertex, apart from the last one, lead to it without the third. -/
example : ∃ inn, Prepared true id (show 0 < 3 by decide) kite inn 0 ∧
    ∀ m, Reaches (({ kite with inn := inn } : Gr Nat Nat Nat).next true) 3 m ↔ m ∈ List.range 4 ∧ Reaches (kite.next false) m 3 := by
  obtain ⟨inn, h⟩ := (C31_terminates kite_wf id (show 0 < 3 by decide)).2.1
  have hp : Prepared true id (show 0 < 3 by decide) kite inn 0 := by
    rw [Prepared, if_pos (by decide)]; exact h
  exact ⟨inn, hp, C31_backwards kite_wf (C31_prepared kite_wf (.inl fun _ _ => rfl) hp) (by decide)⟩

/-! ## Kill requests -/

/-- A path through all vertices. -/
def path (k : Nat) : Gr Nat Nat Unit where
  nodes := List.range k
  base := 0
  vertex := id
  out m := if m + 1 < k then [((), m + 1)] else []
  inn _ := []

theorem path_wf {k : Nat} (hk : 0 < k) : (path k).WF := by
  refine wf_range rfl rfl hk (fun m hm e he => ?_) (fun m hm h0 => ⟨m - 1, by omega, ((), m), ?_, rfl⟩)
  · simp only [path] at he
    split_ifs at he with h
    · rw [List.mem_singleton.1 he]; exact h
    · cases he
  · simp only [path]
    rw [if_pos (by omega)]
    have : m - 1 + 1 = m := by omega
    rw [this]; exact List.mem_singleton.2 rfl

theorem path_next (k m c : Nat) : c ∈ ((path k).out m).map (·.2) ↔ c = m + 1 ∧ c < k := by
  simp only [path]
  split_ifs with h
  · simp; omega
  · simp; omega

/-- Whether or not it's killed, a traversal of a path visits each vertex after the one before it. -/
theorem path_back {k : Nat} {addr : Nat → Nat} {hn : 0 < n} :
    ∀ x, Bag.Reach (full (path k).out addr hn) (0, none) (Trav.start (path k).inn) x →
      (∀ m, m + 1 ∈ x.1.seen (Build.lane hn (addr (m + 1))) → m ∈ x.1.seen (Build.lane hn (addr m))) ∧
      ∀ m c, (m + 1, c) ∈ x.2 → m ∈ x.1.seen (Build.lane hn (addr m)) := by
  intro x hx
  induction hx with
  | init =>
    refine ⟨fun m h => (by cases h), fun m c h => ?_⟩
    have := congrArg Prod.fst (Multiset.mem_singleton.1 h)
    cases this
  | step hr hs ih =>
    cases hs with
    | env e s b => exact ih
    | handle s p rest =>
      have hmono := (fullRover (path k).out (path k).inn addr hn).mono
        (Rover.inv_reach (W := fullRover (path k).out (path k).inn addr hn) (fun i => rfl) (fun _ _ => rfl) rfl _ hr).I p
      have hmono' : ∀ m, m ∈ s.seen (Build.lane hn (addr m)) → m ∈ (fullIt (path k).out (Build.lane hn (addr p.1)) s p).1.seen (Build.lane hn (addr m)) :=
        fun m h => hmono _ m h
      have hp : Bag.produced (full (path k).out addr hn) s p =
          ((fullIt (path k).out (Build.lane hn (addr p.1)) s p).2.1 : Multiset (Pkt Nat Unit)) := by
        have h : (fullIt (path k).out (Build.lane hn (addr p.1)) s p).2.2 = false :=
          (fullRover (path k).out (path k).inn addr hn).undeferred s p
        have e : Bag.produced (full (path k).out addr hn) s p = ((fullIt (path k).out (Build.lane hn (addr p.1)) s p).2.1 : Multiset (Pkt Nat Unit)) +
          (if (fullIt (path k).out (Build.lane hn (addr p.1)) s p).2.2 then {p} else 0) := rfl
        rw [e, h]; simp
      obtain ⟨ih1, ih2⟩ := ih
      simp only at ih1 ih2
      rw [hp]
      change (∀ m, m + 1 ∈ (fullIt (path k).out (Build.lane hn (addr p.1)) s p).1.seen (Build.lane hn (addr (m + 1))) →
        m ∈ (fullIt (path k).out (Build.lane hn (addr p.1)) s p).1.seen (Build.lane hn (addr m))) ∧
        ∀ m c, (m + 1, c) ∈ ((fullIt (path k).out (Build.lane hn (addr p.1)) s p).2.1 : Multiset (Pkt Nat Unit)) + rest →
          m ∈ (fullIt (path k).out (Build.lane hn (addr p.1)) s p).1.seen (Build.lane hn (addr m))
      obtain ⟨sample, stop, ⟨h1, e⟩ | ⟨h1, h2, e⟩ | ⟨h1, h2, e⟩⟩ := full_cases (out := (path k).out) (Build.lane hn (addr p.1)) s p
      · rw [e] at hmono' ⊢
        exact ⟨ih1, fun m c h => ih2 m c (Multiset.mem_cons_of_mem (by simpa using h))⟩
      · rw [e] at hmono' ⊢
        exact ⟨ih1, fun m c h => ih2 m c (Multiset.mem_cons_of_mem (by simpa using h))⟩
      · refine ⟨fun m h => ?_, fun m c h => ?_⟩
        · by_cases hm : m + 1 ∈ s.seen (Build.lane hn (addr (m + 1)))
          · exact hmono' m (ih1 m hm)
          · have : m + 1 = p.1 := by
              rw [e] at h
              simp only at h
              by_cases hl : Build.lane hn (addr (m + 1)) = Build.lane hn (addr p.1)
              · rw [hl, Function.update_self] at h
                rcases List.mem_append.1 h with h | h
                · rw [hl] at hm; exact absurd h hm
                · exact List.mem_singleton.1 h
              · rw [Function.update_of_ne hl] at h; exact absurd h hm
            refine hmono' m (ih2 m p.2 ?_)
            rw [this]; exact Multiset.mem_cons_self _ _
        · rcases Multiset.mem_add.1 h with h | h
          · rw [e, Multiset.mem_coe] at h
            simp only [scatterOut, List.mem_map] at h
            obtain ⟨f, hf, hfe⟩ := h
            have hf' := (path_next k p.1 f.2).1 (List.mem_map.2 ⟨f, hf, rfl⟩)
            have : m = p.1 := by
              have := congrArg Prod.fst hfe
              simp only at this
              omega
            subst this
            rw [e]
            simp
          · exact hmono' m (ih2 m c (Multiset.mem_cons_of_mem h))

/-- Whether or not it's killed, a traversal of a path visits the second vertex, before kill requests are noticed. -/
theorem path_second {k : Nat} (hk : 2 ≤ k) {addr : Nat → Nat} {hn : 0 < n} :
    ∀ x, Bag.Reach (full (path k).out addr hn) (0, none) (Trav.start (path k).inn) x →
      (x.2 = {(0, none)} ∧ ∃ q, x.1 = { (Trav.start (path k).inn : Trav.Job n Nat _) with killed := q }) ∨
      (x.2 = {(1, some ((), 0))} ∧ (∀ i, x.1.stop i = false ∧ x.1.sample i ≤ 1 ∧ 1 ∉ x.1.seen i)) ∨
      (1 ∈ x.1.seen (Build.lane hn (addr 1)) ∧ x.1.mem 1 ≠ []) := by
  intro x hx
  have hprod : ∀ s p, Bag.produced (full (path k).out addr hn) s p =
      ((fullIt (path k).out (Build.lane hn (addr p.1)) s p).2.1 : Multiset (Pkt Nat Unit)) := by
    intro s p
    have h : (fullIt (path k).out (Build.lane hn (addr p.1)) s p).2.2 = false :=
      (fullRover (path k).out (path k).inn addr hn).undeferred s p
    have e : Bag.produced (full (path k).out addr hn) s p = ((fullIt (path k).out (Build.lane hn (addr p.1)) s p).2.1 : Multiset (Pkt Nat Unit)) +
      (if (fullIt (path k).out (Build.lane hn (addr p.1)) s p).2.2 then {p} else 0) := rfl
    rw [e, h]; simp
  induction hx with
  | init => exact .inl ⟨rfl, 0, rfl⟩
  | step hr hs ih =>
    cases hs with
    | env e s b =>
      rcases ih with ⟨h1, q, h2⟩ | h | h
      · refine .inl ⟨h1, 1, ?_⟩
        simp only at h2
        subst h2; rfl
      · exact .inr (.inl h)
      · exact .inr (.inr h)
    | handle s p rest =>
      rcases ih with ⟨h1, q, h2⟩ | ⟨h1, h2⟩ | ⟨h1, h2⟩
      · simp only at h1 h2
        obtain rfl : p = (0, none) := by
          have : p ∈ ({(0, none)} : Multiset (Pkt Nat Unit)) := by rw [← h1]; simp
          exact Multiset.mem_singleton.1 this
        obtain rfl : rest = 0 := by
          have := congrArg Multiset.card h1
          simpa using this
        refine .inr (.inl ?_)
        rw [hprod]
        change ((fullIt (path k).out (Build.lane hn (addr 0)) s (0, none)).2.1 : Multiset (Pkt Nat Unit)) + 0 = _ ∧
          ∀ i, (fullIt (path k).out (Build.lane hn (addr 0)) s (0, none)).1.stop i = false ∧ (fullIt (path k).out (Build.lane hn (addr 0)) s (0, none)).1.sample i ≤ 1 ∧
            1 ∉ (fullIt (path k).out (Build.lane hn (addr 0)) s (0, none)).1.seen i
        generalize Build.lane hn (addr 0) = i₀
        subst h2
        simp only [fullIt, Trav.poll, Trav.start, scatterOut, path]
        simp only [Bool.false_eq_true, if_false, Function.update_self, List.not_mem_nil]
        simp only [zero_add, (show ((1 % 32 == 0) = false) by decide), Bool.false_and, Bool.false_eq_true, if_false, add_zero]
        rw [if_pos (by omega)]
        refine ⟨rfl, fun i => ?_⟩
        by_cases hi : i = i₀
        · subst hi; simp
        · simp [Function.update_of_ne hi]
      · simp only at h1 h2
        obtain rfl : p = (1, some ((), 0)) := by
          have : p ∈ ({(1, some ((), 0))} : Multiset (Pkt Nat Unit)) := by rw [← h1]; simp
          exact Multiset.mem_singleton.1 this
        refine .inr (.inr ?_)
        change 1 ∈ (fullIt (path k).out (Build.lane hn (addr 1)) s (1, some ((), 0))).1.seen (Build.lane hn (addr 1)) ∧
          (fullIt (path k).out (Build.lane hn (addr 1)) s (1, some ((), 0))).1.mem 1 ≠ []
        generalize Build.lane hn (addr 1) = i₀
        obtain ⟨a1, a2, a3⟩ := h2 i₀
        have a4 : ((s.sample i₀ + 1) % 32 == 0) = false := by
          have : (s.sample i₀ + 1) % 32 ≠ 0 := by omega
          simpa using this
        simp only [fullIt, Trav.poll, a1, Bool.false_eq_true, if_false, Function.update_self, a4, Bool.false_and, a3]
        simp
      · simp only at h1 h2
        refine .inr (.inr ⟨?_, ?_⟩)
        · exact (fullRover (path k).out (path k).inn addr hn).mono
            (Rover.inv_reach (W := fullRover (path k).out (path k).inn addr hn) (fun i => rfl) (fun _ _ => rfl) rfl _ hr).I p _ _ h1
        · change (fullIt (path k).out (Build.lane hn (addr p.1)) s p).1.mem 1 ≠ []
          obtain ⟨sample, stop, ⟨c1, e⟩ | ⟨c1, c2, e⟩ | ⟨c1, c2, e⟩⟩ := full_cases (out := (path k).out) (Build.lane hn (addr p.1)) s p <;> rw [e]
          · exact h2
          · simp only
            by_cases hp : p.1 = 1
            · rw [hp, Function.update_self]; simp [h2]
            · rw [Function.update_of_ne (Ne.symm hp)]; exact h2
          · simp only
            by_cases hp : p.1 = 1
            · rw [hp] at c2; exact absurd h1 c2
            · rw [Function.update_of_ne (Ne.symm hp)]; exact h2

theorem full_few {out : N → List (L × N)} {addr : N → Nat} {hn : 0 < n} (i : Fin n) (s : Trav.Job n N (N → List (L × N))) (p : Pkt N L)
    (h : Postpone.Few s ∧ ∀ i, (s.seen i).length ≤ 31) :
    Postpone.Few ((full out addr hn).handle i s p).1 ∧ ∀ j, (((full out addr hn).handle i s p).1.seen j).length ≤ 31 := by
  obtain ⟨h1, h2, h3, h4⟩ := Postpone.poll_few h.1 i
  simp only [full, fullIt]
  split_ifs with c1 c2
  · exact ⟨h1, by rw [h2]; exact h.2⟩
  · exact ⟨h1, by simp only; rw [h2]; exact h.2⟩
  · have c1' : (Trav.poll s i).stop i = false := by simpa using c1
    refine ⟨Postpone.few_append h1 p.1 _ (by rw [h2]; exact h4), fun j => ?_⟩
    simp only
    rw [h2]
    by_cases hj : j = i
    · subst hj
      rw [Function.update_self, List.length_append, List.length_singleton]
      exact (h4 c1').trans (h1.2 j c1').1
    · rw [Function.update_of_ne hj]; exact h.2 j

/-- Incoming edges of a long path can be derived for a part of it only: the second vertex has them and the last one doesn't. -/
theorem path_partial (addr : Nat → Nat) (hn : 0 < n) {k : Nat} (hk : 31 * n + 2 ≤ k) :
    ∃ inn, Launched (full (path k).out addr hn) (path k) inn Build.intKil ∧ inn 1 ≠ [] ∧ inn (k - 1) = [] := by
  have hw : (path k).WF := path_wf (by omega)
  have hr : ∀ m, Reaches (fun m => ((path k).out m).map (·.2)) (path k).base m → m ∈ (path k).nodes := fun m h => by
    rw [hw.reach, next_out]; exact h
  have hacc := (fullRover (path k).out (path k).inn addr hn).acc (i₀ := (0, none)) (g₀ := Trav.start (path k).inn) (fun i => rfl)
    (fun _ _ => rfl) rfl (path k).nodes hr
  have h1 : Net.Reach (full (path k).out addr hn) (0, none) (Trav.start (path k).inn)
      { (init (Trav.start (path k).inn) : State n (Pkt Nat Unit) _) with g := { (Trav.start (path k).inn : Trav.Job n Nat _) with killed := 1 } } :=
    .step (.env ()) trivial .init rfl
  obtain ⟨x, hx, hd, hf, hs⟩ := exists_done_from hn hacc (fun s => Postpone.Few s ∧ ∀ i, (s.seen i).length ≤ 31) full_few _ h1
    ⟨⟨by simp, fun i _ => ⟨by simp [Trav.start], by simp [Trav.start]⟩⟩, by simp [Trav.start]⟩
  have hb := Rover.done_bag hn hx hd
  have hi := Rover.inv_reach (W := fullRover (path k).out (path k).inn addr hn) (fun i => rfl) (fun _ _ => rfl) rfl _ hb
  refine ⟨x.g.mem, ⟨x, hx, hd, rfl, by rw [if_neg hf.1]⟩, ?_, ?_⟩
  · rcases path_second (by omega) _ hb with ⟨h, -⟩ | ⟨h, -⟩ | ⟨-, h⟩
    · simp at h
    · simp at h
    · exact h
  · refine hi.I (k - 1) fun hc => ?_
    have hback := (path_back _ hb).1
    have hall : ∀ j, j < k → k - 1 - j ∈ x.g.seen (Build.lane hn (addr (k - 1 - j))) := by
      intro j
      induction j with
      | zero => intro _; exact hc
      | succ j ih =>
        intro hj
        refine hback (k - 1 - (j + 1)) ?_
        have e : k - 1 - (j + 1) + 1 = k - 1 - j := by omega
        rw [e]; exact ih (by omega)
    have hsub : List.range k ⊆ (fullRover (path k).out (path k).inn addr hn).visited x.g := by
      intro m hm
      rw [List.mem_range] at hm
      refine Rover.mem_visited.2 ⟨Build.lane hn (addr m), ?_⟩
      have := hall (k - 1 - m) (by omega)
      have e : k - 1 - (k - 1 - m) = m := by omega
      rw [e] at this; exact this
    have hlen := (List.nodup_range (n := k)).subperm hsub |>.length_le
    have hle : ((fullRover (path k).out (path k).inn addr hn).visited x.g).length ≤ 31 * n := by
      rw [Rover.visited, List.length_flatMap]
      calc _ ≤ ((List.finRange n).map fun _ => 31).sum := List.sum_le_sum fun i _ => hs i
        _ = 31 * n := by simp [Nat.mul_comm]
    rw [List.length_range] at hlen
    omega

/-- Count the vertices. -/
def counting : MapReduce.Ops Nat Nat :=
  ⟨fun _ _ => ⟨some 1, 0⟩, fun _ x y => ⟨some (x.getD 0 + y.getD 0), 0⟩, none, false⟩

theorem counting_plain : MapReduce.Plain counting (fun _ => some 1) (fun x y => some (x.getD 0 + y.getD 0)) where
  map _ _ := rfl
  red _ _ _ := rfl
  comm x y := by simp [Nat.add_comm]
  assoc x y z := by simp [Nat.add_assoc]

theorem counting_combined (k : Nat) : MapReduce.combined (fun x y : Option Nat => some (x.getD 0 + y.getD 0))
    ((List.range (k + 1)).map fun _ => some 1) = some (some (k + 1)) := by
  induction k with
  | zero => rfl
  | succ k ih => rw [List.range_succ, List.map_append, List.map_singleton, MapReduce.combined_snoc, ih]; simp [Nat.add_comm]

theorem path_zone {k : Nat} (hk : 2 ≤ k) {inn : Nat → List (Unit × Nat)} {addr : Nat → Nat} {hn : 0 < n} {ms : List Nat}
    (hz : MapReduce.IsZone ({ path k with inn := inn } : Gr Nat Nat Unit) true (k - 1) ms) {r : Except Int (Option Nat)}
    (h : MapReduce.Returns counting { path k with inn := inn } true false addr hn (k - 1) r) :
    r = .error Build.intKil ∨ ∃ v, MapReduce.combined (fun x y : Option Nat => some (x.getD 0 + y.getD 0)) (ms.map fun _ => some 1) = some v ∧
      r = .ok v := by
  unfold MapReduce.Returns at h
  rw [if_neg] at h
  · obtain ⟨s, a, b, hs, ho⟩ := h
    have := MapReduce.C18_concurrent counting_plain hs ho hz
    by_cases hk : s.killed = 0
    · exact .inr (this.1 hk)
    · exact .inl (this.2 hk)
  · have hh : (List.range k).head? = some 0 := by
      obtain ⟨j, rfl⟩ : ∃ j, k = j + 1 := ⟨k - 1, by omega⟩
      rw [List.range_succ_eq_map]; rfl
    have h0 : ¬ (0 = k - 1) := by omega
    simp [MapReduce.usesSequential, path, hh, h0]

/-- **C73.** With any number of lanes, consider counting the vertices that lead to the last one of a path of `k`.  Usually there are `k` of
them.  If the call is killed, it returns an error as it should, but it can leave the graph in a state where the same call returns 1
and no error: incoming edges were derived for a part of the graph only, and the test doesn't notice. -/
theorem C73_stale (addr : Nat → Nat) (hn : 0 < n) {k : Nat} (hk : 31 * n + 2 ≤ k) :
    (∀ inn r, Mapreduced counting (path k) true false addr hn (k - 1) inn r → r = .ok (some k) ∨ r = .error Build.intKil) ∧
    ∃ inn, Mapreduced counting (path k) true false addr hn (k - 1) inn (.error Build.intKil) ∧
      ¬ Exact (path k) inn ∧
      (∀ inn' r, Mapreduced counting { path k with inn := inn } true false addr hn (k - 1) inn' r →
        inn' = inn ∧ (r = .ok (some 1) ∨ r = .error Build.intKil)) ∧
      Mapreduced counting { path k with inn := inn } true false addr hn (k - 1) inn (.ok (some 1)) := by
  have hw : (path k).WF := path_wf (by omega)
  have hlast : k - 1 ∈ (path k).nodes := List.mem_range.2 (by omega)
  have hhalf : halfDuplex (path k) = true := (C31_recognized hw).1 fun _ _ => rfl
  refine ⟨?_, ?_⟩
  · rintro inn r ⟨err, hp, hr⟩
    have hp' := hp
    rw [Prepared, if_pos (by simp [hhalf])] at hp
    by_cases he : err = 0
    · subst he
      rw [if_neg (by simp)] at hr
      have hE := C31_prepared hw (.inl fun _ _ => rfl) hp'
      have hz : MapReduce.IsZone ({ path k with inn := inn } : Gr Nat Nat Unit) true (k - 1) (List.range k) := by
        refine ⟨List.nodup_range, fun m => ?_⟩
        rw [C31_backwards hw hE hlast]
        refine ⟨fun hm => ⟨hm, ?_⟩, fun hm => hm.1⟩
        rw [List.mem_range] at hm
        have : ∀ j, m + j < k → Reaches ((path k).next false) m (m + j) := by
          intro j
          induction j with
          | zero => intro _; exact .refl
          | succ j ih =>
            intro hj
            refine (ih (by omega)).tail ?_
            rw [next_out]
            exact (path_next k (m + j) _).2 ⟨rfl, hj⟩
        have h2 := this (k - 1 - m) (by omega)
        have e : m + (k - 1 - m) = k - 1 := by omega
        rwa [e] at h2
      rcases path_zone (by omega) hz hr with h | ⟨v, hv, rfl⟩
      · exact .inr h
      · left
        obtain ⟨j, rfl⟩ : ∃ j, k = j + 1 := ⟨k - 1, by omega⟩
        rw [counting_combined] at hv
        cases hv; rfl
    · rw [if_pos he] at hr
      right
      obtain ⟨x, -, -, -, hk⟩ := hp
      rw [hr, hk]
      split_ifs at hk ⊢ with c
      · exact absurd hk he
      · rfl
  · obtain ⟨inn, hl, h1, h2⟩ := path_partial addr hn hk
    have hd : halfDuplex { path k with inn := inn } = false := by
      have ho : (path k).out 0 = [((), 1)] := by simp only [path]; rw [if_pos (by omega)]
      rw [halfDuplex_cons (g := { path k with inn := inn }) ho]
      simpa using h1
    have hz : MapReduce.IsZone ({ path k with inn := inn } : Gr Nat Nat Unit) true (k - 1) [k - 1] := by
      refine ⟨by simp, fun m => ⟨fun hm => by rw [List.mem_singleton.1 hm], fun hm => ?_⟩⟩
      rcases Relation.ReflTransGen.cases_head hm with h | ⟨c, hc, -⟩
      · simp [h]
      · simp [Gr.next, h2] at hc
    refine ⟨inn, ⟨Build.intKil, ?_, ?_⟩, ?_, ?_, ?_⟩
    · rw [Prepared, if_pos (by simp [hhalf])]; exact hl
    · rw [if_pos (by decide)]
    · intro hE
      have hmem : ((), k - 2) ∈ reversed (path k).out (path k).nodes (k - 1) := by
        simp only [reversed, List.mem_flatMap, List.mem_map, List.mem_filter, decide_eq_true_eq]
        refine ⟨k - 2, List.mem_range.2 (by omega), ((), k - 1), ⟨?_, rfl⟩, rfl⟩
        simp only [path]
        rw [if_pos (by omega), List.mem_singleton]
        congr 1; omega
      rw [← (hE (k - 1) hlast).mem_iff, h2] at hmem
      cases hmem
    · rintro inn' r ⟨err, hp, hr⟩
      rw [Prepared, if_neg (by simp [hd])] at hp
      obtain ⟨rfl, rfl⟩ := hp
      rw [if_neg (by simp)] at hr
      refine ⟨rfl, ?_⟩
      rcases path_zone (by omega) hz hr with h | ⟨v, hv, rfl⟩
      · exact .inr h
      · cases hv; exact .inl rfl
    · refine ⟨0, by rw [Prepared, if_neg (by simp [hd])]; exact ⟨rfl, rfl⟩, ?_⟩
      rw [if_neg (by simp)]
      obtain ⟨-, s, hs, hk0, r, made, freed, ho⟩ := MapReduce.C18_terminates counting addr hn hz
      have hv := (MapReduce.C18_concurrent counting_plain hs ho hz).1 hk0
      obtain ⟨v, hv, rfl⟩ := hv
      cases hv
      unfold MapReduce.Returns
      rw [if_neg]
      · exact ⟨s, made, freed, hs, ho⟩
      · have hh : (List.range k).head? = some 0 := by
          obtain ⟨j, rfl⟩ : ∃ j, k = j + 1 := ⟨k - 1, by omega⟩
          rw [List.range_succ_eq_map]; rfl
        have h0 : ¬ (0 = k - 1) := by omega
        simp [MapReduce.usesSequential, path, hh, h0]

/-- Non-vacuity of C73: four lanes and 126 vertices. -/
example : ∃ inn, Mapreduced counting (path 126) true false (16 * ·) (show 0 < 4 by decide) 125 inn (.error Build.intKil) ∧
    Mapreduced counting { path 126 with inn := inn } true false (16 * ·) (show 0 < 4 by decide) 125 inn (.ok (some 1)) := by
  obtain ⟨-, inn, h1, -, -, h2⟩ := C73_stale (16 * ·) (show 0 < 4 by decide) (k := 126) (by decide)
  exact ⟨inn, h1, h2⟩

end Cru.Duplex
