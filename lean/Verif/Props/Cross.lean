import Verif.Spec.Cross
import Verif.Props.Fab

/-! # C17 and C74: crossing -/

namespace Cru.Cross

open Net

variable {n : Nat} {N V V' L L' W M : Type}

theorem packets_eq (x : Crosser V V' L L' W M) (ls : List (L × N)) (rs : List (L' × N)) :
    (packets x ls rs).reverse = ls.flatMap fun l => (rs.filter fun r => x.bpred l.1 r.1).map fun r => (x.bop l.1 r.1, (l.2, r.2)) := by
  have h1 : ∀ (l : L × N) (rs : List (L' × N)) acc,
      rs.foldl (fun acc r => if x.bpred l.1 r.1 then (x.bop l.1 r.1, (l.2, r.2)) :: acc else acc) acc =
      ((rs.filter fun r => x.bpred l.1 r.1).map fun r => (x.bop l.1 r.1, (l.2, r.2))).reverse ++ acc := by
    intro l rs
    induction rs with
    | nil => intro acc; rfl
    | cons a rs ih =>
      intro acc
      rw [List.foldl_cons, ih, List.filter_cons]
      by_cases h : x.bpred l.1 a.1 <;> simp [h]
  have h2 : ∀ (ls : List (L × N)) acc,
      ls.foldl (fun acc l => rs.foldl (fun acc r => if x.bpred l.1 r.1 then (x.bop l.1 r.1, (l.2, r.2)) :: acc else acc) acc) acc =
      (ls.flatMap fun l => (rs.filter fun r => x.bpred l.1 r.1).map fun r => (x.bop l.1 r.1, (l.2, r.2))).reverse ++ acc := by
    intro ls
    induction ls with
    | nil => intro acc; rfl
    | cons a ls ih =>
      intro acc
      rw [List.foldl_cons, ih, h1]
      simp
  rw [packets, h2, List.append_nil, List.reverse_reverse]

theorem edges_eq (x : Crosser V V' L L' W M) (g : Gr N V L) (h : Gr N V' L') : (maker x g h).edges = joint x g h := by
  funext p
  exact packets_eq x (g.out p.1) (h.out p.2)

theorem limit_zero {lim lanes : Nat} : limit lim lanes = 0 ↔ lim = 0 := by
  unfold limit
  by_cases h : lim = 0
  · simp [h]
  · simp only [h, ne_eq, not_false_eq_true, if_true]
    split_ifs <;> simp_all

/-- **C17.** There are only finitely many reachable pairs, all of them pairs of a vertex of one graph and a vertex of the other. -/
theorem C17_pairs (x : Crosser V V' L L' W M) {g : Gr N V L} {h : Gr N V' L'} (hg : g.WF) (hh : h.WF) :
    ∃ pairs, Pairs x g h pairs ∧ ∀ p ∈ pairs, p.1 ∈ g.nodes ∧ p.2 ∈ h.nodes := by
  classical
  have hin : ∀ p, Reaches (fun p => (joint x g h p).map (·.2)) (g.base, h.base) p → p.1 ∈ g.nodes ∧ p.2 ∈ h.nodes := by
    intro p hp
    induction hp with
    | refl => exact ⟨(hg.reach _).2 .refl, (hh.reach _).2 .refl⟩
    | @tail b c _ hs ih =>
      obtain ⟨e, he, rfl⟩ := List.mem_map.1 hs
      obtain ⟨l, hl, he⟩ := List.mem_flatMap.1 he
      obtain ⟨r, hr, rfl⟩ := List.mem_map.1 he
      refine ⟨(hg.reach _).2 (((hg.reach _).1 ih.1).tail ?_), (hh.reach _).2 (((hh.reach _).1 ih.2).tail ?_)⟩
      · rw [Duplex.next_out]; exact List.mem_map.2 ⟨l, hl, rfl⟩
      · rw [Duplex.next_out]; exact List.mem_map.2 ⟨r, (List.mem_filter.1 hr).1, rfl⟩
  refine ⟨((g.nodes.flatMap fun a => h.nodes.map fun b => (a, b)).filter fun p =>
    decide (Reaches (fun p => (joint x g h p).map (·.2)) (g.base, h.base) p)).dedup, ⟨List.nodup_dedup _, fun p => ?_⟩, fun p hp => ?_⟩
  · rw [List.mem_dedup, List.mem_filter, decide_eq_true_eq]
    refine ⟨And.right, fun hp => ⟨?_, hp⟩⟩
    exact List.mem_flatMap.2 ⟨p.1, (hin p hp).1, List.mem_map.2 ⟨p.2, (hin p hp).2, rfl⟩⟩
  · rw [List.mem_dedup, List.mem_filter, decide_eq_true_eq] at hp
    exact hin p hp.2

variable [DecidableEq N]

/-- **C17.** Whatever graph is returned, with any number of lanes and any schedule, it's the product of the two, and it's well-formed. -/
theorem C17_product {x : Crosser V V' L L' W M} {g : Gr N V L} {h : Gr N V' L'} {addr : N → Nat} {hn : 0 < n} {pairs : List (N × N)}
    (hp : Pairs x g h pairs) {r : Gr (Spawn.Id n) (Option W) M} (hc : Crossed x addr hn g h (.ok r)) : IsProduct x g h pairs r ∧ r.WF := by
  have hp' : Covers (fun p => ((maker x g h).edges p).map (·.2)) (g.base, h.base) pairs := by rw [edges_eq]; exact hp
  have hd := (Spawn.launched_ok hp' hc).1
  refine ⟨?_, hd.wf hp'⟩
  rw [edges_eq] at hd
  exact hd

/-- **C17.** Every run ends. -/
theorem C17_terminates (x : Crosser V V' L L' W M) {g : Gr N V L} {h : Gr N V' L'} (hg : g.WF) (hh : h.WF) (addr : N → Nat) (hn : 0 < n)
    (f : Nat → State n (Spawn.Pkt n (N × N)) (Spawn.Work n (N × N) W M))
    (h0 : Net.Reach (Spawn.task (maker x g h) (limit x.vertexLimit n) (rash addr) hn) ⟨(g.base, h.base), none⟩ Spawn.start (f 0)) :
    ¬ ∀ j, step (Spawn.task (maker x g h) (limit x.vertexLimit n) (rash addr) hn) ⟨(g.base, h.base), none⟩ .main (f j) = some (f (j + 1)) ∨
      ∃ i, step (Spawn.task (maker x g h) (limit x.vertexLimit n) (rash addr) hn) ⟨(g.base, h.base), none⟩ (.worker i) (f j) = some (f (j + 1)) := by
  obtain ⟨pairs, hp, -⟩ := C17_pairs x hg hh
  have hp' : Covers (fun p => ((maker x g h).edges p).map (·.2)) (g.base, h.base) pairs := by rw [edges_eq]; exact hp
  exact fun hf => no_infinite_run hn (Spawn.ends hp') f h0 hf

/-- **C74.** A graph is returned only if no lane is sent more pairs than its part of the limit. -/
theorem C74_within {x : Crosser V V' L L' W M} {g : Gr N V L} {h : Gr N V' L'} {addr : N → Nat} {hn : 0 < n} {pairs : List (N × N)}
    (hp : Pairs x g h pairs) {r : Gr (Spawn.Id n) (Option W) M} (hc : Crossed x addr hn g h (.ok r)) :
    x.vertexLimit ≠ 0 → ∀ i, share addr hn pairs i ≤ max (x.vertexLimit / n) 1 := by
  have hp' : Covers (fun p => ((maker x g h).edges p).map (·.2)) (g.base, h.base) pairs := by rw [edges_eq]; exact hp
  intro h0 i
  refine le_trans ((Spawn.launched_ok hp' hc).2 (fun h => h0 (limit_zero.1 h)) i) ?_
  unfold limit
  split_ifs <;> omega

/-- **C74.** The errors are CRU_INTKIL, and CRU_INTOVF only if some lane is sent more pairs than its part of the limit. -/
theorem C74_beyond {x : Crosser V V' L L' W M} {g : Gr N V L} {h : Gr N V' L'} {addr : N → Nat} {hn : 0 < n} {pairs : List (N × N)}
    (hp : Pairs x g h pairs) {e : Int} (hc : Crossed x addr hn g h (.error e)) :
    e = Build.intKil ∨ e = Build.intOvf ∧ x.vertexLimit ≠ 0 ∧ ∃ i, max (x.vertexLimit / n) 1 < share addr hn pairs i := by
  have hp' : Covers (fun p => ((maker x g h).edges p).map (·.2)) (g.base, h.base) pairs := by rw [edges_eq]; exact hp
  rcases Spawn.launched_error hp' hc with h1 | ⟨h1, h2, i, h3⟩
  · exact .inl h1
  · have h0 : x.vertexLimit ≠ 0 := fun h => h2 (limit_zero.2 h)
    refine .inr ⟨h1, h0, i, lt_of_le_of_lt ?_ h3⟩
    unfold limit
    split_ifs with h4 h5
    · exact max_le le_rfl (Nat.pos_of_ne_zero h4)
    · rw [not_not.1 h4]; simp

/-- **C74.** So whether there's an overflow in a call that isn't killed doesn't depend on the schedule. -/
theorem C74_verdict (x : Crosser V V' L L' W M) {g : Gr N V L} {h : Gr N V' L'} {addr : N → Nat} {hn : 0 < n} {pairs : List (N × N)}
    (hp : Pairs x g h pairs) :
    (∃ r, Crossed x addr hn g h r ∧ r ≠ .error Build.intKil) ∧
    ∀ r, Crossed x addr hn g h r → r ≠ .error Build.intKil →
      (r = .error Build.intOvf ↔ x.vertexLimit ≠ 0 ∧ ∃ i, max (x.vertexLimit / n) 1 < share addr hn pairs i) := by
  have hp' : Covers (fun p => ((maker x g h).edges p).map (·.2)) (g.base, h.base) pairs := by rw [edges_eq]; exact hp
  refine ⟨Spawn.unkilled hp', fun r hr hk => ?_⟩
  rcases r with e | r
  · rcases C74_beyond hp hr with rfl | ⟨rfl, h1⟩
    · exact absurd rfl hk
    · exact ⟨fun _ => h1, fun _ => rfl⟩
  · refine ⟨fun h => (by cases h), fun ⟨h0, i, h1⟩ => ?_⟩
    exact absurd (C74_within hp hr h0 i) (by omega)

theorem share_sum (addr : N → Nat) (hn : 0 < n) (pairs : List (N × N)) : ((List.finRange n).map (share addr hn pairs)).sum = pairs.length := by
  induction pairs with
  | nil =>
    have : share addr hn [] = fun _ => 0 := rfl
    rw [this]
    simp
  | cons p ps ih =>
    have : ∀ i, share addr hn (p :: ps) i = (if Build.lane hn (rash addr p) = i then 1 else 0) + share addr hn ps i := by
      intro i
      unfold share
      rw [List.filter_cons]
      by_cases hi : Build.lane hn (rash addr p) = i <;> simp [hi]; omega
    have h2 : share addr hn (p :: ps) = fun i => (if Build.lane hn (rash addr p) = i then 1 else 0) + share addr hn ps i := funext this
    rw [h2, List.sum_map_add, ih, List.length_cons, Nat.add_comm]
    congr 1
    generalize Build.lane hn (rash addr p) = j
    have hj := List.mem_finRange j
    have hd := List.nodup_finRange n
    have h3 : ∀ l : List (Fin n), (l.map fun i => if j = i then 1 else 0).sum = l.count j := by
      intro l
      induction l with
      | nil => rfl
      | cons a l ih =>
        rw [List.map_cons, List.sum_cons, ih, List.count_cons]
        by_cases h : j = a
        · simp [h]; omega
        · simp [h, Ne.symm h]
    rw [h3, List.count_eq_one_of_mem hd hj]

/-- **C74.** The graph returned has at most as many vertices as the limit, or one for each lane if that's more. -/
theorem C74_bound {x : Crosser V V' L L' W M} {g : Gr N V L} {h : Gr N V' L'} {addr : N → Nat} {hn : 0 < n} (hg : g.WF) (hh : h.WF)
    {r : Gr (Spawn.Id n) (Option W) M} (hc : Crossed x addr hn g h (.ok r)) (h0 : x.vertexLimit ≠ 0) :
    r.nodes.length ≤ max x.vertexLimit n := by
  obtain ⟨pairs, hp, -⟩ := C17_pairs x hg hh
  obtain ⟨φ, -, h1, -⟩ := (C17_product hp hc).1
  rw [h1.length_eq, List.length_map, ← share_sum addr hn pairs]
  have h2 := List.sum_le_card_nsmul ((List.finRange n).map (share addr hn pairs)) (max (x.vertexLimit / n) 1) (by
    intro y hy
    obtain ⟨i, -, rfl⟩ := List.mem_map.1 hy
    exact C74_within hp hc h0 i)
  rw [List.length_map, List.length_finRange, smul_eq_mul] at h2
  refine h2.trans ?_
  rcases le_total (x.vertexLimit / n) 1 with h3 | h3
  · rw [max_eq_right h3]; omega
  · rw [max_eq_left h3]
    exact (Nat.mul_div_le _ _).trans (le_max_left _ _)

/-- A ring of `k` nodes, whose edges are labelled by the nodes they come from. -/
def ring (k : Nat) : Gr Nat Nat Nat := ⟨List.range k, 0, (· + 10), fun m => [(m, (m + 1) % k)], fun _ => []⟩

/-- All pairs of edges, and sums. -/
def adder (lim : Nat) : Crosser Nat Nat Nat Nat Nat Nat := ⟨(· + ·), fun _ _ => true, (· + ·), lim⟩

theorem ring_wf (k : Nat) (hk : 0 < k) : (ring k).WF := by
  refine wf_range (k := k) rfl rfl hk (fun m _ e he => ?_) (fun m hm h0 => ?_)
  · rw [List.mem_singleton.1 he]; exact Nat.mod_lt _ hk
  · refine ⟨m - 1, by omega, (m - 1, (m - 1 + 1) % k), List.mem_singleton.2 rfl, ?_⟩
    simp only
    rw [Nat.sub_add_cancel (by omega), Nat.mod_eq_of_lt hm]

theorem ring_pairs (lim : Nat) : Pairs (adder lim) (ring 2) (ring 3) [(0, 0), (1, 1), (0, 2), (1, 0), (0, 1), (1, 2)] := by
  have hs : ∀ p q, q ∈ (joint (adder lim) (ring 2) (ring 3) p).map (·.2) ↔ q = ((p.1 + 1) % 2, (p.2 + 1) % 3) := by
    intro p q; simp [joint, ring, adder]
  refine ⟨by decide, fun p => ⟨fun hp => ?_, fun hp => ?_⟩⟩
  · have h0 : Reaches (fun p => (joint (adder lim) (ring 2) (ring 3) p).map (·.2)) (0, 0) (0, 0) := .refl
    have h1 := h0.tail ((hs (0, 0) (1, 1)).2 rfl)
    have h2 := h1.tail ((hs (1, 1) (0, 2)).2 rfl)
    have h3 := h2.tail ((hs (0, 2) (1, 0)).2 rfl)
    have h4 := h3.tail ((hs (1, 0) (0, 1)).2 rfl)
    have h5 := h4.tail ((hs (0, 1) (1, 2)).2 rfl)
    simp only [List.mem_cons, List.not_mem_nil, or_false] at hp
    rcases hp with rfl | rfl | rfl | rfl | rfl | rfl <;> assumption
  · induction hp with
    | refl => decide
    | tail _ h ih =>
      rw [hs] at h
      subst h
      simp only [List.mem_cons, List.not_mem_nil, or_false] at ih
      rcases ih with rfl | rfl | rfl | rfl | rfl | rfl <;> decide

/-- Non-vacuity of C17: on two lanes, the product of a ring of two and a ring of three is a ring of six. -/
example : ∃ r, Crossed (adder 8) id (show 0 < 2 by decide) (ring 2) (ring 3) (.ok r) ∧ r.nodes.length = 6 ∧
    ∃ φ : Nat × Nat → Spawn.Id 2, r.base = φ (0, 0) ∧ r.vertex (φ (1, 2)) = some 23 ∧ r.out (φ (0, 2)) = [(2, φ (1, 0))] := by
  obtain ⟨⟨r, hr, hk⟩, h2⟩ := C74_verdict (n := 2) (addr := id) (hn := by decide) (adder 8) (ring_pairs 8)
  have h3 := (h2 r hr hk).not.2 (by rintro ⟨-, i, hi⟩; revert hi; revert i; decide)
  rcases r with e | r
  · rcases C74_beyond (ring_pairs 8) hr with rfl | ⟨rfl, -⟩
    · exact absurd rfl hk
    · exact absurd rfl h3
  · obtain ⟨φ, -, h4, h5, h6⟩ := (C17_product (ring_pairs 8) hr).1
    refine ⟨r, hr, by rw [h4.length_eq]; rfl, φ, h5, (h6 (1, 2) (by decide)).1, ?_⟩
    exact List.perm_singleton.1 (h6 (0, 2) (by decide)).2.1

/-- Non-vacuity of C74: with a limit of six, that always fails on two lanes, because four of the pairs are sent to one of them. -/
example : ∀ r, Crossed (adder 6) id (show 0 < 2 by decide) (ring 2) (ring 3) r → r = .error Build.intKil ∨ r = .error Build.intOvf := by
  intro r hr
  by_cases hk : r = .error Build.intKil
  · exact .inl hk
  · exact .inr (((C74_verdict (adder 6) (ring_pairs 6)).2 r hr hk).2 ⟨by decide, 1, by decide⟩)

end Cru.Cross
