import Verif.Model.MergeKill
import Verif.Proofs.Cull
import Verif.Proofs.TravKill
import Verif.Props.Merge
import Verif.Props.Dedup

/-! # C114: kills while vertices are merged, and C115: kills while the merged graph is pruned -/

namespace Cru.Merge

open Net Table Partition

variable {n : Nat} {N V L X : Type} [DecidableEq N] [DecidableEq X] {g : Gr N V L} {c : Classifier N X}
  {same : Option X → Option X → Bool} {addr : N → Nat} {prop : N → Option X}

/-- The classes after vertices are merged, whether or not the operation was killed. -/
theorem merging_grouped (heq : ∀ t x y, c.equal t x y = (same x y, 0)) (hs : IsEquality same)
    (hh : HashRespects c.hash same) {hn : 0 < n} {y : State n N (Trav.Job n N (Cull.Mem n N (Mem n N)))}
    (hy : Net.Reach (mergingTask g prop c.hash c.equal hn) g.base mergingStart y) :
    (∀ i, y.g.err i = 0) ∧
    IsGrouping (fun a b => same (prop a) (prop b) = true) ((List.finRange n).flatMap y.g.seen) (classesMade prop c.hash y.g) ∧
    ∀ k ∈ classesMade prop c.hash y.g, g.base ∈ k → k.head? = some g.base := by
  have hi := Cull.induct_first (motive := Inv g prop c.hash same hn) inv_start
    (fun seen err s m hi _ _ hm hfirst => inv_visit heq hs seen err s m hi hm hfirst) _ (reach_bag hn hy)
  exact ⟨hi.noErr, classes_grouping (x := Cull.plain y.g) hs hh hi⟩

/-- How nodes are divided between classes and culled ones. -/
theorem merging_divided (hw : g.WF) (heq : ∀ t x y, c.equal t x y = (same x y, 0)) (hs : IsEquality same)
    (hh : HashRespects c.hash same) {hn : 0 < n} {y : State n N (Trav.Job n N (Cull.Mem n N (Mem n N)))}
    (hy : Net.Reach (mergingTask g prop c.hash c.equal hn) g.base mergingStart y) (hd : y.main = .done) :
    (∀ a, a ∈ g.nodes ↔ (∃ k ∈ classesMade prop c.hash y.g, a ∈ k) ∨ a ∈ culled y.g) ∧
    (∀ k ∈ classesMade prop c.hash y.g, ∀ a ∈ k, a ∉ culled y.g) ∧ ∃ k ∈ classesMade prop c.hash y.g, g.base ∈ k := by
  obtain ⟨-, hg, -⟩ := merging_grouped heq hs hh hy
  have hp := Cull.done_perm hy hd ⟨hw.nodup, hw.reach⟩
  have hcls : ∀ a, (∃ k ∈ classesMade prop c.hash y.g, a ∈ k) ↔ ∃ i, a ∈ y.g.seen i := by
    intro a
    rw [← List.mem_flatten, hg.perm.mem_iff]
    simp
  have hcul : ∀ a, a ∈ culled y.g ↔ ∃ i, a ∈ y.g.mem.culled i := by intro a; simp [culled]
  refine ⟨?_, ?_, ?_⟩
  · intro a
    rw [hcls, hcul, ← hp.mem_iff]
    simp only [List.mem_flatMap, List.mem_finRange, true_and, List.mem_append, List.mem_reverse]
    exact exists_or
  · intro k hk a ha hc
    obtain ⟨i, hi⟩ := (hcls a).1 ⟨k, hk, ha⟩
    obtain ⟨j, hj⟩ := (hcul a).1 hc
    have hn' := Cull.rover_inv _ (Rover.done_bag hn hy hd)
    have h1 := hn'.home i a (List.mem_append_left _ hi)
    have h2 := hn'.home j a (List.mem_append_right _ (List.mem_reverse.2 hj))
    have hij : i = j := h1.symm.trans h2
    subst hij
    exact (List.nodup_append.1 (hn'.nodup i)).2.2 a hi a (List.mem_reverse.2 hj) rfl
  · rw [hcls]
    rcases Cull.first _ (Rover.done_bag hn hy hd) with ⟨h, -⟩ | h
    · exact absurd h (by simp)
    · exact ⟨_, h⟩

/-- Some class has an edge to a culled node, if there are any. -/
theorem strays (hw : g.WF) (heq : ∀ t x y, c.equal t x y = (same x y, 0)) (hs : IsEquality same)
    (hh : HashRespects c.hash same) {hn : 0 < n} {y : State n N (Trav.Job n N (Cull.Mem n N (Mem n N)))}
    (hy : Net.Reach (mergingTask g prop c.hash c.equal hn) g.base mergingStart y) (hd : y.main = .done) {m : N} (hm : m ∈ culled y.g)
    {P : N → Prop} (hb : P g.base) (hP : ∀ a, P a → ∀ b ∈ g.next false a, b ∉ culled y.g → P b) :
    ∃ k ∈ classesMade prop c.hash y.g, ∃ a ∈ k, P a ∧ ∃ e ∈ g.out a, e.2 ∈ culled y.g := by
  obtain ⟨h1, h2, k, hk, hbk⟩ := merging_divided hw heq hs hh hy hd
  have hr := (hw.reach m).1 ((h1 m).2 (.inr hm))
  obtain ⟨a, ⟨ha, hac, hPa⟩, b, hb, hbn⟩ := Dedup.crossing hr (P := fun a => a ∈ g.nodes ∧ a ∉ culled y.g ∧ P a)
    ⟨(hw.reach _).2 .refl, h2 k hk _ hbk, hb⟩ (fun h => h.2.1 hm)
  obtain ⟨k', hk', hak'⟩ := ((h1 a).1 ha).resolve_right hac
  obtain ⟨e, he, rfl⟩ := List.mem_map.1 hb
  refine ⟨k', hk', a, hak', hPa, e, he, ?_⟩
  by_contra hc
  exact hbn ⟨(hw.reach _).2 (((hw.reach _).1 ha).tail hb), hc, hP a hPa _ hb hc⟩

/-- **C114.** If a worker of `cru_merged` culls a node because of a kill, then no error results, but when the edges of classes are
merged by an edge operation with a `map`, at least one edge for which the function would be called leads to a node whose class field
isn't a pointer, if there's no pruner. -/
theorem C114_map (hw : g.WF) (heq : ∀ t x y, c.equal t x y = (same x y, 0)) (hs : IsEquality same)
    (hh : HashRespects c.hash same) {hn : 0 < n} {y : State n N (Trav.Job n N (Cull.Mem n N (Mem n N)))}
    (hy : Net.Reach (mergingTask g prop c.hash c.equal hn) g.base mergingStart y) (hd : y.main = .done) (hc : culled y.g ≠ []) :
    (∀ i, y.g.err i = 0) ∧ ∃ k ∈ classesMade prop c.hash y.g, ∃ a ∈ k, ∃ e ∈ g.out a,
      classRef (classesMade prop c.hash y.g) (culled y.g) e.2 = none := by
  obtain ⟨m, hm⟩ := List.exists_mem_of_ne_nil _ hc
  obtain ⟨k, hk, a, ha, -, e, he, hec⟩ := strays hw heq hs hh hy hd hm (P := fun _ => True) trivial fun _ _ _ _ _ => trivial
  exact ⟨(merging_grouped heq hs hh hy).1, k, hk, a, ha, e, he, by unfold classRef; rw [if_pos hec]⟩

theorem pointer_injective (ha : Function.Injective addr) (h3 : ∀ m, addr m ≠ 3) : Function.Injective (pointer addr) := by
  intro a b h
  cases a <;> cases b
  · rfl
  · exact absurd h.symm (h3 _)
  · exact absurd h (h3 _)
  · exact congrArg some (ha h)

/-- The heads of classes reachable through marked edges are nodes. -/
theorem marked_nodes (hw : g.WF) (heq : ∀ t x y, c.equal t x y = (same x y, 0)) (hs : IsEquality same)
    (hh : HashRespects c.hash same) (ha : Function.Injective addr) (h3 : ∀ m, addr m ≠ 3) {o : LabelOps L} (hl : IsEquality o.eq)
    (hlh : HashRespects o.hash o.eq) {hn : 0 < n} {y : State n N (Trav.Job n N (Cull.Mem n N (Mem n N)))}
    (hy : Net.Reach (mergingTask g prop c.hash c.equal hn) g.base mergingStart y) (hd : y.main = .done) (m : N)
    (hm : Reaches (fun m => (markedEdges g o addr (classesMade prop c.hash y.g) (culled y.g) m).filterMap Prod.snd) g.base m) :
    m ∈ g.nodes := by
  obtain ⟨-, hg, hbase⟩ := merging_grouped heq hs hh hy
  obtain ⟨h1, h2, kb, hkb, hbk⟩ := merging_divided hw heq hs hh hy hd
  generalize classesMade prop c.hash y.g = cs at *
  have hrefl : ∀ a, same (prop a) (prop a) = true := fun a => hs.refl _
  have hsymm : ∀ a b, same (prop a) (prop b) = true → same (prop b) (prop a) = true := fun a b => hs.symm _ _
  suffices h : ∃ k ∈ cs, k.head? = some m by
    obtain ⟨k, hk, hkm⟩ := h
    exact (h1 m).2 (.inl ⟨k, hk, List.mem_of_mem_head? hkm⟩)
  induction hm with
  | refl => exact ⟨kb, hkb, hbase kb hkb hbk⟩
  | @tail a b _ hab ih =>
    obtain ⟨k, hk, hka⟩ := ih
    obtain ⟨q, hq, hqb⟩ := List.mem_filterMap.1 hab
    unfold markedEdges at hq
    rw [class_head hrefl hsymm hg hk hka] at hq
    dsimp only at hq
    have hq' := List.mem_map_of_mem (f := Prod.snd) hq
    rw [(fused_spec (o := o.ops) hl hlh (pointer_injective ha h3) _ _).dest] at hq'
    obtain ⟨e, he, heq'⟩ := hq'
    obtain ⟨es, hes, hee⟩ := survivors_mem.1 he
    obtain ⟨a', ha', rfl⟩ := List.mem_map.1 hes
    obtain ⟨e', he', rfl⟩ := List.mem_map.1 hee
    rw [hqb] at heq'
    simp only [Option.bind_some] at heq'
    unfold classRef at heq'
    split_ifs at heq' with hc
    have hn2 : e'.2 ∈ g.nodes :=
      (hw.reach _).2 (((hw.reach _).1 ((h1 a').2 (.inl ⟨k, hk, ha'⟩))).tail (List.mem_map.2 ⟨e', he', rfl⟩))
    obtain ⟨k', hk', hbk'⟩ := ((h1 _).1 hn2).resolve_right hc
    exact ⟨k', hk', (classOf_head hrefl hsymm hg hk' hbk').trans heq'⟩

/-- **C114.** With any other edge operation or none, and no pruner, and if the operation isn't killed again, then while the merged graph
is pruned, some worker takes a mark for a pointer and follows it. -/
theorem C114_follow (hw : g.WF) (heq : ∀ t x y, c.equal t x y = (same x y, 0)) (hs : IsEquality same)
    (hh : HashRespects c.hash same) (ha : Function.Injective addr) (h3 : ∀ m, addr m ≠ 3) {o : LabelOps L} (hl : IsEquality o.eq)
    (hlh : HashRespects o.hash o.eq) (hpr : o.pruner = none) {hn : 0 < n} {y : State n N (Trav.Job n N (Cull.Mem n N (Mem n N)))}
    (hy : Net.Reach (mergingTask g prop c.hash c.equal hn) g.base mergingStart y) (hd : y.main = .done) (hc : culled y.g ≠ [])
    {z : State n N (Trav.Job n N Bool)}
    (hz : Net.Reach (markedPruning (markedEdges g o addr (classesMade prop c.hash y.g) (culled y.g)) prop c.hash hn) g.base
      (Trav.start false) z) (hzd : z.main = .done) (hzk : z.g.killed = 0) : z.g.mem = true := by
  obtain ⟨-, hg, hbase⟩ := merging_grouped heq hs hh hy
  obtain ⟨h1, h2, kb, hkb, hbk⟩ := merging_divided hw heq hs hh hy hd
  generalize hcs : classesMade prop c.hash y.g = cs at *
  have hrefl : ∀ a, same (prop a) (prop a) = true := fun a => hs.refl _
  have hsymm : ∀ a b, same (prop a) (prop b) = true → same (prop b) (prop a) = true := fun a b => hs.symm _ _
  -- edges of classes
  have hout : ∀ k ∈ cs, ∀ a ∈ k, ∀ e ∈ g.out a,
      classRef cs (culled y.g) e.2 ∈ (markedEdges g o addr cs (culled y.g) (classOf cs a)).map Prod.snd := by
    intro k hk a hak e he
    have hh' := classOf_head hrefl hsymm hg hk hak
    unfold markedEdges
    rw [class_head hrefl hsymm hg hk hh']
    dsimp only
    rw [(fused_spec (o := o.ops) hl hlh (pointer_injective ha h3) _ _).dest]
    refine ⟨(e.1, some e.2), survivors_mem.2 hpr ⟨_, List.mem_map.2 ⟨a, hak, rfl⟩, List.mem_map.2 ⟨e, he, rfl⟩⟩, rfl⟩
  have hze : ∀ i, z.g.err i = 0 := by
    refine Trav.induct (motive := fun _ err _ => ∀ i, err i = 0) (fun _ => rfl) ?_ _ (reach_bag hn hz)
    intro seen err mem m h _ _ _ i
    by_cases hj : i = Build.lane hn (c.hash (prop m))
    · subst hj; rw [Function.update_self]
    · rw [Function.update_of_ne hj]; exact h i
  have hflag : ∀ i, ∀ m ∈ z.g.seen i, ((markedEdges g o addr cs (culled y.g) m).any fun e => e.2.isNone) = true → z.g.mem = true := by
    refine Trav.induct (motive := fun seen _ mem => ∀ i, ∀ m ∈ seen i,
      ((markedEdges g o addr cs (culled y.g) m).any fun e => e.2.isNone) = true → mem = true) (fun i m h => absurd h (by simp)) ?_ _
      (reach_bag hn hz)
    intro seen err mem m ih _ _ _ i a ha' hany
    by_cases hj : i = Build.lane hn (c.hash (prop m))
    · subst hj
      rw [Function.update_self] at ha'
      rcases List.mem_append.1 ha' with h | h
      · rw [ih _ a h hany]; rfl
      · rw [List.mem_singleton.1 h] at hany; simp only [hany, Bool.or_true]
    · rw [Function.update_of_ne hj] at ha'
      rw [ih _ a ha' hany]; rfl
  -- nodes reachable without culled ones are represented
  obtain ⟨m, hm⟩ := List.exists_mem_of_ne_nil _ hc
  have hclsb : classOf cs g.base = g.base := by
    have := classOf_head hrefl hsymm hg hkb hbk
    rw [hbase kb hkb hbk] at this
    exact (Option.some.inj this).symm
  have hvis := Walker.visited_iff (Walker.inv_reach (W := Trav.walker _ _ _ hn) (fun i => rfl) _ (Rover.done_bag hn hz hzd))
    (fun i => ⟨hze i, Trav.stop_inv _ (reach_bag hn hz) hzk i⟩)
  obtain ⟨k, hk, a, hak, hPa, e, he, hec⟩ := strays hw heq hs hh hy hd hm
    (P := fun a => a ∈ g.nodes ∧ a ∉ culled y.g ∧ Reaches (fun m => (markedEdges g o addr cs (culled y.g) m).filterMap Prod.snd) g.base (classOf cs a))
    ⟨(hw.reach _).2 .refl, h2 kb hkb _ hbk, by rw [hclsb]⟩ (by
      rintro a ⟨hn1, hn2, hr⟩ b hb hbc
      refine ⟨(hw.reach _).2 (((hw.reach _).1 hn1).tail hb), hbc, hr.tail ?_⟩
      obtain ⟨k, hk, hak⟩ := ((h1 a).1 hn1).resolve_right hn2
      obtain ⟨e, he, rfl⟩ := List.mem_map.1 hb
      obtain ⟨q, h4, h5⟩ := List.mem_map.1 (hout k hk a hak e he)
      refine List.mem_filterMap.2 ⟨q, h4, ?_⟩
      rw [h5]; unfold classRef; rw [if_neg hbc])
  obtain ⟨i, hi⟩ := Walker.mem_visited.1 ((hvis (classOf cs a)).2 hPa.2.2)
  refine hflag i _ hi ?_
  rw [hcs] at hk
  obtain ⟨q, h4, h5⟩ := List.mem_map.1 (hout k hk a hak e he)
  refine List.any_eq_true.2 ⟨q, h4, ?_⟩
  rw [h5]; unfold classRef; rw [if_pos hec]; rfl

/-- **C114.** For any graph with more than `31 * n` vertices, on `n` lanes, that can happen: there's an execution in which the switch is
used while vertices are merged, and nodes are culled. -/
theorem C114_happens (hw : g.WF) (heq : ∀ t x y, c.equal t x y = (same x y, 0)) (hs : IsEquality same)
    (hh : HashRespects c.hash same) (hn : 0 < n) (prop : N → Option X) (hlarge : 31 * n + 1 ≤ g.nodes.length) :
    ∃ y, Net.Reach (mergingTask g prop c.hash c.equal hn) g.base mergingStart y ∧ y.main = .done ∧ culled y.g ≠ [] := by
  obtain ⟨y, hy, hd, -, hfew⟩ := Cull.killed_few (visit prop c.hash c.equal) (fun m => c.hash (prop m)) hn (next := g.next false)
    (a := g.base) ⟨fun _ _ => [], 0⟩ (fun m h => (hw.reach m).2 h)
  refine ⟨y, hy, hd, fun hc => ?_⟩
  obtain ⟨a, ha, hna⟩ := Trav.one_unvisited hfew hw.nodup hlarge
  obtain ⟨h1, -, -⟩ := merging_divided hw heq hs hh hy hd
  rcases (h1 a).1 ha with ⟨k, hk, hak⟩ | h
  · have := (merging_grouped heq hs hh hy).2.1.perm.mem_iff.1 (List.mem_flatten.2 ⟨k, hk, hak⟩)
    obtain ⟨i, -, hi⟩ := List.mem_flatMap.1 this
    exact hna i hi
  · rw [hc] at h; cases h

/-- **C114.** Nothing is culled if the switch isn't used. -/
theorem C114_only (heq : ∀ t x y, c.equal t x y = (same x y, 0)) (hs : IsEquality same)
    (hh : HashRespects c.hash same) {hn : 0 < n} {y : State n N (Trav.Job n N (Cull.Mem n N (Mem n N)))}
    (hy : Net.Reach (mergingTask g prop c.hash c.equal hn) g.base mergingStart y) (hk : y.g.killed = 0) : culled y.g = [] := by
  unfold culled
  rw [List.flatMap_eq_nil_iff]
  intro i _
  exact Cull.culled_nil (reach_bag hn hy) hk (merging_grouped heq hs hh hy).1 i

/-! ## C115 -/

/-- **C115.** If vertices have been merged without a kill, into a graph with more than `31 * n` vertices, on `n` lanes, then there's an
execution in which the switch is used while it's pruned, no error results, and the graph has an edge to a vertex that's freed. -/
theorem C115_dangling (hw : g.WF) (heq : ∀ t x y, c.equal t x y = (same x y, 0)) (hs : IsEquality same)
    (hh : HashRespects c.hash same) {o : EdgeOps N L} (hl : IsEquality o.eq) (hlh : HashRespects o.hash o.eq)
    (ha : Function.Injective addr) (vop : Option (List N → V)) {hn : 0 < n}
    {y : State n N (Trav.Job n N (Mem n N))} (hy : Net.Reach (task g prop c.hash c.equal hn) g.base start y) (hd : y.main = .done)
    (hk : y.g.killed = 0) {ms : List N}
    (hms : Covers ((fused g o vop addr (classes prop c.hash y.g)).next false) g.base ms) (hlarge : 31 * n + 1 ≤ ms.length) :
    ∃ z, Net.Reach (pruning (fused g o vop addr (classes prop c.hash y.g)) prop c.hash hn) g.base (Trav.start ()) z ∧
      z.main = .done ∧ (∀ i, z.g.err i = 0) ∧ ∃ a ∈ (collected (fused g o vop addr (classes prop c.hash y.g)) z.g).nodes,
        ∃ e ∈ (collected (fused g o vop addr (classes prop c.hash y.g)) z.g).out a, e.2 ∈ dropped (classes prop c.hash y.g) z.g := by
  obtain ⟨-, hg, hb⟩ := grouped hw heq hs hh hy hd hk
  have hrefl : ∀ a, same (prop a) (prop a) = true := fun a => hs.refl _
  have hsymm : ∀ a b, same (prop a) (prop b) = true → same (prop b) (prop a) = true := fun a b => hs.symm _ _
  have hq := (quotient_core hrefl hsymm hw hl hlh ha vop hg hb).2 ms hms
  generalize classes prop c.hash y.g = cs at *
  obtain ⟨z, hz, hzd, hfew, -⟩ := Trav.killed_few (fun (_ : Fin n) (_ : Unit) _ => ((), 0)) (fun m => c.hash (prop m)) hn ()
    (a := g.base) (next := (fused g o vop addr cs).next false) (fun m h => (hms.mem m).2 h) (fun _ => True) trivial
    fun _ _ _ _ => trivial
  have hze : ∀ i, z.g.err i = 0 := by
    refine Trav.induct (motive := fun _ err _ => ∀ i, err i = 0) (fun _ => rfl) ?_ _ (reach_bag hn hz)
    intro seen err mem m h _ _ _ i
    by_cases hj : i = Build.lane hn (c.hash (prop m))
    · subst hj; rw [Function.update_self]
    · rw [Function.update_of_ne hj]; exact h i
  obtain ⟨m, hm, hnm⟩ := Trav.one_unvisited hfew hms.nodup hlarge
  have hbase : ∃ i, g.base ∈ z.g.seen i := by
    rcases Trav.first _ (Rover.done_bag hn hz hzd) with ⟨h, -⟩ | h
    · exact absurd h (by simp)
    · exact ⟨_, h⟩
  obtain ⟨a, ⟨i, hi⟩, b, hab, hbn⟩ := Dedup.crossing ((hms.mem m).1 hm) (P := fun a => ∃ i, a ∈ z.g.seen i) hbase
    (fun ⟨i, h⟩ => hnm i h)
  obtain ⟨e, he, rfl⟩ := List.mem_map.1 hab
  refine ⟨z, hz, hzd, hze, a, List.mem_flatMap.2 ⟨i, List.mem_finRange i, hi⟩, e, he, ?_⟩
  have hbr := (hms.mem _).2 (((Walker.inv_reach (W := Trav.walker _ _ _ hn) (fun i => rfl) _ (reach_bag hn hz)).reach i a hi).tail hab)
  obtain ⟨h1, h2⟩ := hq.nodes _ hbr
  obtain ⟨k, hk', hak⟩ := List.mem_flatten.1 (hg.perm.mem_iff.2 h1)
  have h3 := classOf_head hrefl hsymm hg hk' hak
  rw [h2] at h3
  refine List.mem_filter.2 ⟨List.mem_filterMap.2 ⟨k, hk', h3⟩, ?_⟩
  simp only [decide_eq_true_eq]
  exact fun j hj => hbn ⟨j, hj⟩

/-! Demonstration: a chain of forty vertices on one lane. -/

def joining : LabelOps Nat where
  hash := id
  eq a b := decide (a = b)
  pruner := none
  red := none

/-- Non-vacuity of C114: there's an execution in which every continuation without another kill follows a mark. -/
example : ∃ y, Net.Reach (mergingTask chain some itself.hash itself.equal (show 0 < 1 by decide)) chain.base mergingStart y ∧ y.main = .done ∧
    (∃ z, Net.Reach (markedPruning (markedEdges chain joining (fun m => m + 4) (classesMade some itself.hash y.g) (culled y.g)) some
      itself.hash (show 0 < 1 by decide)) chain.base (Trav.start false) z ∧ z.main = .done ∧ z.g.killed = 0 ∧ z.g.mem = true) ∧
    ∃ k ∈ classesMade some itself.hash y.g, ∃ a ∈ k, ∃ e ∈ chain.out a, classRef (classesMade some itself.hash y.g) (culled y.g) e.2 = none := by
  obtain ⟨y, hy, hd, hc⟩ := C114_happens (g := chain) (c := itself) chain_wf (fun _ _ _ => rfl) itself_equality itself_respects
    (show 0 < 1 by decide) some (by simp [chain])
  refine ⟨y, hy, hd, ?_, (C114_map chain_wf (fun _ _ _ => rfl) itself_equality itself_respects hy hd hc).2⟩
  obtain ⟨z, hz, hzd, hzk⟩ := (Trav.ends (fun _ s m => (s || (markedEdges chain joining (fun m => m + 4) (classesMade some itself.hash y.g)
    (culled y.g) m).any fun e => e.2.isNone, 0)) (fun m => itself.hash (some m)) (show 0 < 1 by decide) false
    (marked_nodes (o := joining) chain_wf (fun _ _ _ => rfl) itself_equality itself_respects (add_left_injective 4) (fun m h => by simp at h)
      decide_equality (decide_respects _) hy hd)).2
  exact ⟨z, hz, hzd, hzk, C114_follow chain_wf (fun _ _ _ => rfl) itself_equality itself_respects (add_left_injective 4)
    (fun m h => by simp at h) decide_equality (decide_respects _) rfl hy hd hc hz hzd hzk⟩

/-- Non-vacuity of C115: there's an execution without a kill that merges no vertices of the chain, and one killed after that. -/
example : ∃ y z, Net.Reach (task chain some itself.hash itself.equal (show 0 < 1 by decide)) chain.base start y ∧ y.main = .done ∧
    Net.Reach (pruning (fused chain adding (some List.sum) id (classes some itself.hash y.g)) some itself.hash (show 0 < 1 by decide))
      chain.base (Trav.start ()) z ∧ z.main = .done ∧
    ∃ a, ∃ e ∈ (fused chain adding (some List.sum) id (classes some itself.hash y.g)).out a, e.2 ∈ dropped (classes some itself.hash y.g) z.g := by
  obtain ⟨y, hy, hd, hk⟩ := (Trav.ends (visit some itself.hash itself.equal) (fun m => itself.hash (some m)) (show 0 < 1 by decide)
    (next := chain.next false) (a := chain.base) ⟨fun _ _ => [], 0⟩ (fun m h => (chain_wf.reach m).2 h)).2
  obtain ⟨-, hg, hb⟩ := grouped chain_wf (c := itself) (fun _ _ _ => rfl) itself_equality itself_respects hy hd hk
  obtain ⟨h1, h2⟩ := quotient_core (o := adding) (addr := id) (fun a => itself_equality.refl _) (fun a b h => itself_equality.symm _ _ h) chain_wf
    decide_equality (decide_respects _) (fun _ _ h => h) (some List.sum) hg hb
  obtain ⟨ms, hms⟩ := covers_of chain_wf.nodup h1
  have hq := h2 ms hms
  have hall : chain.nodes ⊆ ms := by
    intro a ha
    have h3 := hq.all rfl a ha
    have h4 := (hq.member a ha).2
    have h5 : a = classOf (classes some itself.hash y.g) a := by simpa using h4
    rw [h5]; exact h3
  have hlen := (List.subperm_of_subset chain_wf.nodup hall).length_le
  obtain ⟨z, hz, hzd, -, a, -, e, he, hed⟩ := C115_dangling chain_wf (fun _ _ _ => rfl) itself_equality itself_respects
    decide_equality (decide_respects _) (fun _ _ h => h) (some List.sum) hy hd hk hms (by simp [chain] at hlen ⊢; omega)
  exact ⟨y, z, hy, hd, hz, hzd, a, e, he, hed⟩

end Cru.Merge
