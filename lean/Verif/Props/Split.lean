import Verif.Proofs.SplitKill
import Verif.Proofs.TravKill
import Verif.Proofs.Demo
import Verif.Props.Merge

/-! # Splitting: C37, C38 and C75-C79 -/

namespace Cru.Split

open Net

variable {n : Nat} {N V L P : Type} [DecidableEq N] [DecidableEq L] {sp : Splitter V P L} {nil : P} {null : L} {vfree : Bool} {limit : Nat}
  {g : Gr N V L} {addr : Twin N → Nat} {hn : 0 < n}

/-- What comes of the two phases after property setting, if they aren't killed. -/
theorem finish {prop : N → P} {y : State n (Pkt N L) (Trav.Job n N (Mem n N V L P))}
    (hy : Net.Reach (splitting sp null vfree (share n limit) g addr hn) (.visit g.base none) (Trav.start (mem g prop addr hn)) y)
    (hd : y.main = .done) (hk : y.g.killed = 0) (he : status y.g = 0) {z : State n (Twin N) (Trav.Job n (Twin N) Unit)}
    (hz : Net.Reach (pruning y.g.mem.out addr hn) (g.base, false) (Trav.start ()) z) (hdz : z.main = .done) (hkz : z.g.killed = 0) :
    ∃ cp, IsSplit sp g prop cp (result g y.g.mem z.g) ∧ ∀ m, fissile sp g prop m = true → IsCataProperty sp g prop m (cp m) :=
  outcome hy hd hk (status_zero.1 he) hz hdz hkz

/-- **C37.** If `cru_split` isn't killed, either it returns the graph in which each fissile vertex is replaced by the ones made by `ana` and
`cata`, where the edges are the labelled copies of the given ones, on each of which the labelers agree; or it reports `CRU_INTOVF` for
a graph with a vertex limit.  The property of a vertex made by `ana` is that of the one it replaces, and the property of a vertex made by
`cata` is computed without incident edges. -/
theorem C37_split (hw : g.WF) {r : Except Int (Gr (Twin N) V L)} (h : Splits sp nil null vfree limit g addr hn 0 0 0 r) :
    (∃ R cp, r = .ok R ∧ IsSplit sp g (property sp g) cp R ∧
      ∀ m ∈ g.nodes, fissile sp g (property sp g) m = true → IsCataProperty sp g (property sp g) m (cp m)) ∨
    r = .error Build.intOvf ∧ limit ≠ 0 := by
  obtain ⟨x, hx, hdx, hkx, y, hy, hdy, hky, hr⟩ := h
  have hp := setting_done hw hx hdx hkx
  have hp' : ∀ m ∈ g.nodes, (fun m => (x.g.mem m).getD nil) m = property sp g m := fun m hm => by simp only [hp m hm, Option.getD_some]
  by_cases hs : status y.g = 0
  · rw [if_neg (by simpa using hs)] at hr
    obtain ⟨z, hz, hdz, hkz, ⟨h0, -⟩ | ⟨-, hr⟩⟩ := hr
    · exact absurd rfl h0
    · obtain ⟨cp, h1, h2⟩ := finish hy hdy hky hs hz hdz hkz
      refine .inl ⟨_, cp, hr, h1.congr hw hp', fun m hm hf => ?_⟩
      refine (h2 m ?_).congr (hp' m hm) fun e he => hp' _ ?_
      · unfold fissile at hf ⊢; rw [hp' m hm]; exact hf
      · rw [hw.reach] at hm ⊢
        exact hm.tail (List.mem_map.2 ⟨e, he, rfl⟩)
  · rw [if_pos hs] at hr
    have hi := inv_reach _ (reach_bag hn hy)
    obtain ⟨i, ei⟩ := status_mem hs
    obtain ⟨h1, h2, -⟩ := hi.over i (by rw [← ei]; exact hs)
    refine .inr ⟨by rw [hr.2, ei, h1], fun hl => h2 ?_⟩
    subst hl
    simp [share]

/-- The graph is well formed. -/
theorem IsSplit.wf {prop cp : N → P} {R : Gr (Twin N) V L} (h : IsSplit sp g prop cp R) : R.WF := by
  have hc : ∀ s ∈ R.nodes, ∀ t, t ∈ (copies sp g prop cp s).map (·.2) ↔ t ∈ R.next false s := by
    intro s hs t
    simp only [Gr.next, Bool.false_eq_true, if_false]
    exact ((h.out s hs).map _).mem_iff.symm
  refine ⟨h.nodes.nodup, fun s => ?_⟩
  rw [h.base, h.nodes.mem]
  refine reaches_congr_on (· ∈ R.nodes) ((h.nodes.mem _).2 .refl) (fun x hx y hy => ?_) hc s
  rw [h.nodes.mem] at hx ⊢
  exact hx.tail hy

/-- **C37.** The graph returned is well formed: its edges stay inside it, and everything in it can be reached from the base vertex. -/
theorem C37_wf (hw : g.WF) {R : Gr (Twin N) V L} (h : Splits sp nil null vfree limit g addr hn 0 0 0 (.ok R)) :
    R.WF ∧ R.base = (g.base, false) := by
  rcases C37_split hw h with ⟨R', cp, hr, h1, -⟩ | ⟨hr, -⟩
  · cases hr
    exact ⟨h1.wf, h1.base⟩
  · cases hr

/-- **C37.** If no vertex is fissile, the graph stays the same. -/
theorem C37_intact (hw : g.WF) (hf : ∀ m ∈ g.nodes, fissile sp g (property sp g) m = false) {r : Except Int (Gr (Twin N) V L)}
    (h : Splits sp nil null vfree 0 g addr hn 0 0 0 r) :
    ∃ R, r = .ok R ∧ R.nodes.Perm (g.nodes.map (·, false)) ∧
      ∀ m ∈ g.nodes, R.vertex (m, false) = g.vertex m ∧ (R.out (m, false)).Perm ((g.out m).map fun e => (e.1, (e.2, false))) := by
  rcases C37_split hw h with ⟨R, cp, hr, h1, -⟩ | ⟨-, h0⟩
  · have hcl : ∀ m ∈ g.nodes, ∀ e ∈ g.out m, e.2 ∈ g.nodes := by
      intro m hm e he
      rw [hw.reach] at hm ⊢
      exact hm.tail (List.mem_map.2 ⟨e, he, rfl⟩)
    have hc : ∀ m ∈ g.nodes, copies sp g (property sp g) cp (m, false) = (g.out m).map fun e => (e.1, (e.2, false)) := by
      intro m hm
      unfold copies copiesBy
      rw [List.map_eq_flatMap]
      refine List.flatMap_congr fun e he => ?_
      simp [origins, termini, hf m hm, hf e.2 (hcl m hm e he)]
    have hmem : ∀ s, s ∈ R.nodes ↔ s ∈ g.nodes.map (·, false) := by
      intro s
      rw [h1.nodes.mem]
      constructor
      · intro hs
        induction hs with
        | refl => exact List.mem_map.2 ⟨g.base, (hw.reach _).2 .refl, rfl⟩
        | tail _ hb ih =>
          obtain ⟨m, hm, rfl⟩ := List.mem_map.1 ih
          simp only [hc m hm] at hb
          obtain ⟨e, he, rfl⟩ := List.mem_map.1 hb
          obtain ⟨d, hd, rfl⟩ := List.mem_map.1 he
          exact List.mem_map.2 ⟨d.2, hcl m hm d hd, rfl⟩
      · intro hs
        obtain ⟨m, hm, rfl⟩ := List.mem_map.1 hs
        rw [hw.reach] at hm
        induction hm with
        | refl => exact .refl
        | @tail b c hb hbc ih =>
          have hbn : b ∈ g.nodes := (hw.reach _).2 hb
          refine (ih (List.mem_map.2 ⟨b, hbn, rfl⟩)).tail ?_
          simp only [hc b hbn]
          obtain ⟨d, hd, rfl⟩ := List.mem_map.1 hbc
          exact List.mem_map.2 ⟨(d.1, (d.2, false)), List.mem_map.2 ⟨d, hd, rfl⟩, rfl⟩
    refine ⟨R, hr, (List.perm_ext_iff_of_nodup h1.nodes.nodup (hw.nodup.map fun a b hab => congrArg Prod.fst hab)).2 hmem, fun m hm => ?_⟩
    have hR : (m, false) ∈ R.nodes := (hmem _).2 (List.mem_map.2 ⟨m, hm, rfl⟩)
    refine ⟨?_, ?_⟩
    · rw [h1.vertex _ hR]
      simp [vertices, hf m hm]
    · rw [← hc m hm]
      exact h1.out _ hR
  · exact absurd rfl h0

/-- **C37.** With the default labelers, which hold always and copy the label, both vertices made in place of a fissile one get a copy of each
edge, and so does each vertex from which an edge led to a fissile one, for both of those. -/
theorem C37_default (hw : g.WF) (hl : ∀ f ∈ [sp.outAna, sp.outCata, sp.inAna, sp.inCata], ∀ p l q, f.label p l q = some l)
    {R : Gr (Twin N) V L} (h : Splits sp nil null vfree limit g addr hn 0 0 0 (.ok R)) :
    ∀ s ∈ R.nodes, (R.out s).Perm ((g.out s.1).flatMap fun e =>
      (e.1, (e.2, false)) :: if fissile sp g (property sp g) e.2 then [(e.1, (e.2, true))] else []) := by
  rcases C37_split hw h with ⟨R', cp, hr, h1, -⟩ | ⟨hr, -⟩
  · cases hr
    intro s hs
    refine (h1.out s hs).trans (.of_eq ?_)
    have hfis : s.2 = true → fissile sp g (property sp g) s.1 = true := by
      have := (h1.nodes.mem s).1 hs
      cases this with
      | refl => intro h; cases h
      | tail _ hb =>
        obtain ⟨e, he, rfl⟩ := List.mem_map.1 hb
        exact (copies_mem he).2
    simp only [List.forall_mem_cons, List.not_mem_nil, false_imp_iff, forall_const, and_true] at hl
    obtain ⟨h2, h3, h4, h5⟩ := hl
    unfold copies copiesBy
    refine List.flatMap_congr fun e he => ?_
    obtain ⟨m, b⟩ := s
    cases b
    · by_cases hm : fissile sp g (property sp g) m = true <;> by_cases ht : fissile sp g (property sp g) e.2 = true <;>
        simp [origins, termini, hm, ht, h2, h3, h4, h5]
    · have hm := hfis rfl
      simp only at hm
      by_cases ht : fissile sp g (property sp g) e.2 = true <;>
        simp [origins, termini, hm, ht, h2, h3, h4, h5]
  · cases hr

/-! ## Termination -/

/-- Anything that can be reached after splitting, killed or not, is a node of the given graph or a doppleganger of one. -/
theorem reachable (hw : g.WF) {prop : N → P} {s : Trav.Job n N (Mem n N V L P)} {bag : Multiset (Pkt N L)}
    (h : Bag.Reach (splitting sp null vfree limit g addr hn) (.visit g.base none) (Trav.start (mem g prop addr hn)) (s, bag)) (t : Twin N)
    (ht : Reaches (fun t => (s.mem.out t).map (·.2)) (g.base, false) t) : t ∈ g.nodes.flatMap fun m => [(m, false), (m, true)] := by
  have : t.1 ∈ g.nodes := by
    induction ht with
    | refl => exact (hw.reach _).2 .refl
    | tail _ hb ih =>
      obtain ⟨e, he, rfl⟩ := List.mem_map.1 hb
      rw [hw.reach] at ih ⊢
      exact ih.tail ((loose_reach _ h).near _ e he).1
  obtain ⟨m, b⟩ := t
  refine List.mem_flatMap.2 ⟨m, this, ?_⟩
  cases b <;> simp

/-- **C37.** Every execution ends, whether or not it's killed: none of the three phases can go on forever. -/
theorem C37_terminates (hw : g.WF) (prop : N → P) :
    Merge.Ends (setting sp g (fun m => addr (m, false)) hn) g.base (Trav.start fun _ => none) ∧
    Merge.Ends (splitting sp null vfree limit g addr hn) (.visit g.base none) (Trav.start (mem g prop addr hn)) ∧
    ∀ y, Net.Reach (splitting sp null vfree limit g addr hn) (.visit g.base none) (Trav.start (mem g prop addr hn)) y →
      Merge.Ends (pruning y.g.mem.out addr hn) (g.base, false) (Trav.start ()) := by
  refine ⟨(Trav.ends _ _ hn _ fun m h => (hw.reach m).2 h).1, fun f h0 hs => no_infinite_run hn (splitting_acc hw) f h0 hs, fun y hy => ?_⟩
  exact (Trav.ends _ _ hn _ (ms := g.nodes.flatMap fun m => [(m, false), (m, true)]) fun t ht => reachable hw (reach_bag hn hy) t ht).1

theorem exists_setting (hw : g.WF) (sp : Splitter V P L) (addr : N → Nat) (hn : 0 < n) :
    ∃ x, Net.Reach (setting sp g addr hn) g.base (Trav.start fun _ => none) x ∧ x.main = .done ∧ x.g.killed = 0 :=
  (Trav.ends _ _ hn _ fun m h => (hw.reach m).2 h).2

theorem exists_splitting (hw : g.WF) (sp : Splitter V P L) (null : L) (vfree : Bool) (limit : Nat) (prop : N → P) (addr : Twin N → Nat) (hn : 0 < n) :
    ∃ y, Net.Reach (splitting sp null vfree limit g addr hn) (.visit g.base none) (Trav.start (mem g prop addr hn)) y ∧ y.main = .done ∧ y.g.killed = 0 :=
  exists_done_inv hn (splitting_acc hw) (fun s => s.killed = 0) rfl fun i s p h => (splitIt_killed i s p).1.trans h

theorem exists_pruning (hw : g.WF) {prop : N → P} {y : State n (Pkt N L) (Trav.Job n N (Mem n N V L P))}
    (hy : Net.Reach (splitting sp null vfree limit g addr hn) (.visit g.base none) (Trav.start (mem g prop addr hn)) y) :
    ∃ z, Net.Reach (pruning y.g.mem.out addr hn) (g.base, false) (Trav.start ()) z ∧ z.main = .done ∧ z.g.killed = 0 :=
  (Trav.ends _ _ hn _ (ms := g.nodes.flatMap fun m => [(m, false), (m, true)]) fun t ht => reachable hw (reach_bag hn hy) t ht).2

/-- **C37.** There is an execution that isn't killed. -/
theorem C37_exists (hw : g.WF) (sp : Splitter V P L) (nil : P) (null : L) (vfree : Bool) (limit : Nat) (addr : Twin N → Nat) (hn : 0 < n) :
    ∃ r, Splits sp nil null vfree limit g addr hn 0 0 0 r := by
  obtain ⟨x, hx, hdx, hkx⟩ := exists_setting hw sp (fun m => addr (m, false)) hn
  obtain ⟨y, hy, hdy, hky⟩ := exists_splitting hw sp null vfree (share n limit) (fun m => (x.g.mem m).getD nil) addr hn
  by_cases hs : status y.g = 0
  · obtain ⟨z, hz, hdz, hkz⟩ := exists_pruning hw hy
    exact ⟨_, x, hx, hdx, hkx, y, hy, hdy, hky, by rw [if_neg (by simpa using hs)]; exact ⟨z, hz, hdz, hkz, .inr ⟨.inl rfl, rfl⟩⟩⟩
  · exact ⟨_, x, hx, hdx, hkx, y, hy, hdy, hky, by rw [if_pos hs]; exact ⟨rfl, rfl⟩⟩

/-! ## Overflow -/

theorem share_zero : share n 0 = 0 := by simp [share]

theorem homes_congr {ms : List N} {prop prop' : N → P} (h : ∀ m ∈ ms, prop m = prop' m) (i : Fin n) :
    splits sp g prop addr hn i ms = splits sp g prop' addr hn i ms := by
  unfold splits fissile
  refine List.countP_congr fun m hm => ?_
  rw [h m hm]

/-- **C38.** If `cru_split` isn't killed, it reports `CRU_INTOVF` if and only if the graph has a vertex limit, and to some lane, whose share of
it is the limit divided by the number of lanes, but at least one, at least one vertex is to be added which, with those that the
lane already has, exceeds its share by *more than one*.  The vertices to be added are those made by `cata` for the fissile ones that
can be reached by edges of which there are copies. -/
theorem C38_overflow (hw : g.WF) {ms : List N} (hc : Covers (passages sp g (property sp g)) g.base ms) {r : Except Int (Gr (Twin N) V L)}
    (h : Splits sp nil null vfree limit g addr hn 0 0 0 r) :
    r = .error Build.intOvf ↔ limit ≠ 0 ∧ ∃ i, 0 < splits sp g (property sp g) addr hn i ms ∧
      max (limit / n) 1 + 1 < homes g addr hn i + splits sp g (property sp g) addr hn i ms := by
  obtain ⟨x, hx, hdx, hkx, y, hy, hdy, hky, hr⟩ := h
  have hp := setting_done hw hx hdx hkx
  have hp' : ∀ m ∈ g.nodes, (fun m => (x.g.mem m).getD nil) m = property sp g m := fun m hm => by simp only [hp m hm, Option.getD_some]
  have hmem : ∀ a, Reaches (arcs sp g (property sp g)) g.base a → a ∈ g.nodes := fun a h => (hw.reach a).2 (reaches_next h)
  have hcov : Covers (passages sp g fun m => (x.g.mem m).getD nil) g.base ms := by
    refine ⟨hc.nodup, fun m => ?_⟩
    rw [hc.mem]
    refine reaches_congr_on (· ∈ g.nodes) ((hw.reach _).2 .refl) (fun a ha b hb => ?_) (fun a ha b => ?_) m
    · rw [← mem_arcs] at hb
      rw [hw.reach] at ha ⊢
      exact ha.tail (arcs_next hb)
    · have : passages sp g (property sp g) a = passages sp g (fun m => (x.g.mem m).getD nil) a := by
        unfold passages
        congr 1
        refine List.filter_congr fun e he => ?_
        have hen : e.2 ∈ g.nodes := by
          rw [hw.reach] at ha ⊢
          exact ha.tail (List.mem_map.2 ⟨e, he, rfl⟩)
        rw [origins_congr (prop' := fun m => (x.g.mem m).getD nil) (hp' a ha).symm (hp' e.2 hen).symm]
      rw [this]
  have hms : ∀ m ∈ ms, m ∈ g.nodes := fun m hm => hmem m ((reaches_arcs _ _).2 ((hc.mem m).1 hm))
  obtain ⟨h1, h2⟩ := overflow hy hdy hky hcov
  simp only [homes_congr (sp := sp) (g := g) (addr := addr) (hn := hn) (fun m hm => hp' m (hms m hm))] at h2
  have hsh : share n limit ≠ 0 ↔ limit ≠ 0 := by
    unfold share
    split_ifs with a b
    · exact ⟨fun _ hl => a (by rw [hl]; simp), fun _ => a⟩
    · exact ⟨fun _ => b, fun _ => Nat.one_ne_zero⟩
    · exact ⟨fun h => absurd rfl h, fun h => absurd h b⟩
  have hsh' : limit ≠ 0 → share n limit = max (limit / n) 1 := by
    intro hl
    unfold share
    split_ifs with a
    · exact (Nat.max_eq_left (Nat.one_le_iff_ne_zero.2 a)).symm
    · have : limit / n = 0 := not_not.1 a
      rw [this]; rfl
  have h3 : status y.g ≠ 0 ↔ limit ≠ 0 ∧ ∃ i, 0 < splits sp g (property sp g) addr hn i ms ∧
      max (limit / n) 1 + 1 < homes g addr hn i + splits sp g (property sp g) addr hn i ms := by
    rw [h2, hsh]
    refine and_congr_right fun hl => ?_
    rw [hsh' hl]
  rw [← h3]
  by_cases hs : status y.g = 0
  · rw [if_neg (by simpa using hs)] at hr
    obtain ⟨z, hz, hdz, hkz, ⟨h0, -⟩ | ⟨-, hr⟩⟩ := hr
    · exact absurd rfl h0
    · rw [hr]
      simp [hs]
  · rw [if_pos hs] at hr
    rw [hr.2, h1.resolve_left hs]
    simp [hs, Build.intOvf]

/-! ## Kills -/

/-- **C75.** A kill request to `cru_split` can be lost.  If the base vertex has edges, of which there are copies, to enough fissile vertices,
there is an execution that's killed and returns a graph without an error, where one of them isn't replaced. -/
theorem C75_kill_lost (hw : g.WF) (sp : Splitter V P L) (nil : P) (null : L) (vfree : Bool) (addr : Twin N → Nat) (hn : 0 < n) {ms : List N}
    (hd : ms.Nodup) (hl : 31 * n + 1 ≤ ms.length) (hms : ∀ m ∈ ms, fissile sp g (property sp g) m = true ∧
      ∃ e ∈ g.out g.base, e.2 = m ∧ ∃ l, ((g.base, false), l) ∈ origins sp g (property sp g) g.base e) :
    ∃ R k, k ≠ 0 ∧ Splits sp nil null vfree 0 g addr hn 0 k 0 (.ok R) ∧
      ∃ m ∈ ms, (m, false) ∈ R.nodes ∧ R.vertex (m, false) = g.vertex m ∧ (m, true) ∉ R.nodes := by
  obtain ⟨x, hx, hdx, hkx⟩ := exists_setting hw sp (fun m => addr (m, false)) hn
  have hp := setting_done hw hx hdx hkx
  generalize hprop : (fun m => (x.g.mem m).getD nil) = prop
  have hp' : ∀ m ∈ g.nodes, prop m = property sp g m := fun m hm => by rw [← hprop]; simp only [hp m hm, Option.getD_some]
  have h1 : Net.Reach (splitting sp null vfree 0 g addr hn) (.visit g.base none) (Trav.start (mem g prop addr hn))
      { init (Trav.start (mem g prop addr hn)) with g := { Trav.start (mem g prop addr hn) with killed := 1 } } :=
    .step (.env ()) trivial .init rfl
  obtain ⟨y, hy, hdy, h2, h3, h4⟩ := exists_done_from hn (splitting_acc hw)
    (fun s => Postpone.Few s ∧ (∀ i, (s.seen i).length ≤ 31) ∧ ((0 : Nat) = 0 → ∀ i, s.err i = 0)) (fun i s p h => splitting_few i s p h)
    _ h1 ⟨⟨Nat.one_ne_zero, fun i _ => ⟨Nat.zero_le _, Nat.zero_le _⟩⟩, fun i => Nat.zero_le _, fun _ i => rfl⟩
  have hs : status y.g = 0 := status_zero.2 (h4 rfl)
  have hb := Rover.done_bag hn hy hdy
  have hlo := loose_reach _ hb
  have hf := (inv_reach _ hb).fields
  simp only at hlo hf
  obtain ⟨z, hz, hdz, hkz⟩ := exists_pruning hw hy
  have hbz := Rover.done_bag hn hz hdz
  have hstop := Trav.stop_inv _ hbz hkz
  have hez := fun i => (Trav.induct (motive := fun _ err _ => ∀ i, err i = 0) (fun _ => rfl)
    (fun seen err mem m h _ _ _ i => by
      by_cases hi : i = Build.lane hn (addr m)
      · subst hi; simp
      · rw [Function.update_of_ne hi]; exact h i) _ hbz : ∀ i, z.g.err i = 0) i
  have hwi : (Trav.walker (fun s => (y.g.mem.out s).map fun e => e.2) (fun (_ : Fin n) (_ : Unit) _ => ((), 0)) addr hn).Inv (g.base, false) z.g 0 := by
    exact Walker.inv_reach (g₀ := Trav.start ()) (fun i => rfl) (z.g, 0) hbz
  have hleft : left z.g = (List.finRange n).flatMap z.g.seen := by
    unfold left
    refine List.flatMap_congr fun i _ => ?_
    rw [show z.g.stop i = false from hstop i]; rfl
  have hR : ∀ t, t ∈ left z.g ↔ Reaches (fun s => (y.g.mem.out s).map fun e => e.2) (g.base, false) t := by
    intro t
    rw [hleft]
    exact Walker.visited_iff hwi (fun i => ⟨hez i, hstop i⟩) t
  -- the base node is received before the kill request is seen
  have hbase : vis addr hn y.g g.base := (splitting_first _ hb).resolve_left fun h => absurd h.1 (by simp)
  -- one that isn't received
  obtain ⟨m, hm, hmu⟩ := Trav.one_unvisited h3 hd hl
  have hmv : ¬ vis addr hn y.g m := hmu _
  obtain ⟨hfm, e, he, hem, l, hl⟩ := hms m hm
  have hbn : g.base ∈ g.nodes := (hw.reach _).2 .refl
  have hmn : m ∈ g.nodes := by
    rw [hw.reach, ← hem]
    exact .tail .refl (List.mem_map.2 ⟨e, he, rfl⟩)
  have hst : (l, m) ∈ stage sp g prop (g.base, false) := by
    rw [stage_iff]
    refine ⟨e, he, hem, ?_⟩
    rw [origins_congr (hp' _ hbn) (hp' _ (by rw [hem]; exact hmn))]
    exact hl
  have hedge := hlo.kept (g.base, false) hbase _ hst hmv
  refine ⟨result g y.g.mem z.g, y.g.killed, h2.1, ⟨x, hx, hdx, hkx, y, ?_, hdy, rfl, ?_⟩, m, hm, ?_, ?_, ?_⟩
  · rw [hprop, share_zero]; exact hy
  · rw [if_neg (by simpa using hs)]
    exact ⟨z, hz, hdz, hkz, .inr ⟨.inl rfl, rfl⟩⟩
  · exact (hR _).2 (.tail .refl (List.mem_map.2 ⟨_, hedge, rfl⟩))
  · exact hf.unseen m hmv
  · intro hc
    have := (hR _).1 hc
    cases this with
    | tail _ hb =>
      obtain ⟨d, hd, hd'⟩ := List.mem_map.1 hb
      have := (hlo.near _ d hd).2 (by rw [hd'])
      rw [hd'] at this
      exact hmv this

theorem limitless {prop : N → P} {y : State n (Pkt N L) (Trav.Job n N (Mem n N V L P))}
    (hy : Net.Reach (splitting sp null vfree 0 g addr hn) (.visit g.base none) (Trav.start (mem g prop addr hn)) y) : ∀ i, y.g.err i = 0 := by
  intro i
  by_contra h
  exact ((inv_reach _ (reach_bag hn hy)).over i h).2.1 rfl

/-- **C76.** A kill request made while properties are being computed can be lost.  If there are enough vertices, there is an execution that's
killed and returns a graph without an error, which is what it should be if some of the vertices had the property NULL. -/
theorem C76_kill_lost (hw : g.WF) (sp : Splitter V P L) (nil : P) (null : L) (vfree : Bool) (addr : Twin N → Nat) (hn : 0 < n)
    (hl : 31 * n + 1 ≤ g.nodes.length) :
    ∃ R k prop cp, k ≠ 0 ∧ Splits sp nil null vfree 0 g addr hn k 0 0 (.ok R) ∧ IsSplit sp g prop cp R ∧
      (∀ m ∈ g.nodes, prop m = property sp g m ∨ prop m = nil) ∧ ∃ m ∈ g.nodes, prop m = nil := by
  obtain ⟨x, hx, hdx, hfew, hkx⟩ := Trav.killed_few (next := g.next false)
    (fun (_ : Fin n) (M : N → Option P) m => (Function.update M m (some (sp.probe (g.vertex m) ((g.inn m).map fun e => (e.1, g.vertex e.2))
      ((g.out m).map fun e => (e.1, g.vertex e.2)))), 0)) (fun m => addr (m, false)) hn (fun _ => none) (fun m h => (hw.reach m).2 h)
    (fun s => s.killed = 1) rfl (fun i s m h => by
      obtain ⟨sample, stop, e, -⟩ := Trav.poll_eq s i
      simp only [Trav.handle, e]
      split_ifs <;> exact h)
  have hx' : Net.Reach (setting sp g (fun m => addr (m, false)) hn) g.base (Trav.start fun _ => none) x := hx
  obtain ⟨-, hm⟩ := setting_mem _ (reach_bag hn hx')
  simp only at hm
  obtain ⟨y, hy, hdy, hky⟩ := exists_splitting hw sp null vfree (share n 0) (fun m => (x.g.mem m).getD nil) addr hn
  have hs : status y.g = 0 := status_zero.2 (limitless (by rw [share_zero] at hy; exact hy))
  obtain ⟨z, hz, hdz, hkz⟩ := exists_pruning hw hy
  obtain ⟨cp, h1, -⟩ := finish hy hdy hky hs hz hdz hkz
  obtain ⟨a, ha, hau⟩ := Trav.one_unvisited hfew hw.nodup hl
  refine ⟨_, x.g.killed, _, cp, by rw [hkx]; exact Nat.one_ne_zero,
    ⟨x, hx', hdx, rfl, y, hy, hdy, hky, by rw [if_neg (by simpa using hs)]; exact ⟨z, hz, hdz, hkz, .inr ⟨.inl rfl, rfl⟩⟩⟩, h1, fun m _ => ?_, a, ha, ?_⟩
  · simp only [hm]
    split_ifs
    · exact .inl rfl
    · exact .inr rfl
  · simp only [hm, if_neg (hau _)]; rfl

/-- **C77.** A kill request made in the end can be lost, too, and then it does harm.  If the base vertex is fissile and its edges have enough
copies to vertices on another lane, and the vertices are freed by a user supplied function, there is an execution that's killed and
returns a graph without an error, where the base vertex has an edge to a vertex that has been freed. -/
theorem C77_dangling (hw : g.WF) (sp : Splitter V P L) (nil : P) (null : L) (addr : Twin N → Nat) (hn : 0 < n) {i : Fin n}
    (hf : fissile sp g (property sp g) g.base = true) (hno : ∀ m ∈ g.nodes, g.base ∉ g.next false m)
    (hal : ∀ s : Twin N, Build.lane hn (addr s) = Build.lane hn (addr (g.base, false)) → s.1 ∈ g.nodes → s.1 = g.base)
    (hmany : 32 ≤ (copies sp g (property sp g) (property sp g) (g.base, false)).countP fun e => decide (Build.lane hn (addr e.2) = i)) :
    ∃ R k, k ≠ 0 ∧ Splits sp nil null true 0 g addr hn 0 0 k (.ok R) ∧ R.base ∈ R.nodes ∧ ∃ e ∈ R.out R.base, e.2 ∉ R.nodes := by
  obtain ⟨x, hx, hdx, hkx⟩ := exists_setting hw sp (fun m => addr (m, false)) hn
  have hp := setting_done hw hx hdx hkx
  have hp' : ∀ m ∈ g.nodes, (fun m => (x.g.mem m).getD nil) m = property sp g m := fun m hm => by simp only [hp m hm, Option.getD_some]
  obtain ⟨y, hy, hdy, hky⟩ := exists_splitting hw sp null true (share n 0) (fun m => (x.g.mem m).getD nil) addr hn
  have hs : status y.g = 0 := status_zero.2 (limitless (by rw [share_zero] at hy; exact hy))
  obtain ⟨hv, -, ho⟩ := splitting_done hy hdy hky (status_zero.1 hs)
  have hb := Rover.done_bag hn hy hdy
  have hlo := loose_reach _ hb
  simp only at hlo
  have hbase : vis addr hn y.g g.base := (hv _).2 .refl
  have hbn : g.base ∈ g.nodes := (hw.reach _).2 .refl
  have hnext : ∀ e ∈ g.out g.base, e.2 ∈ g.nodes := fun e he => (hw.reach _).2 (.tail .refl (List.mem_map.2 ⟨e, he, rfl⟩))
  -- the edges of the base node
  have hout : (y.g.mem.out (g.base, false)).Perm (copies sp g (property sp g) (property sp g) (g.base, false)) := by
    refine (ho (g.base, false) hbase (fun m => y.g.mem.prop (m, true)) fun _ => rfl).trans (.of_eq ?_)
    rw [copies_congr (hp' _ hbn) fun e he => hp' _ (hnext e he)]
    rfl
  have hnd : (g.nodes.flatMap fun m => [((m, false) : Twin N), (m, true)]).Nodup := by
    rw [List.nodup_flatMap]
    refine ⟨fun m _ => by simp, hw.nodup.imp fun {a b} hab => ?_⟩
    intro t h1 h2
    simp only [List.mem_cons, List.not_mem_nil, or_false] at h1 h2
    rcases h1 with rfl | rfl <;> rcases h2 with h2 | h2 <;> exact hab (congrArg Prod.fst h2)
  obtain ⟨ts, hts⟩ := Merge.covers_of hnd fun t ht => reachable hw (reach_bag hn hy) t ht
  obtain ⟨z, hz, hdz, hkz, hz1, hz2⟩ := Trav.killed_stop (fun (_ : Fin n) (_ : Unit) _ => ((), 0)) addr hn () hts
  have hbz := Rover.done_bag hn hz hdz
  have hi : z.g.stop i = true := by
    refine hz1 i ?_
    unfold Trav.fan
    rw [List.countP_map, (hout.countP_eq _)]
    exact hmany
  have hj : z.g.stop (Build.lane hn (addr (g.base, false))) = false := by
    refine hz2 _ (le_trans (le_of_eq ?_) (Nat.zero_le _))
    rw [List.sum_eq_zero_iff]
    intro k hk
    obtain ⟨t, ht, rfl⟩ := List.mem_map.1 hk
    unfold Trav.fan
    rw [List.countP_eq_zero]
    intro u hu hl
    obtain ⟨e, he, rfl⟩ := List.mem_map.1 hu
    have htn : t.1 ∈ g.nodes := by
      have := reachable hw (reach_bag hn hy) t ((hts.mem t).1 ht)
      obtain ⟨m, hm, h⟩ := List.mem_flatMap.1 this
      simp only [List.mem_cons, List.not_mem_nil, or_false] at h
      rcases h with rfl | rfl <;> exact hm
    have hne := (hlo.near t e he).1
    have hen : e.2.1 ∈ g.nodes := by
      rw [hw.reach] at htn ⊢
      exact htn.tail hne
    have := hal e.2 (of_decide_eq_true hl) hen
    rw [this] at hne
    exact hno _ htn hne
  have hij : i ≠ Build.lane hn (addr (g.base, false)) := by
    rintro rfl
    rw [hi] at hj; cases hj
  have hn1 : 1 < n := by
    have h1 := i.isLt
    have h2 := (Build.lane hn (addr (g.base, false))).isLt
    have h3 : i.val ≠ (Build.lane hn (addr (g.base, false))).val := fun h => hij (Fin.ext h)
    omega
  have hold : 0 < y.g.mem.old (Build.lane hn (addr (g.base, false))) := by
    refine hlo.old rfl g.base hbase ?_
    unfold fissile at hf ⊢
    rw [hp' _ hbn]; exact hf
  have hseen : (g.base, false) ∈ z.g.seen (Build.lane hn (addr (g.base, false))) := by
    rcases Trav.first _ hbz with ⟨h, -⟩ | h
    · exact absurd h (by simp)
    · exact h
  obtain ⟨e, he, hel⟩ : ∃ e ∈ y.g.mem.out (g.base, false), Build.lane hn (addr e.2) = i := by
    have : 0 < (y.g.mem.out (g.base, false)).countP fun e => decide (Build.lane hn (addr e.2) = i) := by
      rw [hout.countP_eq]; omega
    obtain ⟨e, he, h⟩ := List.countP_pos_iff.1 this
    exact ⟨e, he, of_decide_eq_true h⟩
  refine ⟨result g y.g.mem z.g, z.g.killed, by rw [hkz]; exact Nat.one_ne_zero, ⟨x, hx, hdx, hkx, y, hy, hdy, hky, ?_⟩, ?_, e, he, ?_⟩
  · rw [if_neg (by simpa using hs)]
    exact ⟨z, hz, hdz, rfl, .inr ⟨.inr ⟨hn1, _, hj, .inl hold⟩, rfl⟩⟩
  · refine List.mem_flatMap.2 ⟨Build.lane hn (addr (g.base, false)), List.mem_finRange _, ?_⟩
    rw [hj]; exact hseen
  · intro hc
    obtain ⟨k, -, hk⟩ := List.mem_flatMap.1 hc
    split_ifs at hk with hsk
    · cases hk
    · have := Trav.home _ hbz k _ hk
      rw [hel] at this
      subst this
      exact hsk hi

/-! ## Cases -/

/-- A labeler that always copies the label. -/
def yes : Labeler Nat Nat := ⟨fun _ _ _ => true, fun _ l _ => l⟩

/-- A path of three vertices. -/
def path : Gr Nat Nat Nat where
  nodes := [0, 1, 2]
  base := 0
  vertex m := m
  out m := if m < 2 then [(m, m + 1)] else []
  inn m := if m = 1 ∨ m = 2 then [(m - 1, m - 1)] else []

theorem path_wf : path.WF := wf_range (k := 3) rfl rfl (by decide) (by decide) (by decide)

/-- All vertices but the first are replaced.  The property of a vertex has the number of its incident edges, and two properties of original
vertices bar an edge to the one made by `ana`. -/
def picky : Splitter Nat Nat Nat where
  fissile v _ := decide (v ≠ 0)
  ana v _ := v + 10
  cata v _ := v + 20
  outAna := yes
  outCata := yes
  inAna := ⟨fun p _ _ => decide (p ≠ 101 ∧ p ≠ 21), fun _ l _ => l⟩
  inCata := yes
  probe v inn _ := v + 100 * inn.length

theorem picky_split {r : Except Int (Gr (Twin Nat) Nat Nat)} {nil null : Nat} {addr : Twin Nat → Nat}
    (h : Splits picky nil null vfree limit path addr hn 0 0 0 r) (hr : ∀ e, r ≠ .error e) :
    ∃ R, r = .ok R ∧ (R.out (0, false)).Perm [(0, (1, false)), (0, (1, true))] ∧
      ∀ b, (1, b) ∈ R.nodes ∧ (R.out (1, b)).Perm [(1, (2, true))] := by
  rcases C37_split path_wf h with ⟨R, cp, e, h1, h2⟩ | ⟨e, -⟩
  · have h3 : cp 1 = 21 := by
      obtain ⟨w, -, h⟩ := h2 1 (by decide) (by decide)
      exact h
    have e0 : copies picky path (property picky path) cp (0, false) = [(0, (1, false)), (0, (1, true))] := rfl
    have h0 : (0, false) ∈ R.nodes := (h1.nodes.mem _).2 .refl
    have hm : ∀ b, (1, b) ∈ R.nodes := by
      intro b
      refine (h1.nodes.mem _).2 (.tail .refl ?_)
      show _ ∈ (copies picky path (property picky path) cp (0, false)).map _
      rw [e0]
      cases b <;> decide
    have e1 : ∀ b, copies picky path (property picky path) cp (1, b) = [(1, (2, true))] := by
      intro b
      cases b
      · rfl
      · simp [copies, copiesBy, origins, termini, path, fissile, picky, yes, Labeler.label, h3]
    exact ⟨R, e, e0 ▸ h1.out _ h0, fun b => ⟨hm b, e1 b ▸ h1.out _ (hm b)⟩⟩
  · exact absurd e (hr _)

/-- A limitless case of C37, and one where the vertices are as many as can be without an overflow. -/
example : ∃ R, Splits picky 0 0 true 0 path (fun s => s.1) Nat.zero_lt_two 0 0 0 (.ok R) ∧ R.WF ∧
    (R.out (0, false)).Perm [(0, (1, false)), (0, (1, true))] ∧ R.vertex (1, true) = 21 := by
  obtain ⟨r, h⟩ := C37_exists path_wf picky 0 0 true 0 (fun s => s.1) Nat.zero_lt_two
  rcases C37_split path_wf h with ⟨R, cp, rfl, h1, -⟩ | ⟨-, h0⟩
  · obtain ⟨R', e, h2, h3⟩ := picky_split h (by simp)
    cases e
    exact ⟨R, h, h1.wf, h2, h1.vertex _ (h3 true).1⟩
  · exact absurd rfl h0

/-- **C79.** The properties used for labelling edges aren't those described in the manual.  There is a case where every execution that isn't
killed returns a graph whose edges aren't the ones that there should be according to the manual, neither those of a vertex made by
`ana`, nor those of one made by `cata`. -/
theorem C79_properties : ∃ (g : Gr Nat Nat Nat) (sp : Splitter Nat Nat Nat), g.WF ∧ g.Duplex ∧
    ∀ (n : Nat) (hn : 0 < n) (addr : Twin Nat → Nat) (nil null : Nat) (vfree : Bool) r, Splits sp nil null vfree 0 g addr hn 0 0 0 r →
      ∃ R m, r = .ok R ∧ ∀ b, (m, b) ∈ R.nodes ∧
        ¬ (R.out (m, b)).Perm (copiesBy sp g (property sp g) (documented sp g (property sp g)) (m, b)) := by
  refine ⟨path, picky, path_wf, ?_, fun n hn addr nil null vfree r h => ?_⟩
  · intro a ha b hb l
    simp only [path, List.mem_cons, List.not_mem_nil, or_false] at ha hb
    rcases ha with rfl | rfl | rfl <;> rcases hb with rfl | rfl | rfl <;> simp [path, List.count_cons]
  · obtain ⟨R, e, -, h2⟩ := picky_split h (by
      rcases C37_split path_wf h with ⟨R, cp, rfl, -⟩ | ⟨-, h0⟩
      · simp
      · exact absurd rfl h0)
    refine ⟨R, 1, e, fun b => ⟨(h2 b).1, fun hp => ?_⟩⟩
    have := ((h2 b).2.symm.trans hp).length_eq
    revert this
    cases b <;> decide

/-- A path of two vertices. -/
def pair : Gr Nat Nat Nat where
  nodes := [0, 1]
  base := 0
  vertex m := m
  out m := if m = 0 then [(0, 1)] else []
  inn m := if m = 1 then [(0, 0)] else []

/-- **C38.** One vertex too many is added without an overflow: there is a graph of two vertices with room for just as many, to which a
third is added. -/
theorem C38_extra : ∃ (g : Gr Nat Nat Nat) (sp : Splitter Nat Nat Nat), g.WF ∧ g.nodes.length = 2 ∧
    ∃ R, Splits sp 0 0 false 2 g (fun s => s.1) Nat.one_pos 0 0 0 (.ok R) ∧ 2 < R.nodes.length := by
  have hw : pair.WF := wf_range (k := 2) rfl rfl (by decide) (by decide) (by decide)
  obtain ⟨r, h⟩ := C37_exists hw picky 0 0 false 2 (fun s => s.1) Nat.one_pos
  have hc : Covers (passages picky pair (property picky pair)) pair.base [0, 1] := by
    refine ⟨by decide, fun m => ⟨fun hm => ?_, fun hm => ?_⟩⟩
    · simp only [List.mem_cons, List.not_mem_nil, or_false] at hm
      rcases hm with rfl | rfl
      · exact .refl
      · exact .tail .refl (by decide)
    · induction hm with
      | refl => decide
      | @tail b c _ hb ih =>
        simp only [List.mem_cons, List.not_mem_nil, or_false] at ih
        rcases ih with rfl | rfl <;> revert hb <;> simp +contextual [passages, pair, origins, fissile, picky]
  rcases C37_split hw h with ⟨R, cp, rfl, h1, -⟩ | ⟨e, -⟩
  · refine ⟨pair, picky, hw, rfl, R, h, ?_⟩
    have h0 : (0, false) ∈ R.nodes := (h1.nodes.mem _).2 .refl
    have hm : ∀ b, (1, b) ∈ R.nodes := by
      intro b
      refine (h1.nodes.mem _).2 (.tail .refl ?_)
      show _ ∈ (copies picky pair (property picky pair) cp (0, false)).map _
      rw [show copies picky pair (property picky pair) cp (0, false) = [(0, (1, false)), (0, (1, true))] from rfl]
      cases b <;> decide
    have : ([(0, false), (1, false), (1, true)] : List (Twin Nat)).Subperm R.nodes := by
      refine List.subperm_of_subset (by decide) ?_
      intro t ht
      simp only [List.mem_cons, List.not_mem_nil, or_false] at ht
      rcases ht with rfl | rfl | rfl
      exacts [h0, hm false, hm true]
    exact this.length_le
  · have := ((C38_overflow hw hc h).1 e).2
    exact absurd this (by decide)

/-- A base vertex with edges to any number of others. -/
def star (k : Nat) : Gr Nat Nat Nat where
  nodes := List.range (k + 1)
  base := 0
  vertex m := m
  out m := if m = 0 then (List.range k).map fun j => (j, j + 1) else []
  inn m := if m = 0 ∨ k < m then [] else [(m - 1, 0)]

theorem star_wf (k : Nat) : (star k).WF := by
  refine wf_range (k := k + 1) rfl rfl (Nat.succ_pos _) ?_ ?_
  · intro m _ e he
    simp only [star] at he
    split_ifs at he
    · obtain ⟨j, hj, rfl⟩ := List.mem_map.1 he
      exact Nat.succ_lt_succ (List.mem_range.1 hj)
    · cases he
  · intro m hm h0
    refine ⟨0, by omega, (m - 1, m), ?_, rfl⟩
    simp only [star, if_true]
    exact List.mem_map.2 ⟨m - 1, List.mem_range.2 (by omega), by rw [Nat.sub_add_cancel (by omega)]⟩

/-- Every vertex is replaced, and every edge copied. -/
def both : Splitter Nat Nat Nat where
  fissile _ _ := true
  ana v _ := 2 * v
  cata v _ := 2 * v + 1
  outAna := yes
  outCata := yes
  inAna := yes
  inCata := yes
  probe v _ _ := v

/-- The hypotheses of C75. -/
example (n : Nat) (hn : 0 < n) (addr : Twin Nat → Nat) : ∃ R k, k ≠ 0 ∧ Splits both 0 0 true 0 (star (31 * n + 1)) addr hn 0 k 0 (.ok R) ∧
    ∃ m, (m, false) ∈ R.nodes ∧ R.vertex (m, false) = m ∧ (m, true) ∉ R.nodes := by
  obtain ⟨R, k, h0, h1, m, -, h2⟩ := C75_kill_lost (star_wf _) both 0 0 true addr hn (ms := (List.range (31 * n + 1)).map (· + 1))
    (List.nodup_range.map fun a b h => Nat.succ.inj h) (by simp) (fun m hm => by
      obtain ⟨j, hj, rfl⟩ := List.mem_map.1 hm
      exact ⟨rfl, (j, j + 1), List.mem_map.2 ⟨j, hj, rfl⟩, rfl, j, by simp [origins, fissile, both, yes, Labeler.label, star]⟩)
  exact ⟨R, k, h0, h1, m, h2⟩

/-- The hypotheses of C76. -/
example (n : Nat) (hn : 0 < n) (addr : Twin Nat → Nat) : ∃ R k, k ≠ 0 ∧ Splits picky 0 0 true 0 (star (31 * n + 1)) addr hn k 0 0 (.ok R) := by
  obtain ⟨R, k, -, -, h0, h1, -⟩ := C76_kill_lost (star_wf (31 * n + 1)) picky 0 0 true addr hn (by simp [star])
  exact ⟨R, k, h0, h1⟩

/-- The hypotheses of C77. -/
example : ∃ R k, k ≠ 0 ∧ Splits both 0 0 true 0 (star 16) (fun s => if s.1 = 0 then 0 else 1) Nat.zero_lt_two 0 0 k (.ok R) ∧
    ∃ e ∈ R.out R.base, e.2 ∉ R.nodes := by
  obtain ⟨R, k, h0, h1, -, h2⟩ := C77_dangling (star_wf 16) both 0 0 (fun s => if s.1 = 0 then 0 else 1) Nat.zero_lt_two (i := 1) rfl
    (by decide) (fun s h hs => by
      obtain ⟨m, b⟩ := s
      by_contra hm
      have hm' : m ≠ 0 := hm
      simp [hm', Build.lane, star] at h) (by decide)
  exact ⟨R, k, h0, h1, h2⟩

end Cru.Split
