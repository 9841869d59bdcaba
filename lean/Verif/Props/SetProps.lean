import Verif.Spec.SetProps
import Verif.Props.Partition
import Verif.Props.Duplex

/-! # C156: partitions by properties of incoming edges -/

namespace Cru.Partition

open Net Duplex

variable {n : Nat} {N V L X : Type} [DecidableEq N] [DecidableEq V] [DecidableEq X] {g : Gr N V L}
  {c : Rule V L X} {P : V → List (L × V) → List (L × V) → Option X} {same : Option X → Option X → Bool} {addr : N → Nat}

omit [DecidableEq N] [DecidableEq V] [DecidableEq X] in
theorem wf_inn (hw : g.WF) (inn : N → List (L × N)) : ({ g with inn := inn } : Gr N V L).WF := ⟨hw.nodup, hw.reach⟩

omit [DecidableEq V] in
theorem sets_held {c : Classifier N X} (hwf : g.WF) {hn : 0 < n} {x : State n N (Trav.Job n N (Mem N X))} (hx : Sets g c addr hn x) : Held g.nodes x.g.mem := by
  have h : ∀ z, Bag.Reach (setTask g c.map addr hn) g.base (Trav.start clear) z → Held g.nodes z.1.mem := by
    refine Trav.induct (motive := fun _ _ s => Held g.nodes s) ?_ ?_
    · refine ⟨?_, fun _ _ => rfl⟩
      have : (g.nodes.map fun m => ofOption ((clear : Mem N X).prop m)) = g.nodes.map fun _ => 0 := rfl
      rw [this]
      simp [clear]
    · rintro seen err s m h hr - -
      exact held_set hwf.nodup h ((hwf.reach m).2 hr) c.map
  exact h _ (reach_bag hn hx.1)

omit [DecidableEq V] [DecidableEq X] in
/-- The incoming edges while properties are being computed. -/
theorem prepared_either (hw : g.WF) (h0 : (∀ m ∈ g.nodes, g.inn m = []) ∨ Exact g g.inn) {b : Bool} {hn : 0 < n} {inn : N → List (L × N)}
    (h : Prepared b addr hn g inn 0) : (b = true → Exact g inn) ∧ ((∀ m ∈ g.nodes, inn m = []) ∨ Exact g inn) := by
  cases b with
  | true => exact ⟨fun _ => C31_prepared hw h0 h, .inr (C31_prepared hw h0 h)⟩
  | false =>
    rw [Prepared, if_neg (by simp)] at h
    refine ⟨fun h => (by cases h), ?_⟩
    rw [h.1]; exact h0

omit [DecidableEq V] [DecidableEq X] in
/-- The incoming edges in the end. -/
theorem razed_none (hw : g.WF) {inn left : N → List (L × N)} (h0 : (∀ m ∈ g.nodes, inn m = []) ∨ Exact g inn) {hn : 0 < n} {e : Int}
    (h : Razed addr hn ({ g with inn := inn } : Gr N V L) left e) : ∀ m ∈ g.nodes, left m = [] := by
  unfold Razed at h
  by_cases hd : halfDuplex ({ g with inn := inn } : Gr N V L) = true
  · rw [if_pos hd] at h
    intro m hm
    rw [h.1]
    rcases h0 with h0 | h0
    · exact h0 m hm
    · exact (C31_recognized (wf_inn hw inn)).2 h0 hd m hm
  · rw [if_neg hd] at h
    obtain ⟨inn', hl, rfl⟩ := h
    intro m hm
    by_cases he : e = 0
    · subst he
      rw [if_neg (by simp)]
      exact (C31_removed (wf_inn hw inn) hl).1 m hm
    · rw [if_pos he]
      exact if_pos hm

/-- **C156.** If `cru_partition_of` isn't killed while it computes properties and ends without an error, then each vertex has a class, two vertices have
the same class if and only if their properties are equal, where incoming edges are all those with the vertex as terminus, and the size of a class is the number
of its vertices. -/
theorem C156_partition (hw : g.WF) (hd : (g.nodes.map g.vertex).Nodup) (h0 : (∀ m ∈ g.nodes, g.inn m = []) ∨ Exact g g.inn) (hc : c.Sound P same)
    {hn : 0 < n} {result : Option (Classify.Mem n N V)} {left : N → List (L × N)} {s' : Mem N X}
    (h : PartitionOf c g addr hn 0 result 0 left s') :
    ∃ s, result = some s ∧ ∀ a ∈ g.nodes, ∃ k, Classify.classOf s (g.vertex a) = some k ∧
      (∀ b ∈ g.nodes, Classify.classOf s (g.vertex b) = some k ↔ same (value c P g a) (value c P g b) = true) ∧
      Classify.classSize s k = g.nodes.countP fun b => same (value c P g a) (value c P g b) := by
  obtain ⟨inn, e₀, hp, h⟩ := h
  by_cases he : e₀ = 0
  · subst he
    rw [if_neg (by simp)] at h
    obtain ⟨x, hx, hdone, hk, ⟨e₁, -, h1, -, h2, -⟩ | ⟨-, e₂, -, h⟩⟩ := h
    · exact absurd h2.symm h1
    · by_cases h2 : e₂ = 0
      · rw [if_neg (not_not.2 h2)] at h
        have hval : ∀ a ∈ g.nodes, P (g.vertex a) (if c.incident then operands { g with inn := inn } (inn a) else [])
            (operands { g with inn := inn } (g.out a)) = value c P g a := by
          intro a ha
          unfold value
          cases hb : c.incident with
          | false => rfl
          | true => exact hc.order _ _ _ _ ((((prepared_either hw h0 hp).1 hb) a ha).map _)
        obtain ⟨s, hs, hg⟩ := C22_partition (g := { g with inn := inn })
          (val := fun a => P (g.vertex a) (if c.incident then operands { g with inn := inn } (inn a) else []) (operands { g with inn := inn } (g.out a)))
          (fun t m => hc.prop ..) hc.equal hc.equality hc.respects (ms := g.nodes) ⟨hw.nodup, hw.reach⟩ hd ⟨hx, hdone⟩ hk.symm h
        refine ⟨s, hs, fun a ha => ?_⟩
        obtain ⟨k, h1, h2, h3⟩ := hg a ha
        refine ⟨k, h1, fun b hb => ?_, ?_⟩
        · rw [← hval a ha, ← hval b hb]; exact h2 b hb
        · rw [h3]
          refine List.countP_congr fun b hb => ?_
          rw [hval a ha, hval b hb]
      · rw [if_pos h2] at h
        exact absurd h.2.1.symm h2
  · rw [if_pos he] at h
    exact absurd h.2.1.symm he

/-- **C156.** However `cru_partition_of` ends, all properties made have been freed once and none is left, and the graph has no incoming edges left, unless it's
killed while it derives them. -/
theorem C156_left (hw : g.WF) (h0 : (∀ m ∈ g.nodes, g.inn m = []) ∨ Exact g g.inn) {hn : 0 < n} {k : Nat} {result : Option (Classify.Mem n N V)} {e : Int}
    {left : N → List (L × N)} {s' : Mem N X} (h : PartitionOf c g addr hn k result e left s') :
    s'.made = s'.freed ∧ (∀ m, s'.prop m = none) ∧
    ((∀ m ∈ g.nodes, left m = []) ∨ c.incident = true ∧ result = none ∧ e = Build.intKil ∧ Launched (full g.out addr hn) g left Build.intKil) := by
  obtain ⟨inn, e₀, hp, h⟩ := h
  by_cases he : e₀ = 0
  · subst he
    have hi := (prepared_either hw h0 hp).2
    rw [if_neg (by simp)] at h
    obtain ⟨x, hx, hdone, hk, ⟨e₁, -, h1, -, h2, rfl, hu⟩ | ⟨-, e₂, hr, h⟩⟩ := h
    · obtain ⟨h3, h4⟩ := unsets_none (wf_inn hw inn) (sets_held (wf_inn hw inn) ⟨hx, hdone⟩) hu
      exact ⟨h3, h4, .inl fun m hm => if_pos hm⟩
    · suffices s'.made = s'.freed ∧ ∀ m, s'.prop m = none from ⟨this.1, this.2, .inl (razed_none hw hi hr)⟩
      by_cases h2 : e₂ = 0
      · rw [if_neg (not_not.2 h2)] at h
        exact C64_freed (wf_inn hw inn) ⟨hx, hdone⟩ h
      · rw [if_pos h2] at h
        exact unsets_none (wf_inn hw inn) (sets_held (wf_inn hw inn) ⟨hx, hdone⟩) h.2.2
  · rw [if_pos he] at h
    obtain ⟨rfl, rfl, rfl, rfl⟩ := h
    refine ⟨rfl, fun _ => rfl, .inr ?_⟩
    unfold Prepared at hp
    split_ifs at hp with hb
    · have := hp
      obtain ⟨x, -, -, -, hk⟩ := this
      have hk' : e = Build.intKil := by
        split_ifs at hk
        · exact absurd hk he
        · exact hk
      subst hk'
      simp only [Bool.and_eq_true] at hb
      exact ⟨hb.2, rfl, rfl, hp⟩
    · exact absurd hp.2 he

omit [DecidableEq X] in
/-- Without kills, it ends without an error. -/
theorem partition_exists [DecidableEq X] (hw : g.WF) (hd : (g.nodes.map g.vertex).Nodup) (hc : c.Sound P same) (hn : 0 < n)
    (h0 : halfDuplex g = true → c.incident = true → ∃ inn, Launched (full g.out addr hn) g inn 0) :
    ∃ s left s', PartitionOf c g addr hn 0 (some s) 0 left s' := by
  obtain ⟨inn, hp⟩ : ∃ inn, Prepared c.incident addr hn g inn 0 := by
    by_cases hb : (halfDuplex g && c.incident) = true
    · simp only [Bool.and_eq_true] at hb
      obtain ⟨inn, hi⟩ := h0 hb.1 hb.2
      exact ⟨inn, by rw [Prepared, if_pos (by simp [hb])]; exact hi⟩
    · exact ⟨g.inn, by rw [Prepared, if_neg hb]; exact ⟨rfl, rfl⟩⟩
  have hw' := wf_inn hw inn
  obtain ⟨x, hx, hdone, hk⟩ := (Trav.ends (fun _ : Fin n => setOne (c.on { g with inn := inn }).map) addr hn
    (next := ({ g with inn := inn } : Gr N V L).next false) (a := g.base) clear (fun m h => (hw'.reach m).2 h)).2
  have hi := (set_inv (g := { g with inn := inn }) (c := c.on { g with inn := inn }) (addr := addr)
    (val := fun a => P (g.vertex a) (if c.incident then operands { g with inn := inn } (inn a) else []) (operands { g with inn := inn } (g.out a)))
    (fun t m => hc.prop ..) _ (reach_bag hn hx)).1
  obtain ⟨s, y, hy, hyd, w, hwst, hret⟩ := (Classify.C22_terminates (g := { g with inn := inn }) (prop := x.g.mem.prop) (hash := c.hash)
    (eq := c.equal) hc.equal hc.equality hc.respects hn (ms := g.nodes) ⟨hw.nodup, hw'.reach⟩ hd).2
  obtain ⟨s', hs'⟩ := unsets_exists { g with inn := inn } c.destroy addr hn (fun m h => (hw'.reach m).2 h) x.g.mem w
  obtain ⟨left, hl⟩ : ∃ left, Razed addr hn ({ g with inn := inn } : Gr N V L) left 0 := by
    unfold Razed
    by_cases hh : halfDuplex ({ g with inn := inn } : Gr N V L) = true
    · exact ⟨_, (if_pos hh).mpr ⟨rfl, rfl⟩⟩
    · obtain ⟨inn', hi'⟩ := (C31_terminates hw' addr hn).2.2
      exact ⟨_, (if_neg hh).mpr ⟨inn', hi', rfl⟩⟩
  refine ⟨s, left, s', inn, 0, hp, ?_⟩
  rw [if_neg (by simp)]
  exact ⟨x, hx, hdone, hk.symm, .inr ⟨.inr ⟨rfl, hi.noErr⟩, 0, hl, by
    rw [if_neg (by simp)]
    exact ⟨0, .inr ⟨rfl, hi.noErr⟩, .inr ⟨rfl, y, hy, hyd, w, hwst, hret.symm, hs'⟩⟩⟩⟩

/-- **C156.** On graphs with all incoming edges or none, `cru_partition_of` can end without an error. -/
theorem C156_ends (hw : g.WF) (hd : (g.nodes.map g.vertex).Nodup) (hc : c.Sound P same) (hn : 0 < n) :
    ∃ s left s', PartitionOf c g addr hn 0 (some s) 0 left s' :=
  partition_exists hw hd hc hn fun _ _ => (C31_terminates hw addr hn).2.1

/-- Whether a vertex has incoming edges. -/
def entered : Rule Nat Unit Unit :=
  ⟨true, fun _ _ i _ => (if i = [] then none else some (), 0), fun _ => 0, fun _ x y => (x == y, 0), fun _ _ => 0⟩

theorem entered_sound : entered.Sound (fun _ i _ => if i = [] then none else some ()) (fun x y => x == y) where
  prop _ _ _ _ := rfl
  order v i i' o h := by
    by_cases hi : i = []
    · subst hi
      rw [h.symm.eq_nil]
    · rw [if_neg hi, if_neg (fun hc => hi (by subst hc; exact h.eq_nil))]
  equal _ _ _ := rfl
  equality := ⟨by simp, by simp, by simp⟩
  respects := fun _ _ _ => rfl

theorem path_entered {k m : Nat} (hm : m + 1 < k) :
    value entered (fun _ i _ => if i = [] then none else some ()) (path k) (m + 1) = some () := by
  have : ((), m) ∈ reversed (path k).out (path k).nodes (m + 1) := by
    simp only [reversed, List.mem_flatMap, List.mem_map, List.mem_filter, decide_eq_true_eq]
    refine ⟨m, List.mem_range.2 (by omega), ((), m + 1), ⟨?_, rfl⟩, rfl⟩
    simp only [path]
    rw [if_pos hm, List.mem_singleton]
  unfold value
  refine if_neg fun hc => ?_
  simp only [entered, if_true, List.map_eq_nil_iff] at hc
  rw [hc] at this
  cases this

/-- **C156, the defect.** With any number of lanes, consider the partition of the vertices of a long path into those with and those without incoming edges.  Usually the
second and the last vertex are in the same class.  If the call is killed, it returns nothing and an error as it should, but it can leave some incoming edges behind,
and then the next call returns a partition with those vertices in different classes and no error. -/
theorem C156_stale (addr : Nat → Nat) (hn : 0 < n) {k : Nat} (hk : 31 * n + 2 ≤ k) :
    (∀ result left s', PartitionOf entered (path k) addr hn 0 result 0 left s' →
      ∃ s, result = some s ∧ Classify.classOf s 1 = Classify.classOf s (k - 1)) ∧
    ∃ left s', PartitionOf entered (path k) addr hn 0 none Build.intKil left s' ∧
      (∀ result left' s'', PartitionOf entered { path k with inn := left } addr hn 0 result 0 left' s'' →
        ∃ s, result = some s ∧ Classify.classOf s 1 ≠ Classify.classOf s (k - 1)) ∧
      ∃ s left' s'', PartitionOf entered { path k with inn := left } addr hn 0 (some s) 0 left' s'' := by
  have hw : (path k).WF := path_wf (by omega)
  have hd : ((path k).nodes.map (path k).vertex).Nodup := by simp [path, List.nodup_range]
  have h1m : 1 ∈ (path k).nodes := List.mem_range.2 (by omega)
  have hlast : k - 1 ∈ (path k).nodes := List.mem_range.2 (by omega)
  have hhalf : halfDuplex (path k) = true := (C31_recognized hw).1 fun _ _ => rfl
  refine ⟨fun result left s' h => ?_, ?_⟩
  · obtain ⟨s, hs, hg⟩ := C156_partition hw hd (.inl fun _ _ => rfl) entered_sound h
    refine ⟨s, hs, ?_⟩
    obtain ⟨c, h1, h2, -⟩ := hg 1 h1m
    have := (h2 (k - 1) hlast).2 (by
      obtain ⟨j, rfl⟩ : ∃ j, k = j + 2 := ⟨k - 2, by omega⟩
      rw [path_entered (m := 0) (by omega), show j + 2 - 1 = j + 1 from rfl, path_entered (m := j) (by omega)]
      rfl)
    exact h1.trans this.symm
  · obtain ⟨inn, hl, h1, h2⟩ := path_partial addr hn hk
    have hdx : halfDuplex { path k with inn := inn } = false := by
      have ho : (path k).out 0 = [((), 1)] := by simp only [path]; rw [if_pos (by omega)]
      rw [halfDuplex_cons (g := { path k with inn := inn }) ho]
      simpa using h1
    refine ⟨inn, clear, ⟨inn, Build.intKil, ?_, ?_⟩, fun result left' s'' h => ?_, ?_⟩
    · rw [Prepared, if_pos (by simp [hhalf, entered])]; exact hl
    · rw [if_pos (by decide)]; exact ⟨rfl, rfl, rfl, rfl⟩
    · obtain ⟨inn', e₀, hp, h⟩ := h
      rw [Prepared, if_neg (by simp [hdx])] at hp
      obtain ⟨rfl, rfl⟩ := hp
      rw [if_neg (by simp)] at h
      obtain ⟨x, hx, hdone, hkil, ⟨e₁, -, h3, -, h4, -⟩ | ⟨-, e₂, -, h⟩⟩ := h
      · exact absurd h4.symm h3
      · by_cases h3 : e₂ = 0
        · rw [if_neg (not_not.2 h3)] at h
          obtain ⟨s, hs, hg⟩ := C22_partition (g := { path k with inn := inn' })
            (val := fun a => if operands { path k with inn := inn' } (inn' a) = [] then none else some ())
            (fun t m => rfl) entered_sound.equal entered_sound.equality entered_sound.respects (ms := (path k).nodes) ⟨hw.nodup, hw.reach⟩ hd
            ⟨hx, hdone⟩ hkil.symm h
          refine ⟨s, hs, ?_⟩
          obtain ⟨c, h5, h6, -⟩ := hg 1 h1m
          intro hc
          have := (h6 (k - 1) hlast).1 (hc.symm.trans h5)
          rw [if_neg (by simpa [operands] using h1), if_pos (by simpa [operands] using h2)] at this
          cases this
        · rw [if_pos h3] at h
          exact absurd h.2.1.symm h3
    · exact partition_exists (wf_inn hw inn) hd entered_sound hn (fun h => by rw [hdx] at h; cases h)

/-- Non-vacuity of `C156_partition`, `C156_left` and `C156_ends`: the path of five vertices on three lanes, where four vertices are in a class. -/
example : ∃ s left s', PartitionOf entered (path 5) id (show 0 < 3 by decide) 0 (some s) 0 left s' ∧
    (∀ m ∈ (path 5).nodes, left m = []) ∧ ∃ c, Classify.classOf s 1 = some c ∧ Classify.classSize s c = 4 := by
  have hw : (path 5).WF := path_wf (by decide)
  have hd : ((path 5).nodes.map (path 5).vertex).Nodup := by simp [path, List.nodup_range]
  obtain ⟨s, left, s', h⟩ := C156_ends (addr := id) hw hd entered_sound (show 0 < 3 by decide)
  refine ⟨s, left, s', h, ?_, ?_⟩
  · rcases (C156_left hw (.inl fun _ _ => rfl) h).2.2 with h | ⟨-, h, -⟩
    · exact h
    · cases h
  · obtain ⟨t, ht, hg⟩ := C156_partition hw hd (.inl fun _ _ => rfl) entered_sound h
    cases ht
    obtain ⟨c, h1, -, h3⟩ := hg 1 (by decide)
    exact ⟨c, h1, by rw [h3]; decide⟩

end Cru.Partition
