import Verif.Proofs.Resource

/-!
# C141, C142: memory, locks and conditions of operations, kill switches and partitions
-/

namespace Cru.Resource

variable {sys : Nat → Int} {nproc lanes : Nat} {w w' : World}

/-! ## C141 -/

/-- **C141.** If a router is made, it's complete, there's no error, and it owns exactly what has been obtained from the system. -/
theorem C141_made {r : Router} (h : routerOf sys nproc lanes w = (some r, w')) :
    r.Complete (capped nproc lanes) ∧ w'.err = 0 ∧ w'.live = r.owns + w.live ∧ w'.wrong = w.wrong ∧ r.shared = 0 ∧ r.status = 0 ∧
      r.killed = false := by
  rcases routerOf_any sys nproc lanes w with ⟨r₁, w₁, h₁, he, he₁, hl, hw, h2, h3, h4⟩ | ⟨w₁, h₁, -⟩
  · have hn : capped nproc lanes ≠ 0 := by
      intro hn
      unfold routerOf at h; dsimp only at h
      rw [if_neg (by simp [he]), if_pos hn] at h; cases h
    rcases routerOf_made (sys := sys) (w := w) hn he with ⟨r₂, w₂, h₂, ⟨hc, -⟩, -⟩ | ⟨w₂, h₂, -⟩
    · rw [h] at h₁ h₂; cases h₁; cases h₂
      exact ⟨hc, he₁, hl, hw, h2, h3, h4⟩
    · rw [h] at h₂; cases h₂
  · rw [h] at h₁; cases h₁

/-- **C141.** If not, there's an error, and whatever has been obtained has been given back, without giving back anything else. -/
theorem C141_refused (h : routerOf sys nproc lanes w = (none, w')) : w'.err ≠ 0 ∧ w'.live = w.live ∧ w'.wrong = w.wrong := by
  rcases routerOf_any sys nproc lanes w with ⟨r₁, w₁, h₁, -⟩ | ⟨w₁, h₁, he, hl, hw, -⟩
  · rw [h] at h₁; cases h₁
  · rw [h] at h₁; cases h₁; exact ⟨he, hl, hw⟩

/-- **C141.** The error is that of the first request that's refused, and a router is made if none is.  There are five requests, and six for
each worker. -/
theorem C141_verdict (he : w.err = 0) (hn : capped nproc lanes ≠ 0) :
    (routerOf sys nproc lanes w).2.err = verdict sys w.clock (requests (capped nproc lanes)) ∧
      ((routerOf sys nproc lanes w).1.isSome ↔ ∀ t < 5 + 6 * capped nproc lanes, sys (w.clock + t) = 0) := by
  have hall : ∀ (l : List (Int → Int)) (t : Nat), (∀ c ∈ l, ∀ e, e ≠ 0 → c e ≠ 0) →
      (verdict sys t l = 0 ↔ ∀ i < l.length, sys (t + i) = 0) := by
    intro l
    induction l with
    | nil => simp [verdict]
    | cons c l ih =>
      intro t hc
      rw [verdict]
      by_cases h : sys t = 0
      · rw [if_pos h, ih _ fun c h => hc c (List.mem_cons_of_mem _ h)]
        constructor
        · rintro hi (_ | i) hlt
          · exact h
          · rw [← hi i (by simpa using hlt)]; congr 1; omega
        · intro hi i hlt
          rw [← hi (i + 1) (by simpa using hlt)]; congr 1; omega
      · rw [if_neg h]
        refine ⟨fun h' => absurd h' (hc c List.mem_cons_self _ h), fun h' => absurd (h' 0 (by simp)) h⟩
  have hne : ∀ c ∈ requests (capped nproc lanes), ∀ e, e ≠ 0 → c e ≠ 0 := by
    intro c hc e h
    simp only [requests, List.mem_append, List.mem_cons, List.not_mem_nil, or_false, List.mem_flatten, List.mem_replicate] at hc
    rcases hc with (rfl | rfl | rfl | rfl | rfl) | ⟨l, ⟨-, rfl⟩, hc⟩
    any_goals first | exact mutexCode_ne h | exact condCode_ne h | (show (12 : Int) ≠ 0; decide)
    simp only [List.mem_cons, List.not_mem_nil, or_false] at hc
    rcases hc with rfl | rfl | rfl | rfl | rfl | rfl <;>
      first | exact mutexCode_ne h | exact condCode_ne h | (show (12 : Int) ≠ 0; decide) | (show (-1315 : Int) ≠ 0; decide)
  have hlen : (requests (capped nproc lanes)).length = 5 + 6 * capped nproc lanes := by
    simp only [requests, List.length_append, List.length_flatten, List.map_replicate, List.sum_replicate_nat]
    simp; omega
  rw [← hlen, ← hall _ _ hne]
  rcases routerOf_made (sys := sys) (w := w) hn he with ⟨r, w₁, h, -, hv, -, -, he', -⟩ | ⟨w₁, h, hv, he', -⟩ <;> rw [h]
  · exact ⟨by rw [hv]; exact he', by simp [hv]⟩
  · exact ⟨he', by simp [hv]⟩

/-- **C141.** The number of workers is the number requested, or that of the processors if none is requested or it's less; if the number of
processors isn't known, it's the number requested up to 1024, or one if none is requested. -/
theorem C141_workers (nproc lanes : Nat) :
    capped nproc (if lanes ≠ 0 then lanes else if nproc ≠ 0 then nproc else 1) =
      if nproc = 0 then (if lanes = 0 then 1 else min lanes 1024) else if lanes = 0 then nproc else min lanes nproc := by
  unfold capped
  by_cases h1 : nproc = 0 <;> by_cases h2 : lanes = 0 <;> simp only [h1, h2, ne_eq, not_true_eq_false, not_false_eq_true, if_true, if_false]
  · simp
  · split_ifs <;> omega
  · simp
  · split_ifs <;> omega

/-- **C141.** When a router is freed that isn't shared, all that it owns is given back and nothing else, and the first of the pending error,
the status of the workers and `CRU_INTKIL` in case of a kill is reported. -/
theorem C141_freed {r : Router} (hs : r.shared = 0) {rest : Multiset Res} (h : w.live = r.owns + rest) :
    freeRouter r w = (none, { w with live := rest, err := firstOf [w.err, r.status, if r.killed then -528 else 0] }) :=
  freeRouter_of hs h

/-- **C141.** Freeing a shared router only undoes the sharing. -/
theorem C141_shared (r : Router) (w : World) : freeRouter (share r) w = (some r, w) := by
  rw [freeRouter_shared (by simp [share])]; simp [share]

/-- **C141.** Whatever the stages of an operation are, and whichever requests are refused, when it's over everything obtained for it has
been given back, and nothing else. -/
theorem C141_balanced (stages : List Stage) : (operation sys nproc lanes stages w).1 = none ∧
    (operation sys nproc lanes stages w).2.live = w.live ∧ (operation sys nproc lanes stages w).2.wrong = w.wrong := by
  unfold operation
  generalize (if lanes ≠ 0 then lanes else if nproc ≠ 0 then nproc else 1) = k
  rcases routerOf_any sys nproc k w with ⟨r, w₁, h, -, -, hl, hw, hs, -, -⟩ | ⟨w₁, h, -, hl, hw, -⟩ <;> rw [h] <;> dsimp only
  · obtain ⟨r₂, w₂, h₂, hg, -⟩ := stages_going (sys := sys) (nproc := nproc) (m := w.live) (b := w.wrong) stages ⟨hs, hl, hw⟩
    rw [h₂]; dsimp only
    rw [freeRouter_of hg.shared hg.live]
    exact ⟨rfl, rfl, hg.wrong⟩
  · exact ⟨rfl, hl, hw⟩

/-- **C141.** If there's no error then, the router was made, all workers of all stages were started and joined and returned no error, no
stage with another router was killed, and neither was the latest of those with the operation's own router. -/
theorem C141_reported (stages : List Stage) (h : (operation sys nproc lanes stages w).2.err = 0) :
    w.err = 0 ∧ (∀ s ∈ stages, s.run.status = 0 ∧ s.run.dblx = 0 ∧ (s.own = false → s.run.killed = false)) ∧ killedLast stages = false := by
  unfold operation at h
  generalize (if lanes ≠ 0 then lanes else if nproc ≠ 0 then nproc else 1) = k at h
  rcases routerOf_any sys nproc k w with ⟨r, w₁, h₁, he, -, hl, hw, hs, hst, hk⟩ | ⟨w₁, h₁, he, -⟩ <;> rw [h₁] at h <;> dsimp only at h
  · obtain ⟨r₂, w₂, h₂, hg, he₂, -, hk₂, -⟩ := stages_going (sys := sys) (nproc := nproc) (m := w.live) (b := w.wrong) stages ⟨hs, hl, hw⟩
    rw [h₂] at h; dsimp only at h
    rw [freeRouter_of hg.shared hg.live] at h
    dsimp only at h
    have hz : w₂.err = 0 := by by_contra hn; simp [firstOf, hn] at h
    refine ⟨he, (he₂ hz).2, ?_⟩
    by_contra hn
    rw [Bool.not_eq_false] at hn
    have ho : stages.any Stage.own = true := by
      by_contra ho
      have : stages.filter Stage.own = [] := by
        rw [List.filter_eq_nil_iff]; intro x hx hxo; exact ho (List.any_eq_true.2 ⟨x, hx, hxo⟩)
      simp [killedLast, this] at hn
    rw [if_pos ho, hn] at hk₂
    simp only [firstOf, hz, hk₂] at h
    by_cases hq : r₂.status = 0 <;> simp [hq] at h
  · exact absurd h he

/-- **C141.** A kill switch is made with its lock, or there's an error and nothing is left behind. -/
theorem C141_switch (he : w.err = 0) :
    (∃ k w', newKillSwitch sys w = (some k, w') ∧ w'.err = 0 ∧ w'.live = {Res.mk k .memory, ⟨k, .mutex⟩} + w.live ∧ w'.wrong = w.wrong ∧
        sys w.clock = 0 ∧ sys (w.clock + 1) = 0) ∨
      ∃ w', newKillSwitch sys w = (none, w') ∧ w'.err = verdict sys w.clock [memoryCode, mutexCode] ∧ w'.err ≠ 0 ∧ w'.live = w.live ∧
        w'.wrong = w.wrong := by
  unfold newKillSwitch
  rw [mutexInit_eq]
  rcases malloc_made (sys := sys) he with ⟨p, w₁, h, -, hv, hc₁, hl₁, he₁, hw₁⟩ | ⟨w₁, h, hv, he₁, hl, hw⟩ <;> rw [h] <;> dsimp only
  swap
  · have hs : sys w.clock ≠ 0 := by intro hn; simp [verdict, hn] at hv
    refine .inr ⟨_, rfl, ?_, ?_, hl, hw⟩ <;> simp_all [verdict, memoryCode]
  have hs₀ : sys w.clock = 0 := by by_contra hn; simp [verdict, hn, memoryCode] at hv
  have hb₁ : Res.mk p .memory ∈ w₁.live := by rw [hl₁]; simp
  rcases setup_made (sys := sys) (k := .mutex) (code := mutexCode) hb₁ he₁ with ⟨w₂, h, hs₁, hc₂, hl₂, he₂, hw₂⟩ | ⟨e, w₂, h, hn, hs₁, he₂, hl₂, hw₂⟩ <;>
    rw [h] <;> dsimp only
  · rw [if_neg (by simp [he₂])]
    rw [hc₁] at hs₁
    refine .inl ⟨p, w₂, rfl, he₂, ?_, hw₂.trans hw₁, hs₀, hs₁⟩
    rw [hl₂, hl₁, ← Multiset.cons_add]; congr 1
    exact Multiset.coe_eq_coe.2 (List.reverse_perm [Res.mk p .memory, ⟨p, .mutex⟩])
  · rw [if_pos (.inl hn), free, release_of (m := w.live) (by rw [hl₂, hl₁]; rfl) (.inl rfl)]
    rw [hc₁] at hs₁ he₂
    have := mutexCode_ne hs₁
    refine .inr ⟨_, rfl, ?_, ?_, rfl, hw₂.trans hw₁⟩ <;> simp_all [verdict]

/-- **C141.** Freeing a kill switch gives back both. -/
theorem C141_switched {k : Nat} {rest : Multiset Res} (h : w.live = {Res.mk k .memory, ⟨k, .mutex⟩} + rest) :
    freeKillSwitch k w = { w with live := rest } :=
  releases_of (l := [⟨k, .mutex⟩, ⟨k, .memory⟩]) (by simp [Ordered]) (by
    rw [h]; congr 1
    exact Multiset.coe_eq_coe.2 (List.reverse_perm [Res.mk k .mutex, ⟨k, .memory⟩]))

/-- Nothing obtained yet. -/
def fresh : World := ⟨0, 0, 0, false⟩

/-- Two workers on a machine with four processors: seventeen things are obtained. -/
example : ((routerOf (fun _ => 0) 4 2 fresh).1.map fun r => r.owns.card) = some 17 ∧ (routerOf (fun _ => 0) 4 2 fresh).2.clock = 17 := by
  decide +kernel

/-- The condition in the second port is refused with `EAGAIN`: nothing is left. -/
example : (routerOf (fun t => if t = 13 then 11 else 0) 4 2 fresh).1.isNone ∧
    (routerOf (fun t => if t = 13 then 11 else 0) 4 2 fresh).2.err = 11 ∧
    (routerOf (fun t => if t = 13 then 11 else 0) 4 2 fresh).2.live = 0 := by decide +kernel

/-- An operation in four stages on three of four processors requested by default on a machine with three, of which the second fails to get
a router of its own. -/
example : (operation (fun t => if t = 30 then 12 else 0) 3 0
      [.shared ⟨0, true, 0⟩, .extra ⟨0, false, 0⟩, .plain ⟨0, false, 0⟩, .shared ⟨7, false, 0⟩] fresh).2.err = 12 ∧
    (operation (fun _ => 0) 3 0 [.shared ⟨0, true, 0⟩, .extra ⟨0, false, 0⟩, .plain ⟨0, false, 0⟩] fresh).2.err = 0 ∧
    (operation (fun _ => 0) 3 0 [.shared ⟨0, false, 0⟩, .extra ⟨0, false, 0⟩, .plain ⟨0, true, 0⟩] fresh).2.err = -528 := by decide +kernel

/-! ## C142 -/

/-- **C142.** If a partition is made, it has as many maps as requested, and owns exactly what has been obtained. -/
theorem C142_made {p : Nat} {h : Partition} (hp : partition sys p w = (some h, w')) :
    h.plurality = p ∧ w'.err = 0 ∧ w'.live = h.owns + w.live ∧ w'.wrong = w.wrong := by
  unfold partition at hp
  by_cases h0 : p = 0
  · rw [if_pos h0] at hp; cases hp
  rw [if_neg h0] at hp
  by_cases he : w.err = 0
  swap
  · rw [if_pos he] at hp; cases hp
  rw [if_neg (by simp [he])] at hp
  rcases malloc_made (sys := sys) he with ⟨b, w₁, h, -, hv, hc₁, hl₁, he₁, hw₁⟩ | ⟨w₁, h, -⟩ <;> rw [h] at hp <;> dsimp only at hp
  swap
  · cases hp
  have hb₁ : Res.mk b .memory ∈ w₁.live := by rw [hl₁]; simp
  rcases setup_made (sys := sys) (k := .rwlock) (code := fun _ => -607) hb₁ he₁ with ⟨w₂, h, hs₁, hc₂, hl₂, he₂, hw₂⟩ | ⟨e, w₂, h, hn, -⟩ <;>
    rw [rwlockInit, h] at hp <;> dsimp only at hp
  swap
  · rw [if_pos hn] at hp; cases hp
  rw [if_neg (by simp)] at hp
  rcases malloc_made (sys := sys) he₂ with ⟨m, w₃, h, -, hv₃, hc₃, hl₃, he₃, hw₃⟩ | ⟨w₃, h, -⟩ <;> rw [h] at hp <;> dsimp only at hp
  swap
  · cases hp
  cases hp
  refine ⟨rfl, he₃, ?_, hw₃.trans (hw₂.trans hw₁)⟩
  rw [hl₃, hl₂, hl₁, ← Multiset.cons_add, ← add_assoc]; congr 1
  exact Multiset.coe_eq_coe.2 (List.reverse_perm [Res.mk b .memory, ⟨b, .rwlock⟩, ⟨m, .memory⟩])

/-- **C142.** When it's freed, all of it is given back. -/
theorem C142_freed {h : Partition} {rest : Multiset Res} (hl : w.live = h.owns + rest) : freePartition h w = { w with live := rest } :=
  releases_of (l := [⟨h.maps, .memory⟩, ⟨h.id, .rwlock⟩, ⟨h.id, .memory⟩]) (by simp [Ordered]) (by
    rw [hl]; congr 1
    exact Multiset.coe_eq_coe.2 (List.reverse_perm [Res.mk h.maps .memory, ⟨h.id, .rwlock⟩, ⟨h.id, .memory⟩]))

/-- **C142.** This is the defect: if there's no memory for the maps, the lock in the partition is never destroyed, although the memory it's
in is freed. -/
theorem C142_lock {p : Nat} (hp : p ≠ 0) (he : w.err = 0) (h0 : sys w.clock = 0) (h1 : sys (w.clock + 1) = 0) (h2 : sys (w.clock + 2) ≠ 0) :
    ∃ w', partition sys p w = (none, w') ∧ w'.err = 12 ∧ w'.live = ⟨w.clock, .rwlock⟩ ::ₘ w.live ∧ w'.wrong = w.wrong := by
  unfold partition
  rw [if_neg hp, if_neg (by simp [he]), malloc_ok h0]
  dsimp only
  rw [rwlockInit, setup_ok (by exact h1) (by simp)]
  dsimp only
  rw [if_neg (by simp), malloc_no (by exact h2) (by exact he)]
  dsimp only
  refine ⟨_, rfl, ?_⟩
  rw [free, release_of (m := ⟨w.clock, .rwlock⟩ ::ₘ w.live) (by dsimp only; rw [Multiset.cons_swap]) (.inl rfl)]
  exact ⟨rfl, rfl, rfl⟩

/-- **C142.** In all other cases in which none is made, there's an error and nothing is left behind. -/
theorem C142_refused {p : Nat} (hp : partition sys p w = (none, w')) :
    w'.err ≠ 0 ∧ w'.wrong = w.wrong ∧ (w'.live = w.live ∨ sys w.clock = 0 ∧ sys (w.clock + 1) = 0 ∧ sys (w.clock + 2) ≠ 0) := by
  unfold partition at hp
  by_cases h0 : p = 0
  · rw [if_pos h0] at hp; cases hp
    refine ⟨?_, rfl, .inl rfl⟩
    unfold World.raise; dsimp only; split_ifs with h
    · exact h
    · decide
  rw [if_neg h0] at hp
  by_cases he : w.err = 0
  swap
  · rw [if_pos he] at hp; cases hp; exact ⟨he, rfl, .inl rfl⟩
  rw [if_neg (by simp [he])] at hp
  by_cases h1 : sys w.clock = 0
  swap
  · rw [malloc_no h1 he] at hp; cases hp
    exact ⟨by simp, rfl, .inl rfl⟩
  rw [malloc_ok h1] at hp
  dsimp only at hp
  by_cases h2 : sys (w.clock + 1) = 0
  swap
  · rw [rwlockInit, setup_no (by exact h2) (by simp) (by exact he)] at hp
    dsimp only at hp
    rw [if_pos h2, free, release_of (m := w.live) rfl (.inl rfl)] at hp
    cases hp; exact ⟨by simp, rfl, .inl rfl⟩
  rw [rwlockInit, setup_ok (by exact h2) (by simp)] at hp
  dsimp only at hp
  rw [if_neg (by simp)] at hp
  by_cases h3 : sys (w.clock + 2) = 0
  · rw [malloc_ok (by exact h3)] at hp; cases hp
  · rw [malloc_no (by exact h3) (by exact he)] at hp
    dsimp only at hp
    rw [free, release_of (m := ⟨w.clock, .rwlock⟩ ::ₘ w.live) (by dsimp only; rw [Multiset.cons_swap]) (.inl rfl)] at hp
    cases hp
    exact ⟨by simp, rfl, .inr ⟨h1, h2, h3⟩⟩

/-- **C142.** `cru_partition_of` gets a partition with as many maps as lanes are requested and a router with no more workers than there
are processors, or it gets neither, and then nothing is left behind except for the lock. -/
theorem C142_classifying : (∃ r h w', classifyingRouter sys nproc lanes w = (some (r, h), w') ∧ h.plurality = lanes ∧
      r.Complete (capped nproc lanes) ∧ w'.err = 0 ∧ w'.live = r.owns + h.owns + w.live ∧ w'.wrong = w.wrong) ∨
    ∃ w', classifyingRouter sys nproc lanes w = (none, w') ∧ w'.err ≠ 0 ∧ w'.wrong = w.wrong ∧
      (w'.live = w.live ∨ sys w.clock = 0 ∧ sys (w.clock + 1) = 0 ∧ sys (w.clock + 2) ≠ 0) := by
  unfold classifyingRouter
  rcases hp : partition sys lanes w with ⟨_ | h, w₁⟩ <;> dsimp only
  · exact .inr ⟨w₁, rfl, C142_refused hp⟩
  · obtain ⟨h1, h2, h3, h4⟩ := C142_made hp
    rcases hr : routerOf sys nproc lanes w₁ with ⟨_ | r, w₂⟩ <;> dsimp only
    · obtain ⟨g1, g2, g3⟩ := C141_refused hr
      refine .inr ⟨_, rfl, ?_⟩
      rw [C142_freed (g2.trans h3)]
      exact ⟨g1, g3.trans h4, .inl rfl⟩
    · obtain ⟨g1, g2, g3, g4, -⟩ := C141_made hr
      exact .inl ⟨r, h, w₂, rfl, h1, g1, g2, by rw [g3, h3, add_assoc], g4.trans h4⟩

/-- With five lanes on a machine with two processors there are five maps and two workers. -/
example : ((classifyingRouter (fun _ => 0) 2 5 fresh).1.map fun x => (x.1.lanes, x.2.plurality)) = some (2, 5) := by decide +kernel

/-- The lock is left behind. -/
example : (classifyingRouter (fun t => if t = 2 then 12 else 0) 2 5 fresh).2.live = {⟨0, .rwlock⟩} := by decide +kernel

end Cru.Resource
