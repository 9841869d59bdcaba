import Verif.Proofs.MutateBack
import Verif.Proofs.MutateSpec

/-! # If there are no errors, every node of the zone is mutated -/

namespace Cru.MutateAcc

open Net Fold
open Request (Env alloc)
open DedupAcc (Edge destroy_sticky)
open PostponeAcc (scatter scatter_all)
open SplitAcc (unsent)
open Mutate (Mark Packet Plan)

variable {n : Nat} {N V : Type} {c : Env} {k : Ops V}

/-- The remote nodes of the edges. -/
abbrev ends (es : List (Edge N V)) : List N := es.map Edge.dst

/-- The nodes that depend on `m`. -/
def post (fwd : Bool) (h : Heap n N V) (m : N) : List N := ends (if fwd then h.out m else h.inn m)

/-- The nodes `ms` are mutated, and those that depend on them are sent. -/
structure Adv [DecidableEq N] (fwd : Bool) (h h' : Heap n N V) (ms sent : List N) : Prop where
  out : ∀ t, ends (h'.out t) = ends (h.out t)
  inn : ∀ t, ends (h'.inn t) = ends (h.inn t)
  mark : ∀ t, h'.mark t = if t ∈ ms then .mutated else h.mark t
  sent : ∀ m ∈ ms, ∀ t ∈ post fwd h m, t ∈ sent

/-- Nothing other than that changes. -/
structure Else (h h' : Heap n N V) : Prop where
  survivors : h'.survivors = h.survivors
  started : h'.started = h.started
  lost : h'.lost = h.lost

theorem post_congr [DecidableEq N] {fwd : Bool} {h h' : Heap n N V} {ms sent : List N} (ha : Adv fwd h h' ms sent) (m : N) : post fwd h' m = post fwd h m := by
  unfold post
  cases fwd
  · exact ha.inn m
  · exact ha.out m

theorem Adv.trans [DecidableEq N] {fwd : Bool} {h h' h'' : Heap n N V} {ms ms' sent sent' : List N} (a : Adv fwd h h' ms sent) (b : Adv fwd h' h'' ms' sent') :
    Adv fwd h h'' (ms ++ ms') (sent ++ sent') := by
  refine ⟨fun t => (b.out t).trans (a.out t), fun t => (b.inn t).trans (a.inn t), fun t => ?_, fun m hm t ht => ?_⟩
  · rw [b.mark, a.mark]
    by_cases h1 : t ∈ ms' <;> by_cases h2 : t ∈ ms <;> simp [h1, h2]
  · rcases List.mem_append.1 hm with hm | hm
    · exact List.mem_append_left _ (a.sent m hm t ht)
    · exact List.mem_append_right _ (b.sent m hm t (by rw [post_congr a]; exact ht))

theorem freeLabels_ends (d : Option Nat) (es : List (Edge N V)) (w : World) : ends (freeLabels c d es w).1 = ends es := by
  unfold freeLabels ends
  dsimp only
  rw [List.map_map]
  rfl

theorem permeate_ends (o : Op V) (fwd b : Bool) (es : List (Edge N V)) (w : World) : ends (permeate c o fwd b es w).1 = ends es := by
  have h := relabel_dst c o fwd b es w
  unfold permeate
  dsimp only
  rw [List.map_append] at h
  split
  · split
    · rw [freeLabels_ends, ends, List.map_append]
      rw [show List.map Edge.dst (freeLabels c c.eFree _ _).1 = _ from freeLabels_ends _ _ _]
      exact h
    · rw [ends, List.map_append]
      rw [show List.map Edge.dst (freeLabels c c.eFree _ _).1 = _ from freeLabels_ends _ _ _]
      exact h
  · rw [ends, List.map_append]; exact h

theorem permeate_err {o : Op V} {fwd b : Bool} {es : List (Edge N V)} {w : World} (h : (permeate c o fwd b es w).2.err = 0) : w.err = 0 := by
  unfold permeate at h
  dsimp only at h
  split at h
  · split at h
    · exact relabel_err _ _ _ _ (freeLabels_err _ _ (freeLabels_err _ _ h))
    · exact relabel_err _ _ _ _ (freeLabels_err _ _ h)
  · exact relabel_err _ _ _ _ h

theorem relay_ok [Fintype N] [DecidableEq N] (fwd : Bool) {h : Heap n N V} {m : N} (he : (relay c k fwd false h m).world.err = 0) :
    h.world.err = 0 ∧ Else h (relay c k fwd false h m) ∧ (relay c k fwd false h m).mark = h.mark ∧
    (∀ t, ends ((relay c k fwd false h m).out t) = ends (h.out t)) ∧ ∀ t, ends ((relay c k fwd false h m).inn t) = ends (h.inn t) := by
  unfold relay at he ⊢
  cases hk : k.eop with
  | none => rw [hk] at he; exact ⟨he, ⟨rfl, rfl, rfl⟩, rfl, fun _ => rfl, fun _ => rfl⟩
  | some o =>
    rw [hk] at he
    dsimp only at he ⊢
    cases fwd with
    | true =>
      rw [if_pos rfl] at he ⊢
      dsimp only at he ⊢
      obtain ⟨-, g2, -⟩ := reflect_back c none none m [] _ h.inn _ he
      refine ⟨permeate_err (reflect_err he), ⟨rfl, rfl, rfl⟩, rfl, fun t => ?_, fun t => g2 t⟩
      by_cases ht : t = m
      · rw [ht, Function.update_self, permeate_ends]
      · rw [Function.update_of_ne ht]
    | false =>
      rw [if_neg (by decide)] at he ⊢

      have he0 : (reflect c c.eFree m [] (permeate c o false false (h.inn m) h.world).1 h.out (permeate c o false false (h.inn m) h.world).2).2.err = 0 := by
        by_contra hc
        rw [if_pos hc] at he
        exact hc (undo_err he)
      rw [if_neg (not_not.2 he0)]
      obtain ⟨-, g2, -⟩ := reflect_back c c.eFree none m [] _ h.out _ he0
      refine ⟨permeate_err (reflect_err he0), ⟨rfl, rfl, rfl⟩, rfl, fun t => g2 t, fun t => ?_⟩
      dsimp only
      by_cases ht : t = m
      · rw [ht, Function.update_self, permeate_ends]
      · rw [Function.update_of_ne ht]

theorem mutate_ok [Fintype N] [DecidableEq N] (fwd : Bool) {h : Heap n N V} {m : N} (he : (mutate c k fwd false h m).world.err = 0) :
    h.world.err = 0 ∧ Else h (mutate c k fwd false h m) ∧ Adv fwd h (mutate c k fwd false h m) [m] (post fwd h m) := by
  unfold mutate at he ⊢
  dsimp only at he ⊢
  have hr := @relay_ok n N V c k _ _ fwd { h with world := (revised c k false h.world).2 } m
  have hv := @revised_err V c k false h.world
  generalize revised c k false h.world = v at he hr hv ⊢
  generalize relay c k fwd false { h with world := v.2 } m = h₁ at he hr ⊢
  by_cases hc : h₁.world.err ≠ 0
  · rw [if_pos hc] at he
    exact absurd (destroy_errs he) hc
  · rw [if_neg hc, if_neg (by simp)] at he ⊢
    rw [ne_eq, not_not] at hc
    obtain ⟨r1, r2, r3, r4, r5⟩ := hr hc
    refine ⟨hv r1, ?_⟩
    have hs : ∀ t ∈ [m], ∀ u ∈ post fwd h t, u ∈ post fwd h m := fun t ht u hu => by rw [List.mem_singleton.1 ht] at hu; exact hu
    cases hk : k.vop with
    | none =>
      rw [Option.isNone_none, if_pos rfl]
      refine ⟨⟨r2.survivors, r2.started, r2.lost⟩, ⟨r4, r5, fun t => ?_, hs⟩⟩
      dsimp only
      rw [if_neg (by simp [hc]), r3]
      by_cases ht : t = m <;> simp [ht]
    | some o =>
      rw [hk, Option.isNone_some, if_neg (by simp)] at he
      rw [Option.isNone_some, if_neg (by simp)]
      refine ⟨⟨r2.survivors, r2.started, r2.lost⟩, ⟨r4, r5, fun t => ?_, hs⟩⟩
      dsimp only at he ⊢
      rw [if_neg (by simp [he]), r3]
      by_cases ht : t = m <;> simp [ht]

theorem begin1_ok [Fintype N] [DecidableEq N] (fwd : Bool) {res : Nat → Bool} {ms : List N} {h : Heap n N V} (he : (begin1 c k fwd res h ms).heap.world.err = 0) :
    h.world.err = 0 ∧ Else h (begin1 c k fwd res h ms).heap ∧ Adv fwd h (begin1 c k fwd res h ms).heap ms (begin1 c k fwd res h ms).sent ∧
    (begin1 c k fwd res h ms).done = ms := by
  induction ms generalizing h with
  | nil => exact ⟨he, ⟨rfl, rfl, rfl⟩, ⟨fun _ => rfl, fun _ => rfl, fun _ => rfl, fun m hm => by cases hm⟩, rfl⟩
  | cons m ms ih =>
    unfold begin1 at he ⊢
    dsimp only at he ⊢
    by_cases hx : (mutate c k fwd false h m).world.err ≠ 0
    · rw [if_pos hx] at he
      exact absurd (freeLabels_err _ _ he) hx
    · rw [if_neg hx] at he ⊢
      dsimp only at he ⊢
      obtain ⟨m1, m2, m3⟩ := mutate_ok fwd (not_not.1 hx)
      have hp := post_congr m3 m
      generalize mutate c k fwd false h m = h₁ at he m2 m3 hp ⊢
      obtain ⟨i1, i2, i3, i4⟩ := ih he
      have hsc := scatter_all c res (if fwd then h₁.out m else h₁.inn m) h₁.world i1
      refine ⟨m1, ⟨i2.survivors.trans m2.survivors, i2.started.trans m2.started, i2.lost.trans m2.lost⟩, ?_, by rw [i4]⟩
      rw [hsc, show List.map Edge.dst (if fwd then h₁.out m else h₁.inn m) = post fwd h m from hp]
      have i3' := i3
      exact Adv.trans (ms := [m]) m3 ⟨i3.out, i3.inn, i3.mark, i3.sent⟩

theorem begin_ok [Fintype N] [DecidableEq N] (fwd : Bool) {res : Nat → Bool} {i : Fin n} {h : Heap n N V} (he : (begin c k fwd res i h).1.world.err = 0) :
    h.world.err = 0 ∧ (begin c k fwd res i h).1.survivors = h.survivors ∧ (begin c k fwd res i h).1.started = Function.update h.started i true ∧
    (begin c k fwd res i h).1.lost = h.lost ∧
    Adv fwd h (begin c k fwd res i h).1 (if h.started i then [] else h.survivors i) (begin c k fwd res i h).2 := by
  unfold begin at he ⊢
  by_cases hs : h.started i = true
  · rw [if_pos hs] at he ⊢
    rw [if_pos hs]
    refine ⟨he, rfl, ?_, rfl, ⟨fun _ => rfl, fun _ => rfl, fun _ => rfl, fun m hm => by cases hm⟩⟩
    funext j
    by_cases hj : j = i
    · rw [hj, hs, Function.update_self]
    · rw [Function.update_of_ne hj]
  · rw [if_neg hs] at he ⊢
    rw [if_neg hs]
    obtain ⟨b1, b2, b3, b4⟩ := begin1_ok (h := { h with started := Function.update h.started i true }) fwd he
    dsimp only at b1 b2 b3 b4 ⊢
    refine ⟨b1, ?_, b2.started, b2.lost, ⟨b3.out, b3.inn, b3.mark, b3.sent⟩⟩
    rw [b4, b2.survivors]
    funext j
    by_cases hj : j = i
    · rw [hj, Function.update_self]
    · rw [Function.update_of_ne hj]

/-- A node that isn't mutated yet is attempted. -/
theorem attempt_ok [Fintype N] [DecidableEq N] {p : Plan} {res : Nat → Bool} {i : Fin n} {stop : Bool} {h : Heap n N V} {m : N}
    (hb : blocked h (prerequisites p h m) = false) (he : (attempt c k p res i stop h m).1.world.err = 0) :
    h.world.err = 0 ∧ (attempt c k p res i stop h m).1.started = h.started ∧ (attempt c k p res i stop h m).1.lost = h.lost ∧
    (∀ j, j ≠ i → (attempt c k p res i stop h m).1.survivors j = h.survivors j) ∧
    (((stop = true ∨ quiescent h (prerequisites p h m) = false) ∧ Adv p.forward h (attempt c k p res i stop h m).1 [] []) ∨
      Adv p.forward h (attempt c k p res i stop h m).1 [m] (attempt c k p res i stop h m).2) := by
  unfold attempt at he ⊢
  by_cases hq : h.world.err = 0 ∧ stop = false ∧ quiescent h (prerequisites p h m) = true
  · rw [if_pos hq] at he ⊢
    dsimp only at he ⊢
    rw [hb] at he ⊢
    by_cases hx : (mutate c k p.forward false h m).world.err ≠ 0
    · rw [if_pos hx] at he
      exact absurd (freeLabels_err _ _ he) hx
    · rw [if_neg hx, if_neg (by decide)] at he ⊢
      obtain ⟨m1, m2, m3⟩ := mutate_ok p.forward (not_not.1 hx)
      have hp := post_congr m3 m
      generalize mutate c k p.forward false h m = h₁ at he m2 m3 hp ⊢
      dsimp only at he ⊢
      refine ⟨m1, m2.started, m2.lost, fun j hj => by rw [Function.update_of_ne hj, m2.survivors], .inr ?_⟩
      have hsc := scatter_all c res (if p.forward then h₁.out m else h₁.inn m) h₁.world he
      rw [hsc, show List.map Edge.dst (if p.forward then h₁.out m else h₁.inn m) = post p.forward h m from hp]
      exact ⟨m3.out, m3.inn, m3.mark, m3.sent⟩
  · rw [if_neg hq] at he ⊢
    refine ⟨he, rfl, rfl, fun _ _ => rfl, .inl ⟨?_, ⟨fun _ => rfl, fun _ => rfl, fun _ => rfl, fun m hm => by cases hm⟩⟩⟩
    by_contra hc
    rw [not_or] at hc
    exact hq ⟨he, by simpa using hc.1, by simpa using hc.2⟩

/-! ## Invariant -/

/-- The prerequisites of a node. -/
def pre (p : Plan) (h : Heap n N V) (m : N) : List N := ends (prerequisites p h m)

theorem pre_congr [DecidableEq N] {p : Plan} {fwd : Bool} {h h' : Heap n N V} {ms sent : List N} (ha : Adv fwd h h' ms sent) (m : N) : pre p h' m = pre p h m := by
  unfold pre prerequisites
  split
  · rfl
  · split
    · exact ha.inn m
    · exact ha.out m

/-- What's left to do is on its way. -/
structure DInv [DecidableEq N] (p : Plan) (h₀ : Heap n N V) (s : Work n N V) (q : Multiset (Packet n N)) (spare : N → Prop) : Prop where
  out : ∀ t, ends (s.mem.out t) = ends (h₀.out t)
  inn : ∀ t, ends (s.mem.inn t) = ends (h₀.inn t)
  calm : s.killed = 0 ∧ ∀ i, s.stop i = false
  lost : s.mem.lost = h₀.lost
  marks : ∀ m, s.mem.mark m = h₀.mark m ∨ s.mem.mark m = .mutated
  begun : ∀ i, s.mem.started i = true → ∀ m ∈ h₀.survivors i, s.mem.mark m = .mutated
  fresh : ∀ i, s.mem.started i = false → s.mem.survivors i = h₀.survivors i
  ready : ∀ t, s.mem.mark t = .clear → (∀ i, t ∉ h₀.survivors i) → (∃ u ∈ pre p h₀ t, s.mem.mark u = .clear) ∨ .node t ∈ q ∨ spare t

/-- Dependencies are mutual. -/
theorem Duplex.back [DecidableEq N] {p : Plan} {h : Heap n N V} (hd : Duplex h) {t u : N} (ht : u ∈ pre p h t) : t ∈ post p.forward h u := by
  unfold pre prerequisites at ht
  unfold post
  split at ht
  · cases ht
  · cases hf : p.forward
    · rw [hf, if_neg (by decide)] at ht
      rw [if_neg (by decide)]
      rw [← List.count_pos_iff] at ht ⊢
      exact (hd t u) ▸ ht
    · rw [hf, if_pos rfl] at ht
      rw [if_pos rfl]
      rw [← List.count_pos_iff] at ht ⊢
      exact (hd u t).symm ▸ ht

/-- Nodes are mutated and packets are sent. -/
theorem DInv.adv [DecidableEq N] {p : Plan} {h₀ : Heap n N V} {s s' : Work n N V} {q : Multiset (Packet n N)} {spare : N → Prop} (hd : Duplex h₀)
    (hi : DInv p h₀ s q spare) {ms sent : List N} (ha : Adv p.forward s.mem s'.mem ms sent) (hc : s'.killed = 0 ∧ ∀ i, s'.stop i = false)
    (hl : s'.mem.lost = s.mem.lost) (hb : ∀ i, s'.mem.started i = true → s.mem.started i = true ∨ ∀ m ∈ h₀.survivors i, m ∈ ms)
    (hf : ∀ i, s'.mem.started i = false → s.mem.started i = false ∧ s'.mem.survivors i = s.mem.survivors i) :
    DInv p h₀ s' (((sent.map .node : List (Packet n N)) : Multiset (Packet n N)) + q) spare := by
  refine ⟨fun t => (ha.out t).trans (hi.out t), fun t => (ha.inn t).trans (hi.inn t), hc, hl.trans hi.lost, fun m => ?_, fun i h m hm => ?_,
    fun i h => ((hf i h).2.trans (hi.fresh i (hf i h).1)), fun t ht hs => ?_⟩
  · rw [ha.mark]
    split
    · exact .inr rfl
    · exact hi.marks m
  · rw [ha.mark]
    split
    · rfl
    · rcases hb i h with h | h
      · exact hi.begun i h m hm
      · exact absurd (h m hm) ‹_›
  · have ht' : s.mem.mark t = .clear := by
      rw [ha.mark] at ht
      split at ht
      · cases ht
      · exact ht
    rcases hi.ready t ht' hs with ⟨u, h1, h2⟩ | h | h
    · by_cases hu : u ∈ ms
      · right; left
        have hpost : post p.forward s.mem u = post p.forward h₀ u := by
          unfold post
          cases p.forward
          · exact hi.inn u
          · exact hi.out u
        refine Multiset.mem_add.2 (.inl (Multiset.mem_coe.2 (List.mem_map.2 ⟨t, ha.sent u hu t ?_, rfl⟩)))
        rw [hpost]
        exact hd.back h1
      · refine .inl ⟨u, h1, ?_⟩
        rw [ha.mark, if_neg hu]; exact h2
    · exact .inr (.inl (Multiset.mem_add.2 (.inr h)))
    · exact .inr (.inr h)

theorem DInv.pre [DecidableEq N] {p : Plan} {h₀ : Heap n N V} {s : Work n N V} {q : Multiset (Packet n N)} {spare : N → Prop}
    (hi : DInv p h₀ s q spare) (m : N) : MutateAcc.pre p s.mem m = MutateAcc.pre p h₀ m := by
  unfold MutateAcc.pre prerequisites
  split
  · rfl
  · split
    · exact hi.inn m
    · exact hi.out m

/-- Packets other than pings leave the others alone. -/
def Pinged (s : Work n N V) (q : Multiset (Packet n N)) : Prop := ∀ i, s.mem.started i = false → ∃ j : Fin n, j.1 ≤ i.1 ∧ Packet.ping j ∈ q

theorem ping_ok {res : Nat → Bool} {i : Fin n} {w : World} (h : (ping (N := N) c res i w).2.err = 0) (hi : i.1 + 1 < n) :
    (ping (N := N) c res i w).1 = [.ping ⟨i.1 + 1, hi⟩] := by
  unfold ping at h ⊢
  rw [dif_pos hi] at h ⊢
  split
  · rename_i hu
    rw [if_pos hu] at h
    have : (alloc c w).err ≠ 0 := by
      unfold unsent at hu
      simp only [alloc, World.raise, hu.1]
      split_ifs <;> simp_all
    exact absurd h this
  · rfl

theorem handle_ok [Fintype N] [DecidableEq N] {p : Plan} {h₀ : Heap n N V} (hd : Duplex h₀) (hopen : ∀ m, h₀.mark m ≠ .blocked) {res : Nat → Bool}
    {s : Work n N V} {i : Fin n} (q : Packet n N) {rest : Multiset (Packet n N)} (hq : ∀ j, q = .ping j → j = i)
    (he : (handle c k p res i s q).1.err i = 0) :
    s.err i = 0 ∧ (DInv p h₀ s (q ::ₘ rest) (fun _ => False) → Pinged s (q ::ₘ rest) →
      DInv p h₀ (handle c k p res i s q).1 (((handle c k p res i s q).2.1 : Multiset (Packet n N)) + rest) (fun _ => False) ∧
      Pinged (handle c k p res i s q).1 (((handle c k p res i s q).2.1 : Multiset (Packet n N)) + rest)) := by
  obtain ⟨sample, stop, e, p1, -, p3⟩ := Trav.poll_eq s i
  have e2 : own i { s with sample := sample, stop := stop } = { s.mem with world := { s.mem.world with err := s.err i } } := rfl
  have hst : ∀ (s : Work n N V) (h : Heap n N V), (store i s h).err i = h.world.err := fun s h => Function.update_self ..
  have calm : s.killed = 0 → (∀ i, s.stop i = false) → ∀ j, stop j = false := by
    intro h1 h2 j
    by_cases hj : j = i
    · subst hj
      by_contra hc
      rcases p3 (by simpa using hc) with h | h
      · rw [h2] at h; cases h
      · exact h h1
    · rw [p1 j hj]; exact h2 j
  have surv : ∀ (j : Fin n), Function.update s.mem.started i true j = false → s.mem.started j = false := by
    intro j hj
    by_cases hji : j = i
    · rw [hji, Function.update_self] at hj; cases hj
    · rw [Function.update_of_ne hji] at hj; exact hj
  have begun : ∀ h₀ : Heap n N V, (∀ i, s.mem.started i = false → s.mem.survivors i = h₀.survivors i) → ∀ j, Function.update s.mem.started i true j = true → s.mem.started j = true ∨
      ∀ m ∈ h₀.survivors j, m ∈ (if s.mem.started i then [] else s.mem.survivors i) := by
    intro h₀ hf j hj
    by_cases hji : j = i
    · subst hji
      by_cases hs : s.mem.started j = true
      · exact .inl hs
      · right; rw [if_neg hs, hf j (by simpa using hs)]; exact fun _ => id
    · rw [Function.update_of_ne hji] at hj; exact .inl hj
  cases q with
  | ping j =>
    obtain rfl := hq j rfl
    unfold handle at he ⊢
    dsimp only at he ⊢
    rw [e, e2] at he ⊢
    rw [hst] at he
    obtain ⟨b1, b2, b3, b4, b5⟩ := begin_ok p.forward he
    dsimp only at b1 b2 b3 b4
    refine ⟨ping_err b1, fun hi hp => ?_⟩
    have hping := fun hlt => ping_ok (res := res) b1 (i := j) hlt
    generalize begin c k p.forward res j { s.mem with world := (ping (N := N) c res j { s.mem.world with err := s.err j }).2 } = r at he b2 b3 b4 b5 ⊢
    generalize (ping (N := N) c res j { s.mem.world with err := s.err j }) = w at hping ⊢
    have hi' : DInv p h₀ s rest (fun _ => False) := ⟨hi.out, hi.inn, hi.calm, hi.lost, hi.marks, hi.begun, hi.fresh, fun t h1 h2 => by
      rcases hi.ready t h1 h2 with h | h | h
      · exact .inl h
      · rcases Multiset.mem_cons.1 h with h | h
        · cases h
        · exact .inr (.inl h)
      · exact h.elim⟩
    have key := hi'.adv hd (s' := store j { s with sample := sample, stop := stop } r.1) (sent := r.2) ⟨b5.out, b5.inn, b5.mark, b5.sent⟩
      ⟨hi.calm.1, calm hi.calm.1 hi.calm.2⟩ b4
      (fun i h => by
        have h : r.1.started i = true := h
        rw [b3] at h
        exact begun h₀ hi.fresh i h)
      (fun i h => by
        have h : r.1.started i = false := h
        rw [b3] at h
        exact ⟨surv i h, by show r.1.survivors i = _; rw [b2]⟩)
    refine ⟨⟨key.out, key.inn, key.calm, key.lost, key.marks, key.begun, key.fresh, fun t h1 h2 => ?_⟩, fun i h => ?_⟩
    · rcases key.ready t h1 h2 with h | h | h
      · exact .inl h
      · refine .inr (.inl ?_)
        rw [← Multiset.coe_add, add_assoc]
        exact Multiset.mem_add.2 (.inr h)
      · exact h.elim
    · have h : r.1.started i = false := h
      rw [b3] at h
      have hij : i ≠ j := by rintro rfl; rw [Function.update_self] at h; cases h
      rw [Function.update_of_ne hij] at h
      obtain ⟨l, l1, l2⟩ := hp i h
      rcases Multiset.mem_cons.1 l2 with h' | h'
      · injection h' with h'
        subst h'
        have hlt : l.1 + 1 < n := by have := i.2; have : l.1 ≠ i.1 := fun h => hij (Fin.ext h.symm); omega
        refine ⟨⟨l.1 + 1, hlt⟩, ?_, ?_⟩
        · have : l.1 ≠ i.1 := fun h => hij (Fin.ext h.symm)
          show l.1 + 1 ≤ i.1; omega
        · rw [hping hlt]
          exact Multiset.mem_add.2 (.inl (Multiset.mem_coe.2 (List.mem_append_left _ List.mem_cons_self)))
      · exact ⟨l, l1, Multiset.mem_add.2 (.inr h')⟩
  | node m =>
    unfold handle at he ⊢
    dsimp only at he ⊢
    rw [e, e2] at he ⊢
    have hb := @begin_ok n N V c k _ _ p.forward res i { s.mem with world := { s.mem.world with err := s.err i } }
    generalize begin c k p.forward res i { s.mem with world := { s.mem.world with err := s.err i } } = r at he hb ⊢
    -- after `start`
    have key : r.1.world.err = 0 → s.err i = 0 ∧ (DInv p h₀ s (.node m ::ₘ rest) (fun _ => False) → Pinged s (.node m ::ₘ rest) →
        DInv p h₀ (store i { s with sample := sample, stop := stop } r.1) (((r.2.map .node : List (Packet n N)) : Multiset (Packet n N)) + rest) (· = m) ∧
        ∀ l, r.1.started l = false → ∃ j : Fin n, j.1 ≤ l.1 ∧ Packet.ping j ∈ rest) := by
      intro h0
      obtain ⟨b1, b2, b3, b4, b5⟩ := hb h0
      dsimp only at b1 b2 b3 b4
      refine ⟨b1, fun hi hp => ⟨?_, fun l h => ?_⟩⟩
      · have hi' : DInv p h₀ s rest (· = m) := ⟨hi.out, hi.inn, hi.calm, hi.lost, hi.marks, hi.begun, hi.fresh, fun t h1 h2 => by
          rcases hi.ready t h1 h2 with h | h | h
          · exact .inl h
          · rcases Multiset.mem_cons.1 h with h | h
            · injection h with h; exact .inr (.inr h)
            · exact .inr (.inl h)
          · exact h.elim⟩
        exact hi'.adv hd (s' := store i { s with sample := sample, stop := stop } r.1) (sent := r.2) ⟨b5.out, b5.inn, b5.mark, b5.sent⟩
          ⟨hi.calm.1, calm hi.calm.1 hi.calm.2⟩ b4
          (fun i h => by
            have h : r.1.started i = true := h
            rw [b3] at h
            exact begun h₀ hi.fresh i h)
          (fun i h => by
            have h : r.1.started i = false := h
            rw [b3] at h
            exact ⟨surv i h, by show r.1.survivors i = _; rw [b2]⟩)
      · rw [b3] at h
        obtain ⟨j, j1, j2⟩ := hp l (surv l h)
        rcases Multiset.mem_cons.1 j2 with h' | h'
        · cases h'
        · exact ⟨j, j1, h'⟩
    by_cases hm : r.1.mark m ≠ .clear
    · rw [if_pos hm] at he ⊢
      rw [hst] at he
      obtain ⟨k1, k2⟩ := key he
      refine ⟨k1, fun hi hp => ?_⟩
      obtain ⟨g1, g2⟩ := k2 hi hp
      refine ⟨⟨g1.out, g1.inn, g1.calm, g1.lost, g1.marks, g1.begun, g1.fresh, fun t h1 h2 => ?_⟩, fun l h => ?_⟩
      · rcases g1.ready t h1 h2 with h | h | rfl
        · exact .inl h
        · exact .inr (.inl h)
        · exact absurd h1 hm
      · obtain ⟨j, j1, j2⟩ := g2 l h
        exact ⟨j, j1, Multiset.mem_add.2 (.inr j2)⟩
    · rw [if_neg hm] at he ⊢
      rw [ne_eq, not_not] at hm
      dsimp only at he ⊢
      rw [interrupt_err, hst] at he
      have hr0 : r.1.world.err = 0 := by
        by_contra hc
        unfold attempt at he
        rw [if_neg (fun h => hc h.1)] at he
        exact hc he
      obtain ⟨k1, k2⟩ := key hr0
      refine ⟨k1, fun hi hp => ?_⟩
      obtain ⟨g1, g2⟩ := k2 hi hp
      have hbl : blocked r.1 (prerequisites p r.1 m) = false := by
        unfold blocked
        rw [List.any_eq_false]
        intro e _
        have := g1.marks e.dst
        rcases this with h | h
        · have h : r.1.mark e.dst = _ := h
          rw [h]; simpa using hopen e.dst
        · have h : r.1.mark e.dst = _ := h
          rw [h]; simp
      obtain ⟨-, a2, a3, a4, a5⟩ := attempt_ok hbl he
      have hint : interrupt i (store i { s with sample := sample, stop := stop } (attempt c k p res i (stop i) r.1 m).1) =
          store i { s with sample := sample, stop := stop } (attempt c k p res i (stop i) r.1 m).1 := by
        unfold interrupt
        rw [if_neg]
        rintro ⟨-, h⟩
        rw [hst] at h
        exact h he
      rw [hint]
      have hstop := (calm hi.calm.1 hi.calm.2)
      have hqi : quiescent r.1 (prerequisites p r.1 m) = false → ∃ u ∈ MutateAcc.pre p h₀ m, r.1.mark u = .clear := by
        intro h
        unfold quiescent at h
        rw [List.all_eq_false] at h
        obtain ⟨f, f1, f2⟩ := h
        have hpre : MutateAcc.pre p r.1 m = MutateAcc.pre p h₀ m := g1.pre m
        exact ⟨f.dst, by rw [← hpre]; exact List.mem_map.2 ⟨f, f1, rfl⟩, by simpa using f2⟩
      generalize attempt c k p res i (stop i) r.1 m = a at he a2 a3 a4 a5 ⊢
      have fin : ∀ ms sent, Adv p.forward r.1 a.1 ms sent → (m ∈ ms ∨ ∃ u ∈ MutateAcc.pre p h₀ m, a.1.mark u = .clear) → (∀ t ∈ sent, t ∈ a.2) →
          DInv p h₀ (store i { s with sample := sample, stop := stop } a.1) ((((r.2 ++ a.2).map .node : List (Packet n N)) : Multiset (Packet n N)) + rest) (fun _ => False) ∧
          Pinged (store i { s with sample := sample, stop := stop } a.1) ((((r.2 ++ a.2).map .node : List (Packet n N)) : Multiset (Packet n N)) + rest) := by
        intro ms sent ha hm' hsent
        have key2 := g1.adv hd (s' := store i { s with sample := sample, stop := stop } a.1) (sent := sent) ha ⟨hi.calm.1, hstop⟩ a3
          (fun l h => .inl (by
            have h : a.1.started l = true := h
            rw [a2] at h; exact h))
          (fun l h => by
            have h : a.1.started l = false := h
            rw [a2] at h
            refine ⟨h, a4 l fun hli => ?_⟩
            obtain ⟨-, -, b3, -, -⟩ := hb hr0
            rw [b3, hli, Function.update_self] at h
            cases h)
        refine ⟨⟨key2.out, key2.inn, key2.calm, key2.lost, key2.marks, key2.begun, key2.fresh, fun t h1 h2 => ?_⟩, fun l h => ?_⟩
        · rcases key2.ready t h1 h2 with h | h | rfl
          · exact .inl h
          · refine .inr (.inl ?_)
            rw [List.map_append, ← Multiset.coe_add]
            rcases Multiset.mem_add.1 h with h | h
            · obtain ⟨u, hu, e⟩ := List.mem_map.1 (Multiset.mem_coe.1 h)
              exact Multiset.mem_add.2 (.inl (Multiset.mem_add.2 (.inr (Multiset.mem_coe.2 (List.mem_map.2 ⟨u, hsent u hu, e⟩)))))
            · rcases Multiset.mem_add.1 h with h | h
              · exact Multiset.mem_add.2 (.inl (Multiset.mem_add.2 (.inl h)))
              · exact Multiset.mem_add.2 (.inr h)
          · rcases hm' with hm' | hm'
            · have h1 : a.1.mark t = .clear := h1
              rw [ha.mark, if_pos hm'] at h1
              cases h1
            · exact .inl hm'
        · have h : a.1.started l = false := h
          rw [a2] at h
          obtain ⟨j, j1, j2⟩ := g2 l h
          exact ⟨j, j1, Multiset.mem_add.2 (.inr j2)⟩
      rcases a5 with ⟨h1, h2⟩ | h2
      · have h1 := h1.resolve_left (by rw [hstop i]; decide)
        obtain ⟨u, u1, u2⟩ := hqi h1
        exact fin _ _ h2 (.inr ⟨u, u1, by rw [h2.mark]; simpa using u2⟩) (fun t ht => by cases ht)
      · exact fin _ _ h2 (.inl List.mem_cons_self) (fun t => id)

theorem task_ok [Fintype N] [DecidableEq N] {p : Plan} {h₀ : Heap n N V} (hd : Duplex h₀) (hopen : ∀ m, h₀.mark m ≠ .blocked)
    (hm : ∀ i, h₀.started i = false) (hr : ∀ t, h₀.mark t = .clear → (∀ i, t ∉ h₀.survivors i) → ∃ u ∈ pre p h₀ t, h₀.mark u = .clear)
    {res : Nat → Bool} {addr : N → Nat} {hn : 0 < n} :
    ∀ x, Bag.Reach (task c k p res addr hn) (.ping ⟨0, hn⟩) (Trav.start h₀) x → (∀ i, x.1.err i = 0) →
      DInv p h₀ x.1 x.2 (fun _ => False) ∧ Pinged x.1 x.2 := by
  intro x hx
  induction hx with
  | init =>
    intro _
    refine ⟨⟨fun _ => rfl, fun _ => rfl, ⟨rfl, fun _ => rfl⟩, rfl, fun _ => .inl rfl, fun i h => ?_, fun _ _ => rfl, fun t h1 h2 => .inl (hr t h1 h2)⟩,
      fun i _ => ⟨⟨0, hn⟩, Nat.zero_le _, by simp⟩⟩
    have : h₀.started i = true := h
    rw [hm i] at this; cases this
  | step hr hs ih =>
    cases hs with
    | env e s m => exact e.elim
    | handle s q rest =>
      intro he
      have h1 : ∀ j, j ≠ (task c k p res addr hn).dest q → s.err j = 0 := fun j hj => by
        rw [← handle_errs (c := c) (k := k) (p := p) (res := res) q hj]; exact he j
      obtain ⟨h2, h3⟩ := handle_ok (i := (task c k p res addr hn).dest q) hd hopen q (rest := rest) (by rintro j rfl; rfl) (he _)
      obtain ⟨i1, i2⟩ := ih fun j => by
        by_cases hj : j = (task c k p res addr hn).dest q
        · rw [hj]; exact h2
        · exact h1 j hj
      obtain ⟨k1, k2⟩ := h3 i1 i2
      have hprod : Bag.produced (task c k p res addr hn) s q + rest =
          ((handle c k p res ((task c k p res addr hn).dest q) s q).2.1 : Multiset (Packet n N)) + rest := by
        unfold Bag.produced
        have hf : (handle c k p res ((task c k p res addr hn).dest q) s q).2.2 = false := by
          cases q with
          | ping j => rfl
          | node m => unfold handle; dsimp only; split <;> rfl
        show _ + (if (handle c k p res ((task c k p res addr hn).dest q) s q).2.2 = true then _ else _) + _ = _
        rw [hf]
        simp; rfl
      dsimp only
      rw [hprod]
      exact ⟨k1, k2⟩

/-- All of the graph is mutated if there are no errors. -/
theorem whole_mutated [Fintype N] [DecidableEq N] {p : Plan} {h₀ : Heap n N V} (hw : Whole p h₀) (hm : ∀ i, h₀.started i = false)
    {res : Nat → Bool} {addr : N → Nat} {hn : 0 < n} {x : State n (Packet n N) (Work n N V)}
    (hx : Net.Reach (task c k p res addr hn) (.ping ⟨0, hn⟩) (Trav.start h₀) x) (hd : x.main = .done) (he : ∀ i, x.g.err i = 0) (m : N) :
    x.g.mem.mark m = .mutated := by
  have hr : ∀ t, h₀.mark t = .clear → (∀ i, t ∉ h₀.survivors i) → ∃ u ∈ pre p h₀ t, h₀.mark u = .clear := by
    intro t _ h
    cases hp : prerequisites p h₀ t with
    | nil =>
      obtain ⟨i, hi⟩ := hw.first t hp
      exact absurd hi (h i)
    | cons e es => exact ⟨e.dst, by simp [pre, ends, hp], hw.zone _⟩
  obtain ⟨h1, h2⟩ := task_ok hw.duplex (fun m => by rw [hw.zone m]; decide) hm hr _ (Rover.done_bag hn hx hd) he
  dsimp only at h1 h2
  have hstart : ∀ i, x.g.mem.started i = true := by
    intro i
    by_contra hc
    obtain ⟨j, -, hj⟩ := h2 i (by simpa using hc)
    cases hj
  have hnc : x.g.mem.mark m ≠ .clear := by
    have hacc := Mutate.acc_of_acyclic (prior := pre p h₀) (nodes := Finset.univ.toList) (m := m) (fun t _ => by simp)
      (fun t _ => hw.acyclic t)
    induction hacc with
    | intro t _ ih =>
      intro hc
      by_cases hs : ∃ i, t ∈ h₀.survivors i
      · obtain ⟨i, hi⟩ := hs
        rw [h1.begun i (hstart i) t hi] at hc
        cases hc
      · rcases h1.ready t hc (fun i hi => hs ⟨i, hi⟩) with ⟨u, u1, u2⟩ | h | h
        · exact ih u u1 u2
        · cases h
        · exact h
  rcases h1.marks m with h | h
  · rw [hw.zone m] at h; exact absurd h hnc
  · exact h

/-! ## Nothing is forgotten without errors -/

theorem attempt_lost [Fintype N] [DecidableEq N] (hc : Safe c) {p : Plan} (hp : p.forward = true) {res : Nat → Bool} {i : Fin n} {stop : Bool} {h : Heap n N V} {m : N}
    (he : (attempt c k p res i stop h m).1.world.err = 0) : h.world.err = 0 ∧ (attempt c k p res i stop h m).1.lost = h.lost := by
  unfold attempt at he ⊢
  by_cases hq : h.world.err = 0 ∧ stop = false ∧ quiescent h (prerequisites p h m) = true
  · rw [if_pos hq] at he ⊢
    refine ⟨hq.1, ?_⟩
    dsimp only at he ⊢
    rw [hp] at he ⊢
    generalize blocked h (prerequisites p h m) = b at he ⊢
    obtain ⟨-, hl, -⟩ := mutate_spec hc k b h m
    by_cases hx : (mutate c k true b h m).world.err ≠ 0
    · rw [if_pos hx] at he
      exact absurd (freeLabels_err _ _ he) hx
    · rw [if_neg hx]
      dsimp only
      cases b <;> exact hl
  · rw [if_neg hq] at he ⊢
    exact ⟨he, rfl⟩

theorem handle_lost [Fintype N] [DecidableEq N] (hc : Safe c) {p : Plan} (hp : p.forward = true) {res : Nat → Bool} {s : Work n N V} {i : Fin n} (q : Packet n N)
    (he : (handle c k p res i s q).1.err i = 0) : s.err i = 0 ∧ (handle c k p res i s q).1.mem.lost = s.mem.lost := by
  obtain ⟨sample, stop, e, -⟩ := Trav.poll_eq s i
  have e2 : own i { s with sample := sample, stop := stop } = { s.mem with world := { s.mem.world with err := s.err i } } := rfl
  have hst : ∀ (s : Work n N V) (h : Heap n N V), (store i s h).err i = h.world.err := fun s h => Function.update_self ..
  cases q with
  | ping j =>
    unfold handle at he ⊢
    dsimp only at he ⊢
    rw [e, e2] at he ⊢
    rw [hst] at he
    obtain ⟨b1, -, -, b4, -⟩ := begin_ok p.forward he
    exact ⟨ping_err b1, b4⟩
  | node m =>
    unfold handle at he ⊢
    dsimp only at he ⊢
    rw [e, e2] at he ⊢
    have hb := @begin_ok n N V c k _ _ p.forward res i { s.mem with world := { s.mem.world with err := s.err i } }
    generalize begin c k p.forward res i { s.mem with world := { s.mem.world with err := s.err i } } = r at he hb ⊢
    by_cases hm : r.1.mark m ≠ .clear
    · rw [if_pos hm] at he ⊢
      rw [hst] at he
      obtain ⟨b1, -, -, b4, -⟩ := hb he
      exact ⟨b1, b4⟩
    · rw [if_neg hm] at he ⊢
      dsimp only at he ⊢
      rw [interrupt_err, hst] at he
      rw [interrupt_mem]
      obtain ⟨a1, a2⟩ := attempt_lost hc hp he
      obtain ⟨b1, -, -, b4, -⟩ := hb a1
      exact ⟨b1, a2.trans b4⟩

theorem task_lost [Fintype N] [DecidableEq N] (hc : Safe c) {p : Plan} (hp : p.forward = true) {h₀ : Heap n N V} {res : Nat → Bool} {addr : N → Nat} {hn : 0 < n} :
    ∀ x, Bag.Reach (task c k p res addr hn) (.ping ⟨0, hn⟩) (Trav.start h₀) x → (∀ i, x.1.err i = 0) → x.1.mem.lost = h₀.lost := by
  intro x hx
  induction hx with
  | init => exact fun _ => rfl
  | step hr hs ih =>
    cases hs with
    | env e s m => exact e.elim
    | handle s q rest =>
      intro he
      obtain ⟨h2, h3⟩ := handle_lost (i := (task c k p res addr hn).dest q) (s := s) hc hp q (he _)
      refine h3.trans (ih fun j => ?_)
      by_cases hj : j = (task c k p res addr hn).dest q
      · rw [hj]; exact h2
      · show s.err j = 0
        rw [← handle_errs (c := c) (k := k) (p := p) (res := res) q hj]; exact he j

end Cru.MutateAcc
