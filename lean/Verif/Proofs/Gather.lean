import Verif.Proofs.FreeEnd
import Verif.Spec.Gather

/-! # Putting nodes on lists is like freeing a graph whose recorded nodes have no edges -/

namespace Cru.Gather

open Net
open Free (Packet newPacket nack scatter finish1 remaining Core Fresh Scattered Effect Buffers Inv bagOf)

variable {n : Nat} {N V L : Type} [DecidableEq N] {g : Gr N V L} {lane : N → Fin n}

/-! ## Packets for all edges -/

/-- What's changed by allocating packets for edges of a node. -/
structure Sprayed (es : List (L × N)) (s : Free.Job n N V L) (r : Free.Job n N V L × List (Packet N) × Bool) : Prop where
  only : ∃ a e k m, r.1 = { s with asked := a, err := e, reserve := k, name := m }
  err : ∀ j, s.err j = true → r.1.err j = true
  ends : ∀ q ∈ r.2.1, ∃ c ∈ es, c.2 = q.1
  all : r.2.2 = true → ∀ c ∈ es, c.2 ∈ r.2.1.map Prod.fst
  spent : s.reserve ≠ 0 → r.1.reserve = 0 → r.2.1 ≠ []
  name : s.name ≤ r.1.name
  names : ∀ q ∈ r.2.1, s.name ≤ q.2 ∧ q.2 < r.1.name

theorem Sprayed.skip (es : List (L × N)) (s : Free.Job n N V L) : Sprayed es s (s, [], false) where
  only := ⟨s.asked, s.err, s.reserve, s.name, rfl⟩
  err _ h := h
  ends q hq := by cases hq
  all h := by cases h
  spent h h' := absurd h' h
  name := Nat.le_refl _
  names q hq := by cases hq

theorem newPacket_name (i : Fin n) (s : Free.Job n N V L) : (newPacket i s).1.name = s.name := by
  obtain ⟨a, e, r, h, -⟩ := Free.newPacket_spec i s
  rw [h]

theorem newPacket_fail (i : Fin n) {s : Free.Job n N V L} (h : ¬ (newPacket i s).2 = true) :
    s.reserve = 0 ∧ (newPacket i s).1.err i = true := by
  unfold newPacket at h ⊢
  by_cases h1 : s.heap s.asked = true
  · rw [if_pos h1] at h; exact absurd rfl h
  · rw [if_neg h1] at h ⊢
    by_cases h2 : s.reserve = 0
    · rw [if_pos h2]; exact ⟨h2, Function.update_self _ _ _⟩
    · rw [if_neg h2] at h; exact absurd rfl h

theorem spray_spec (i : Fin n) : ∀ (es : List (L × N)) (s : Free.Job n N V L), 
    Sprayed es s (spray i es s) ∧ ((spray i es s).2.2 = false → (spray i es s).1.err i = true) := by
  intro es
  induction es with
  | nil =>
    intro s
    exact ⟨⟨⟨s.asked, s.err, s.reserve, s.name, rfl⟩, fun _ h => h, fun q hq => (by cases hq), fun _ c hc => (by cases hc),
      fun h h' => absurd h' h, Nat.le_refl _, fun q hq => by cases hq⟩, fun h => by cases h⟩
  | cons c es ih =>
    intro s
    unfold spray
    obtain ⟨a0, e0, r0, h0, h0'⟩ := Free.newPacket_spec i s
    by_cases hp : (newPacket i s).2 = true
    · rw [if_pos hp]
      obtain ⟨ih, ie⟩ := ih { (newPacket i s).1 with name := s.name + 1 }
      rw [h0] at ih ie ⊢
      dsimp only at ie ⊢
      generalize spray i es { ({ s with asked := a0, err := e0, reserve := r0 } : Free.Job n N V L) with name := s.name + 1 } = r at *
      obtain ⟨⟨a, e, k, m, h1⟩, h2, h3, h4, h6, h7, h8⟩ := ih
      refine ⟨⟨⟨a, e, k, m, h1⟩, fun j hj => h2 j (h0' j hj), ?_, ?_, fun _ _ => List.cons_ne_nil _ _, ?_, ?_⟩, ie⟩
      · intro q hq
        rcases List.mem_cons.1 hq with rfl | hq
        · exact ⟨c, List.mem_cons_self, rfl⟩
        · obtain ⟨d, hd, e⟩ := h3 q hq
          exact ⟨d, List.mem_cons_of_mem _ hd, e⟩
      · intro ho d hd
        rw [List.map_cons]
        rcases List.mem_cons.1 hd with rfl | hd
        · exact List.mem_cons_self
        · exact List.mem_cons_of_mem _ (h4 ho d hd)
      · dsimp only at h7 ⊢; omega
      · intro q hq
        dsimp only at h7 h8 ⊢
        rcases List.mem_cons.1 hq with rfl | hq
        · exact ⟨Nat.le_refl _, by omega⟩
        · have := h8 q hq; omega
    · rw [if_neg hp]
      obtain ⟨hr, he⟩ := newPacket_fail i hp
      refine ⟨⟨⟨a0, e0, r0, s.name, by rw [h0]⟩, fun j hj => by rw [h0]; exact h0' j hj, fun q hq => (by cases hq), fun h => (by cases h),
        fun h => absurd hr h, by rw [h0], fun q hq => (by cases hq)⟩, fun _ => he⟩

/-! ## States seen as those of a graph being freed -/

/-- Edges of nodes that aren't recorded, and of those that are. -/
def eff (lane : N → Fin n) (s : Free.Job n N V L) (m : N) : List (L × N) := if m ∈ s.deletions (lane m) then [] else s.out m

def kept (lane : N → Fin n) (s : Free.Job n N V L) (m : N) : List (L × N) := if m ∈ s.deletions (lane m) then s.out m else []

/-- Recorded nodes count as freed, with their edges. -/
def view (g : Gr N V L) (lane : N → Fin n) (s : Free.Job n N V L) : Free.Job n N V L :=
  { s with
    out := eff lane s
    seen := s.deletions
    deletions := fun _ => []
    freed := (List.finRange n).flatMap s.deletions
    vertices := ((List.finRange n).flatMap s.deletions).map g.vertex
    labels := s.labels ++ g.nodes.flatMap fun m => (kept lane s m).map Prod.fst
    undef := false }

/-- The invariant that doesn't involve packets. -/
structure Base (g : Gr N V L) (lane : N → Fin n) (s : Free.Job n N V L) : Prop where
  lanes : ∀ i, ∀ m ∈ s.deletions i, lane m = i
  nodup : ∀ i, (s.deletions i).Nodup
  nodes : ∀ i, ∀ m ∈ s.deletions i, m ∈ g.nodes
  seen : ∀ i, ∀ m ∈ s.seen i, m ∈ s.deletions i
  err : ∀ i, ∀ m ∈ s.deletions i, m ∉ s.seen i → s.err i = true
  buf : ∀ i, s.buffer i ≠ none → s.err i = true
  labels : (s.labels : Multiset L) + remaining g.nodes s.out = remaining g.nodes g.out
  edges : ∀ m ∈ g.nodes, ∀ e ∈ s.out m, e.2 ∈ g.nodes
  freed : s.freed = [] ∧ s.vertices = [] ∧ s.undef = false

variable {s : Free.Job n N V L}

theorem mem_view (h : Base g lane s) (m : N) : m ∈ (List.finRange n).flatMap s.deletions ↔ m ∈ s.deletions (lane m) := by
  rw [List.mem_flatMap]
  constructor
  · rintro ⟨i, -, hi⟩; rw [h.lanes i m hi]; exact hi
  · intro hm; exact ⟨lane m, List.mem_finRange _, hm⟩

theorem view_nodup (h : Base g lane s) : ((List.finRange n).flatMap s.deletions).Nodup := by
  rw [List.nodup_flatMap]
  refine ⟨fun i _ => h.nodup i, (List.nodup_finRange n).imp fun {i j} hij => ?_⟩
  intro m h1 h2
  exact hij ((h.lanes i m h1).symm.trans (h.lanes j m h2))

theorem remaining_split (lane : N → Fin n) (s : Free.Job n N V L) (nodes : List N) :
    remaining nodes s.out = remaining nodes (kept lane s) + remaining nodes (eff lane s) := by
  unfold remaining
  rw [← List.sum_map_add]
  congr 1
  refine List.map_congr_left fun m _ => ?_
  unfold kept eff
  by_cases h : m ∈ s.deletions (lane m)
  · simp [h]
  · simp [h]

theorem Base.core (h : Base g lane s) : Core g lane (view g lane s) where
  seenLane := h.lanes
  delLane i m hm := by cases hm
  delErr i hi := absurd rfl hi
  nodup i := by show ([] ++ s.deletions i).Nodup; rw [List.nil_append]; exact h.nodup i
  freedNodup := view_nodup h
  freedIff := mem_view h
  recIn i m hm := by
    rcases hm with hm | hm
    · have hl := h.lanes i m hm
      refine ⟨h.nodes i m hm, ?_⟩
      show eff lane s m = []
      unfold eff
      rw [hl]; exact if_pos hm
    · cases hm
  vert := rfl
  labels := by
    show ((s.labels ++ g.nodes.flatMap fun m => (kept lane s m).map Prod.fst : List L) : Multiset L) + remaining g.nodes (eff lane s) = _
    rw [← Multiset.coe_add, ← Free.remaining_eq, add_assoc, ← remaining_split]
    exact h.labels
  edges m hm e he := by
    have he' : e ∈ eff lane s m := he
    unfold eff at he'
    by_cases hc : m ∈ s.deletions (lane m)
    · rw [if_pos hc] at he'; cases he'
    · rw [if_neg hc] at he'; exact h.edges m hm e he'
  undef := rfl

theorem fresh_iff (s : Free.Job n N V L) (m : N) : Fresh lane (view g lane s) m ↔ m ∉ s.deletions (lane m) :=
  ⟨fun h => h.1, fun h => ⟨h, fun hm => by cases hm⟩⟩

/-- Fields that don't matter. -/
theorem Base.frame (h : Base g lane s) {e : Fin n → Bool} (he : ∀ j, s.err j = true → e j = true) (a r k hp)
    {b : Fin n → Option (Packet N)} (hb : ∀ j, b j ≠ none → e j = true) :
    Base g lane { s with asked := a, err := e, reserve := r, name := k, buffer := b, heap := hp } :=
  { h with err := fun i m h1 h2 => he i (h.err i m h1 h2), buf := hb }

theorem Base.nack (h : Base g lane s) : Base g lane (nack s) := h.frame (e := s.err) (fun _ h => h) s.asked _ s.name s.heap h.buf

theorem Base.consume (hd : g.nodes.Nodup) (h : Base g lane s) {m : N} (hin : m ∈ g.nodes) {gone rest : List (L × N)}
    (he : s.out m = gone ++ rest) :
    Base g lane { s with out := Function.update s.out m rest, labels := (gone.map Prod.fst).reverse ++ s.labels } :=
  { h with
    labels := by
      refine Eq.trans ?_ h.labels
      have h1 := Free.remaining_update hd hin s.out rest
      rw [he, List.map_append, ← Multiset.coe_add, ← add_assoc, add_right_cancel_iff] at h1
      rw [← h1, ← Multiset.coe_add, Multiset.coe_reverse, add_assoc, add_comm, add_assoc, add_comm (remaining _ _)]
    edges := fun x hx e hex => by
      dsimp only at hex
      by_cases hne : x = m
      · subst hne
        rw [Function.update_self] at hex
        exact h.edges x hx e (by rw [he]; exact List.mem_append_right _ hex)
      · rw [Function.update_of_ne hne] at hex; exact h.edges x hx e hex }

theorem Base.transplant (hd : g.nodes.Nodup) (h : Base g lane s) {m b : N} (hmi : m ∈ g.nodes) (hbi : b ∈ g.nodes) (hne : b ≠ m) :
    Base g lane { s with out := Function.update (Function.update s.out b (s.out m ++ s.out b)) m [] } :=
  { h with
    labels := by
      refine Eq.trans ?_ h.labels
      have h1 := Free.remaining_update hd hbi s.out (s.out m ++ s.out b)
      rw [List.map_append, ← Multiset.coe_add, ← add_assoc, add_right_cancel_iff] at h1
      have h2 := Free.remaining_update hd hmi (Function.update s.out b (s.out m ++ s.out b)) []
      rw [Function.update_of_ne hne.symm, h1] at h2
      simp only [List.map_nil, Multiset.coe_nil, add_zero] at h2
      rw [add_right_cancel_iff] at h2
      rw [h2]
    edges := fun x hx e hex => by
      dsimp only at hex
      by_cases h1 : x = m
      · subst h1; rw [Function.update_self] at hex; cases hex
      · rw [Function.update_of_ne h1] at hex
        by_cases h2 : x = b
        · subst h2
          rw [Function.update_self] at hex
          rcases List.mem_append.1 hex with h3 | h3
          · exact h.edges m hmi e h3
          · exact h.edges x hx e h3
        · rw [Function.update_of_ne h2] at hex; exact h.edges x hx e hex }

theorem mem_push (d : Fin n → List N) (m : N) (i : Fin n) (x : N) :
    x ∈ Function.update d (lane m) (m :: d (lane m)) i ↔ x ∈ d i ∨ (x = m ∧ i = lane m) := by
  by_cases hi : i = lane m
  · subst hi; simp [or_comm]
  · simp [Function.update_of_ne hi, hi]

/-- What recording does: the node is recorded, and others are recorded if and only if they were. -/
theorem Base.record (h : Base g lane s) {m : N} (hm : m ∉ s.deletions (lane m)) (hin : m ∈ g.nodes) :
    Base g lane (record (lane m) m s) ∧ (record (lane m) m s).out = s.out ∧ (record (lane m) m s).buffer = s.buffer ∧
    (record (lane m) m s).reserve = s.reserve ∧ (∀ j, s.err j = true → (record (lane m) m s).err j = true) ∧
    (record (lane m) m s).name = s.name ∧
    (record (lane m) m s).deletions = Function.update s.deletions (lane m) (m :: s.deletions (lane m)) := by
  have key : ∀ (se : Fin n → List N) (e : Fin n → Bool) (a : Nat), (∀ i, ∀ x ∈ se i, x ∈ s.seen i ∨ (x = m ∧ i = lane m)) →
      (∀ j, s.err j = true → e j = true) → (∀ i, ∀ x, x ∈ s.seen i → x ∈ se i) → (m ∈ se (lane m) ∨ e (lane m) = true) →
      Base g lane { s with asked := a, seen := se, err := e, deletions := Function.update s.deletions (lane m) (m :: s.deletions (lane m)) } := by
    intro se e a h1 h2 h3 h4
    exact
      { h with
        lanes := fun i x hx => by
          rcases (mem_push _ m i x).1 hx with hx | ⟨rfl, rfl⟩
          · exact h.lanes i x hx
          · rfl
        nodup := fun i => by
          dsimp only
          by_cases hi : i = lane m
          · subst hi; rw [Function.update_self]; exact List.nodup_cons.2 ⟨hm, h.nodup _⟩
          · rw [Function.update_of_ne hi]; exact h.nodup i
        nodes := fun i x hx => by
          rcases (mem_push _ m i x).1 hx with hx | ⟨rfl, rfl⟩
          · exact h.nodes i x hx
          · exact hin
        seen := fun i x hx => (mem_push _ m i x).2 ((h1 i x hx).imp (h.seen i x) id)
        err := fun i x hx hx' => by
          rcases (mem_push _ m i x).1 hx with hx | ⟨rfl, rfl⟩
          · exact h2 i (h.err i x hx fun hc => hx' (h3 i x hc))
          · exact h4.resolve_left hx'
        buf := fun i hi => h2 i (h.buf i hi) }
  unfold Gather.record
  by_cases hh : s.heap s.asked = true
  · rw [if_pos hh]
    refine ⟨key (Function.update s.seen (lane m) (s.seen (lane m) ++ [m])) s.err _ (fun i x hx => ?_) (fun _ h => h) (fun i x hx => ?_) (.inl (by simp)),
      rfl, rfl, rfl, fun _ h => h, rfl, rfl⟩
    · by_cases hi : i = lane m
      · subst hi; simpa using hx
      · rw [Function.update_of_ne hi] at hx; exact .inl hx
    · by_cases hi : i = lane m
      · subst hi; simp [hx]
      · rw [Function.update_of_ne hi]; exact hx
  · rw [if_neg hh]
    have he : ∀ j, s.err j = true → Function.update s.err (lane m) true j = true := fun j hj => by
      by_cases e : j = lane m
      · subst e; simp
      · rw [Function.update_of_ne e]; exact hj
    exact ⟨key s.seen _ _ (fun i x hx => .inl hx) he (fun _ _ h => h) (.inr (by simp)), rfl, rfl, rfl, he, rfl, rfl⟩

theorem eff_same {s t : Free.Job n N V L} (ho : t.out = s.out) (hd : t.deletions = s.deletions) : eff lane t = eff lane s := by
  funext m; unfold eff; rw [ho, hd]

theorem eff_out {s : Free.Job n N V L} {m : N} (hm : m ∉ s.deletions (lane m)) {t : Free.Job n N V L} (hd : t.deletions = s.deletions) {x : List (L × N)}
    (ho : t.out = Function.update s.out m x) : eff lane t = Function.update (eff lane s) m x := by
  funext y
  by_cases e : y = m
  · subst e; unfold eff; rw [hd, if_neg hm, ho, Function.update_self, Function.update_self]
  · rw [Function.update_of_ne e]; unfold eff; rw [hd, ho, Function.update_of_ne e]

/-- Recording a node makes its edges disappear from view. -/
theorem eff_push {s t : Free.Job n N V L} {m : N} (hd : t.deletions = Function.update s.deletions (lane m) (m :: s.deletions (lane m)))
    (ho : t.out = s.out) : eff lane t = Function.update (eff lane s) m [] := by
  funext y
  have hy := mem_push (lane := lane) s.deletions m (lane y) y
  rw [← hd] at hy
  by_cases e : y = m
  · subst e
    rw [Function.update_self]; unfold eff; rw [if_pos (hy.2 (.inr ⟨rfl, rfl⟩))]
  · rw [Function.update_of_ne e]
    unfold eff
    rw [ho]
    by_cases h1 : y ∈ s.deletions (lane y)
    · rw [if_pos h1, if_pos (hy.2 (.inl h1))]
    · rw [if_neg h1, if_neg fun h => (hy.1 h).elim h1 fun h => e h.1]

theorem eff_fresh {s : Free.Job n N V L} {m : N} (hm : m ∉ s.deletions (lane m)) : eff lane s m = s.out m := if_neg hm

theorem scatter_err (i : Fin n) (m : N) : ∀ (es : List (L × N)) (s : Free.Job n N V L), (scatter i m es s).2.2 ≠ [] → (scatter i m es s).1.err i = true := by
  intro es
  induction es with
  | nil => intro s h; exact absurd rfl h
  | cons c es ih =>
    intro s
    unfold scatter
    by_cases hc : c.2 = m
    · rw [if_pos hc]; exact ih _
    · rw [if_neg hc]
      by_cases hp : (newPacket i s).2 = true
      · rw [if_pos hp]; exact ih _
      · rw [if_neg hp]; exact fun _ => (newPacket_fail i hp).2

end Cru.Gather
