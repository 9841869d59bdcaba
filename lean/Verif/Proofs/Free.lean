import Verif.Spec.Free
import Verif.Spec.Graph
import Verif.Proofs.Rover

/-! # Invariants of reclamation -/

namespace Cru.Free

open Net

variable {n : Nat} {N V L : Type} [DecidableEq N]

/-! ## Remaining labels -/

/-- The labels on edges from the nodes in a list. -/
def remaining (nodes : List N) (out : N → List (L × N)) : Multiset L :=
  (nodes.map fun m => (((out m).map Prod.fst : List L) : Multiset L)).sum

theorem sum_update {M : Type} [AddCommMonoid M] (f : N → M) (m : N) (x : M) : ∀ l : List N, l.Nodup → m ∈ l →
    (l.map (Function.update f m x)).sum + f m = (l.map f).sum + x := by
  intro l
  induction l with
  | nil => intro _ h; cases h
  | cons a l ih =>
    intro hd hm
    obtain ⟨h1, h2⟩ := List.nodup_cons.1 hd
    rcases List.mem_cons.1 hm with rfl | h3
    · have : l.map (Function.update f m x) = l.map f :=
        List.map_congr_left fun y hy => Function.update_of_ne (by rintro rfl; exact h1 hy) _ _
      simp only [List.map_cons, List.sum_cons, Function.update_self, this]
      rw [add_comm, ← add_assoc, add_right_comm, add_comm (f m)]
    · have hne : a ≠ m := fun e => h1 (e ▸ h3)
      simp only [List.map_cons, List.sum_cons, Function.update_of_ne hne]
      rw [add_assoc, ih h2 h3, add_assoc]

theorem remaining_update {nodes : List N} (hd : nodes.Nodup) {m : N} (hm : m ∈ nodes) (out : N → List (L × N)) (x : List (L × N)) :
    remaining nodes (Function.update out m x) + ((out m).map Prod.fst : List L) = remaining nodes out + (x.map Prod.fst : List L) := by
  have := sum_update (fun m => (((out m).map Prod.fst : List L) : Multiset L)) m ((x.map Prod.fst : List L) : Multiset L) nodes hd hm
  unfold remaining
  rw [← this]
  congr 2
  refine List.map_congr_left fun y _ => ?_
  by_cases h : y = m
  · subst h; simp
  · simp [Function.update_of_ne h]

/-! ## Scattering -/

theorem newPacket_spec (i : Fin n) (s : Job n N V L) : ∃ a e r, (newPacket i s).1 = { s with asked := a, err := e, reserve := r } ∧
    (∀ j, s.err j = true → e j = true) := by
  unfold newPacket
  split
  · exact ⟨_, s.err, s.reserve, rfl, fun j h => h⟩
  · split
    · exact ⟨_, Function.update s.err i true, s.reserve, rfl, fun j h => by
        by_cases e : j = i
        · subst e; simp
        · rw [Function.update_of_ne e]; exact h⟩
    · exact ⟨_, Function.update s.err i true, _, rfl, fun j h => by
        by_cases e : j = i
        · subst e; simp
        · rw [Function.update_of_ne e]; exact h⟩

/-- Some of the edges are consumed. -/
theorem scatter_spec (i : Fin n) (m : N) : ∀ (es : List (L × N)) (s : Job n N V L),
    ∃ a e r k gone, (scatter i m es s).1 = { s with asked := a, err := e, reserve := r, name := k, labels := (gone.map Prod.fst).reverse ++ s.labels } ∧
      es = gone ++ (scatter i m es s).2.2 ∧
      (scatter i m es s).2.1.map Prod.fst = (gone.filter fun c => c.2 ≠ m).map Prod.snd ∧ (∀ j, s.err j = true → e j = true) := by
  intro es
  induction es with
  | nil => intro s; exact ⟨s.asked, s.err, s.reserve, s.name, [], rfl, rfl, rfl, fun _ h => h⟩
  | cons c es ih =>
    intro s
    unfold scatter
    by_cases hc : c.2 = m
    · rw [if_pos hc]
      obtain ⟨a, e, r, k, gone, h1, h2, h3, h4⟩ := ih { s with labels := c.1 :: s.labels }
      refine ⟨a, e, r, k, c :: gone, ?_, ?_, ?_, h4⟩
      · rw [h1]; simp
      · rw [List.cons_append, ← h2]
      · rw [h3, List.filter_cons_of_neg (by simpa using hc)]
    · rw [if_neg hc]
      obtain ⟨a0, e0, r0, h0, h0'⟩ := newPacket_spec i s
      split
      · rw [h0]
        obtain ⟨a, e, r, k, gone, h1, h2, h3, h4⟩ :=
          ih { ({ s with asked := a0, err := e0, reserve := r0 } : Job n N V L) with name := s.name + 1, labels := c.1 :: s.labels }
        refine ⟨a, e, r, k, c :: gone, ?_, ?_, ?_, fun j h => h4 j (h0' j h)⟩
        · dsimp only; rw [h1]; simp
        · dsimp only; rw [List.cons_append, ← h2]
        · dsimp only
          rw [List.map_cons, h3, List.filter_cons_of_pos (by simpa using hc)]
          rfl
      · exact ⟨a0, e0, r0, s.name, [], by rw [h0]; rfl, rfl, rfl, h0'⟩

/-! ## The part of the invariant that doesn't involve packets -/

structure Core (g : Gr N V L) (lane : N → Fin n) (s : Job n N V L) : Prop where
  seenLane : ∀ i, ∀ m ∈ s.seen i, lane m = i
  delLane : ∀ i, ∀ m ∈ s.deletions i, lane m = i
  delErr : ∀ i, s.deletions i ≠ [] → s.err i = true
  nodup : ∀ i, (s.deletions i ++ s.seen i).Nodup
  freedNodup : s.freed.Nodup
  freedIff : ∀ m, m ∈ s.freed ↔ m ∈ s.seen (lane m)
  recIn : ∀ i, ∀ m, m ∈ s.seen i ∨ m ∈ s.deletions i → m ∈ g.nodes ∧ s.out m = []
  vert : s.vertices = s.freed.map g.vertex
  labels : (s.labels : Multiset L) + remaining g.nodes s.out = remaining g.nodes g.out
  edges : ∀ m ∈ g.nodes, ∀ e ∈ s.out m, e.2 ∈ g.nodes
  undef : s.undef = false

/-- A node that is neither in the set nor on the list of its worker. -/
def Fresh (lane : N → Fin n) (s : Job n N V L) (m : N) : Prop := m ∉ s.seen (lane m) ∧ m ∉ s.deletions (lane m)

variable {g : Gr N V L} {lane : N → Fin n} {s : Job n N V L}

theorem Core.recorded (h : Core g lane s) (m : N) : recorded (lane m) m s = false ↔ Fresh lane s m := by
  unfold Free.recorded Fresh
  constructor
  · intro e
    simp only [Bool.or_eq_false_iff, Bool.and_eq_false_iff, decide_eq_false_iff_not] at e
    refine ⟨e.1, fun hm => ?_⟩
    rcases e.2 with h1 | h1
    · rw [h.delErr _ (List.ne_nil_of_mem hm)] at h1; cases h1
    · exact h1 hm
  · rintro ⟨h1, h2⟩
    simp [h1, h2]

theorem Core.touch (h : Core g lane s) {m : N} (hm : Fresh lane s m) : Free.touch m s = s := by
  have : m ∉ s.freed := fun hf => hm.1 ((h.freedIff m).1 hf)
  unfold Free.touch
  simp [this]

/-- Fields that don't matter. -/
theorem Core.frame (h : Core g lane s) {e : Fin n → Bool} (he : ∀ j, s.err j = true → e j = true) (a r k b hp) :
    Core g lane { s with asked := a, err := e, reserve := r, name := k, buffer := b, heap := hp } :=
  { h with delErr := fun i hd => he i (h.delErr i hd) }

theorem Core.out (h : Core g lane s) {out' : N → List (L × N)} {l : List L}
    (h1 : ∀ i, ∀ m, m ∈ s.seen i ∨ m ∈ s.deletions i → out' m = [])
    (h2 : ((l ++ s.labels : List L) : Multiset L) + remaining g.nodes out' = (s.labels : Multiset L) + remaining g.nodes s.out)
    (h3 : ∀ m ∈ g.nodes, ∀ e ∈ out' m, e.2 ∈ g.nodes) :
    Core g lane { s with out := out', labels := l ++ s.labels } :=
  { h with
    recIn := fun i m hm => ⟨(h.recIn i m hm).1, h1 i m hm⟩
    labels := h2.trans h.labels
    edges := h3 }

theorem Fresh.not_rec (h : Core g lane s) {m : N} (hm : Fresh lane s m) (i : Fin n) : ¬ (m ∈ s.seen i ∨ m ∈ s.deletions i) := by
  rintro (h1 | h1)
  · have := h.seenLane i m h1; subst this; exact hm.1 h1
  · have := h.delLane i m h1; subst this; exact hm.2 h1

/-- Consuming the first edges from a node. -/
theorem Core.consume (hd : g.nodes.Nodup) (h : Core g lane s) {m : N} (hm : Fresh lane s m) (hin : m ∈ g.nodes)
    {gone rest : List (L × N)} (he : s.out m = gone ++ rest) :
    Core g lane { s with out := Function.update s.out m rest, labels := (gone.map Prod.fst).reverse ++ s.labels } := by
  refine h.out (fun i x hx => ?_) ?_ (fun x hx e hex => ?_)
  · have hne : x ≠ m := fun e => hm.not_rec h i (e ▸ hx)
    rw [Function.update_of_ne hne]; exact (h.recIn i x hx).2
  · have h1 := remaining_update hd hin s.out rest
    rw [he, List.map_append, ← Multiset.coe_add, ← add_assoc, add_right_cancel_iff] at h1
    rw [← h1, ← Multiset.coe_add, Multiset.coe_reverse, add_assoc, add_comm, add_assoc, add_comm (remaining _ _)]
  · by_cases hne : x = m
    · subst hne
      rw [Function.update_self] at hex
      exact h.edges x hx e (by rw [he]; exact List.mem_append_right _ hex)
    · rw [Function.update_of_ne hne] at hex; exact h.edges x hx e hex

/-- Moving the edges of one node to another. -/
theorem Core.transplant (hd : g.nodes.Nodup) (h : Core g lane s) {m b : N} (hm : Fresh lane s m) (hb : Fresh lane s b)
    (hmi : m ∈ g.nodes) (hbi : b ∈ g.nodes) (hne : b ≠ m) :
    Core g lane { s with out := Function.update (Function.update s.out b (s.out m ++ s.out b)) m [] } := by
  refine h.out (l := []) (fun i x hx => ?_) ?_ (fun x hx e hex => ?_)
  · have h1 : x ≠ m := fun e => hm.not_rec h i (e ▸ hx)
    have h2 : x ≠ b := fun e => hb.not_rec h i (e ▸ hx)
    rw [Function.update_of_ne h1, Function.update_of_ne h2]; exact (h.recIn i x hx).2
  · have h1 := remaining_update hd hbi s.out (s.out m ++ s.out b)
    rw [List.map_append, ← Multiset.coe_add, ← add_assoc, add_right_cancel_iff] at h1
    have h2 := remaining_update hd hmi (Function.update s.out b (s.out m ++ s.out b)) []
    rw [Function.update_of_ne hne.symm, h1] at h2
    simp only [List.map_nil, Multiset.coe_nil, add_zero] at h2
    rw [add_right_cancel_iff] at h2
    rw [List.nil_append, h2]
  · by_cases h1 : x = m
    · subst h1; rw [Function.update_self] at hex; cases hex
    · rw [Function.update_of_ne h1] at hex
      by_cases h2 : x = b
      · subst h2
        rw [Function.update_self] at hex
        rcases List.mem_append.1 hex with h3 | h3
        · exact h.edges m hmi e h3
        · exact h.edges x hx e h3
      · rw [Function.update_of_ne h2] at hex; exact h.edges x hx e hex

theorem Core.freeNode (h : Core g lane s) {m : N} (hm : Fresh lane s m) (hin : m ∈ g.nodes) (ho : s.out m = []) (a : Nat) :
    Core g lane (freeNode g.vertex { s with asked := a, seen := Function.update s.seen (lane m) (s.seen (lane m) ++ [m]) } m) := by
  have hf : m ∉ s.freed := fun hf => hm.1 ((h.freedIff m).1 hf)
  have hou : Function.update s.out m [] = s.out := by rw [← ho, Function.update_eq_self]
  have he : Free.freeNode g.vertex { s with asked := a, seen := Function.update s.seen (lane m) (s.seen (lane m) ++ [m]) } m =
      { s with asked := a, seen := Function.update s.seen (lane m) (s.seen (lane m) ++ [m]), vertices := g.vertex m :: s.vertices, freed := m :: s.freed } := by
    unfold Free.freeNode Free.touch
    dsimp only
    rw [ho]
    simp [hf, hou]
  rw [he]
  have hseen : ∀ i x, x ∈ Function.update s.seen (lane m) (s.seen (lane m) ++ [m]) i ↔ x ∈ s.seen i ∨ (x = m ∧ i = lane m) := by
    intro i x
    by_cases hi : i = lane m
    · subst hi; simp
    · simp [Function.update_of_ne hi, hi]
  exact
    { seenLane := fun i x hx => by
        rcases (hseen i x).1 hx with h1 | ⟨rfl, rfl⟩
        · exact h.seenLane i x h1
        · rfl
      delLane := h.delLane
      delErr := h.delErr
      nodup := fun i => by
        by_cases hi : i = lane m
        · subst hi
          dsimp only
          rw [Function.update_self, ← List.append_assoc, List.nodup_append]
          refine ⟨h.nodup _, by simp, ?_⟩
          intro x hx y hy e
          rw [List.mem_singleton] at hy
          subst hy; subst e
          rcases List.mem_append.1 hx with h1 | h1
          · exact hm.2 h1
          · exact hm.1 h1
        · dsimp only; rw [Function.update_of_ne hi]; exact h.nodup i
      freedNodup := List.nodup_cons.2 ⟨hf, h.freedNodup⟩
      freedIff := fun x => by
        dsimp only
        rw [hseen, List.mem_cons, h.freedIff]
        constructor
        · rintro (rfl | h1)
          · exact .inr ⟨rfl, rfl⟩
          · exact .inl h1
        · rintro (h1 | ⟨rfl, -⟩)
          · exact .inr h1
          · exact .inl rfl
      recIn := fun i x hx => by
        rcases hx with h1 | h1
        · rcases (hseen i x).1 h1 with h2 | ⟨rfl, -⟩
          · exact h.recIn i x (.inl h2)
          · exact ⟨hin, ho⟩
        · exact h.recIn i x (.inr h1)
      vert := by dsimp only; rw [List.map_cons, h.vert]
      labels := h.labels
      edges := h.edges
      undef := h.undef }

theorem Core.delete (h : Core g lane s) {m : N} (hm : Fresh lane s m) (hin : m ∈ g.nodes) (ho : s.out m = []) (a : Nat) :
    Core g lane { s with asked := a, err := Function.update s.err (lane m) true
                         deletions := Function.update s.deletions (lane m) (m :: s.deletions (lane m)) } := by
  have hdel : ∀ i x, x ∈ Function.update s.deletions (lane m) (m :: s.deletions (lane m)) i ↔ x ∈ s.deletions i ∨ (x = m ∧ i = lane m) := by
    intro i x
    by_cases hi : i = lane m
    · subst hi; simp [or_comm]
    · simp [Function.update_of_ne hi, hi]
  exact
    { h with
      delLane := fun i x hx => by
        rcases (hdel i x).1 hx with h1 | ⟨rfl, rfl⟩
        · exact h.delLane i x h1
        · rfl
      delErr := fun i hi => by
        by_cases e : i = lane m
        · subst e; simp
        · dsimp only at hi ⊢
          rw [Function.update_of_ne e] at hi ⊢
          exact h.delErr i hi
      nodup := fun i => by
        by_cases e : i = lane m
        · subst e
          dsimp only
          rw [Function.update_self, List.cons_append, List.nodup_cons]
          refine ⟨fun hx => ?_, h.nodup _⟩
          rcases List.mem_append.1 hx with h1 | h1
          · exact hm.2 h1
          · exact hm.1 h1
        · dsimp only; rw [Function.update_of_ne e]; exact h.nodup i
      recIn := fun i x hx => by
        rcases hx with h1 | h1
        · exact h.recIn i x (.inl h1)
        · rcases (hdel i x).1 h1 with h2 | ⟨rfl, -⟩
          · exact h.recIn i x (.inr h2)
          · exact ⟨hin, ho⟩ }

/-- What recording does: the node is recorded, and others are recorded if and only if they were. -/
theorem Core.record (h : Core g lane s) {m : N} (hm : Fresh lane s m) (hin : m ∈ g.nodes) (ho : s.out m = []) :
    Core g lane (record g.vertex (lane m) m s) ∧ (record g.vertex (lane m) m s).out = s.out ∧
    (record g.vertex (lane m) m s).buffer = s.buffer ∧ (record g.vertex (lane m) m s).reserve = s.reserve ∧
    (∀ j, s.err j = true → (record g.vertex (lane m) m s).err j = true) ∧ (record g.vertex (lane m) m s).name = s.name ∧
    (∀ x, Fresh lane (record g.vertex (lane m) m s) x ↔ Fresh lane s x ∧ x ≠ m) := by
  unfold Free.record
  split
  · refine ⟨h.freeNode hm hin ho _, ?_, rfl, rfl, fun _ h => h, rfl, fun x => ?_⟩
    · show Function.update s.out m [] = s.out
      rw [← ho, Function.update_eq_self]
    · show x ∉ Function.update s.seen (lane m) (s.seen (lane m) ++ [m]) (lane x) ∧ x ∉ s.deletions (lane x) ↔ _
      by_cases hl : lane x = lane m
      · rw [hl, Function.update_self, List.mem_append, List.mem_singleton]
        unfold Fresh
        rw [hl]
        tauto
      · rw [Function.update_of_ne hl]
        exact ⟨fun h1 => ⟨h1, fun e => hl (e ▸ rfl)⟩, fun h1 => h1.1⟩
  · refine ⟨h.delete hm hin ho _, rfl, rfl, rfl, fun j hj => ?_, rfl, fun x => ?_⟩
    · show Function.update s.err (lane m) true j = true
      by_cases e : j = lane m
      · subst e; simp
      · rw [Function.update_of_ne e]; exact hj
    show x ∉ s.seen (lane x) ∧ x ∉ Function.update s.deletions (lane m) (m :: s.deletions (lane m)) (lane x) ↔ _
    by_cases hl : lane x = lane m
    · rw [hl, Function.update_self, List.mem_cons]
      unfold Fresh
      rw [hl]
      tauto
    · rw [Function.update_of_ne hl]
      exact ⟨fun h1 => ⟨h1, fun e => hl (e ▸ rfl)⟩, fun h1 => h1.1⟩

end Cru.Free
