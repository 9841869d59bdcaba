import Verif.Spec.Induce
import Verif.Proofs.FairDone
import Verif.Proofs.Trav
import Mathlib.Order.Antisymmetrization
import Mathlib.Data.Fintype.Card
import Mathlib.Data.Set.Finite.Basic

/-! # Invariants of induction -/

namespace Cru.Induce

open Net

variable {n : Nat} {N V L A : Type}

/-! ## The values -/

theorem reduce_eq (d : Inducer V L A) (v : V) (es : List (L × A)) : ∀ r, reduce d v es r = foldFrom d v r es := by
  induction es with
  | nil => intro r; rfl
  | cons e es ih =>
    intro r
    unfold reduce foldFrom
    rw [List.foldlM_cons]
    rcases h : d.map v e.1 e.2 with x | a
    · rfl
    · rcases h2 : d.reduction a r with x | r'
      · simp only [bind, Except.bind, h2]
      · simp only [bind, Except.bind, h2]
        exact ih r'

theorem evaluate_eq (d : Inducer V L A) (v : V) (es : List (L × A)) : evaluate d v es = local_ d v es := by
  unfold evaluate local_ reducedEdges
  rcases d.boundary with _ | f <;> rcases d.vacuous with _ | (_ | a) <;> rcases es with _ | ⟨e, es⟩ <;>
    simp only [bind, Except.bind, reduce_eq] <;> (try rfl) <;> (cases d.map v e.1 e.2 <;> rfl)

theorem Has.acyclic {d : Inducer V L A} {vertex : N → V} {arcs : N → List (L × N)} {m : N} {a : A} (h : Has d vertex arcs m a) :
    ¬ Relation.TransGen (fun x y => y ∈ (arcs x).map Prod.snd) m m := by
  induction h with
  | intro m a val hv he ih =>
    intro hc
    rcases Relation.TransGen.head'_iff.1 hc with ⟨t, h1, h2⟩
    obtain ⟨e, he, rfl⟩ := List.mem_map.1 h1
    exact ih e he (Relation.TransGen.tail' h2 h1)

theorem Has.unique {d : Inducer V L A} {vertex : N → V} {arcs : N → List (L × N)} {m : N} {a a' : A} (h : Has d vertex arcs m a)
    (h' : Has d vertex arcs m a') : a = a' := by
  induction h generalizing a' with
  | intro m a val hv he ih =>
    cases h' with
    | intro _ _ val' hv' he' =>
      have : (arcs m).map (fun e => (e.1, val e.2)) = (arcs m).map (fun e => (e.1, val' e.2)) :=
        List.map_congr_left (fun e hm => by rw [ih e hm (hv' e hm)])
      rw [this, he'] at he
      exact (Except.ok.inj he).symm

theorem Has.closed {d : Inducer V L A} {vertex : N → V} {arcs : N → List (L × N)} {m : N} {a : A} (h : Has d vertex arcs m a)
    {t : N} (ht : Reaches (fun x => (arcs x).map Prod.snd) m t) : ∃ a, Has d vertex arcs t a := by
  induction ht with
  | refl => exact ⟨a, h⟩
  | tail _ h2 ih =>
    obtain ⟨a, h⟩ := ih
    obtain ⟨e, he, rfl⟩ := List.mem_map.1 h2
    cases h with
    | intro _ _ val hv _ => exact ⟨_, hv e he⟩

/-! ## The invariant -/

section

variable [DecidableEq N]

theorem poll_eq (s : Job n N A) (i : Fin n) : ∃ sample stop, poll s i = { s with sample := sample, stop := stop } ∧
    (∀ j, j ≠ i → stop j = s.stop j) ∧ (stop i = false → s.stop i = false) ∧
    (stop i = true → s.stop i = true ∨ s.killed ≠ 0) := by
  unfold poll
  by_cases h : s.stop i = true
  · rw [if_pos h]; exact ⟨s.sample, s.stop, rfl, fun _ _ => rfl, id, .inl⟩
  · rw [if_neg h]
    refine ⟨_, _, rfl, fun j hj => Function.update_of_ne hj _ _, fun _ => by simpa using h, fun h' => .inr ?_⟩
    simp at h'
    exact h'.2

variable (d : Inducer V L A) (vertex : N → V) (arcs : N → List (L × N)) (b : N) (lane : N → Fin n)

/-- The nodes a node depends on. -/
abbrev pre (arcs : N → List (L × N)) (m : N) : List N := (arcs m).map Prod.snd

structure Inv (s : Job n N A) (bag : Multiset N) : Prop where
  flight : ∀ m ∈ bag, Reaches (pre arcs) b m
  home : ∀ i, ∀ m ∈ s.seen i, lane m = i ∧ Reaches (pre arcs) b m
  visitedSeen : ∀ i, ∀ m ∈ s.visited i, m ∈ s.seen i
  visitedNe : ∀ i, ∀ m ∈ s.visited i, m ≠ b
  closed : ∀ i, ∀ m ∈ s.visited i, ∀ t ∈ pre arcs m, t ∈ s.visited (lane t)
  pend : ∀ m ∈ s.seen (lane m), m ∈ s.visited (lane m) ∨ (m = b ∧ (s.result (lane b)).isSome) ∨ m ∈ bag ∨ s.off (lane m) = true
  sent : ∀ m ∈ s.seen (lane m), ∀ t ∈ pre arcs m, t ∈ s.seen (lane t) ∨ t ∈ bag ∨ s.off (lane t) = true
  root : b ∈ s.seen (lane b) ∨ b ∈ bag ∨ s.off (lane b) = true
  value : ∀ i, ∀ m ∈ s.visited i, Has d vertex arcs m (s.acc m)
  result : ∀ i a, s.result i = some a → i = lane b ∧ Has d vertex arcs b a ∧ (∀ t ∈ pre arcs b, t ∈ s.visited (lane t))
  once : (¬ Relation.TransGen (fun x y => y ∈ pre arcs x) b b) → bag.count b + (if (s.result (lane b)).isSome then 1 else 0) ≤ 1
  err : ∀ i, s.err i ≠ 0 → s.off i = true ∧ ∃ m x, Reaches (pre arcs) b m ∧ Fails d vertex arcs m x ∧ s.err i = x.1
  off : ∀ i, s.off i = true → ∃ j, s.err j ≠ 0 ∨ s.stop j = true
  stop : ∀ i, s.stop i = true → s.killed ≠ 0
  logNodup : s.log.Nodup
  logMem : ∀ m ∈ s.log, m ∈ s.visited (lane m) ∨ (m = b ∧ (s.result (lane b)).isSome) ∨ (s.err (lane m) ≠ 0 ∧ ∃ x, Fails d vertex arcs m x)
  logVisited : ∀ i, ∀ m ∈ s.visited i, m ∈ s.log
  logBase : (s.result (lane b)).isSome → b ∈ s.log
  logOrder : InOrder (pre arcs) s.log.reverse
  logReach : ∀ m ∈ s.log, Reaches (pre arcs) b m

variable {d vertex arcs b lane} {s : Job n N A} {bag : Multiset N}

theorem Inv.start (nil : A) : Inv d vertex arcs b lane (start nil) {b} where
  flight m h := by rw [Multiset.mem_singleton.1 h]
  home i m h := by cases h
  visitedSeen i m h := by cases h
  visitedNe i m h := by cases h
  closed i m h := by cases h
  pend m h := by cases h
  sent m h := by cases h
  root := Or.inr (Or.inl (Multiset.mem_singleton_self _))
  value i m h := by cases h
  result i a h := by cases h
  once _ := by simp [Induce.start]
  err i h := absurd rfl h
  off i h := by cases h
  stop i h := by cases h
  logNodup := List.nodup_nil
  logMem m h := by cases h
  logVisited i m h := by cases h
  logBase h := by cases h
  logOrder := by intro a m c h; simp [Induce.start] at h
  logReach m h := by cases h

theorem Inv.killed (h : Inv d vertex arcs b lane s bag) : Inv d vertex arcs b lane { s with killed := 1 } bag :=
  { h with stop := fun i hi => Nat.one_ne_zero }

theorem Inv.stale (h : Inv d vertex arcs b lane s bag) (v) : Inv d vertex arcs b lane { s with stale := v } bag :=
  { h with }

theorem Inv.poll (h : Inv d vertex arcs b lane s bag) (i : Fin n) : Inv d vertex arcs b lane (poll s i) bag := by
  obtain ⟨sample, stop, e, h1, h2, h3⟩ := poll_eq s i
  rw [e]
  have hup : ∀ j, s.stop j = true → stop j = true := by
    intro j hj
    by_cases hji : j = i
    · subst hji
      by_contra hc
      rw [h2 (by simpa using hc)] at hj; cases hj
    · rw [h1 j hji]; exact hj
  refine { h with off := fun j hj => ?_, stop := fun j hj => ?_ }
  · obtain ⟨j', h4 | h4⟩ := h.off j hj
    · exact ⟨j', Or.inl h4⟩
    · exact ⟨j', Or.inr (hup j' h4)⟩
  · by_cases hji : j = i
    · subst hji
      rcases h3 hj with h4 | h4
      · exact h.stop j h4
      · exact h4
    · exact h.stop j (by rw [← h1 j hji]; exact hj)

/-- A packet is dropped. -/
theorem Inv.drop {m : N} {rest : Multiset N} (h : Inv d vertex arcs b lane s (m ::ₘ rest))
    (hm : s.off (lane m) = true ∨ m ∈ s.visited (lane m)) : Inv d vertex arcs b lane s rest where
  flight q hq := h.flight q (Multiset.mem_cons_of_mem hq)
  home := h.home
  visitedSeen := h.visitedSeen
  visitedNe := h.visitedNe
  closed := h.closed
  pend q hq := by
    rcases h.pend q hq with h1 | h1 | h1 | h1
    · exact .inl h1
    · exact .inr (.inl h1)
    · rcases Multiset.mem_cons.1 h1 with rfl | h1
      · rcases hm with hm | hm
        · exact .inr (.inr (.inr hm))
        · exact .inl hm
      · exact .inr (.inr (.inl h1))
    · exact .inr (.inr (.inr h1))
  sent q hq t ht := by
    rcases h.sent q hq t ht with h1 | h1 | h1
    · exact .inl h1
    · rcases Multiset.mem_cons.1 h1 with rfl | h1
      · rcases hm with hm | hm
        · exact .inr (.inr hm)
        · exact .inl (h.visitedSeen _ _ hm)
      · exact .inr (.inl h1)
    · exact .inr (.inr h1)
  root := by
    rcases h.root with h1 | h1 | h1
    · exact .inl h1
    · rcases Multiset.mem_cons.1 h1 with rfl | h1
      · rcases hm with hm | hm
        · exact .inr (.inr hm)
        · exact .inl (h.visitedSeen _ _ hm)
      · exact .inr (.inl h1)
    · exact .inr (.inr h1)
  value := h.value
  result := h.result
  once hc := by
    have := h.once hc
    have h2 : rest.count b ≤ (m ::ₘ rest).count b := Multiset.count_le_count_cons _ _ _
    omega
  err := h.err
  off := h.off
  stop := h.stop
  logNodup := h.logNodup
  logMem := h.logMem
  logVisited := h.logVisited
  logBase := h.logBase
  logOrder := h.logOrder
  logReach := h.logReach

/-- A worker is disabled. -/
theorem Inv.disable (h : Inv d vertex arcs b lane s bag) (i : Fin n) (hc : ∃ j, s.err j ≠ 0 ∨ s.stop j = true) :
    Inv d vertex arcs b lane { s with off := Function.update s.off i true } bag := by
  have hup : ∀ j, s.off j = true → Function.update s.off i true j = true := by
    intro j hj
    by_cases hji : j = i
    · subst hji; simp
    · rw [Function.update_of_ne hji]; exact hj
  refine { h with pend := fun q hq => ?_, sent := fun q hq t ht => ?_, root := ?_, err := fun j hj => ?_, off := fun j _ => hc }
  · rcases h.pend q hq with h1 | h1 | h1 | h1
    · exact .inl h1
    · exact .inr (.inl h1)
    · exact .inr (.inr (.inl h1))
    · exact .inr (.inr (.inr (hup _ h1)))
  · rcases h.sent q hq t ht with h1 | h1 | h1
    · exact .inl h1
    · exact .inr (.inl h1)
    · exact .inr (.inr (hup _ h1))
  · rcases h.root with h1 | h1 | h1
    · exact .inl h1
    · exact .inr (.inl h1)
    · exact .inr (.inr (hup _ h1))
  · exact ⟨hup j (h.err j hj).1, (h.err j hj).2⟩

/-- A node is seen for the first time. -/
theorem Inv.see {m : N} {rest : Multiset N} (h : Inv d vertex arcs b lane s (m ::ₘ rest)) :
    Inv d vertex arcs b lane { s with seen := Function.update s.seen (lane m) (s.seen (lane m) ++ [m]) }
      ((pre arcs m : Multiset N) + m ::ₘ rest) := by
  have hup : ∀ j q, q ∈ s.seen j → q ∈ Function.update s.seen (lane m) (s.seen (lane m) ++ [m]) j := by
    intro j q hq
    by_cases hj : j = lane m
    · subst hj; simp [hq]
    · rw [Function.update_of_ne hj]; exact hq
  have hback : ∀ j q, q ∈ Function.update s.seen (lane m) (s.seen (lane m) ++ [m]) j → q ∈ s.seen j ∨ (q = m ∧ j = lane m) := by
    intro j q hq
    by_cases hj : j = lane m
    · subst hj
      simp at hq
      rcases hq with hq | hq
      · exact .inl hq
      · exact .inr ⟨hq, rfl⟩
    · rw [Function.update_of_ne hj] at hq; exact .inl hq
  have hm := h.flight m (Multiset.mem_cons_self _ _)
  refine { h with flight := fun q hq => ?_, home := fun j q hq => ?_, visitedSeen := fun j q hq => hup _ _ (h.visitedSeen j q hq), pend := fun q hq => ?_, sent := fun q hq t ht => ?_, root := ?_, once := fun hc => ?_ }
  · rcases Multiset.mem_add.1 hq with hq | hq
    · exact Relation.ReflTransGen.tail hm (Multiset.mem_coe.1 hq)
    · exact h.flight q hq
  · rcases hback j q hq with h1 | ⟨rfl, rfl⟩
    · exact h.home j q h1
    · exact ⟨rfl, hm⟩
  · rcases hback _ q hq with h1 | ⟨rfl, _⟩
    · rcases h.pend q h1 with h2 | h2 | h2 | h2
      · exact .inl h2
      · exact .inr (.inl h2)
      · exact .inr (.inr (.inl (Multiset.mem_add.2 (.inr h2))))
      · exact .inr (.inr (.inr h2))
    · exact .inr (.inr (.inl (Multiset.mem_add.2 (.inr (Multiset.mem_cons_self _ _)))))
  · rcases hback _ q hq with h1 | ⟨rfl, _⟩
    · rcases h.sent q h1 t ht with h2 | h2 | h2
      · exact .inl (hup _ _ h2)
      · exact .inr (.inl (Multiset.mem_add.2 (.inr h2)))
      · exact .inr (.inr h2)
    · exact .inr (.inl (Multiset.mem_add.2 (.inl (Multiset.mem_coe.2 ht))))
  · rcases h.root with h2 | h2 | h2
    · exact .inl (hup _ _ h2)
    · exact .inr (.inl (Multiset.mem_add.2 (.inr h2)))
    · exact .inr (.inr h2)
  · have h1 := h.once hc
    have h2 : ((pre arcs m : Multiset N)).count b = 0 := by
      rw [Multiset.count_eq_zero]
      intro hb
      exact hc (Relation.TransGen.tail' hm (Multiset.mem_coe.1 hb))
    rw [Multiset.count_add, h2]
    simpa using h1

/-- After the initial node has been evaluated nothing else will be. -/
theorem Inv.over {m : N} {rest : Multiset N} (h : Inv d vertex arcs b lane s (m ::ₘ rest)) (hm : m ∉ s.visited (lane m)) :
    s.result (lane m) = none := by
  rcases hr : s.result (lane m) with _ | a
  · rfl
  · exfalso
    obtain ⟨h1, h2, h3⟩ := h.result _ _ hr
    have hall : ∀ t, Relation.TransGen (fun x y => y ∈ pre arcs x) b t → t ∈ s.visited (lane t) := by
      intro t ht
      induction ht with
      | single ht => exact h3 _ ht
      | tail _ h4 ih => exact h.closed _ _ ih _ h4
    rcases Relation.reflTransGen_iff_eq_or_transGen.1 (h.flight m (Multiset.mem_cons_self _ _)) with e | e
    · subst e
      have := h.once h2.acyclic
      rw [hr] at this
      simp at this
    · exact hm (hall m e)

theorem Inv.out (h : Inv d vertex arcs b lane s bag) {m : N} (hm : m ∉ s.visited (lane m)) (hr : m = b → s.result (lane m) = none)
    (he : s.err (lane m) = 0) : m ∉ s.log := by
  intro hl
  rcases h.logMem m hl with h1 | ⟨rfl, h1⟩ | h1
  · exact hm h1
  · rw [hr rfl] at h1; cases h1
  · exact h1.1 he

theorem inOrder_snoc {next : N → List N} {l : List N} {m : N} (h : InOrder next l) (hm : ∀ t ∈ next m, t ∈ l) :
    InOrder next (l ++ [m]) := by
  intro a q c e t ht
  rcases List.eq_nil_or_concat c with rfl | ⟨c', z, rfl⟩
  · obtain ⟨e1, e2⟩ := List.append_inj' e rfl
    cases e2
    rw [← e1]; exact hm t ht
  · have e' : l ++ [m] = (a ++ q :: c') ++ [z] := by rw [e]; simp
    obtain ⟨e1, e2⟩ := List.append_inj' e' rfl
    exact h a q c' e1 t ht

/-- A node fails. -/
theorem Inv.fail {m : N} {rest : Multiset N} (h : Inv d vertex arcs b lane s (m ::ₘ rest)) (hm : m ∉ s.visited (lane m))
    (he : s.err (lane m) = 0) (hp : ∀ t ∈ pre arcs m, t ∈ s.visited (lane t)) {x : Failure}
    (hx : evaluate d (vertex m) ((arcs m).map fun e => (e.1, s.acc e.2)) = .error x) :
    Inv d vertex arcs b lane { s with log := m :: s.log, err := Function.update s.err (lane m) x.1, off := Function.update s.off (lane m) true } rest := by
  have h0 : Inv d vertex arcs b lane { s with log := m :: s.log, err := Function.update s.err (lane m) x.1, off := Function.update s.off (lane m) true } (m ::ₘ rest) := by
    have hup : ∀ j, s.off j = true → Function.update s.off (lane m) true j = true := by
      intro j hj
      by_cases hji : j = lane m
      · subst hji; simp
      · rw [Function.update_of_ne hji]; exact hj
    have heup : ∀ j, s.err j ≠ 0 → Function.update s.err (lane m) x.1 j ≠ 0 := by
      intro j hj
      by_cases hji : j = lane m
      · subst hji; exact absurd he hj
      · rw [Function.update_of_ne hji]; exact hj
    have hf := h.flight m (Multiset.mem_cons_self _ _)
    refine { h with pend := fun q hq => ?_, sent := fun q hq t ht => ?_, root := ?_, err := fun j hj => ?_, off := fun j _ => ⟨lane m, .inl (by simp [x.2])⟩, logNodup := ?_, logMem := fun q hq => ?_, logVisited := fun j q hq => List.mem_cons_of_mem _ (h.logVisited j q hq), logBase := fun hb => List.mem_cons_of_mem _ (h.logBase hb), logOrder := ?_, logReach := fun q hq => ?_ }
    · rcases h.pend q hq with h1 | h1 | h1 | h1
      · exact .inl h1
      · exact .inr (.inl h1)
      · exact .inr (.inr (.inl h1))
      · exact .inr (.inr (.inr (hup _ h1)))
    · rcases h.sent q hq t ht with h1 | h1 | h1
      · exact .inl h1
      · exact .inr (.inl h1)
      · exact .inr (.inr (hup _ h1))
    · rcases h.root with h1 | h1 | h1
      · exact .inl h1
      · exact .inr (.inl h1)
      · exact .inr (.inr (hup _ h1))
    · by_cases hji : j = lane m
      · subst hji
        refine ⟨by simp, m, x, hf, ⟨s.acc, fun e hm => ?_, by rw [← evaluate_eq]; exact hx⟩, by simp⟩
        exact h.value _ _ (hp e.2 (List.mem_map.2 ⟨e, hm, rfl⟩))
      · simp only [Function.update_of_ne hji] at hj ⊢
        exact h.err j hj
    · exact List.nodup_cons.2 ⟨h.out hm (fun _ => h.over hm) he, h.logNodup⟩
    · rcases List.mem_cons.1 hq with rfl | hq
      · refine .inr (.inr ⟨by simp [x.2], x, s.acc, fun e hm => ?_, by rw [← evaluate_eq]; exact hx⟩)
        exact h.value _ _ (hp e.2 (List.mem_map.2 ⟨e, hm, rfl⟩))
      · rcases h.logMem q hq with h1 | h1 | h1
        · exact .inl h1
        · exact .inr (.inl h1)
        · exact .inr (.inr ⟨heup _ h1.1, h1.2⟩)
    · show InOrder (pre arcs) (m :: s.log).reverse
      rw [List.reverse_cons]
      exact inOrder_snoc h.logOrder (fun t ht => List.mem_reverse.2 (h.logVisited _ _ (hp t ht)))
    · rcases List.mem_cons.1 hq with rfl | hq
      · exact hf
      · exact h.logReach q hq
  exact h0.drop (.inl (by simp))

/-- The initial node is evaluated. -/
theorem Inv.finish {rest : Multiset N} (h : Inv d vertex arcs b lane s (b ::ₘ rest)) (hs : b ∈ s.seen (lane b)) (hm : b ∉ s.visited (lane b))
    (he : s.err (lane b) = 0) (hp : ∀ t ∈ pre arcs b, t ∈ s.visited (lane t)) {a : A}
    (hx : evaluate d (vertex b) ((arcs b).map fun e => (e.1, s.acc e.2)) = .ok a) :
    Inv d vertex arcs b lane { s with log := b :: s.log, result := Function.update s.result (lane b) (some a) } rest := by
  have hres := h.over hm
  have hhas : Has d vertex arcs b a :=
    .intro b a s.acc (fun e hm => h.value _ _ (hp e.2 (List.mem_map.2 ⟨e, hm, rfl⟩))) (by rw [← evaluate_eq]; exact hx)
  refine { h with flight := fun q hq => h.flight q (Multiset.mem_cons_of_mem hq), pend := fun q hq => ?_, sent := fun q hq t ht => ?_, root := ?_, result := fun j a' hj => ?_, once := fun hc => ?_, logNodup := List.nodup_cons.2 ⟨h.out hm (fun _ => hres) he, h.logNodup⟩, logMem := fun q hq => ?_, logVisited := fun j q hq => List.mem_cons_of_mem _ (h.logVisited j q hq), logBase := fun _ => List.mem_cons_self, logOrder := ?_, logReach := fun q hq => ?_ }
  · rcases h.pend q hq with h1 | h1 | h1 | h1
    · exact .inl h1
    · rw [hres] at h1; cases h1.2
    · rcases Multiset.mem_cons.1 h1 with rfl | h1
      · exact .inr (.inl ⟨rfl, by simp⟩)
      · exact .inr (.inr (.inl h1))
    · exact .inr (.inr (.inr h1))
  · rcases h.sent q hq t ht with h1 | h1 | h1
    · exact .inl h1
    · rcases Multiset.mem_cons.1 h1 with rfl | h1
      · exact absurd (Relation.TransGen.tail' (h.home _ _ hq).2 ht) hhas.acyclic
      · exact .inr (.inl h1)
    · exact .inr (.inr h1)
  · exact .inl hs
  · by_cases hji : j = lane b
    · subst hji
      simp only [Function.update_self, Option.some.injEq] at hj
      subst hj
      exact ⟨rfl, hhas, hp⟩
    · simp only [Function.update_of_ne hji] at hj
      exact h.result j a' hj
  · have := h.once hc
    rw [hres] at this
    simp at this
    simp [this]
  · rcases List.mem_cons.1 hq with rfl | hq
    · exact .inr (.inl ⟨rfl, by simp⟩)
    · rcases h.logMem q hq with h1 | h1 | h1
      · exact .inl h1
      · exact .inr (.inl ⟨h1.1, by simp⟩)
      · exact .inr (.inr h1)
  · show InOrder (pre arcs) (b :: s.log).reverse
    rw [List.reverse_cons]
    exact inOrder_snoc h.logOrder (fun t ht => List.mem_reverse.2 (h.logVisited _ _ (hp t ht)))
  · rcases List.mem_cons.1 hq with rfl | hq
    · exact .refl
    · exact h.logReach q hq

/-- Another node is evaluated. -/
theorem Inv.node {m : N} {rest : Multiset N} (h : Inv d vertex arcs b lane s (m ::ₘ rest)) (hb : m ≠ b)
    (hs : m ∈ s.seen (lane m)) (hm : m ∉ s.visited (lane m))
    (he : s.err (lane m) = 0) (hp : ∀ t ∈ pre arcs m, t ∈ s.visited (lane t)) {a : A}
    (hx : evaluate d (vertex m) ((arcs m).map fun e => (e.1, s.acc e.2)) = .ok a) :
    Inv d vertex arcs b lane { s with log := m :: s.log, acc := Function.update s.acc m a, visited := Function.update s.visited (lane m) (s.visited (lane m) ++ [m]) } rest := by
  have hhas : Has d vertex arcs m a :=
    .intro m a s.acc (fun e hm => h.value _ _ (hp e.2 (List.mem_map.2 ⟨e, hm, rfl⟩))) (by rw [← evaluate_eq]; exact hx)
  have hup : ∀ j q, q ∈ s.visited j → q ∈ Function.update s.visited (lane m) (s.visited (lane m) ++ [m]) j := by
    intro j q hq
    by_cases hj : j = lane m
    · subst hj; simp [hq]
    · rw [Function.update_of_ne hj]; exact hq
  have hback : ∀ j q, q ∈ Function.update s.visited (lane m) (s.visited (lane m) ++ [m]) j → q ∈ s.visited j ∨ (q = m ∧ j = lane m) := by
    intro j q hq
    by_cases hj : j = lane m
    · subst hj
      simp at hq
      rcases hq with hq | hq
      · exact .inl hq
      · exact .inr ⟨hq, rfl⟩
    · rw [Function.update_of_ne hj] at hq; exact .inl hq
  have hmem : m ∈ Function.update s.visited (lane m) (s.visited (lane m) ++ [m]) (lane m) := by simp
  have h0 : Inv d vertex arcs b lane { s with log := m :: s.log, acc := Function.update s.acc m a, visited := Function.update s.visited (lane m) (s.visited (lane m) ++ [m]) } (m ::ₘ rest) := by
    refine { h with visitedSeen := fun j q hq => ?_, visitedNe := fun j q hq => ?_, closed := fun j q hq t ht => ?_, pend := fun q hq => ?_, value := fun j q hq => ?_, result := fun j a' hj => ?_, logNodup := List.nodup_cons.2 ⟨h.out hm (fun e => absurd e hb) he, h.logNodup⟩, logMem := fun q hq => ?_, logVisited := fun j q hq => ?_, logBase := fun hr => List.mem_cons_of_mem _ (h.logBase hr), logOrder := ?_, logReach := fun q hq => ?_ }
    · rcases hback j q hq with h1 | ⟨rfl, rfl⟩
      · exact h.visitedSeen j q h1
      · exact hs
    · rcases hback j q hq with h1 | ⟨rfl, rfl⟩
      · exact h.visitedNe j q h1
      · exact hb
    · rcases hback j q hq with h1 | ⟨rfl, rfl⟩
      · exact hup _ _ (h.closed j q h1 t ht)
      · exact hup _ _ (hp t ht)
    · rcases h.pend q hq with h1 | h1
      · exact .inl (hup _ _ h1)
      · exact .inr h1
    · rcases hback j q hq with h1 | ⟨rfl, rfl⟩
      · have hq : q ≠ m := by
          rintro rfl
          have := (h.home j q (h.visitedSeen j q h1)).1
          subst this; exact hm h1
        show Has d vertex arcs q (Function.update s.acc m a q)
        rw [Function.update_of_ne hq]
        exact h.value j q h1
      · show Has d vertex arcs q (Function.update s.acc q a q)
        rw [Function.update_self]; exact hhas
    · obtain ⟨h1, h2, h3⟩ := h.result j a' hj
      exact ⟨h1, h2, fun t ht => hup _ _ (h3 t ht)⟩
    · rcases List.mem_cons.1 hq with rfl | hq
      · exact .inl hmem
      · rcases h.logMem q hq with h1 | h1
        · exact .inl (hup _ _ h1)
        · exact .inr h1
    · rcases hback j q hq with h1 | ⟨rfl, rfl⟩
      · exact List.mem_cons_of_mem _ (h.logVisited j q h1)
      · exact List.mem_cons_self
    · show InOrder (pre arcs) (m :: s.log).reverse
      rw [List.reverse_cons]
      exact inOrder_snoc h.logOrder (fun t ht => List.mem_reverse.2 (h.logVisited _ _ (hp t ht)))
    · rcases List.mem_cons.1 hq with rfl | hq
      · exact h.flight q (Multiset.mem_cons_self _ _)
      · exact h.logReach q hq
  exact h0.drop (.inr hmem)

/-- Every node that matters is in the set of the lane it belongs to, if there is one. -/
def Complete (lane : N → Fin n) (reach : Fin n → Option (List N)) (m : N) : Prop :=
  ∀ l, reach (lane m) = some l → m ∈ l

theorem readiness_now {reach : Fin n → Option (List N)} {i : Fin n} {os : List N} (hc : ∀ o ∈ os, Complete lane reach o)
    (h : readiness lane reach i s os = .now) : ∀ o ∈ os, o ∈ s.visited (lane o) := by
  induction os with
  | nil => intro o ho; cases ho
  | cons o os ih =>
    unfold readiness at h
    have h0 : ¬ (ignored lane reach o = true) := by
      have := hc o List.mem_cons_self
      unfold Complete at this
      unfold ignored
      rcases hr : reach (lane o) with _ | l
      · simp
      · simp [this l hr]
    rw [if_neg h0] at h
    split at h
    · cases h
    · split at h
      · rename_i h2
        intro q hq
        rcases List.mem_cons.1 hq with rfl | hq
        · exact h2
        · exact ih (fun o ho => hc o (List.mem_cons_of_mem _ ho)) h q hq
      · cases h

theorem readiness_never {reach : Fin n → Option (List N)} {i : Fin n} {os : List N}
    (h : readiness lane reach i s os = .never) : ∃ j, s.off j = true := by
  induction os with
  | nil => cases h
  | cons o os ih =>
    unfold readiness at h
    split at h
    · exact ih h
    · split at h
      · rename_i h2
        exact ⟨lane o, by simp at h2; exact h2.1⟩
      · split at h
        · exact ih h
        · cases h

theorem readiness_later {reach : Fin n → Option (List N)} {i : Fin n} {os : List N} (hst : ∀ j, s.stale i j = false)
    (h : readiness lane reach i s os = .later) : ∃ o ∈ os, s.off (lane o) = false ∧ o ∉ s.visited (lane o) := by
  induction os with
  | nil => cases h
  | cons o os ih =>
    unfold readiness at h
    split at h
    · obtain ⟨q, h1, h2⟩ := ih h
      exact ⟨q, List.mem_cons_of_mem _ h1, h2⟩
    · split at h
      · cases h
      · rename_i h2
        split at h
        · obtain ⟨q, h1, h2⟩ := ih h
          exact ⟨q, List.mem_cons_of_mem _ h1, h2⟩
        · rename_i h3
          exact ⟨o, List.mem_cons_self, by simpa [hst] using h2, h3⟩

theorem Inv.try1 {reach : Fin n → Option (List N)} (hc : ∀ m, Reaches (pre arcs) b m → Complete lane reach m) {m : N}
    {rest : Multiset N} (h : Inv d vertex arcs b lane s (m ::ₘ rest)) (hs : m ∈ s.seen (lane m))
    (hm : m ∉ s.visited (lane m)) (he : s.err (lane m) = 0) :
    Inv d vertex arcs b lane (try1 lane reach d vertex arcs b (lane m) s m).1
      ((if (try1 lane reach d vertex arcs b (lane m) s m).2 then {m} else 0) + rest) := by
  unfold Induce.try1
  have hf := h.flight m (Multiset.mem_cons_self _ _)
  split
  · rename_i hr
    obtain ⟨j, hj⟩ := readiness_never hr
    simp only [Bool.false_eq_true, if_false, zero_add]
    exact (h.disable (lane m) (h.off j hj)).drop (.inl (by simp))
  · simpa using h
  · rename_i hr
    have hp := readiness_now (fun o ho => hc o (Relation.ReflTransGen.tail hf ho)) hr
    simp only [Bool.false_eq_true, if_false, zero_add]
    unfold visit
    rw [if_neg (by rw [h.over hm]; simp)]
    dsimp only
    split
    · rename_i x hx
      exact h.fail hm he hp hx
    · rename_i a hx
      split
      · rename_i e
        subst e
        exact h.finish hs hm he hp hx
      · rename_i e
        exact h.node e hs hm he hp hx

theorem Inv.handle {reach : Fin n → Option (List N)} (hc : ∀ m, Reaches (pre arcs) b m → Complete lane reach m) {m : N}
    {rest : Multiset N} (h : Inv d vertex arcs b lane s (m ::ₘ rest)) :
    Inv d vertex arcs b lane (handle lane reach d vertex arcs b (lane m) s m).1
      (((handle lane reach d vertex arcs b (lane m) s m).2.1 : Multiset N) +
        (if (handle lane reach d vertex arcs b (lane m) s m).2.2 then {m} else 0) + rest) := by
  unfold Induce.handle
  replace h := h.poll (lane m)
  generalize Induce.poll s (lane m) = s at h ⊢
  dsimp only
  by_cases c1 : s.off (lane m) = true
  · rw [if_pos c1]
    simpa using h.drop (.inl c1)
  rw [if_neg c1]
  by_cases c2 : s.err (lane m) ≠ 0 ∨ s.stop (lane m) = true
  · rw [if_pos c2]
    simpa using (h.disable (lane m) ⟨lane m, c2⟩).drop (.inl (by simp))
  rw [if_neg c2]
  rw [not_or, not_not] at c2
  by_cases c3 : m ∈ s.visited (lane m)
  · rw [if_pos c3]
    simpa using h.drop (.inr c3)
  rw [if_neg c3]
  by_cases c4 : m ∈ s.seen (lane m)
  · rw [if_pos c4]
    simpa using h.try1 hc c4 c3 c2.1
  · rw [if_neg c4]
    have h1 := h.see
    have h2 : ((pre arcs m : Multiset N) + m ::ₘ rest) = m ::ₘ ((pre arcs m : Multiset N) + rest) := by
      rw [Multiset.add_cons]
    rw [h2] at h1
    have h3 := h1.try1 hc (by simp) c3 c2.1
    have h4 : ∀ x y z : Multiset N, x + y + z = y + (x + z) := by intro x y z; rw [add_comm x y, add_assoc]
    rw [h4]
    exact h3

variable {hash : N → Nat} {hn : 0 < n} {reach : Fin n → Option (List N)} {nil : A}

theorem inv_bag (hc : ∀ m, Reaches (pre arcs) b m → Complete (fun m => Build.lane hn (hash m)) reach m) :
    ∀ x, Bag.Reach (task reach d vertex arcs b hash hn) b (Induce.start nil) x →
      Inv d vertex arcs b (fun m => Build.lane hn (hash m)) x.1 x.2 := by
  intro x hx
  induction hx with
  | init => exact Inv.start nil
  | step hr hs ih =>
    cases hs with
    | env e s m =>
      cases e with
      | none => exact ih.killed
      | some v => exact ih.stale v
    | handle s m rest => exact ih.handle hc

end

end Cru.Induce
