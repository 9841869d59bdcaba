import Verif.Spec.Queue
import Mathlib.Data.List.Nodup
import Mathlib.Data.List.Forall2

/-!
# C54: queues of nodes
-/

namespace Cru.Queue

variable {N : Type} [DecidableEq N]

/-! ## Lists in memory -/

/-- As `Linked`, but with something after the last node. -/
private def Seg (h : Heap N) (e : Option N) : Option (Slot N) → List N → Prop
  | _, [] => True
  | p, n :: l => h.prev n = p ∧ h.next n = l.head?.or e ∧ Seg h e (some (.next n)) l

private def lastSlot (p : Option (Slot N)) (l : List N) : Option (Slot N) :=
  match l.getLast? with
  | none => p
  | some b => some (.next b)

omit [DecidableEq N] in
private theorem seg_none (h : Heap N) (p : Option (Slot N)) (l : List N) : Seg h none p l ↔ Linked h p l := by
  induction l generalizing p with
  | nil => simp [Seg, Linked]
  | cons n l ih => simp [Seg, Linked, ih]

omit [DecidableEq N] in
private theorem lastSlot_cons (p : Option (Slot N)) (n : N) (l : List N) :
    lastSlot p (n :: l) = lastSlot (some (.next n)) l := by
  cases l with
  | nil => rfl
  | cons a l =>
    simp only [lastSlot, List.getLast?_cons_cons]
    cases h : (a :: l).getLast? with
    | none => simp at h
    | some b => rfl

omit [DecidableEq N] in
private theorem seg_append (h : Heap N) (e : Option N) (p : Option (Slot N)) (l m : List N) :
    Seg h e p (l ++ m) ↔ Seg h (m.head?.or e) p l ∧ Seg h e (lastSlot p l) m := by
  induction l generalizing p with
  | nil => simp [Seg, lastSlot]
  | cons n l ih =>
    rw [List.cons_append, lastSlot_cons]
    simp only [Seg, ih]
    cases l with
    | nil => simp [Seg, and_assoc]
    | cons a l => simp [and_assoc]

omit [DecidableEq N] in
private theorem seg_congr {h h' : Heap N} {e : Option N} {p : Option (Slot N)} {l : List N}
    (hl : ∀ n ∈ l, h'.next n = h.next n ∧ h'.prev n = h.prev n) (hs : Seg h e p l) : Seg h' e p l := by
  induction l generalizing p with
  | nil => trivial
  | cons n l ih =>
    obtain ⟨h1, h2, h3⟩ := hs
    obtain ⟨e1, e2⟩ := hl n (by simp)
    exact ⟨e2.trans h1, e1.trans h2, ih (fun m hm => hl m (by simp [hm])) h3⟩

omit [DecidableEq N] in
private theorem isQueue_congr {h h' : Heap N} {q : Queue N} {l : List N}
    (hl : ∀ n ∈ l, h'.next n = h.next n ∧ h'.prev n = h.prev n) (hq : IsQueue h q l) : IsQueue h' q l :=
  ⟨hq.front, hq.back, hq.nodup, (seg_none _ _ _).1 (seg_congr hl ((seg_none _ _ _).2 hq.linked))⟩

omit [DecidableEq N] in
private theorem linked_snoc {h : Heap N} {p : Option (Slot N)} {l : List N} {b : N} :
    Linked h p (l ++ [b]) ↔ Seg h (some b) p l ∧ h.prev b = lastSlot p l ∧ h.next b = none := by
  rw [← seg_none, seg_append]
  simp [Seg]

private theorem linked_join {h : Heap N} {p q : Option (Slot N)} {l m : List N} {b f : N}
    (hd : ((l ++ [b]) ++ (f :: m)).Nodup) (hl : Linked h p (l ++ [b])) (hm : Linked h q (f :: m)) :
    Linked ((h.setNext b (some f)).setPrev f (some (.next b))) p ((l ++ [b]) ++ (f :: m)) := by
  rw [List.nodup_append] at hd
  obtain ⟨d1, d2, d3⟩ := hd
  rw [List.nodup_append] at d1
  rw [List.nodup_cons] at d2
  rw [linked_snoc] at hl
  obtain ⟨l1, l2, l3⟩ := hl
  obtain ⟨m1, m2, m3⟩ := hm
  have hbf : b ≠ f := d3 b (by simp) f (by simp)
  rw [← seg_none, seg_append, seg_append]
  refine ⟨⟨seg_congr (fun n hn => ?_) l1, ?_, ?_, trivial⟩, ?_, ?_, ?_⟩
  · have e1 : n ≠ b := d1.2.2 n hn b (by simp)
    have e2 : n ≠ f := d3 n (by simp [hn]) f (by simp)
    simp [Heap.setNext, Heap.setPrev, Function.update_of_ne e1, Function.update_of_ne e2]
  · simp [Heap.setNext, Heap.setPrev, Function.update_of_ne hbf, l2]
  · simp [Heap.setNext, Heap.setPrev]
  · simp [Heap.setNext, Heap.setPrev, lastSlot]
  · simp [Heap.setNext, Heap.setPrev, Function.update_of_ne (Ne.symm hbf), m2]
  · refine seg_congr (fun n hn => ?_) ((seg_none _ _ _).2 m3)
    have e1 : n ≠ b := Ne.symm (d3 b (by simp) n (by simp [hn]))
    have e2 : n ≠ f := fun e => d2.1 (e ▸ hn)
    simp [Heap.setNext, Heap.setPrev, Function.update_of_ne e1, Function.update_of_ne e2]

private theorem linked_reset {h : Heap N} {p q : Option (Slot N)} {l : List N} {f : N} (hd : (f :: l).Nodup)
    (hl : Linked h p (f :: l)) : Linked (h.setPrev f q) q (f :: l) := by
  obtain ⟨h1, h2, h3⟩ := hl
  refine ⟨by simp [Heap.setPrev], h2, (seg_none _ _ _).1 (seg_congr (fun n hn => ?_) ((seg_none _ _ _).2 h3))⟩
  have : n ≠ f := fun e => (List.nodup_cons.1 hd).1 (e ▸ hn)
  simp [Heap.setPrev, Function.update_of_ne this]

/-! ## Single operations -/

/-- **C54.** Appending one queue to another succeeds, and the result has the nodes of the first followed by those of the
second, properly linked, and the first non-zero status.  Nothing else is altered. -/
theorem C54_append (h : Heap N) (q r : Queue N) (l m : List N) (err : Int) (hq : IsQueue h q l) (hr : IsQueue h r m)
    (hd : (l ++ m).Nodup) :
    ∃ h' q', append (some q) (some r) err h = (h', some q', err, true) ∧ IsQueue h' q' (l ++ m) ∧
      q'.status = firstError [q.status, r.status] ∧ SameElsewhere (l ++ m) h h' := by
  have hst : (if q.status ≠ 0 then q.status else r.status) = firstError [q.status, r.status] := by
    simp only [firstError]
    by_cases g : q.status = 0 <;> by_cases k : r.status = 0 <;> simp [g, k]
  obtain ⟨qid, qf, qb, qs, qbasic⟩ := q
  obtain ⟨rid, rf, rb, rs, rbasic⟩ := r
  obtain ⟨q1, q2, q3, q4⟩ := hq
  obtain ⟨r1, r2, r3, r4⟩ := hr
  simp only at q1 q2 q3 q4 r1 r2 r3 r4 hst
  subst q1 q2 r1 r2
  rcases List.eq_nil_or_concat l with rfl | ⟨l, b, rfl⟩
  · cases m with
    | nil =>
      refine ⟨h, _, rfl, ⟨rfl, rfl, List.nodup_nil, trivial⟩, hst, fun n _ => ⟨rfl, rfl⟩⟩
    | cons f m =>
      have hb : ∃ b, (f :: m).getLast? = some b := by
        rw [List.getLast?_eq_some_getLast (List.cons_ne_nil f m)]; exact ⟨_, rfl⟩
      obtain ⟨b, hb⟩ := hb
      refine ⟨h.setPrev f (some (.front qid)), ⟨qid, some f, some b, if qs ≠ 0 then qs else rs, qbasic⟩, ?_, ⟨rfl, hb.symm, r3, linked_reset r3 r4⟩, hst, ?_⟩
      · simp [append, hb]
      · intro n hn
        have : n ≠ f := fun e => hn (by simp [e])
        simp [Heap.setPrev, Function.update_of_ne this]
  · rw [List.concat_eq_append] at *
    have hb : (l ++ [b]).getLast? = some b := by simp
    have hf : ∃ a, (l ++ [b]).head? = some a := by cases l <;> simp
    obtain ⟨a, hf⟩ := hf
    cases m with
    | nil =>
      obtain ⟨t, ht⟩ : ∃ t, l ++ [b] = a :: t := by
        cases l with
        | nil => simp at hf; exact ⟨[], by simp [hf]⟩
        | cons x l => simp at hf; exact ⟨l ++ [b], by simp [hf]⟩
      refine ⟨h.setPrev a (some (.front qid)), ⟨qid, some a, some b, if qs ≠ 0 then qs else rs, qbasic⟩, ?_, ?_, hst, ?_⟩
      · simp [append, hf, hb]
      · rw [List.append_nil]
        refine ⟨hf.symm, hb.symm, q3, ?_⟩
        rw [ht] at q3 q4 ⊢
        exact linked_reset q3 q4
      · intro n hn
        have : n ≠ a := fun e => hn (by rw [List.append_nil, ht]; simp [e])
        simp [Heap.setPrev, Function.update_of_ne this]
    | cons f m =>
      obtain ⟨c, hc⟩ : ∃ c, (f :: m).getLast? = some c := by
        rw [List.getLast?_eq_some_getLast (List.cons_ne_nil f m)]; exact ⟨_, rfl⟩
      have hcn : h.next c = none := by
        rcases List.eq_nil_or_concat (f :: m) with g | ⟨m', c', g⟩
        · cases g
        · rw [g, List.concat_eq_append] at hc r4
          simp at hc
          subst hc
          exact (linked_snoc.1 r4).2.2
      have hbn : h.next b = none := (linked_snoc.1 q4).2.2
      refine ⟨(h.setNext b (some f)).setPrev f (some (.next b)), ⟨qid, some a, some c, if qs ≠ 0 then qs else rs, qbasic⟩, ?_, ?_, hst, ?_⟩
      · simp [append, hf, hb, hc, hcn, hbn, r4.1]
      · refine ⟨?_, ?_, hd, linked_join hd q4 r4⟩
        · rw [List.head?_append, hf]; rfl
        · simp [hc]
      · intro n hn
        have e1 : n ≠ f := fun e => hn (by simp [e])
        have e2 : n ≠ b := fun e => hn (by simp [e])
        simp [Heap.setNext, Heap.setPrev, Function.update_of_ne e1, Function.update_of_ne e2]

/-- **C54.** Enqueuing an unlinked node puts it at the end of a queue, which is created if need be. -/
theorem C54_enqueued (h : Heap N) (id : Nat) (q : Queue N) (l : List N) (n : N) (err : Int) (hq : IsQueue h q l)
    (hn : n ∉ l) (h1 : h.next n = none) (h2 : h.prev n = none) :
    (∃ h' q', enqueued id n (some q) err h = (h', some q', err, true) ∧ IsQueue h' q' (l ++ [n]) ∧ q'.status = q.status ∧
      SameElsewhere (l ++ [n]) h h') ∧
    ∃ h' q', enqueued id n none err h = (h', some q', err, true) ∧ IsQueue h' q' [n] ∧ q'.status = 0 ∧ SameElsewhere [n] h h' := by
  constructor
  · obtain ⟨qid, qf, qb, qs, qbasic⟩ := q
    obtain ⟨q1, q2, q3, q4⟩ := hq
    simp only at q1 q2 q3 q4
    subst q1 q2
    rcases List.eq_nil_or_concat l with rfl | ⟨l, b, rfl⟩
    · refine ⟨h.setPrev n (some (.front qid)), ⟨qid, some n, some n, qs, qbasic⟩, by simp [enqueued, h1, h2],
        ⟨rfl, rfl, by simp, by simp [Linked, Heap.setPrev, h1]⟩, rfl, ?_⟩
      intro m hm
      have : m ≠ n := fun e => hm (by simp [e])
      simp [Heap.setPrev, Function.update_of_ne this]
    · rw [List.concat_eq_append] at *
      have hb : (l ++ [b]).getLast? = some b := by simp
      obtain ⟨a, hf⟩ : ∃ a, (l ++ [b]).head? = some a := by cases l <;> simp
      have hbn : h.next b = none := (linked_snoc.1 q4).2.2
      have hne : n ≠ b := fun e => hn (by simp [e])
      have hd : ((l ++ [b]) ++ [n]).Nodup := by
        rw [List.nodup_append]
        exact ⟨q3, by simp, fun x hx y hy e => hn (by simp at hy; rw [← hy, ← e]; exact hx)⟩
      have hl1 : Linked h none [n] := ⟨h2, h1, trivial⟩
      have hj := linked_join hd q4 hl1
      have hcomm : (h.setPrev n (some (.next b))).setNext b (some n) = (h.setNext b (some n)).setPrev n (some (.next b)) := rfl
      refine ⟨(h.setPrev n (some (.next b))).setNext b (some n), ⟨qid, some a, some n, qs, qbasic⟩, ?_, ⟨?_, ?_, hd, hj⟩, rfl, ?_⟩
      · simp [enqueued, h1, h2, hf, hb, hbn]
      · rw [List.head?_append, hf]; rfl
      · simp
      · intro m hm
        have e1 : m ≠ n := fun e => hm (by simp [e])
        have e2 : m ≠ b := fun e => hm (by simp [e])
        simp [Heap.setNext, Heap.setPrev, Function.update_of_ne e1, Function.update_of_ne e2]
  · refine ⟨h.setPrev n (some (.front id)), ⟨id, some n, some n, 0, false⟩, by simp [enqueued, h1, h2],
      ⟨rfl, rfl, by simp, by simp [Linked, Heap.setPrev, h1]⟩, rfl, ?_⟩
    intro m hm
    have : m ≠ n := fun e => hm (by simp [e])
    simp [Heap.setPrev, Function.update_of_ne this]

omit [DecidableEq N] in
private theorem walk_last {h : Heap N} {p : Option (Slot N)} {a : N} {l : List N} {k : Nat} (hl : Linked h p (a :: l))
    (hk : (a :: l).length ≤ k) : some (walk h k a) = (a :: l).getLast? := by
  induction l generalizing p a k with
  | nil =>
    cases k with
    | zero => rfl
    | succ k => simp [walk, hl.2.1]
  | cons b l ih =>
    cases k with
    | zero => simp at hk
    | succ k =>
      have e : h.next a = some b := hl.2.1
      rw [walk, e, List.getLast?_cons_cons]
      exact ih hl.2.2 (by simpa using hk)

/-- **C54.** A list made into a queue has the same nodes, and the queue takes the error code over. -/
theorem C54_queueOf (h : Heap N) (fuel id : Nat) (first : Option N) (l : List N) (err : Int) (hl : IsList h first l)
    (hk : l.length ≤ fuel) :
    ∃ h' q, queueOf fuel id first err h = (h', q, 0) ∧ IsQueue h' q l ∧ q.status = err ∧ SameElsewhere l h h' := by
  obtain ⟨rfl, l2, l3⟩ := hl
  cases l with
  | nil => exact ⟨h, _, rfl, ⟨rfl, rfl, l2, trivial⟩, rfl, fun _ _ => ⟨rfl, rfl⟩⟩
  | cons a l =>
    refine ⟨_, _, rfl, ⟨rfl, walk_last l3 hk, l2, linked_reset l2 l3⟩, rfl, ?_⟩
    intro m hm
    have : m ≠ a := fun e => hm (by simp [e])
    simp [Heap.setPrev, Function.update_of_ne this]

/-- **C54.** A queue made into a list has the same nodes, and the error code is raised if there was none before. -/
theorem C54_nodesOf (h : Heap N) (q : Queue N) (l : List N) (err : Int) (hq : IsQueue h q l) :
    ∃ h' first, nodesOf (some q) err h = (h', first, firstError [err, q.status]) ∧ IsList h' first l ∧ SameElsewhere l h h' := by
  have hst : Errs.raise err q.status = firstError [err, q.status] := by
    simp only [firstError, Errs.raise]
    by_cases g : err = 0 <;> by_cases k : q.status = 0 <;> simp [g, k]
  obtain ⟨q1, q2, q3, q4⟩ := hq
  cases l with
  | nil =>
    refine ⟨h, none, ?_, ⟨rfl, q3, trivial⟩, fun _ _ => ⟨rfl, rfl⟩⟩
    simp only [nodesOf, q1, hst]; rfl
  | cons a l =>
    refine ⟨h.setPrev a none, some a, ?_, ⟨rfl, q3, linked_reset q3 q4⟩, ?_⟩
    · simp only [nodesOf, q1, hst]; rfl
    · intro m hm
      have : m ≠ a := fun e => hm (by simp [e])
      simp [Heap.setPrev, Function.update_of_ne this]

/-! ## The union -/

omit [DecidableEq N] in
private theorem firstError_append (a b : List Int) :
    firstError (a ++ b) = if firstError a ≠ 0 then firstError a else firstError b := by
  induction a with
  | nil => simp [firstError]
  | cons x a ih =>
    simp only [List.cons_append, firstError, ih]
    by_cases g : x = 0 <;> simp [g]

/-- What holds after some queues with nodes `pre` have been joined. -/
private structure UInv (h₀ : Heap N) (u : Union N) (pre : List N) (st : Int) : Prop where
  same : SameElsewhere pre h₀ u.heap
  queue : (u.queue = none ∧ pre = [] ∧ st = 0) ∨ ∃ q, u.queue = some q ∧ IsQueue u.heap q pre ∧ q.status = st

private theorem step_append {h₀ : Heap N} {u : Union N} {pre m : List N} {st : Int} {r : Queue N} (hu : UInv h₀ u pre st)
    (hr : IsQueue h₀ r m) (hd : (pre ++ m).Nodup) :
    ∃ h' q', append u.queue (some r) u.err u.heap = (h', some q', u.err, true) ∧ SameElsewhere (pre ++ m) h₀ h' ∧
      IsQueue h' q' (pre ++ m) ∧ q'.status = (if st ≠ 0 then st else r.status) := by
  have hr' : IsQueue u.heap r m := isQueue_congr (fun n hn => hu.same n fun g =>
    (List.nodup_append.1 hd).2.2 n g n hn rfl) hr
  rcases hu.queue with ⟨e, rfl, rfl⟩ | ⟨q, e, hq, rfl⟩
  · refine ⟨u.heap, r, by rw [e]; rfl, fun n _ => hu.same n (by simp), by simpa using hr', by simp⟩
  · obtain ⟨h', q', h1, h2, h3, h4⟩ := C54_append u.heap q r pre m u.err hq hr' hd
    refine ⟨h', q', by rw [e]; exact h1, fun n hn => ?_, h2, ?_⟩
    · have := h4 n hn
      have g := hu.same n fun g => hn (by simp [g])
      exact ⟨this.1.trans g.1, this.2.trans g.2⟩
    · rw [h3]; simp only [firstError]
      by_cases a : q.status = 0 <;> by_cases b : r.status = 0 <;> simp [a, b]

/-- The queue that has the base node, if any, among those from the `i`-th on. -/
private def Marked (baseBay : Nat) (i : Nat) (r : Option (Queue N)) : Prop := ∃ q, r = some q ∧ (q.basic = true ∨ i = baseBay)

private theorem loop_inv {h₀ : Heap N} (bb : Option Nat) (rs : List (Option (Queue N))) (ls : List (List N)) (i : Nat) (u : Union N)
    (pre : List N) (st : Int) (hu : UInv h₀ u pre st)
    (hr : List.Forall₂ (fun r l => match r with | none => l = [] | some r => IsQueue h₀ r l) rs ls)
    (hd : (pre ++ ls.flatten).Nodup)
    (hm : ∀ j, bb = some j → (u.hit = true → ∀ k r, rs[k]? = some r → ¬ Marked j (i + k) r) ∧
      ∀ k k' r r', rs[k]? = some r → rs[k']? = some r' → Marked j (i + k) r → Marked j (i + k') r' → k = k') :
    let u' := unionLoop bb i rs u
    UInv h₀ u' (pre ++ ls.flatten) (if st ≠ 0 then st else firstError (rs.map statusOf)) ∧ u'.err = u.err ∧
      (bb = none → u'.base = u.base) ∧
      ∀ j, bb = some j → (∀ k r, rs[k]? = some r → Marked j (i + k) r → u'.base = frontOf r) ∧
        ((∀ k r, rs[k]? = some r → ¬ Marked j (i + k) r) → u'.base = u.base) := by
  induction rs generalizing ls i u pre st with
  | nil =>
    cases hr
    refine ⟨?_, rfl, fun _ => rfl, fun j _ => ⟨fun k r h => (by simp at h), fun _ => rfl⟩⟩
    simp only [unionLoop, List.flatten_nil, List.append_nil, List.map_nil, firstError]
    have : (if st ≠ 0 then st else 0) = st := by by_cases g : st = 0 <;> simp [g]
    rw [this]; exact hu
  | cons r rs ih =>
    cases hr with
    | cons hr1 hr2 =>
      rename_i l ls
      have shift : ∀ k, i + 1 + k = i + (k + 1) := fun k => by omega
      cases r with
      | none =>
        simp only at hr1
        subst hr1
        have hm' : ∀ j, bb = some j → (u.hit = true → ∀ k r, rs[k]? = some r → ¬ Marked j (i + 1 + k) r) ∧
            ∀ k k' r r', rs[k]? = some r → rs[k']? = some r' → Marked j (i + 1 + k) r → Marked j (i + 1 + k') r' → k = k' := by
          intro j hj
          obtain ⟨a, b⟩ := hm j hj
          refine ⟨fun hh k r hk => ?_, fun k k' r r' hk hk' m1 m2 => ?_⟩
          · rw [shift]; exact a hh (k + 1) r (by simpa using hk)
          · rw [shift] at m1 m2
            have := b (k + 1) (k' + 1) r r' (by simpa using hk) (by simpa using hk') m1 m2
            omega
        obtain ⟨x1, x2, x3, x4⟩ := ih ls (i + 1) u pre st hu hr2 (by simpa using hd) hm'
        refine ⟨?_, x2, x3, fun j hj => ?_⟩
        · simpa [unionLoop, unionStep, statusOf, firstError] using x1
        · obtain ⟨y1, y2⟩ := x4 j hj
          refine ⟨fun k r hk hmk => ?_, fun hno => ?_⟩
          · cases k with
            | zero =>
              simp at hk; subst hk
              obtain ⟨q, hq, _⟩ := hmk; cases hq
            | succ k => exact y1 k r (by simpa using hk) (by rw [shift]; exact hmk)
          · exact y2 fun k r hk => by rw [shift]; exact hno (k + 1) r (by simpa using hk)
      | some r =>
        simp only at hr1
        -- the state after the base is looked for
        obtain ⟨v, hv, hv1, hv2, hv3, hv4, hvb⟩ : ∃ v : Union N, unionStep bb i (some r) u =
            (let a := append v.queue (some r) v.err v.heap
             { v with heap := a.1, queue := a.2.1, err := a.2.2.1 }) ∧ v.heap = u.heap ∧ v.queue = u.queue ∧ v.err = u.err ∧
            (bb = none → v.base = u.base) ∧
            ∀ j, bb = some j → (Marked j i (some r) → v.base = r.front ∧ v.hit = true) ∧
              (¬ Marked j i (some r) → v.base = u.base ∧ v.hit = u.hit) := by
          cases bb with
          | none => exact ⟨u, rfl, rfl, rfl, rfl, fun _ => rfl, fun j hj => (by cases hj)⟩
          | some j =>
            by_cases hmk : Marked j i (some r)
            · have hc : (r.basic || i == j) = true := by
                obtain ⟨q, hq, hq'⟩ := hmk
                cases hq
                rcases hq' with g | g <;> simp [g]
              have hh : u.hit = false := by
                cases hh : u.hit with
                | false => rfl
                | true => exact absurd hmk ((hm j rfl).1 hh 0 (some r) (by simp))
              refine ⟨{ u with base := r.front, hit := true }, ?_, rfl, rfl, rfl, fun g => (by cases g), fun j' hj' => ?_⟩
              · simp [unionStep, hc, hh]
              · cases hj'
                exact ⟨fun _ => ⟨rfl, rfl⟩, fun g => absurd hmk g⟩
            · have hc : (r.basic || i == j) = false := by
                cases g : (r.basic || i == j) with
                | false => rfl
                | true => exact absurd ⟨r, rfl, by simpa using g⟩ hmk
              refine ⟨u, ?_, rfl, rfl, rfl, fun _ => rfl, fun j' hj' => ?_⟩
              · simp [unionStep, hc]
              · cases hj'
                exact ⟨fun g => absurd g hmk, fun _ => ⟨rfl, rfl⟩⟩
        have hd1 : (pre ++ l).Nodup := by
          rw [List.flatten_cons, ← List.append_assoc] at hd
          exact (List.nodup_append.1 hd).1
        obtain ⟨h', q', a1, a2, a3, a4⟩ := step_append (u := u) hu hr1 hd1
        rw [hv1, hv2, hv3] at hv
        rw [a1] at hv
        simp only at hv
        have hu' : UInv h₀ (unionStep bb i (some r) u) (pre ++ l) (if st ≠ 0 then st else r.status) := by
          rw [hv]; exact ⟨a2, .inr ⟨q', rfl, a3, a4⟩⟩
        have hm' : ∀ j, bb = some j →
            ((unionStep bb i (some r) u).hit = true → ∀ k r, rs[k]? = some r → ¬ Marked j (i + 1 + k) r) ∧
            ∀ k k' r r', rs[k]? = some r → rs[k']? = some r' → Marked j (i + 1 + k) r → Marked j (i + 1 + k') r' → k = k' := by
          intro j hj
          obtain ⟨a, b⟩ := hm j hj
          refine ⟨fun hh k r' hk => ?_, fun k k' r r' hk hk' m1 m2 => ?_⟩
          · rw [shift]
            by_cases hmk : Marked j i (some r)
            · intro g
              have := b 0 (k + 1) (some r) r' (by simp) (by simpa using hk) hmk g
              omega
            · have : u.hit = true := by
                rw [hv] at hh
                exact ((hvb j hj).2 hmk).2 ▸ hh
              exact a this (k + 1) r' (by simpa using hk)
          · rw [shift] at m1 m2
            have := b (k + 1) (k' + 1) r r' (by simpa using hk) (by simpa using hk') m1 m2
            omega
        obtain ⟨x1, x2, x3, x4⟩ := ih ls (i + 1) (unionStep bb i (some r) u) (pre ++ l) _ hu' hr2
          (by simpa [List.append_assoc] using hd) hm'
        refine ⟨?_, ?_, ?_, fun j hj => ?_⟩
        · have e : (if (if st ≠ 0 then st else r.status) ≠ 0 then (if st ≠ 0 then st else r.status)
              else firstError (rs.map statusOf)) = if st ≠ 0 then st else firstError ((some r :: rs).map statusOf) := by
            simp only [List.map_cons, firstError, statusOf, Option.map_some, Option.getD_some]
            by_cases g : st = 0 <;> by_cases k : r.status = 0 <;> simp [g, k]
          rw [e] at x1
          simpa [unionLoop, List.append_assoc] using x1
        · refine x2.trans ?_
          rw [hv]
        · intro hb
          refine (x3 hb).trans ?_
          rw [hv]; exact hv4 hb
        · obtain ⟨y1, y2⟩ := x4 j hj
          refine ⟨fun k r' hk hmk => ?_, fun hno => ?_⟩
          · cases k with
            | zero =>
              simp at hk; subst hk
              refine (y2 fun k r' hk' g => ?_).trans ?_
              · rw [shift] at g
                have := (hm j hj).2 0 (k + 1) (some r) r' (by simp) (by simpa using hk') hmk g
                omega
              · rw [hv]; exact ((hvb j hj).1 hmk).1
            | succ k => exact y1 k r' (by simpa using hk) (by rw [shift]; exact hmk)
          · refine (y2 fun k r' hk' => by rw [shift]; exact hno (k + 1) r' (by simpa using hk')).trans ?_
            rw [hv]
            exact ((hvb j hj).2 (hno 0 (some r) (by simp))).1

private theorem union_nodes (bb : Option Nat) (h : Heap N) (rs : List (Option (Queue N))) (ls : List (List N)) (err : Int)
    (hq : AreQueues h rs ls)
    (hm : ∀ j, bb = some j → ∀ k k' r r', rs[k]? = some r → rs[k']? = some r' → Marked j k r → Marked j k' r' → k = k') :
    ∃ h' first, (nodeUnion bb rs err h).1 = h' ∧ (nodeUnion bb rs err h).2.1 = first ∧
      (nodeUnion bb rs err h).2.2.2 = firstError (err :: rs.map statusOf) ∧ IsList h' first ls.flatten ∧
      SameElsewhere ls.flatten h h' ∧
      (bb = none → (nodeUnion bb rs err h).2.2.1 = none) ∧
      ∀ j, bb = some j → ∀ k r, rs[k]? = some r → Marked j k r → (nodeUnion bb rs err h).2.2.1 = frontOf r := by
  have hu : UInv h ⟨h, none, none, false, err⟩ [] 0 := ⟨fun _ _ => ⟨rfl, rfl⟩, .inl ⟨rfl, rfl, rfl⟩⟩
  obtain ⟨x1, x2, x3, x4⟩ := loop_inv bb rs ls 0 _ [] 0 hu hq.each (by simpa using hq.disjoint)
    (fun j hj => ⟨fun g => (by cases g), fun k k' r r' a b c d => hm j hj k k' r r' a b (by simpa using c) (by simpa using d)⟩)
  simp only [List.nil_append, ne_eq, not_true_eq_false, if_false] at x1 x2 x3 x4
  refine ⟨_, _, rfl, rfl, ?_, ?_, ?_, x3, fun j hj k r hk hmk => (x4 j hj).1 k r hk (by simpa using hmk)⟩
  all_goals simp only [nodeUnion]
  all_goals generalize unionLoop bb 0 rs ⟨h, none, none, false, err⟩ = u at x1 x2 x3 x4
  all_goals rcases x1.queue with ⟨e, e1, e2⟩ | ⟨q, e, e1, e2⟩
  · rw [e, x2]; simp only [nodesOf, firstError, e2]
    by_cases g : err = 0 <;> simp [g]
  · obtain ⟨h', f, n1, -, -⟩ := C54_nodesOf u.heap q _ u.err e1
    rw [e, n1]; simp only [firstError, e2, x2]
    by_cases g : err = 0
    · simp only [g, ne_eq, not_true_eq_false, if_false]
      exact ite_eq_left_iff.2 fun k => (Decidable.not_not.1 k).symm
    · simp [g]
  · rw [e, e1]; exact ⟨rfl, List.nodup_nil, trivial⟩
  · obtain ⟨h', f, n1, n2, -⟩ := C54_nodesOf u.heap q _ u.err e1
    rw [e, n1]; exact n2
  · rw [e]; exact x1.same
  · obtain ⟨h', f, n1, n2, n3⟩ := C54_nodesOf u.heap q _ u.err e1
    rw [e, n1]
    intro n hn
    exact ⟨(n3 n hn).1.trans (x1.same n hn).1, (n3 n hn).2.trans (x1.same n hn).2⟩

/-- **C54.** The queues of any crew, sharing no nodes, are joined into a list of all of their nodes, in the order of the
workers and of each worker's queue, properly linked.  The first error is kept, and no other memory is altered. -/
theorem C54_union (h : Heap N) (rs : List (Option (Queue N))) (ls : List (List N)) (err : Int) (hq : AreQueues h rs ls) :
    ∃ h' first, nodeUnion none rs err h = (h', first, none, firstError (err :: rs.map statusOf)) ∧
      IsList h' first ls.flatten ∧ SameElsewhere ls.flatten h h' := by
  obtain ⟨h', f, e1, e2, e3, e4, e5, e6, -⟩ := union_nodes none h rs ls err hq fun j hj => by cases hj
  refine ⟨h', f, ?_, e4, e5⟩
  rw [← e1, ← e2, ← e3, ← e6 rfl]

/-- **C54.** Likewise for the union at the end of a graph construction, where no queue is flagged as basic.  The base node is
the front of the queue of the worker given. -/
theorem C54_union_base (h : Heap N) (rs : List (Option (Queue N))) (ls : List (List N)) (err : Int) (hq : AreQueues h rs ls)
    (j : Nat) (r : Option (Queue N)) (hj : rs[j]? = some r) (hr : r ≠ none) (hb : ∀ q, some q ∈ rs → q.basic = false) :
    ∃ h' first, nodeUnion (some j) rs err h = (h', first, frontOf r, firstError (err :: rs.map statusOf)) ∧
      IsList h' first ls.flatten ∧ SameElsewhere ls.flatten h h' := by
  have mk : ∀ k r, rs[k]? = some r → Marked j k r → k = j := by
    rintro k r hk ⟨q, rfl, g | g⟩
    · rw [hb q (List.mem_of_getElem? hk)] at g; cases g
    · exact g
  obtain ⟨h', f, e1, e2, e3, e4, e5, -, e7⟩ := union_nodes (some j) h rs ls err hq fun j' hj' k k' r r' a b c d => by
    cases hj'; rw [mk k r a c, mk k' r' b d]
  obtain ⟨q, rfl⟩ := Option.ne_none_iff_exists'.1 hr
  refine ⟨h', f, ?_, e4, e5⟩
  rw [← e1, ← e2, ← e3, ← e7 j rfl j (some q) hj ⟨q, rfl, .inr rfl⟩]

/-! ## A case meeting the hypotheses -/

/-- Queues of nodes 1 and 2, none, and 3, the latter with an error. -/
private def demoHeap : Heap Nat :=
  ⟨fun n => if n = 1 then some 2 else none,
   fun n => if n = 1 then some (.front 10) else if n = 2 then some (.next 1) else if n = 3 then some (.front 30) else none⟩

private def demoQueues : List (Option (Queue Nat)) :=
  [some ⟨10, some 1, some 2, 0, false⟩, none, some ⟨30, some 3, some 3, 7, false⟩]

private theorem demo_queues : AreQueues demoHeap demoQueues [[1, 2], [], [3]] :=
  ⟨.cons ⟨rfl, rfl, by decide, rfl, rfl, rfl, rfl, trivial⟩ (.cons rfl (.cons ⟨rfl, rfl, by decide, rfl, rfl, trivial⟩ .nil)),
    by decide⟩

example : ∃ h' first, nodeUnion (some 2) demoQueues 0 demoHeap = (h', first, some 3, 7) ∧ IsList h' first [1, 2, 3] ∧
    h'.next 2 = some 3 ∧ h'.prev 3 = some (.next 2) := by
  obtain ⟨h', f, e1, e2, -⟩ := C54_union_base demoHeap demoQueues _ 0 demo_queues 2 _ rfl (by simp)
    (by intro q hq; simp [demoQueues] at hq; rcases hq with rfl | rfl <;> rfl)
  exact ⟨h', f, e1, e2, e2.linked.2.2.2.1, e2.linked.2.2.2.2.1⟩

end Cru.Queue
