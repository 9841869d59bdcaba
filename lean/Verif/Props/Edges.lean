import Verif.Proofs.Edges

/-!
# C27 and C28: deduplicating, filtering and thinning edge lists

The specification vocabulary is `IsTransversal`, `IsEquality`, `HashRespects` and `IsStrictWeak` of
`Verif.Spec.Grouping`.
-/

namespace Cru

variable {α : Type}

/-! ## C27 -/

/-- C27.  Whatever the edge list and the label equality, deduplication keeps exactly one edge of each combination of
label and terminus (`node`), and the kept edges together with the destroyed ones are the given edges. -/
theorem C27_deduplicated_edges {leq : α → α → Bool} (hl : IsEquality leq) (node : α → Nat) (es : List α) :
    IsTransversal (fun x y => node x = node y ∧ leq x y = true) es
      (deduplicatedEdges node leq es).1 (deduplicatedEdges node leq es).2 :=
  deduplicatedBrigade_transversal hl (marshalled_grouping node es)

/-- C27 for a library built without Judy arrays. -/
theorem C27_deduplicated_edges_no_judy {leq : α → α → Bool} (hl : IsEquality leq) (node : α → Nat) (es : List α) :
    IsTransversal (fun x y => node x = node y ∧ leq x y = true) es
      (deduplicatedEdgesNoJudy node leq es).1 (deduplicatedEdgesNoJudy node leq es).2 :=
  deduplicatedBrigade_transversal hl (bucketed_grouping node es)

/-- C27 for the edges requested by a connector: label and terminus are compared with the user's equalities. -/
theorem C27_connections {h : α → Nat} {leq veq : α → α → Bool} (hl : IsEquality leq) (hh : HashRespects h leq)
    (hv : IsEquality veq) (es : List α) :
    IsTransversal (fun x y => leq x y = true ∧ veq x y = true) es (unique h leq veq es)
      (uniqueDropped h leq veq es) :=
  unique_transversal hl hh hv es

/-- The hypotheses are met: labels modulo 10, termini by address. -/
example : IsEquality (fun a b : Nat × Nat => decide (a.1 % 10 = b.1 % 10)) :=
  ⟨by simp, by simp +contextual [eq_comm], by simp +contextual⟩

example : deduplicatedEdges (fun e : Nat × Nat => e.2) (fun a b => decide (a.1 % 10 = b.1 % 10))
    [(1, 5), (11, 5), (1, 6), (2, 5), (21, 5)] = ([(21, 5), (2, 5), (1, 6)], [(1, 5), (11, 5)]) := by decide

/-! ## C28 -/

theorem partition_fold (pass : α → Bool) (es : List α) : ∀ acc : List α × List α,
    es.foldl (fun r e => if pass e then (e :: r.1, r.2) else (r.1, e :: r.2)) acc =
      ((es.filter pass).reverse ++ acc.1, (es.filter (fun e => !pass e)).reverse ++ acc.2) := by
  induction es with
  | nil => simp
  | cons e es ih => intro acc; by_cases h : pass e = true <;> simp [ih, h]

theorem filter_perm (pass : α → Bool) (es : List α) :
    ((es.filter pass).reverse ++ (es.filter (fun e => !pass e)).reverse).Perm es :=
  ((List.reverse_perm _).append (List.reverse_perm _)).trans (List.filter_append_perm pass es)

/-- C28.  The minimum edge of a non-empty list is removed from it: exactly one edge is taken, and no edge of the list
precedes it. -/
theorem C28_minimum_edge {lt : α → α → Bool} (hlt : IsStrictWeak lt) (es : List α) (hne : es ≠ []) :
    ∃ m rest, minimumEdge lt es = some (m, rest) ∧ (m :: rest).Perm es ∧ ∀ x ∈ es, lt x m = false :=
  minimumEdge_spec hlt es hne

/-- C28, edges filtered one by one without a thinner: exactly the passing edges are retained, the others removed. -/
theorem C28_individually_filtered (pass : α → Bool) (es : List α) :
    (individuallyFiltered pass none es).1.Perm (es.filter pass) ∧
    (individuallyFiltered pass none es).2.Perm (es.filter fun e => !pass e) := by
  simp [individuallyFiltered, partition_fold]

/-- C28, edges thinned one by one: if some edge passes then exactly one is retained, it passes and no passing edge
precedes it; otherwise none is retained.  Nothing is lost or duplicated. -/
theorem C28_individually_thinned (pass : α → Bool) {lt : α → α → Bool} (hlt : IsStrictWeak lt) (es : List α) :
    ((individuallyFiltered pass (some lt) es).1 ++ (individuallyFiltered pass (some lt) es).2).Perm es ∧
    ((∀ e ∈ es, pass e = false) → (individuallyFiltered pass (some lt) es).1 = []) ∧
    ((∃ e ∈ es, pass e = true) → ∃ m, (individuallyFiltered pass (some lt) es).1 = [m] ∧ pass m = true ∧
      ∀ x ∈ es, pass x = true → lt x m = false) := by
  simp only [individuallyFiltered, partition_fold, List.append_nil]
  by_cases hne : (es.filter pass).reverse = []
  · have hall : ∀ e ∈ es, pass e = false := by
      intro e he
      have : es.filter pass = [] := by simpa using hne
      simpa using (List.filter_eq_nil_iff.1 this e he)
    have := (minimumEdge_eq_none hlt (es.filter pass).reverse).2 hne
    rw [this]
    refine ⟨filter_perm pass es, fun _ => hne, ?_⟩
    rintro ⟨e, he, hp⟩
    simp [hall e he] at hp
  · obtain ⟨m, rest, h1, h2, h3⟩ := minimumEdge_spec hlt _ hne
    rw [h1]
    refine ⟨?_, ?_, ?_⟩
    · refine List.Perm.trans ?_ (filter_perm pass es)
      simpa using h2.append_right (es.filter (fun e => !pass e)).reverse
    · intro hall
      exact absurd (by simpa using fun e he => hall e he) hne
    · intro _
      have hm : m ∈ (es.filter pass).reverse := h2.mem_iff.1 (by simp)
      refine ⟨m, rfl, by simpa using (List.mem_filter.1 (List.mem_reverse.1 hm)).2, ?_⟩
      intro x hx hp
      exact h3 x (by simp [hx, hp])

theorem bucket_fold (pass : List α → Bool) (b : List (List α)) : ∀ acc : List α × List α,
    b.foldl (fun r g => if pass g then (g ++ r.1, r.2) else (r.1, g ++ r.2)) acc =
      ((b.filter pass).reverse.flatten ++ acc.1, (b.filter (fun g => !pass g)).reverse.flatten ++ acc.2) := by
  induction b with
  | nil => simp
  | cons g b ih => intro acc; by_cases h : pass g = true <;> simp [ih, h]

theorem bucket_fold' (pass : List α → Bool) (b : List (List α)) : ∀ acc : List (List α) × List α,
    b.foldl (fun (r : List (List α) × List α) g => if pass g then (g :: r.1, r.2) else (r.1, g ++ r.2)) acc =
      ((b.filter pass).reverse ++ acc.1, (b.filter (fun g => !pass g)).reverse.flatten ++ acc.2) := by
  induction b with
  | nil => simp
  | cons g b ih => intro acc; by_cases h : pass g = true <;> simp [ih, h]

/-- C28, edges filtered by groups of equal labels: exactly the edges of the passing groups are retained. -/
theorem C28_jointly_filtered (pass : List α → Bool) {rel : α → α → Prop} {es : List α} {b : List (List α)}
    (hb : IsGrouping rel es b) :
    ((jointlyFiltered pass b).1 ++ (jointlyFiltered pass b).2).Perm es ∧
    (∀ x, x ∈ (jointlyFiltered pass b).1 ↔ ∃ g ∈ b, x ∈ g ∧ pass g = true) ∧
    (∀ x, x ∈ (jointlyFiltered pass b).2 ↔ ∃ g ∈ b, x ∈ g ∧ pass g = false) := by
  simp only [jointlyFiltered, bucket_fold, List.append_nil]
  refine ⟨?_, ?_, ?_⟩
  · refine List.Perm.trans ?_ hb.perm
    rw [← List.flatten_append]
    exact flatten_perm (filter_perm pass b)
  · intro x; simp; constructor
    · rintro ⟨g, ⟨h1, h2⟩, h3⟩; exact ⟨g, h1, h3, h2⟩
    · rintro ⟨g, h1, h3, h2⟩; exact ⟨g, ⟨h1, h2⟩, h3⟩
  · intro x; simp; constructor
    · rintro ⟨g, ⟨h1, h2⟩, h3⟩; exact ⟨g, h1, h3, h2⟩
    · rintro ⟨g, h1, h3, h2⟩; exact ⟨g, ⟨h1, h2⟩, h3⟩

theorem bucketLt_weak {lt : α → α → Bool} (hlt : IsStrictWeak lt) (b : List (List α)) (hne : ∀ g ∈ b, g ≠ [])
    (hnn : b ≠ []) :
    ∃ m rest, minimumEdge (bucketLt lt) b = some (m, rest) ∧ (m :: rest).Perm b ∧ ∀ g ∈ b, bucketLt lt g m = false := by
  classical
  -- replace the order by one that is weak on all lists, the same on non-empty ones
  cases b with
  | nil => exact absurd rfl hnn
  | cons g0 b0 =>
    obtain ⟨a, t, rfl⟩ : ∃ a t, g0 = a :: t := by
      cases g0 with
      | nil => exact absurd rfl (hne [] (by simp))
      | cons a t => exact ⟨a, t, rfl⟩
    let hd : List α → α := fun g => g.headD a
    have key : ∀ (es : List (List α)) (m : List α) (mi i : Nat), m ≠ [] → (∀ g ∈ es, g ≠ []) →
        minScan (bucketLt lt) m mi i es = minScan (fun x y => lt (hd x) (hd y)) m mi i es := by
      intro es
      induction es with
      | nil => intros; rfl
      | cons e es ih =>
        intro m mi i hm hes
        obtain ⟨x, xs, rfl⟩ : ∃ x xs, m = x :: xs := by
          cases m with
          | nil => exact absurd rfl hm
          | cons x xs => exact ⟨x, xs, rfl⟩
        obtain ⟨y, ys, rfl⟩ : ∃ y ys, e = y :: ys := by
          cases e with
          | nil => exact absurd rfl (hes [] (by simp))
          | cons y ys => exact ⟨y, ys, rfl⟩
        simp only [minScan]
        have : bucketLt lt (y :: ys) (x :: xs) = lt (hd (y :: ys)) (hd (x :: xs)) := rfl
        rw [this, ih _ _ _ (by simp) (fun g hg => hes g (by simp [hg])),
          ih _ _ _ (by simp) (fun g hg => hes g (by simp [hg]))]
    have hw : IsStrictWeak (fun x y : List α => lt (hd x) (hd y)) :=
      ⟨fun _ _ h => hlt.asymm _ _ h, fun _ _ _ h => hlt.weak _ _ _ h⟩
    obtain ⟨m, rest, h1, h2, h3⟩ := minimumEdge_spec hw ((a :: t) :: b0) (by simp)
    refine ⟨m, rest, ?_, h2, ?_⟩
    · rw [← h1]
      simp only [minimumEdge]
      rw [key _ _ _ _ (by simp) (fun g hg => hne g (by simp [hg]))]
    · intro g hg
      have hgn := hne g hg
      have hmn := hne m (h2.mem_iff.1 (by simp))
      have := h3 g hg
      cases g with
      | nil => exact absurd rfl hgn
      | cons x xs =>
        cases m with
        | nil => exact absurd rfl hmn
        | cons y ys => exact this

/-- Thinning by groups that needn't be all there is of a kind. -/
theorem jointlyThinned_spec (pass : List α → Bool) {lt : α → α → Bool} (hlt : IsStrictWeak lt) {rel : α → α → Prop}
    {es : List α} {b : List (List α)} (hbp : b.flatten.Perm es) (hbn : ∀ g ∈ b, g ≠ []) (hbw : ∀ g ∈ b, ∀ x ∈ g, ∀ y ∈ g, rel x y)
    (hc : ∀ x x' y y', rel x x' → rel y y' → lt x y = lt x' y') :
    ((jointlyThinned pass lt b).1 ++ (jointlyThinned pass lt b).2).Perm es ∧
    ((∀ g ∈ b, pass g = false) → (jointlyThinned pass lt b).1 = []) ∧
    ((∃ g ∈ b, pass g = true) → (jointlyThinned pass lt b).1 ∈ b ∧ pass (jointlyThinned pass lt b).1 = true ∧
      ∀ g ∈ b, pass g = true → ∀ x ∈ g, ∀ y ∈ (jointlyThinned pass lt b).1, lt x y = false) := by
  have ff : ∀ (rest : List (List α)) (c : List α), rest.foldl (fun c g => g ++ c) c = rest.reverse.flatten ++ c := by
    intro rest c
    have := foldl_append_front (fun g : List α => g) rest c
    simpa [List.flatMap_id'] using this
  have hperm : ((b.filter pass).reverse.flatten ++ (b.filter (fun g => !pass g)).reverse.flatten).Perm es := by
    refine List.Perm.trans ?_ hbp
    rw [← List.flatten_append]
    exact flatten_perm (filter_perm pass b)
  simp only [jointlyThinned, bucket_fold', List.append_nil]
  by_cases hne : (b.filter pass).reverse = []
  · have hall : ∀ g ∈ b, pass g = false := by
      intro e he
      have : b.filter pass = [] := by simpa using hne
      simpa using (List.filter_eq_nil_iff.1 this e he)
    rw [hne]
    refine ⟨?_, fun _ => rfl, ?_⟩
    · rw [hne] at hperm; simpa [minimumEdge] using hperm
    · rintro ⟨e, he, hp⟩
      simp [hall e he] at hp
  · obtain ⟨m, rest, h1, h2, h3⟩ := bucketLt_weak hlt _
      (fun g hg => hbn g (List.mem_filter.1 (List.mem_reverse.1 hg)).1) hne
    rw [h1]
    have hm : m ∈ (b.filter pass).reverse := h2.mem_iff.1 (by simp)
    have hmb : m ∈ b ∧ pass m = true := by simpa using hm
    refine ⟨?_, ?_, ?_⟩
    · simp only [ff]
      refine List.Perm.trans ?_ hperm
      rw [← List.append_assoc]
      refine List.Perm.append_right _ ?_
      have : (m ++ rest.reverse.flatten) = (m :: rest.reverse).flatten := by simp
      rw [this]
      exact flatten_perm (((List.reverse_perm rest).cons m).trans h2)
    · intro hall
      simp [hall m hmb.1] at hmb
    · intro _
      refine ⟨hmb.1, hmb.2, ?_⟩
      intro g hg hp x hx y hy
      have := h3 g (by simp [hg, hp])
      cases g with
      | nil => cases hx
      | cons x0 xs =>
        cases m with
        | nil => cases hy
        | cons y0 ys =>
          rw [hc x x0 y y0 (hbw _ hg _ hx _ (by simp)) (hbw _ hmb.1 _ hy _ (by simp))]
          exact this

/-- C28, thinning by groups of equal labels: if some group passes then the edges of exactly one passing group are
retained and no edge of a passing group precedes any of them.  As brig.c:113-116 requires, the order does not
distinguish members of one group. -/
theorem C28_jointly_thinned (pass : List α → Bool) {lt : α → α → Bool} (hlt : IsStrictWeak lt) {rel : α → α → Prop}
    {es : List α} {b : List (List α)} (hb : IsGrouping rel es b)
    (hc : ∀ x x' y y', rel x x' → rel y y' → lt x y = lt x' y') :
    ((jointlyThinned pass lt b).1 ++ (jointlyThinned pass lt b).2).Perm es ∧
    ((∀ g ∈ b, pass g = false) → (jointlyThinned pass lt b).1 = []) ∧
    ((∃ g ∈ b, pass g = true) → (jointlyThinned pass lt b).1 ∈ b ∧ pass (jointlyThinned pass lt b).1 = true ∧
      ∀ g ∈ b, pass g = true → ∀ x ∈ g, ∀ y ∈ (jointlyThinned pass lt b).1, lt x y = false) :=
  jointlyThinned_spec pass hlt hb.perm hb.nonempty hb.within hc

theorem unrelated_perm (es : List α) : (unrelated es).flatten.Perm es ∧ ∀ g ∈ unrelated es, ∃ e ∈ es, g = [e] := by
  have key : ∀ (es : List α) (acc : List (List α)),
      es.foldl (fun t e => [e] :: t) acc = es.reverse.map (fun e => [e]) ++ acc := by
    intro es
    induction es with
    | nil => simp
    | cons e es ih => intro acc; simp [ih]
  rw [unrelated, key]
  refine ⟨?_, ?_⟩
  · have : (es.reverse.map (fun e => [e])).flatten = es.reverse := by
      induction es.reverse with
      | nil => rfl
      | cons a l ih => simpa using ih
    rw [List.append_nil, this]; exact List.reverse_perm es
  · intro g hg; simpa [eq_comm] using hg

/-- C28, whatever way a filter asks for edges to be removed, each edge of the vertex is either retained or removed. -/
theorem C28_filtered_complete (f : EdgeFilter α) (hlt : ∀ lt, f.thinner = some lt → IsStrictWeak lt)
    (ho : ∀ h r, f.order = some (h, r) → IsEquality r ∧ HashRespects h r)
    (hc : ∀ h r lt, f.order = some (h, r) → f.thinner = some lt →
      ∀ x x' y y', r x x' = true → r y y' = true → lt x y = lt x' y') (es : List α) :
    ((filteredEdges f es).1 ++ (filteredEdges f es).2).Perm es := by
  obtain ⟨ef, th, o, vac, p1, pG⟩ := f
  simp only at hlt ho hc
  unfold filteredEdges
  by_cases h0 : (ef && th.isNone) = true
  · simp [h0]
  simp only [h0, Bool.false_eq_true, if_false]
  cases o with
  | none =>
    cases vac with
    | false =>
      cases th with
      | none =>
        simp only [individuallyFiltered, partition_fold, List.append_nil]
        exact filter_perm p1 es
      | some lt => exact (C28_individually_thinned p1 (hlt lt rfl) es).1
    | true =>
      simp only
      cases th with
      | none =>
        simp only [jointlyFiltered, bucket_fold, List.append_nil]
        refine List.Perm.trans ?_ (unrelated_perm es).1
        rw [← List.flatten_append]
        exact flatten_perm (filter_perm pG _)
      | some lt =>
        have hne : ∀ g ∈ unrelated es, g ≠ [] := by
          intro g hg; obtain ⟨e, _, rfl⟩ := (unrelated_perm es).2 g hg; simp
        simp only [jointlyThinned, bucket_fold', List.append_nil]
        have hperm : (((unrelated es).filter pG).reverse.flatten ++
            ((unrelated es).filter (fun g => !pG g)).reverse.flatten).Perm es := by
          refine List.Perm.trans ?_ (unrelated_perm es).1
          rw [← List.flatten_append]
          exact flatten_perm (filter_perm pG _)
        by_cases hn : ((unrelated es).filter pG).reverse = []
        · rw [hn] at hperm ⊢; simpa [minimumEdge] using hperm
        · obtain ⟨m, rest, h1, h2, _⟩ := bucketLt_weak (hlt lt rfl) _
            (fun g hg => hne g (List.mem_filter.1 (List.mem_reverse.1 hg)).1) hn
          rw [h1]
          have ff := foldl_append_front (fun g : List α => g) rest
            ((unrelated es).filter (fun g => !pG g)).reverse.flatten
          simp only [List.flatMap_id'] at ff
          simp only [ff]
          refine List.Perm.trans ?_ hperm
          rw [← List.append_assoc]
          refine List.Perm.append_right _ ?_
          have : (m ++ rest.reverse.flatten) = (m :: rest.reverse).flatten := by simp
          rw [this]
          exact flatten_perm (((List.reverse_perm rest).cons m).trans h2)
  | some hr =>
    obtain ⟨h, r⟩ := hr
    have hg := rallied_grouping (ho h r rfl).1 (ho h r rfl).2 es
    simp only
    cases th with
    | none => exact (C28_jointly_filtered pG hg).1
    | some lt => exact (C28_jointly_thinned pG (hlt lt rfl) hg (hc h r lt rfl rfl)).1

/-- Natural numbers in their order meet the hypothesis, with several minimal edges in the list. -/
example : IsStrictWeak (fun a b : Nat × Nat => decide (a.1 < b.1)) :=
  ⟨by intro a b; simp; omega, by intro a b c; simp; omega⟩

example : minimumEdge (fun a b : Nat × Nat => decide (a.1 < b.1)) [(3, 0), (2, 1), (5, 2), (2, 3)] =
    some ((2, 1), [(3, 0), (5, 2), (2, 3)]) := by decide

example : individuallyFiltered (fun a : Nat × Nat => decide (a.2 ≠ 1)) (some fun a b => decide (a.1 < b.1))
    [(3, 0), (2, 1), (5, 2), (2, 3)] = ([(2, 3)], [(5, 2), (3, 0), (2, 1)]) := by decide

/-- A grouping with two passing groups, and the group retained. -/
example : jointlyThinned (fun g : List (Nat × Nat) => decide (2 ≤ g.length)) (fun a b => decide (a.1 < b.1))
    (rallied (fun e : Nat × Nat => e.1) (fun a b => decide (a.1 = b.1)) [(3, 0), (2, 1), (1, 2), (2, 3), (3, 4)]) =
    ([(2, 1), (2, 3)], [(3, 0), (3, 4), (1, 2)]) := by decide

end Cru
