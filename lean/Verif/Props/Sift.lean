import Verif.Props.Thin
import Verif.Props.Dialect

/-! # C164: filters with a single test -/

namespace Cru.Repl

open Infer

variable {n : Nat} {N : Type} [DecidableEq N]

/-- A fold with just a map. -/
def mapOnly (a : Nat) : Fold := { noFold with map := some (.user a) }

/-- A filter with just a map of vertices, like the first example in cru_filter.7. -/
def vertexOnly (a : Nat) : Infer.Filter := ⟨none, ⟨⟨mapOnly a, noFold, noFold⟩, noFold⟩, ⟨none, none⟩⟩

/-- A filter with just a map of edges, like the second one. -/
def edgeOnly (a : Nat) : Infer.Filter := ⟨none, ⟨nothing, mapOnly a⟩, ⟨none, none⟩⟩

/-- A filter with just a binary map of edges. -/
def labelOnly (a : Nat) : Infer.Filter := ⟨none, ⟨nothing, { noFold with bmap := some (.user a) }⟩, ⟨none, none⟩⟩

/-- A filter with an ordering of labels and no functions. -/
def orderOnly (a b : Nat) : Infer.Filter := ⟨none, ⟨nothing, noFold⟩, ⟨some (.user a), some (.user b)⟩⟩

/-- The vertex test that's filled in, which isn't used. -/
def keepAll : Prp := ⟨{ noFold with map := some .disjoiningTop, reduction := some .undefinedBop }, noFold, noFold⟩

variable {u : Env} {o : Orders} {g : Gr N Word Word} {addr : N → Nat} {hn : 0 < n} {a b : Nat} {s : Sig} {r : Except Int (Option (Gr N Word Word))}

theorem vertexOnly_full : inferredFilter (vertexOnly a) s =
    .ok ⟨none, ⟨⟨{ mapOnly a with reduction := some .undefinedBop }, noFold, noFold⟩, noFold⟩, ⟨none, none⟩⟩ := rfl

theorem edgeOnly_full : inferredFilter (edgeOnly a) s =
    .ok ⟨none, ⟨keepAll, { mapOnly a with reduction := some .minimizingBop }⟩, ⟨none, none⟩⟩ := rfl

theorem labelOnly_full : inferredFilter (labelOnly a) s =
    .ok ⟨none, ⟨keepAll, { noFold with bmap := some (.user a), reduction := some .minimizingBop }⟩, ⟨none, none⟩⟩ := rfl

theorem edgeOnly_ordered {c : Nat} : inferredFilter { edgeOnly c with order := ⟨some (.user a), some (.user b)⟩ } s =
    .ok ⟨none, ⟨keepAll, { mapOnly c with reduction := some .minimizingBop }⟩, ⟨some (.user a), some (.user b)⟩⟩ := by
  obtain ⟨vo, eo, vf, ef⟩ := s
  cases ef <;> rfl

theorem orderOnly_error : inferredFilter (orderOnly a b) s = .error INCFIL := by
  obtain ⟨vo, eo, vf, ef⟩ := s
  cases ef <;> rfl

/-- **C164.** With just a map of vertices, the graph is deleted if the map of the base is NULL, and otherwise the vertices that can be reached by way of ones whose
map isn't remain, with the edges between them. -/
theorem C164_vertices (hw : g.WF) (h : FilteredBy u o (vertexOnly a) s g addr hn 0 0 0 r) :
    if u.top a 0 (g.vertex g.base) 0 = 0 then r = .ok none
    else ∃ R, r = .ok (some R) ∧ Filter.IsFiltered g (fun m rs => rs.Perm ((g.out m).filter fun e => decide (u.top a 0 (g.vertex e.2) 0 ≠ 0))) R := by
  unfold FilteredBy at h
  rw [vertexOnly_full] at h
  dsimp only at h
  have hl : (filterOf u o ⟨none, ⟨⟨{ mapOnly a with reduction := some .undefinedBop }, noFold, noFold⟩, noFold⟩, ⟨none, none⟩⟩).Lawful :=
    ⟨fun _ h => (by cases h), fun _ h => (by cases h), fun _ h => (by cases h), fun _ _ h => (by cases h)⟩
  have h1 := Filter.C29_correct hw hl rfl (fun m _ e => by rintro ⟨h1, p, h2, h3⟩; cases h2; exact h1 h3.symm)
    (fun m _ e => by rintro ⟨h1, -, h3⟩; exact h1 h3.symm) h
  have h2 : ∀ m, Filter.fails (filterOf u o ⟨none, ⟨⟨{ mapOnly a with reduction := some .undefinedBop }, noFold, noFold⟩, noFold⟩, ⟨none, none⟩⟩) g m =
      decide (u.top a 0 (g.vertex m) 0 = 0) := fun m => rfl
  rw [h2] at h1
  by_cases hb : u.top a 0 (g.vertex g.base) 0 = 0
  · rw [if_pos hb]
    rwa [if_pos (by simpa using hb)] at h1
  · rw [if_neg hb]
    rw [if_neg (by simpa using hb)] at h1
    obtain ⟨R, hR, hf⟩ := h1
    refine ⟨R, hR, hf.imp fun m _ rs hrs => ?_⟩
    have : Filter.kept (filterOf u o ⟨none, ⟨⟨{ mapOnly a with reduction := some .undefinedBop }, noFold, noFold⟩, noFold⟩, ⟨none, none⟩⟩) g m =
        (g.out m).filter fun e => decide (u.top a 0 (g.vertex e.2) 0 ≠ 0) := by
      unfold Filter.kept
      refine List.filter_congr fun e _ => ?_
      rw [h2]
      simp [Filter.passes, filterOf, edgeTest, emptyFold, noFold, Field.given]
    rwa [← this]

/-- The fold `f` has a map and takes the least of its results. -/
structure Plain (u : Env) (f : Fold) (im : Word → Word × Word → Word) : Prop where
  seed : ∀ v e, seed u f v e = .ok (im v e)
  next : ∀ v e, next u f v e = .ok (im v e)
  some : (f.map.isNone && f.bmap.isNone) = false
  reduction : f.reduction = .some .minimizingBop
  vacuous : f.vacuousCase = none
  mFree : f.mFree = none
  rFree : f.rFree = none

private theorem min_null (x y : Word) : minimizingBop x y ≠ 0 ↔ x ≠ 0 ∧ y ≠ 0 := by
  have h : ∀ z : Word, z ≠ 0 ↔ 0 < z.toNat := fun z => by
    rw [Nat.pos_iff_ne_zero, not_iff_not]
    exact ⟨fun h => by rw [h]; rfl, fun h => BitVec.eq_of_toNat_eq (by simpa using h)⟩
  rw [h, h, h]
  unfold minimizingBop
  split <;> omega

private theorem loop_plain {f : Fold} {im : Word → Word × Word → Word} (hf : Plain u f im) (v : Word) (es : List (Word × Word)) (w : Word) :
    ∃ x, loop u f .minimizingBop v es w = .ok x ∧ (x ≠ 0 ↔ w ≠ 0 ∧ ∀ e ∈ es, im v e ≠ 0) := by
  induction es generalizing w with
  | nil => exact ⟨w, rfl, by simp⟩
  | cons e es ih =>
    obtain ⟨x, h1, h2⟩ := ih (minimizingBop (im v e) w)
    refine ⟨x, ?_, ?_⟩
    · simp only [loop, hf.next, Env.callBop]
      exact h1
    · rw [h2, min_null, List.forall_mem_cons]
      tauto

private theorem reduced_plain {f : Fold} {im : Word → Word × Word → Word} (hf : Plain u f im) (v : Word) {es : List (Word × Word)} (h : es ≠ []) :
    ∃ x, reducedEdges u f v es = .ok x ∧ (x ≠ 0 ↔ ∀ e ∈ es, im v e ≠ 0) := by
  rcases es with _ | ⟨e, es⟩
  · exact absurd rfl h
  · obtain ⟨x, h1, h2⟩ := loop_plain hf v es (im v e)
    refine ⟨x, ?_, by rw [h2, List.forall_mem_cons]⟩
    rw [← h1]
    unfold reducedEdges
    simp only [hf.vacuous, hf.some, hf.mFree, hf.rFree, hf.seed, ne_eq, not_true_eq_false, if_false, Bool.false_eq_true]
    change rest u f v es (im v e) = _
    cases es with
    | nil => rfl
    | cons d es => simp only [rest, hf.reduction]

private theorem passing_plain {f : Fold} {im : Word → Word × Word → Word} (hf : Plain u f im) (v : Word) (es : List (Word × Word)) :
    passing (reducedEdges u f v es) = (!es.isEmpty && es.all fun e => decide (im v e ≠ 0)) := by
  by_cases h : es = []
  · subst h
    unfold reducedEdges
    simp only [hf.vacuous]
    rfl
  · obtain ⟨x, h1, h2⟩ := reduced_plain hf v h
    rw [h1, Bool.eq_iff_iff]
    simp only [passing, Bool.and_eq_true, List.all_eq_true, Bool.not_eq_true', List.isEmpty_eq_false_iff, decide_eq_true_eq]
    exact ⟨fun hx => ⟨h, h2.1 hx⟩, fun hx => h2.2 hx.2⟩

private theorem plain_fold {f : Fold} {im : Word → Word × Word → Word} (hf : Plain u f im) : emptyFold f = false := by
  simp [emptyFold, hf.reduction, Field.given]

private theorem plain_lawful {f : Fold} {im : Word → Word × Word → Word} (hf : Plain u f im) {q : Order}
    (hq : q = ⟨none, none⟩ ∨ ∃ a b, q = ⟨some (.user a), some (.user b)⟩ ∧ IsEquality (o.equal b) ∧ HashRespects (o.hash a) (o.equal b)) :
    (filterOf u o ⟨none, ⟨keepAll, f⟩, q⟩).Lawful := by
  refine ⟨fun p hp => ?_, fun t h v es es' hp => ?_, fun lt h => (by cases h), fun q lt hq h => (by cases h)⟩
  · rcases hq with rfl | ⟨a, b, rfl, h1, h2⟩
    · cases hp
    · cases hp; exact ⟨h1, h2⟩
  · simp only [filterOf, edgeTest, plain_fold hf, Bool.false_eq_true, if_false, Option.some.injEq] at h
    subst h
    change passing (reducedEdges u f v es) = passing (reducedEdges u f v es')
    rw [passing_plain hf, passing_plain hf, Bool.eq_iff_iff]
    simp only [Bool.and_eq_true, List.all_eq_true, Bool.not_eq_true', List.isEmpty_eq_false_iff]
    refine and_congr ⟨fun h h' => h ?_, fun h h' => h ?_⟩ ⟨fun h e he => h e (hp.mem_iff.2 he), fun h e he => h e (hp.mem_iff.1 he)⟩
    · subst h'; exact hp.eq_nil
    · subst h'; exact hp.symm.eq_nil

private theorem plain_edges {f : Fold} {im : Word → Word × Word → Word} (hf : Plain u f im) (hw : g.WF)
    (h : Filter.Filters (filterOf u o ⟨none, ⟨keepAll, f⟩, ⟨none, none⟩⟩) g false g.base addr hn 0 0 0 r) :
    ∃ R, r = .ok (some R) ∧ Filter.IsFiltered g (fun m rs => rs.Perm ((g.out m).filter fun e => decide (im (g.vertex m) (e.1, g.vertex e.2) ≠ 0))) R := by
  have h1 := Filter.C29_correct hw (plain_lawful hf (.inl rfl)) rfl (fun m _ e => by rintro ⟨h1, p, h2, h3⟩; cases h2)
    (fun m _ e => by
      rintro ⟨h1, -, h3⟩
      refine h1 ?_
      rw [← h3]
      simp only [filterOf, edgeFault, plain_fold hf, Bool.false_eq_true, if_false, hf.vacuous]
      exact firstError_ok fun r hr => by
        obtain ⟨x, -, rfl⟩ := List.mem_map.1 hr
        exact ⟨_, hf.seed _ _⟩) h
  have h2 : ∀ m, Filter.fails (filterOf u o ⟨none, ⟨keepAll, f⟩, ⟨none, none⟩⟩) g m = false := fun m => rfl
  rw [h2, if_neg (by decide)] at h1
  obtain ⟨R, hR, hi⟩ := h1
  refine ⟨R, hR, hi.imp fun m _ rs hrs => ?_⟩
  have : Filter.kept (filterOf u o ⟨none, ⟨keepAll, f⟩, ⟨none, none⟩⟩) g m =
      (g.out m).filter fun e => decide (im (g.vertex m) (e.1, g.vertex e.2) ≠ 0) := by
    unfold Filter.kept
    refine List.filter_congr fun e _ => ?_
    rw [h2]
    simp [Filter.passes, filterOf, edgeTest, plain_fold hf, filterOrder, emptyOrder, Field.given, hf.vacuous, hf.seed, passing]
  rwa [← this]

private theorem mapOnly_plain : Plain u { mapOnly a with reduction := some .minimizingBop } (fun v e => u.top a v e.1 e.2) :=
  ⟨fun _ _ => rfl, fun _ _ => rfl, rfl, rfl, rfl, rfl, rfl⟩

private theorem labelOnly_plain : Plain u { noFold with bmap := some (.user a), reduction := some .minimizingBop } (fun v e => u.bop a v e.1) :=
  ⟨fun _ _ => rfl, fun _ _ => rfl, rfl, rfl, rfl, rfl, rfl⟩

/-- **C164.** With just a map of edges, the edges whose map isn't NULL remain, and the vertices that can still be reached. -/
theorem C164_edges (hw : g.WF) (h : FilteredBy u o (edgeOnly a) s g addr hn 0 0 0 r) :
    ∃ R, r = .ok (some R) ∧ Filter.IsFiltered g (fun m rs => rs.Perm ((g.out m).filter fun e => decide (u.top a (g.vertex m) e.1 (g.vertex e.2) ≠ 0))) R := by
  unfold FilteredBy at h
  rw [edgeOnly_full] at h
  exact plain_edges mapOnly_plain hw h

/-- **C164.** The same with a binary map, which is given the vertex at the start of the edge and the label. -/
theorem C164_labels (hw : g.WF) (h : FilteredBy u o (labelOnly a) s g addr hn 0 0 0 r) :
    ∃ R, r = .ok (some R) ∧ Filter.IsFiltered g (fun m rs => rs.Perm ((g.out m).filter fun e => decide (u.bop a (g.vertex m) e.1 ≠ 0))) R := by
  unfold FilteredBy at h
  rw [labelOnly_full] at h
  exact plain_edges labelOnly_plain hw h

/-- **C164.** With a map of edges and an ordering of labels but no reduction, an edge remains if the maps of all edges from its vertex with equivalent
labels aren't NULL. -/
theorem C164_classes {c : Nat} (hw : g.WF) (he : IsEquality (o.equal b)) (hh : HashRespects (o.hash a) (o.equal b))
    (h : FilteredBy u o { edgeOnly c with order := ⟨some (.user a), some (.user b)⟩ } s g addr hn 0 0 0 r) :
    ∃ R, r = .ok (some R) ∧ Filter.IsFiltered g (fun m rs => rs.Perm ((g.out m).filter fun e =>
      (g.out m).all fun d => !o.equal b e.1 d.1 || decide (u.top c (g.vertex m) d.1 (g.vertex d.2) ≠ 0))) R := by
  unfold FilteredBy at h
  rw [edgeOnly_ordered] at h
  have hf := mapOnly_plain (u := u) (a := c)
  have h0 : ∀ (m : N) (e : Word × N), e ∈ g.out m → (Filter.ends g ((g.out m).filter fun d => o.equal b e.1 d.1)) ≠ [] := by
    intro m e hm hz
    have : e ∈ (g.out m).filter fun d => o.equal b e.1 d.1 := List.mem_filter.2 ⟨hm, he.refl _⟩
    rw [List.map_eq_nil_iff.1 hz] at this
    cases this
  have h1 := Filter.C29_correct hw (plain_lawful hf (.inr ⟨a, b, rfl, he, hh⟩)) rfl (fun m _ e => by rintro ⟨h1, p, h2, h3⟩; cases h2)
    (fun m _ e => by
      rintro ⟨h1, -, h3⟩
      refine h1 ?_
      rw [← h3]
      refine firstError_ok fun r hr => ?_
      obtain ⟨x, hx, rfl⟩ := List.mem_map.1 hr
      have : (Filter.ends g (g.out m)).filter (fun y => o.equal b x.1 y.1) ≠ [] := by
        intro hz
        have : x ∈ (Filter.ends g (g.out m)).filter fun y => o.equal b x.1 y.1 := List.mem_filter.2 ⟨hx, he.refl _⟩
        rw [hz] at this
        cases this
      obtain ⟨w, h4, -⟩ := reduced_plain hf (g.vertex m) this
      exact ⟨w, h4⟩) h
  have h2 : ∀ m, Filter.fails (filterOf u o ⟨none, ⟨keepAll, { mapOnly c with reduction := some .minimizingBop }⟩, ⟨some (.user a), some (.user b)⟩⟩) g m = false :=
    fun m => rfl
  rw [h2, if_neg (by decide)] at h1
  obtain ⟨R, hR, hi⟩ := h1
  refine ⟨R, hR, hi.imp fun m _ rs hrs => ?_⟩
  have : Filter.kept (filterOf u o ⟨none, ⟨keepAll, { mapOnly c with reduction := some .minimizingBop }⟩, ⟨some (.user a), some (.user b)⟩⟩) g m =
      (g.out m).filter fun e => (g.out m).all fun d => !o.equal b e.1 d.1 || decide (u.top c (g.vertex m) d.1 (g.vertex d.2) ≠ 0) := by
    unfold Filter.kept
    refine List.filter_congr fun e hm => ?_
    rw [h2]
    change (passing (reducedEdges u _ (g.vertex m) (Filter.ends g ((g.out m).filter fun d => o.equal b e.1 d.1))) && true) = _
    rw [passing_plain hf, Bool.and_true, Bool.eq_iff_iff]
    have := h0 m e hm
    simp only [Bool.and_eq_true, List.all_eq_true, Bool.not_eq_true', List.isEmpty_eq_false_iff, Filter.ends, List.mem_map, List.mem_filter,
      decide_eq_true_eq, Bool.or_eq_true]
    refine ⟨fun h d hd => ?_, fun h => ⟨this, ?_⟩⟩
    · by_cases hx : o.equal b e.1 d.1
      · exact .inr (h.2 _ ⟨d, ⟨hd, hx⟩, rfl⟩)
      · exact .inl (by simpa using hx)
    · rintro _ ⟨d, ⟨hd, hx⟩, rfl⟩
      rcases h d hd with h | h
      · rw [hx] at h; cases h
      · exact h
  rwa [← this]

/-- **C164.** An ordering without a map of edges is inconsistent, which is reported without anything being filtered. -/
theorem C164_inconsistent : FilteredBy u o (orderOnly a b) s g addr hn 0 0 0 r ↔ r = .error INCFIL := by
  unfold FilteredBy
  rw [orderOnly_error]

/-- The map 0 is NULL for the vertex 1, the map 1 for the vertex 0, the map 2 for the label 2, and the binary map for the label 5. -/
def siftEnv : Env :=
  ⟨fun _ => 0, fun _ _ l => if l = 5 then 0 else l,
    fun k _ m _ => if k = 0 then if m = 1 then 0 else 7 else if k = 1 then m else if m = 2 then 0 else m⟩

/-- Non-vacuity of C164_vertices: without the vertex 1, two edges remain at the base. -/
example (hn : 0 < n) (addr : Nat → Nat) (s : Sig) :
    ∃ R, FilteredBy siftEnv demoOrders (vertexOnly 0) s tangle addr hn 0 0 0 (.ok (some R)) ∧ (R.out 0).Perm [(2, 2), (4, 3)] := by
  obtain ⟨r, hr⟩ := Filter.C29_exists (u := filterOf siftEnv demoOrders ⟨none, ⟨⟨{ mapOnly 0 with reduction := some .undefinedBop }, noFold, noFold⟩, noFold⟩, ⟨none, none⟩⟩)
    tangle_wf ⟨fun _ h => (by cases h), fun _ h => (by cases h), fun _ h => (by cases h), fun _ _ h => (by cases h)⟩ addr hn tangle.base
  have hr' : FilteredBy siftEnv demoOrders (vertexOnly 0) s tangle addr hn 0 0 0 r := hr
  have h := C164_vertices tangle_wf hr'
  rw [if_neg (by decide)] at h
  obtain ⟨R, rfl, hf⟩ := h
  exact ⟨R, hr', (hf.out 0 ((hf.nodes.mem 0).2 .refl)).trans (.of_eq (by decide))⟩

/-- The other case: the base doesn't pass. -/
example (hn : 0 < n) (addr : Nat → Nat) (s : Sig) : FilteredBy siftEnv demoOrders (vertexOnly 1) s tangle addr hn 0 0 0 (.ok none) := by
  obtain ⟨r, hr⟩ := Filter.C29_exists (u := filterOf siftEnv demoOrders ⟨none, ⟨⟨{ mapOnly 1 with reduction := some .undefinedBop }, noFold, noFold⟩, noFold⟩, ⟨none, none⟩⟩)
    tangle_wf ⟨fun _ h => (by cases h), fun _ h => (by cases h), fun _ h => (by cases h), fun _ _ h => (by cases h)⟩ addr hn tangle.base
  have hr' : FilteredBy siftEnv demoOrders (vertexOnly 1) s tangle addr hn 0 0 0 r := hr
  have h := C164_vertices tangle_wf hr'
  rw [if_pos (by decide)] at h
  rwa [h] at hr'

/-- Non-vacuity of C164_edges: the edge labelled 2 is deleted. -/
example (hn : 0 < n) (addr : Nat → Nat) (s : Sig) :
    ∃ R, FilteredBy siftEnv demoOrders (edgeOnly 2) s tangle addr hn 0 0 0 (.ok (some R)) ∧ (R.out 0).Perm [(5, 1), (4, 3)] := by
  obtain ⟨r, hr⟩ := Filter.C29_exists tangle_wf (plain_lawful (u := siftEnv) (o := demoOrders) (mapOnly_plain (a := 2)) (.inl rfl)) addr hn tangle.base
  have hr' : FilteredBy siftEnv demoOrders (edgeOnly 2) s tangle addr hn 0 0 0 r := hr
  obtain ⟨R, rfl, hf⟩ := C164_edges tangle_wf hr'
  exact ⟨R, hr', (hf.out 0 ((hf.nodes.mem 0).2 .refl)).trans (.of_eq (by decide))⟩

/-- Non-vacuity of C164_labels: the edge labelled 5 is deleted. -/
example (hn : 0 < n) (addr : Nat → Nat) (s : Sig) :
    ∃ R, FilteredBy siftEnv demoOrders (labelOnly 0) s tangle addr hn 0 0 0 (.ok (some R)) ∧ (R.out 0).Perm [(2, 2), (4, 3)] := by
  obtain ⟨r, hr⟩ := Filter.C29_exists tangle_wf (plain_lawful (u := siftEnv) (o := demoOrders) (labelOnly_plain (a := 0)) (.inl rfl)) addr hn tangle.base
  have hr' : FilteredBy siftEnv demoOrders (labelOnly 0) s tangle addr hn 0 0 0 r := hr
  obtain ⟨R, rfl, hf⟩ := C164_labels tangle_wf hr'
  exact ⟨R, hr', (hf.out 0 ((hf.nodes.mem 0).2 .refl)).trans (.of_eq (by decide))⟩

/-- Non-vacuity of C164_classes: if even labels are equivalent, then the edge labelled 4 is deleted as well as the one labelled 2. -/
example (hn : 0 < n) (addr : Nat → Nat) (s : Sig) :
    ∃ R, FilteredBy siftEnv demoOrders { edgeOnly 2 with order := ⟨some (.user 0), some (.user 0)⟩ } s tangle addr hn 0 0 0 (.ok (some R)) ∧
      (R.out 0).Perm [(5, 1)] := by
  have q1 : IsEquality (demoOrders.equal 0) := ⟨by simp [demoOrders], by simp [demoOrders]; omega, by simp [demoOrders]; omega⟩
  have q2 : HashRespects (demoOrders.hash 0) (demoOrders.equal 0) := by simp [HashRespects, demoOrders]
  obtain ⟨r, hr⟩ := Filter.C29_exists tangle_wf (plain_lawful (u := siftEnv) (o := demoOrders) (mapOnly_plain (a := 2)) (.inr ⟨0, 0, rfl, q1, q2⟩)) addr hn tangle.base
  have hr' : FilteredBy siftEnv demoOrders { edgeOnly 2 with order := ⟨some (.user 0), some (.user 0)⟩ } s tangle addr hn 0 0 0 r := by
    unfold FilteredBy
    rw [edgeOnly_ordered]
    exact hr
  obtain ⟨R, rfl, hf⟩ := C164_classes tangle_wf q1 q2 hr'
  exact ⟨R, hr', (hf.out 0 ((hf.nodes.mem 0).2 .refl)).trans (.of_eq (by decide))⟩

end Cru.Repl
