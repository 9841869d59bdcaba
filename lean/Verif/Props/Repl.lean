import Verif.Proofs.Repl

/-!
# C155: what's left out of a specification

If no reduction is given, then results are the least of what's reduced, as unsigned integers, and if there's no map either, then it's the
vertices or the labels that are reduced.  If a filter has no vertex map, then a vertex is kept if and only if either of the folds over its edges yields a
result other than NULL, or no such folds are given.
-/

namespace Cru.Repl

open Infer

variable {n : Nat} {N : Type}

/-- **C155.** A fold over the edges of a vertex, given without a reduction: the result is the least of what the map makes of the edges and of the vacuous
case, if there is one. -/
theorem C155_edges (u : Env) {f f' : Fold} (hu : f.FromUser) (h : filledFold f = .ok f') (hr : f.reduction = none) (v : Word) (es : List (Word × Word)) :
    if es = [] ∧ f.vacuousCase = none then reducedEdges u f' v es = .error UNDVAC
    else ∃ w, reducedEdges u f' v es = .ok w ∧ Least (start u f ++ es.map (image u f v)) w := by
  obtain ⟨hk, h1, -, h2⟩ := C52_fold f f' hu h
  obtain ⟨hm, hf, hred⟩ := h2 hr
  have hvc := (filled h).1
  have hs : ∀ e, seed u f' v e = .ok (image u f v e) := fun e => (maps hu h v e).1
  have hn := fun e => (maps (u := u) hu h v e).2.2
  rcases hu.vacuousCase with hv | ⟨k, hv⟩
  · rcases es with _ | ⟨e, es⟩
    · rw [if_pos ⟨rfl, hv⟩]
      unfold reducedEdges
      rw [hvc, hv]
    · rw [if_neg (by simp)]
      obtain ⟨w, hw, hl⟩ := rest_least hu h hred v es (least_single (image u f v e))
      refine ⟨w, ?_, by simpa [start, hv] using hl⟩
      unfold reducedEdges
      rw [hvc, hv]
      simp only [hn e, hs e, hk.mFree, h1, hm, hf]
      exact hw
  · rw [if_neg (by simp [hv])]
    rcases es with _ | ⟨e, es⟩
    · refine ⟨u.nop k, ?_, by simpa [start, hv] using least_single _⟩
      unfold reducedEdges
      rw [hvc, hv]
      rfl
    · obtain ⟨w, hw, hl⟩ := rest_least hu h hred v (e :: es) (least_single (u.nop k))
      refine ⟨w, ?_, by simpa [start, hv] using hl⟩
      unfold reducedEdges
      rw [hvc, hv]
      simp only [hn e, Env.callNop]
      exact hw

theorem mapreduce_plain (u : Env) (g : Gr N Word Word) {p p' : Prp} (hu : p.vertex.FromUser) (h : inferredMapreducer p = .ok p')
    (hr : p.vertex.reduction = none) {f : N → Word}
    (hf : ∀ m, mappedNode u p' (g.vertex m) (Filter.ends g (g.inn m)) (Filter.ends g (g.out m)) = .ok (f m)) :
    MapReduce.Plain (mapreduceOps u p' g) (fun m => ptr (f m)) minOp ∧ (mapreduceOps u p' g).vacuous.isSome = p.vertex.vacuousCase.isSome := by
  unfold inferredMapreducer at h
  obtain ⟨q, hq, h⟩ : ∃ q, filledProp p = .ok q ∧ q = p' := by
    cases hq : filledProp p with
    | error e => rw [hq] at h; cases h
    | ok q =>
      rw [hq] at h
      refine ⟨q, rfl, ?_⟩
      simp only [bind, Except.bind] at h
      split_ifs at h
      cases h; rfl
  subst h
  have hv := (filledProp_ok hq).2.2
  have hred := ((C52_fold _ _ hu hv).2.2.2 hr).2.2
  refine ⟨⟨fun t m => ?_, fun t x y => ?_, fun x y => ?_, fun x y z => ?_⟩, ?_⟩
  · show outcome (mappedNode u q (g.vertex m) (Filter.ends g (g.inn m)) (Filter.ends g (g.out m))) = _
    rw [hf m]; rfl
  · simp only [mapreduceOps, hred]; rfl
  · unfold minOp; rw [min_comm]
  · unfold minOp; rw [word_ptr, word_ptr, min_assoc]
  · simp only [mapreduceOps, (filled hv).1, Option.isSome_map]

/-- **C155.** `cru_mapreduced` with a property without a reduction returns the least of the properties of the vertices in the zone, unless it's killed, where
`f` gives the property of each vertex, with the exceptions of C18. -/
theorem C155_mapreduced [DecidableEq N] (u : Env) (g : Gr N Word Word) {p p' : Prp} (hu : p.vertex.FromUser) (h : inferredMapreducer p = .ok p')
    (hr : p.vertex.reduction = none) {f : N → Word}
    (hf : ∀ m, mappedNode u p' (g.vertex m) (Filter.ends g (g.inn m)) (Filter.ends g (g.out m)) = .ok (f m))
    {bw stored : Bool} {hash : N → Nat} {hn : 0 < n} {initial : N}
    (h1 : MapReduce.usesSequential g stored initial n = true → p.vertex.vacuousCase = none ∧ MapReduce.IsZone g bw initial g.nodes)
    {r} (hret : MapReduce.Returns (mapreduceOps u p' g) g bw stored hash hn initial r) {ms : List N} (hz : MapReduce.IsZone g bw initial ms) :
    (∃ v, r = .ok v ∧ Least (ms.map f) (word v)) ∨ r = .error Build.intKil := by
  obtain ⟨hp, hv⟩ := mapreduce_plain u g hu h hr hf
  rcases MapReduce.C18_returns hp (fun hs => ⟨by
    have := (h1 hs).1
    rw [this] at hv
    exact Option.not_isSome_iff_eq_none.1 (by rw [hv]; simp), (h1 hs).2⟩) hret hz with ⟨v, hc, hr⟩ | hr
  · refine .inl ⟨v, hr, ?_⟩
    have := combined_least _ hc
    simpa [Function.comp_def, word_ptr] using this
  · exact .inr hr

/-- **C155.** `cru_mapreduced` with nothing specified returns the least vertex in the zone, unless it's killed. -/
theorem C155_nothing [DecidableEq N] (u : Env) (g : Gr N Word Word) {bw stored : Bool} {hash : N → Nat} {hn : 0 < n} {initial : N} :
    ∃ p', inferredMapreducer nothing = .ok p' ∧
      ((MapReduce.usesSequential g stored initial n = true → MapReduce.IsZone g bw initial g.nodes) →
      ∀ {r}, MapReduce.Returns (mapreduceOps u p' g) g bw stored hash hn initial r → ∀ {ms : List N}, MapReduce.IsZone g bw initial ms →
      (∃ v, r = .ok v ∧ Least (ms.map g.vertex) (word v)) ∨ r = .error Build.intKil) := by
  refine ⟨_, rfl, fun h1 r hr ms hz => ?_⟩
  refine C155_mapreduced u g (p := nothing) ⟨.inl rfl, .inl rfl, .inl rfl, .inl rfl, .inl rfl, .inl rfl⟩ rfl rfl (f := g.vertex) (fun m => rfl) (fun hs => ⟨rfl, h1 hs⟩) hr hz

/-! ## Filters -/

theorem around_yields {u : Env} {f : Fold} {v w : Word} {es : List (Word × Word)} (h : around u f v es = .ok w) :
    yields u f v es = decide (w ≠ 0) := by
  unfold around at h
  unfold yields
  by_cases he : emptyFold f = true
  · rw [if_pos he] at h
    cases h
    rw [he]; rfl
  · rw [if_neg he] at h
    rw [h, Bool.not_eq_true _ |>.mp he]; rfl

/-- The vertex test inferred. -/
theorem filter_vertices {p p' : Prp} (hv : p.vertex = noFold) (h : filterVertices none p = .ok p') :
    p'.vertex.bmap = none ∧ p'.vertex.map = some .disjoiningTop ∧ emptyProp p' = (emptyFold p'.incident && emptyFold p'.outgoing) := by
  obtain ⟨pv, pi, po⟩ := p
  simp only at hv
  subst hv
  unfold filterVertices at h
  simp only [Option.isSome_none, Bool.false_and, Bool.false_eq_true, if_false, noFold, allow, Option.or] at h
  split_ifs at h with he
  · cases h
    exact ⟨rfl, rfl, by simp [emptyProp] at he ⊢; simp [emptyFold, Field.given]⟩
  · obtain ⟨h1, h2, h3⟩ := filledProp_ok h
    simp only [filledFold, fillMap, fillReduction, fillFrees, allow, Field.given, bind, Except.bind] at h3
    simp at h3
    obtain ⟨qv, qi, qo⟩ := p'
    simp only at h3
    subst h3
    exact ⟨rfl, rfl, by simp [emptyProp, emptyFold, Field.given]⟩

theorem fails_wanted {u : Env} {p p' : Prp} (hv : p.vertex = noFold) (h : filterVertices none p = .ok p')
    {F : Filter.Filter Word Word} (hF : F.probe = probe u p') (g : Gr N Word Word) (m : N)
    (hm : ∃ w, mappedNode u p' (g.vertex m) (Filter.ends g (g.inn m)) (Filter.ends g (g.out m)) = .ok w) :
    Filter.fails F g m = !wanted u p' g m := by
  obtain ⟨hb, ht, he⟩ := filter_vertices hv h
  unfold Filter.fails
  by_cases hc : emptyProp p' = true
  · rw [hF, probe, if_pos hc]
    unfold wanted
    rw [← he, hc]; rfl
  · have hp : F.probe = _ := hF.trans (by rw [probe, if_neg hc])
    rw [hp]
    simp only [Option.any_some]
    unfold wanted
    rw [← he, Bool.not_eq_true _ |>.mp hc]
    obtain ⟨w, hw⟩ := hm
    rw [hw]
    unfold mappedNode at hw
    rw [hb, ht] at hw
    simp only [Option.isNone_some, Bool.false_and, Bool.false_eq_true, if_false, bind, Except.bind] at hw
    cases hi : around u p'.incident (g.vertex m) (Filter.ends g (g.inn m)) with
    | error e => rw [hi] at hw; cases hw
    | ok i =>
      cases ho : around u p'.outgoing (g.vertex m) (Filter.ends g (g.out m)) with
      | error e => rw [hi, ho] at hw; cases hw
      | ok o =>
        rw [hi, ho] at hw
        rw [around_yields hi, around_yields ho]
        have hw : disjoiningTop i (g.vertex m) o = w := by
          simpa [Env.callTop, pure, Except.pure] using hw
        subst hw
        unfold disjoiningTop
        by_cases h0 : i = 0
        · rw [if_neg (not_not.2 h0)]; simp [h0]
        · rw [if_pos h0]; simp only [h0, ne_eq, not_false_eq_true, decide_true, decide_false, Bool.true_or, Bool.or_true, Bool.not_true]

/-- **C155.** `cru_filtered` with neither a vertex map nor a thinner, where `F` is the filter with the vertex test inferred from `p`, and with any edge test:
if a graph is returned, then it has the vertices and edges reachable by way of passing edges to vertices for which at least one of the folds yields something other
than NULL, or no folds are given. -/
theorem C155_filtered [DecidableEq N] {u : Env} {p p' : Prp} (hv : p.vertex = noFold) (h : filterVertices none p = .ok p')
    {F : Filter.Filter Word Word} (hF : F.probe = probe u p') (ht : F.thinner = none) (hl : F.Lawful) {g R : Gr N Word Word} (hw : g.WF)
    (hm : ∀ m ∈ g.nodes, ∃ w, mappedNode u p' (g.vertex m) (Filter.ends g (g.inn m)) (Filter.ends g (g.out m)) = .ok w)
    {initial : N} {addr : N → Nat} {hn : 0 < n} (hr : Filter.Filters F g false initial addr hn 0 0 0 (.ok (some R))) :
    wanted u p' g g.base = true ∧
    Filter.IsFiltered g (fun m rs => rs.Perm ((g.out m).filter fun e => Filter.passes F g m e && wanted u p' g e.2)) R := by
  obtain ⟨h1, h2⟩ := Filter.C29_filtered hw hl ht hr
  have hb : g.base ∈ g.nodes := (hw.reach _).2 .refl
  refine ⟨by rw [fails_wanted hv h hF g _ (hm _ hb)] at h1; simpa using h1, h2.imp fun m hmR rs hrs => ?_⟩
  have hmg := (Filter.C29_pass hw hl ht hr hmR).2.1
  have : Filter.kept F g m = (g.out m).filter fun e => Filter.passes F g m e && wanted u p' g e.2 := by
    unfold Filter.kept
    refine List.filter_congr fun e he => ?_
    have : e.2 ∈ g.nodes := by
      rw [hw.reach] at hmg ⊢
      exact hmg.tail (List.mem_map.2 ⟨e, he, rfl⟩)
    rw [fails_wanted hv h hF g _ (hm _ this), Bool.not_not]
  rw [← this]
  exact hrs

/-- **C155.** The whole graph is deleted if and only if the base vertex isn't wanted. -/
theorem C155_deleted [DecidableEq N] {u : Env} {p p' : Prp} (hv : p.vertex = noFold) (h : filterVertices none p = .ok p')
    {F : Filter.Filter Word Word} (hF : F.probe = probe u p') (ht : F.thinner = none) (hl : F.Lawful) {g : Gr N Word Word} (hw : g.WF)
    (hm : ∀ m ∈ g.nodes, ∃ w, mappedNode u p' (g.vertex m) (Filter.ends g (g.inn m)) (Filter.ends g (g.out m)) = .ok w)
    (he : ∀ m ∈ g.nodes, ∀ e, ¬ Filter.EdgeError F g m e)
    {initial : N} {addr : N → Nat} {hn : 0 < n} {r} (hr : Filter.Filters F g false initial addr hn 0 0 0 r) :
    r = .ok none ∧ wanted u p' g g.base = false ∨ wanted u p' g g.base = true ∧ ∃ R, r = .ok (some R) := by
  have hb : g.base ∈ g.nodes := (hw.reach _).2 .refl
  have hf := fails_wanted hv h hF g _ (hm _ hb)
  have := Filter.C29_correct hw hl ht (fun m hmg e hpe => ?_) he hr
  · rw [hf] at this
    cases hwt : wanted u p' g g.base with
    | false => rw [hwt] at this; exact .inl ⟨this, rfl⟩
    | true =>
      rw [hwt] at this
      obtain ⟨R, hR, -⟩ := this
      exact .inr ⟨rfl, R, hR⟩
  · obtain ⟨h0, q, hq, h2⟩ := hpe
    rw [hF, probe] at hq
    split_ifs at hq
    cases hq
    obtain ⟨w, hw⟩ := hm m hmg
    dsimp only at h2
    rw [hw] at h2
    exact h0 h2.symm

/-! ## Demonstrations -/

/-- **C155.** If there's a fold over incoming edges without a vacuous case, and a vertex without incoming edges, then no graph is returned. -/
theorem C155_undefined [DecidableEq N] {u : Env} {p p' : Prp} (hv : p.vertex = noFold) (h : filterVertices none p = .ok p')
    {F : Filter.Filter Word Word} (hF : F.probe = probe u p') (ht : F.thinner = none) {g R : Gr N Word Word} (hw : g.WF)
    (hi : emptyFold p'.incident = false) (hz : p'.incident.vacuousCase = none) {m : N} (hm : m ∈ g.nodes) (he : g.inn m = [])
    {initial : N} {addr : N → Nat} {hn : 0 < n} : ¬ Filter.Filters F g false initial addr hn 0 0 0 (.ok (some R)) := by
  intro hr
  obtain ⟨-, h2, h3⟩ := filter_vertices hv h
  have h4 : mappedNode u p' (g.vertex m) (Filter.ends g (g.inn m)) (Filter.ends g (g.out m)) = .error UNDVAC := by
    unfold mappedNode around
    rw [h2, hi, he]
    simp only [Filter.ends, List.map_nil, Option.isNone_some, Bool.false_and, Bool.false_eq_true, if_false, reducedEdges, hz]
    rfl
  have h5 : ∃ q, F.probe = some q ∧ (q (g.vertex m) (Filter.ends g (g.inn m)) (Filter.ends g (g.out m))).2 = UNDVAC := by
    rw [hF, probe, if_neg (by rw [h3, hi]; simp)]
    refine ⟨_, rfl, ?_⟩
    rw [h4]
  exact (Filter.C29_error_reported hw ht hr UNDVAC).1 m hm ⟨by decide, h5⟩


/-- Functions of the user: the fifth ternary operator returns the label, and the vacuous case is NULL. -/
def demoEnv : Env := ⟨fun _ => 0, fun _ x _ => x, fun _ _ m _ => m⟩

/-- Vertices 7, 3, 9 with edges labelled 5 from 7 to 3, 0 from 7 to 9 and 4 from 3 to 7. -/
def demo : Gr Nat Word Word where
  nodes := [0, 1, 2]
  base := 0
  vertex m := match m with
    | 0 => 7
    | 1 => 3
    | _ => 9
  out m := match m with
    | 0 => [(5, 1), (0, 2)]
    | 1 => [(4, 0)]
    | _ => []
  inn m := match m with
    | 0 => [(4, 1)]
    | 1 => [(5, 0)]
    | 2 => [(0, 0)]
    | _ => []

theorem demo_wf : demo.WF := by
  refine ⟨by decide, fun m => ⟨fun h => ?_, fun h => ?_⟩⟩
  · have : m = 0 ∨ m = 1 ∨ m = 2 := by simpa [demo] using h
    rcases this with rfl | rfl | rfl
    · exact .refl
    · exact .single (by decide)
    · exact .single (by decide)
  · change Reaches _ 0 m at h
    change m ∈ [0, 1, 2]
    induction h with
    | refl => decide
    | tail _ hb ih =>
      rename_i a c _
      have ha : a = 0 ∨ a = 1 ∨ a = 2 := by simpa using ih
      rcases ha with rfl | rfl | rfl <;> simp [demo, Gr.next] at hb ⊢ <;> omega

theorem demo_zone : MapReduce.IsZone demo false 0 [0, 1, 2] := ⟨by decide, demo_wf.reach⟩

theorem demo_least : Least (List.map demo.vertex [0, 1, 2]) 3 := by
  refine ⟨List.mem_cons_of_mem _ (List.mem_cons_self ..), fun x hx => ?_⟩
  have : x = 7 ∨ x = 3 ∨ x = 9 := by simpa [demo] using hx
  rcases this with rfl | rfl | rfl <;> decide

/-- Non-vacuity of `C155_nothing` and `C155_mapreduced`: on two lanes there's an execution in which 3 is returned. -/
example : ∃ p', inferredMapreducer nothing = .ok p' ∧
    ∃ v, MapReduce.Returns (mapreduceOps demoEnv p' demo) demo false false id (show 0 < 2 by decide) 0 (.ok v) ∧ word v = 3 := by
  refine ⟨_, rfl, ?_⟩
  obtain ⟨s, hs, hk, r, made, freed, ho⟩ := (MapReduce.C18_terminates (mapreduceOps demoEnv _ demo) id (show 0 < 2 by decide) demo_zone).2
  obtain ⟨hp, -⟩ := mapreduce_plain demoEnv demo (p := nothing) ⟨.inl rfl, .inl rfl, .inl rfl, .inl rfl, .inl rfl, .inl rfl⟩ rfl rfl
    (f := demo.vertex) (fun m => rfl)
  obtain ⟨v, hc, hr⟩ := (MapReduce.C18_concurrent hp hs ho demo_zone).1 hk
  subst hr
  refine ⟨v, ?_, least_unique (by simpa [Function.comp_def, word_ptr] using combined_least _ hc) demo_least⟩
  rw [MapReduce.Returns, if_neg (by decide)]
  exact ⟨s, _, _, hs, ho⟩

/-- Non-vacuity of `C155_edges`: the least label is found if there's only a vacuous case given. -/
example : (∃ f', filledFold { noFold with vacuousCase := some (.user 0) } = .ok f') ∧
    filledFold noFold = .ok { noFold with map := some .identityTop, reduction := some .minimizingBop } ∧
    reducedEdges demoEnv { noFold with map := some .identityTop, reduction := some .minimizingBop } 7 [(5, 1), (4, 2), (6, 3)] = .ok 4 :=
  ⟨⟨_, rfl⟩, rfl, by decide⟩

/-- A vertex test with a fold over incoming edges and no vertex map. -/
def demoProp : Prp := ⟨noFold, { noFold with map := some (.user 5), vacuousCase := some (.user 0) }, noFold⟩

/-- What's inferred from it. -/
def demoFull : Prp :=
  ⟨{ noFold with map := some .disjoiningTop, reduction := some .undefinedBop },
    { noFold with map := some (.user 5), reduction := some .minimizingBop, vacuousCase := some (.user 0) }, noFold⟩

/-- The filter with this vertex test. -/
def demoFilter : Filter.Filter Word Word := ⟨probe demoEnv demoFull, none, none, none, fun _ _ => 0⟩

/-- Non-vacuity of `C155_filtered` and `C155_deleted`. -/
example : filterVertices none demoProp = .ok demoFull ∧
    (∀ m ∈ demo.nodes, ∃ w, mappedNode demoEnv demoFull (demo.vertex m) (Filter.ends demo (demo.inn m)) (Filter.ends demo (demo.out m)) = .ok w) ∧
    demoFilter.Lawful ∧ ∃ r, Filter.Filters demoFilter demo false 0 id (show 0 < 2 by decide) 0 0 0 r := by
  have hl : demoFilter.Lawful :=
    ⟨fun _ h => (by cases h), fun _ h => (by cases h), fun _ h => (by cases h), fun _ _ h => (by cases h)⟩
  refine ⟨rfl, fun m hm => ?_, hl, Filter.C29_exists demo_wf hl _ _ _⟩
  have : m = 0 ∨ m = 1 ∨ m = 2 := by simpa [demo] using hm
  rcases this with rfl | rfl | rfl <;> exact ⟨_, rfl⟩

/-- A vertex with an edge to another. -/
def pair : Gr Nat Word Word := ⟨[0, 1], 0, fun _ => 1, fun m => if m = 0 then [(2, 1)] else [], fun m => if m = 1 then [(2, 0)] else []⟩

theorem pair_wf : pair.WF := by
  refine ⟨by decide, fun m => ⟨fun h => ?_, fun h => ?_⟩⟩
  · have : m = 0 ∨ m = 1 := by simpa [pair] using h
    rcases this with rfl | rfl
    · exact .refl
    · exact .single (by decide)
  · induction h with
    | refl => decide
    | tail _ hb ih =>
      rename_i a c _
      have ha : a = 0 ∨ a = 1 := by simpa [pair] using ih
      rcases ha with rfl | rfl <;> simp [pair, Gr.next] at hb ⊢ <;> omega

/-- Non-vacuity of `C155_undefined`: the base of `pair` has no incoming edges. -/
example : ∃ p', filterVertices none ⟨noFold, { noFold with map := some (.user 5) }, noFold⟩ = .ok p' ∧
    (∃ r, Filter.Filters ⟨probe demoEnv p', none, none, none, fun _ _ => 0⟩ pair false 0 id (show 0 < 2 by decide) 0 0 0 r) ∧
    ∀ R, ¬ Filter.Filters ⟨probe demoEnv p', none, none, none, fun _ _ => 0⟩ pair false 0 id (show 0 < 2 by decide) 0 0 0 (.ok (some R)) := by
  refine ⟨_, rfl, Filter.C29_exists pair_wf ⟨fun _ h => (by cases h), fun _ h => (by cases h), fun _ h => (by cases h), fun _ _ h => (by cases h)⟩ _ _ _, fun R => ?_⟩
  exact C155_undefined (p := ⟨noFold, { noFold with map := some (.user 5) }, noFold⟩) rfl rfl rfl rfl pair_wf rfl rfl (m := 0) (by decide) rfl

end Cru.Repl
