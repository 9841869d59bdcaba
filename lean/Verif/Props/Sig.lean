import Verif.Props.Infer

/-!
# Signatures of modified graphs (C52, continued)

The destructors and orders of a graph after it is mutated, merged or fabricated, and the default tests of a filter.
-/

namespace Cru.Infer

theorem allow_eq (x y : Field) : allow x y = firstGiven [x, y] := by cases x <;> cases y <;> rfl

/-- A given map survives. -/
theorem filledFold_map {f f' : Fold} {g : Fn} (hm : f.map = some g) (h : filledFold f = .ok f') : f'.map = some g := by
  obtain ⟨map, bmap, red, vac, rf, mf⟩ := f
  cases hm
  unfold filledFold fillMap fillReduction fillFrees at h
  cases bmap <;> cases red <;> cases rf <;> cases mf <;>
    simp [bind, Except.bind, allow] at h <;>
    first | done | (subst h; rfl) | (split_ifs at h <;> cases h <;> rfl) | (subst h; split_ifs <;> rfl)

private theorem mutator_sig {m m' : Mutator} {s s' : Sig} (h : inferredMutator m s = .ok (m', s')) :
    s' = inferredSig s m.vOrder m.eOrder m.kernel := by
  unfold inferredMutator at h
  simp only [throw, throwThe, MonadExceptOf.throw] at h
  by_cases h1 : (m.localFirst && m.remoteFirst) = true
  · rw [if_pos h1] at h; cases h
  · rw [if_neg h1] at h
    by_cases h2 : emptyProp m.kernel.vOp = true
    · rw [if_pos h2] at h
      obtain ⟨a, -, h⟩ := errorOf_bind_none h
      cases h; rfl
    · rw [if_neg h2] at h
      split at h
      · cases h
      · obtain ⟨v, -, h⟩ := errorOf_bind_none h
        obtain ⟨a, -, h⟩ := errorOf_bind_none h
        cases h; rfl

/-- **C52** cru_mutated: labels keep their destructor and complete the given order with theirs unless the mutation has a
different destructor, and there are scalar defaults for those without one. -/
theorem C52_mutator_edges (m m' : Mutator) (s s' : Sig) (he : m.kernel.eOp.FromUser) (h : inferredMutator m s = .ok (m', s'))
    (same : Bool) (hs : same = true ↔ m.kernel.eOp.blank = true ∨ m.kernel.eOp.mFree = s.eFree) :
    s'.eFree = (if same then s.eFree else m.kernel.eOp.mFree) ∧
      s'.eOrder.hash = firstGiven
        [m.eOrder.hash, candidate same s.eOrder.hash, candidate s'.eFree.isNone (some .scalarHash)] ∧
      s'.eOrder.equal = firstGiven
        [m.eOrder.equal, candidate same s.eOrder.equal, candidate s'.eFree.isNone (some .equalityBpred)] := by
  have e := mutator_sig h
  subst e
  have hc : (emptyFold m.kernel.eOp || decide (m.kernel.eOp.mFree = s.eFree)) = same := by
    rw [emptyFold_user he, Bool.eq_iff_iff, hs]; simp
  simp only [inferredSig]
  have hc' : ((emptyFold m.kernel.eOp || m.kernel.eOp.mFree = s.eFree) = true) ↔ same = true := by rw [← hc]
  cases same with
  | true =>
    rw [if_pos (hc'.2 rfl)]
    obtain ⟨⟨h1, h2⟩, ⟨h3, h4⟩, vf, ef⟩ := s
    rcases m.eOrder with ⟨a, b⟩
    cases ef <;> cases a <;> cases b <;> cases h3 <;> cases h4 <;> exact ⟨rfl, rfl, rfl⟩
  | false =>
    rw [if_neg (fun k => by cases hc'.1 k)]
    rcases m.eOrder with ⟨a, b⟩
    cases hf : m.kernel.eOp.mFree <;> cases a <;> cases b <;> exact ⟨rfl, rfl, rfl⟩

/-- **C52** cru_mutated: likewise for vertices, but without scalar defaults. -/
theorem C52_mutator_vertices (m m' : Mutator) (s s' : Sig) (hv : m.kernel.vOp.FromUser) (h : inferredMutator m s = .ok (m', s'))
    (same : Bool) (hs : same = true ↔ m.kernel.vOp.blank = true ∨ m.kernel.vOp.vertex.mFree = s.vFree) :
    s'.vFree = (if same then s.vFree else m.kernel.vOp.vertex.mFree) ∧
      s'.vOrder.hash = firstGiven [m.vOrder.hash, candidate same s.vOrder.hash] ∧
      s'.vOrder.equal = firstGiven [m.vOrder.equal, candidate same s.vOrder.equal] := by
  have e := mutator_sig h
  subst e
  have hc : (emptyProp m.kernel.vOp || decide (m.kernel.vOp.vertex.mFree = s.vFree)) = same := by
    rw [emptyProp_user hv, Bool.eq_iff_iff, hs]; simp
  simp only [inferredSig]
  have hc' : ((emptyProp m.kernel.vOp || m.kernel.vOp.vertex.mFree = s.vFree) = true) ↔ same = true := by rw [← hc]
  cases same with
  | true =>
    rw [if_pos (hc'.2 rfl)]
    obtain ⟨⟨h1, h2⟩, ⟨h3, h4⟩, vf, ef⟩ := s
    rcases m.vOrder with ⟨a, b⟩
    cases a <;> cases b <;> cases h1 <;> cases h2 <;> exact ⟨rfl, rfl, rfl⟩
  | false =>
    rw [if_neg (fun k => by cases hc'.1 k)]
    rcases m.vOrder with ⟨a, b⟩
    cases a <;> cases b <;> exact ⟨rfl, rfl, rfl⟩

private theorem merger_parts {c c' : Merger} {s s' : Sig} (h : inferredMerger c s = .ok (c', s')) :
    ∃ x y, mergerVertices c s = .ok x ∧ mergerEdges x.1 x.2 = .ok y ∧ s' = y.2 := by
  unfold inferredMerger at h
  split at h
  · cases h
  · unfold inferredMerger' at h
    obtain ⟨x, hx, h⟩ := errorOf_bind_none h
    obtain ⟨y, hy, h⟩ := errorOf_bind_none h
    obtain ⟨z, -, h⟩ := errorOf_bind_none h
    cases h
    exact ⟨x, y, hx, hy, rfl⟩

private theorem mergerEdges_vertices {c : Merger} {s : Sig} {y : Merger × Sig} (h : mergerEdges c s = .ok y) :
    y.2.vFree = s.vFree ∧ y.2.vOrder = s.vOrder := by
  unfold mergerEdges at h
  obtain ⟨x, hx, h⟩ := errorOf_bind_none h
  have e : y.2 = x.2 := by
    split at h
    · cases h; rfl
    · obtain ⟨u, -, h⟩ := errorOf_bind_none h
      cases h; rfl
  rw [e]
  split at hx
  · cases hx; exact ⟨rfl, rfl⟩
  · obtain ⟨f, -, hx⟩ := errorOf_bind_none hx
    cases hx; exact ⟨rfl, rfl⟩

/-- **C52** cru_merged: vertices take the destructor of the reduction and the order of the merger if they are merged by a
property, and otherwise keep theirs. -/
theorem C52_merger_vertices (c c' : Merger) (s s' : Sig) (hv : c.kernel.vOp.FromUser) (h : inferredMerger c s = .ok (c', s')) :
    s'.vFree = (if c.kernel.vOp.blank then s.vFree else c.kernel.vOp.vertex.rFree) ∧
      s'.vOrder = (if c.kernel.vOp.blank then s.vOrder else c.vOrder) := by
  obtain ⟨x, y, hx, hy, rfl⟩ := merger_parts h
  rw [(mergerEdges_vertices hy).1, (mergerEdges_vertices hy).2]
  unfold mergerVertices at hx
  rw [emptyProp_user hv] at hx
  split at hx
  · next hb => cases hx; rw [if_pos hb, if_pos hb]; exact ⟨rfl, rfl⟩
  · next hb =>
    obtain ⟨v, hv', hx⟩ := errorOf_bind_none hx
    cases hx
    rw [if_neg hb, if_neg hb]
    obtain ⟨-, -, hf⟩ := filledProp_ok hv'
    exact ⟨(C52_fold _ _ hv.1 hf).2.1, rfl⟩

/-- **C52** cru_merged: likewise for labels. -/
theorem C52_merger_edges (c c' : Merger) (s s' : Sig) (he : c.kernel.eOp.FromUser) (h : inferredMerger c s = .ok (c', s')) :
    s'.eFree = (if c.kernel.eOp.blank then s.eFree else c.kernel.eOp.rFree) ∧
      s'.eOrder = (if c.kernel.eOp.blank then s.eOrder else c.eOrder) := by
  obtain ⟨x, y, hx, hy, rfl⟩ := merger_parts h
  have hk : x.1.kernel.eOp = c.kernel.eOp ∧ x.1.eOrder = c.eOrder ∧ x.2.eFree = s.eFree ∧ x.2.eOrder = s.eOrder := by
    unfold mergerVertices at hx
    split at hx
    · cases hx; exact ⟨rfl, rfl, rfl, rfl⟩
    · obtain ⟨v, -, hx⟩ := errorOf_bind_none hx
      cases hx; exact ⟨rfl, rfl, rfl, rfl⟩
  obtain ⟨k1, k2, k3, k4⟩ := hk
  unfold mergerEdges at hy
  obtain ⟨z, hz, hy⟩ := errorOf_bind_none hy
  have e : y.2 = z.2 := by
    split at hy
    · cases hy; rfl
    · obtain ⟨u, -, hy⟩ := errorOf_bind_none hy
      cases hy; rfl
  rw [e]
  rw [k1, emptyFold_user he] at hz
  split at hz
  · next hb => cases hz; rw [if_pos hb, if_pos hb]; exact ⟨k3, k4⟩
  · next hb =>
    obtain ⟨f, hf, hz⟩ := errorOf_bind_none hz
    cases hz
    rw [if_neg hb, if_neg hb]
    exact ⟨(C52_fold _ _ he hf).2.1, k2⟩

/-- What becomes of a destructor and an order in a fabricated graph: those of the fabricator if it has a destructor, and
otherwise, if it has a function to make something, completed by those of the original. -/
def FabricatorRule (fab free : Field) (o : Order) (free₀ : Field) (o₀ : Order) (fab' free' : Field) (o' : Order) : Prop :=
  fab' = firstGiven [fab, some .identityUop] ∧ free' = firstGiven [free, candidate fab.isSome free₀] ∧
    o'.hash = firstGiven [o.hash, candidate (fab.isSome && free.isNone) o₀.hash] ∧
    o'.equal = firstGiven [o.equal, candidate (fab.isSome && free.isNone) o₀.equal]

private theorem fabricatorHalf_rule {code : Int} {fab free : Field} {o : Order} {free₀ : Field} {o₀ : Order}
    {r : Field × Field × Order} (h : fabricatorHalf code fab free o free₀ o₀ = .ok r) :
    FabricatorRule fab free o free₀ o₀ r.1 r.2.1 r.2.2 := by
  obtain ⟨a, b⟩ := o
  obtain ⟨a', b'⟩ := o₀
  unfold fabricatorHalf at h
  cases fab <;> cases free <;> simp at h <;> subst h <;> cases a <;> cases b <;> cases a' <;> cases b' <;> cases free₀ <;>
    exact ⟨rfl, rfl, rfl, rfl⟩

/-- **C52** cru_fabricated. -/
theorem C52_fabricator (a a' : Fabricator) (s : Sig) (h : inferredFabricator a s = .ok a') :
    FabricatorRule a.vFab a.sig.vFree a.sig.vOrder s.vFree s.vOrder a'.vFab a'.sig.vFree a'.sig.vOrder ∧
      FabricatorRule a.eFab a.sig.eFree a.sig.eOrder s.eFree s.eOrder a'.eFab a'.sig.eFree a'.sig.eOrder := by
  unfold inferredFabricator at h
  obtain ⟨e, he, h⟩ := errorOf_bind_none h
  obtain ⟨v, hv, h⟩ := errorOf_bind_none h
  cases h
  exact ⟨fabricatorHalf_rule hv, fabricatorHalf_rule he⟩

/-- **C52** cru_filtered: the default test of a vertex is always false if only a thinner is given, and otherwise that of a
vertex connected to any others kept. -/
theorem C52_filter_vertices (f f' : Filter) (s : Sig) (hv : f.kernel.vOp.FromUser) (h : inferredFilter f s = .ok f') :
    f'.kernel.vOp.vertex.map = firstGiven [f.kernel.vOp.vertex.map,
      candidate (f.thinner.isSome && f.kernel.vOp.blank) (some .falseTop), some .disjoiningTop] := by
  unfold inferredFilter at h
  obtain ⟨v, hv', h⟩ := errorOf_bind_none h
  obtain ⟨e, -, h⟩ := errorOf_bind_none h
  cases h
  change v.vertex.map = _
  unfold filterVertices at hv'
  rw [emptyProp_user hv] at hv'
  generalize hg : firstGiven [f.kernel.vOp.vertex.map,
      candidate (f.thinner.isSome && f.kernel.vOp.blank) (some .falseTop), some .disjoiningTop] = g
  have hm : allow (if (f.thinner.isSome && f.kernel.vOp.blank) = true then allow f.kernel.vOp.vertex.map (some .falseTop)
      else f.kernel.vOp.vertex.map) (some .disjoiningTop) = g := by
    rw [← hg]
    cases f.kernel.vOp.vertex.map <;> cases (f.thinner.isSome && f.kernel.vOp.blank) <;> rfl
  have hsome : ∃ x, g = some x := by
    rw [← hg]
    cases f.kernel.vOp.vertex.map <;> cases (f.thinner.isSome && f.kernel.vOp.blank) <;> exact ⟨_, rfl⟩
  obtain ⟨x, rfl⟩ := hsome
  simp only [hm] at hv'
  split at hv'
  · cases hv'; rfl
  · obtain ⟨-, -, k⟩ := filledProp_ok hv'
    exact filledFold_map rfl k

/-- **C52** cru_filtered: a thinner without a test of edges goes with one that is always true, so that edges are removed only
by thinning. -/
theorem C52_filter_thinner (f f' : Filter) (s : Sig) (he : f.kernel.eOp.FromUser) (ht : f.thinner.isSome = true)
    (hb : f.kernel.eOp.blank = true) (h : inferredFilter f s = .ok f') : f'.kernel.eOp.map = some .trueTop := by
  unfold inferredFilter at h
  obtain ⟨v, -, h⟩ := errorOf_bind_none h
  obtain ⟨e, he', h⟩ := errorOf_bind_none h
  cases h
  change e.1.map = _
  unfold filterEdges at he'
  rw [Fold.eq_of_blank hb] at he'
  have h1 : emptyFold noFold = true := rfl
  have h2 : emptyFold { noFold with map := allow noFold.map (some .trueTop) } = false := rfl
  simp only [h1, ht, Bool.and_true, if_true] at he'
  have key : ∀ {a b : Fold}, a.map = some .trueTop → filledUnlessEmpty a = .ok b → b.map = some .trueTop := by
    intro a b ha hab
    unfold filledUnlessEmpty at hab
    split at hab
    · cases hab; exact ha
    · exact filledFold_map ha hab
  split at he'
  · obtain ⟨a, ha, he'⟩ := errorOf_bind_none he'
    cases he'
    exact key rfl ha
  · obtain ⟨u, -, he'⟩ := errorOf_bind_none he'
    rw [if_neg (by rw [h2]; exact Bool.false_ne_true)] at he'
    obtain ⟨a, ha, he'⟩ := errorOf_bind_none he'
    obtain ⟨b, hb, he'⟩ := errorOf_bind_none he'
    cases he'
    exact key (filledFold_map rfl ha) hb

/-- **C52** cru_filtered: a given order is completed by that of the graph, then by the scalar default for labels without a
destructor; one not given is not. -/
theorem C52_filter_order (f f' : Filter) (s : Sig) (ho : f.order.FromUser) (h : inferredFilter f s = .ok f') :
    f'.order = if f.order.blank then f.order else
      ⟨firstGiven [f.order.hash, s.eOrder.hash, candidate s.eFree.isNone (some .scalarHash)],
        firstGiven [f.order.equal, s.eOrder.equal, candidate s.eFree.isNone (some .equalityBpred)]⟩ := by
  unfold inferredFilter at h
  obtain ⟨v, -, h⟩ := errorOf_bind_none h
  obtain ⟨e, he', h⟩ := errorOf_bind_none h
  cases h
  change e.2 = _
  unfold filterEdges at he'
  simp only at he'
  rw [emptyOrder_user ho] at he'
  split at he'
  · next hb =>
    obtain ⟨a, ha, he'⟩ := errorOf_bind_none he'
    cases he'
    rw [if_pos hb]
  · next hb =>
    rw [if_neg hb]
    obtain ⟨u, -, he'⟩ := errorOf_bind_none he'
    generalize (if (f.thinner.isSome && emptyFold f.kernel.eOp) = true then
      { f.kernel.eOp with map := allow f.kernel.eOp.map (some .trueTop) } else f.kernel.eOp : Fold) = g at he'
    by_cases hg : emptyFold g = true
    · rw [if_pos hg] at he'; cases he'
    · rw [if_neg hg] at he'
      obtain ⟨w, -, he'⟩ := errorOf_bind_none he'
      obtain ⟨a, ha, he'⟩ := errorOf_bind_none he'
      cases he'
      obtain ⟨⟨h1, h2⟩, ⟨h3, h4⟩, vf, ef⟩ := s
      obtain ⟨t, k, ⟨a, b⟩⟩ := f
      cases ef <;> cases a <;> cases b <;> cases h3 <;> cases h4 <;> rfl

/-! ## Cases meeting the hypotheses -/

/-- Labels become objects with destructor 7, so neither the order nor the default for the old scalar labels applies. -/
example : ∃ m', inferredMutator
    ⟨false, false, ⟨⟨noFold, noFold, noFold⟩, { noFold with map := some (.user 1), mFree := some (.user 7), rFree := some (.user 7) }⟩,
      ⟨none, none⟩, ⟨some (.user 2), none⟩⟩ ⟨⟨none, none⟩, ⟨some (.user 3), some (.user 4)⟩, none, none⟩ =
    .ok (m', ⟨⟨none, none⟩, ⟨some (.user 2), none⟩, none, some (.user 7)⟩) := by
  refine ⟨_, rfl⟩

/-- Vertices with destructor 5 are fabricated with the same destructor, and labels are copied. -/
example : inferredFabricator ⟨some (.user 1), none, ⟨⟨some (.user 2), none⟩, ⟨none, none⟩, none, none⟩⟩
    ⟨⟨some (.user 3), some (.user 4)⟩, ⟨none, none⟩, some (.user 5), some (.user 6)⟩ =
    .ok ⟨some (.user 1), some .identityUop, ⟨⟨some (.user 2), some (.user 4)⟩, ⟨none, none⟩, some (.user 5), none⟩⟩ := rfl

/-- A thinner on its own. -/
example : ∃ f', inferredFilter ⟨some (.user 1), ⟨⟨noFold, noFold, noFold⟩, noFold⟩, ⟨none, none⟩⟩
    ⟨⟨none, none⟩, ⟨none, none⟩, none, none⟩ = .ok f' ∧ f'.kernel.vOp.vertex.map = some .falseTop ∧
      f'.kernel.eOp.map = some .trueTop := ⟨_, rfl, rfl, rfl⟩

/-- Labels merged by a reduction with its own destructor. -/
example : ∃ c', inferredMerger ⟨⟨⟨noFold, noFold, noFold⟩, ⟨none, none⟩⟩, ⟨none, none⟩, ⟨some (.user 1), some (.user 2)⟩,
    ⟨⟨noFold, noFold, noFold⟩, ⟨some (.user 3), none, some (.user 4), none, some (.user 5), some (.user 5)⟩⟩, none⟩
    ⟨⟨some (.user 6), some (.user 7)⟩, ⟨none, none⟩, none, none⟩ =
    .ok (c', ⟨⟨some (.user 6), some (.user 7)⟩, ⟨some (.user 1), some (.user 2)⟩, none, some (.user 5)⟩) := ⟨_, rfl⟩

end Cru.Infer
