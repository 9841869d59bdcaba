import Verif.Proofs.Orders

/-!
# C150: the orders a graph carries along
-/

namespace Cru.Infer

/-- **C150** Whatever the history of a graph, an operation that accepts its specification hashes and compares vertices and labels only by functions that
are there, unless it has to search for the initial vertex of a zone, or is a merge. -/
theorem C150_present {r : Request} {s s' : Sig} {l : List Call} (hs : Carried s) (hr : r.FromUser) (h : perform r s = .ok (s', l))
    (hn : r.searches = false) (hm : r.merges = false) : ∀ x ∈ l, ¬ x.Missing := by
  have hd := carried_sound hs
  cases r with
  | mapreduced p search =>
    obtain ⟨a, ha, h⟩ := errorOf_bind_none h
    cases h
    cases (show search = false from hn)
    intro x hx
    cases hx
  | induced i search =>
    obtain ⟨a, ha, h⟩ := errorOf_bind_none h
    cases h
    cases (show search = false from hn)
    intro x hx
    cases hx
  | filtered f search =>
    obtain ⟨a, ha, h⟩ := errorOf_bind_none h
    cases h
    cases (show search = false from hn)
    exact filter_complete ha
  | mutated m search =>
    obtain ⟨a, ha, h⟩ := errorOf_bind_none h
    cases h
    cases (show search = false from hn)
    intro x hx
    cases hx
  | composed c => obtain ⟨a, ha, h⟩ := errorOf_bind_none h; cases h; exact composer_complete ha
  | stretched x =>
    obtain ⟨a, ha, h⟩ := errorOf_bind_none h
    cases h
    have := filled_sig hd (stretcher_sig ha)
    intro x hx
    rcases List.mem_append.1 hx with hx | hx
    · exact this.1 x hx
    · exact this.2.1 x hx
  | split x =>
    obtain ⟨a, ha, h⟩ := errorOf_bind_none h
    cases h
    exact (filled_sig hd (splitter_sig ha)).1
  | merged c => cases hm
  | deduplicated =>
    obtain ⟨a, ha, h⟩ := errorOf_bind_none h
    cases h
    have := dedup_sig ha
    rw [this.1]
    intro x hx
    rcases List.mem_append.1 hx with hx | hx
    · exact this.2.1 x hx
    · exact this.2.2 x hx
  | postponed p => obtain ⟨a, ha, h⟩ := errorOf_bind_none h; cases h; exact postponer_complete ha
  | spread b reflexive =>
    obtain ⟨a, ha, h⟩ := errorOf_bind_none h
    obtain ⟨u, hu, h⟩ := errorOf_bind_none h
    cases h
    obtain ⟨h1, h2, -⟩ := C52_builder _ _ _ ha
    intro x hx
    rcases List.mem_append.1 hx with hx | hx
    · exact rule_complete h1 hr.1 x hx
    · exact rule_complete h2 hr.2 x hx
  | partitioned c =>
    obtain ⟨a, ha, h⟩ := errorOf_bind_none h
    cases h
    cases c with
    | none => cases ha
    | some c => exact classifier_complete ha

/-- **C150** The same goes for building and crossing. -/
theorem C150_created {o : Origin} {s : Sig} {l : List Call} (ho : o.FromUser) (h : create o = .ok (s, l)) : ∀ x ∈ l, ¬ x.Missing :=
  (create_sound ho h).2

/-- **C150** The default functions are found only in graphs of scalars. -/
theorem C150_scalars {s : Sig} (hs : Carried s) :
    ((∃ x ∈ s.vOrder.calls, x.Default) → s.vFree = none) ∧ ((∃ x ∈ s.eOrder.calls, x.Default) → s.eFree = none) := by
  have hd := carried_sound hs
  constructor
  · rintro ⟨x, hx, hdef⟩
    simp only [Order.calls, List.mem_cons, List.not_mem_nil, or_false] at hx
    rcases hx with rfl | rfl
    · exact hd.vScalarHash hdef
    · exact hd.vScalarEqual hdef
  · rintro ⟨x, hx, hdef⟩
    simp only [Order.calls, List.mem_cons, List.not_mem_nil, or_false] at hx
    rcases hx with rfl | rfl
    · exact hd.eScalarHash hdef
    · exact hd.eScalarEqual hdef

/-- **C150** A search calls a missing function exactly if the graph has no equality of vertices, and then ends with internal error 1765. -/
theorem C150_search {r : Request} {s s' : Sig} {l : List Call} (hs : Carried s) (h : perform r s = .ok (s', l))
    (hn : r.searches = true) :
    ((∃ x ∈ l, x.Missing) ↔ s.vOrder.equal = none) ∧ (searchError s = some (-1765) ↔ s.vOrder.equal = none) := by
  have hd := carried_sound hs
  have he : (Call.equal s.vOrder.equal).Missing ↔ s.vOrder.equal = none :=
    ⟨fun hh => hh.resolve_right hd.vEqual, Or.inl⟩
  refine ⟨?_, ?_⟩
  · cases r with
    | mapreduced p search =>
      obtain ⟨a, ha, h⟩ := errorOf_bind_none h
      cases h
      cases (show search = true from hn)
      simpa [searchCalls] using he
    | induced i search =>
      obtain ⟨a, ha, h⟩ := errorOf_bind_none h
      cases h
      cases (show search = true from hn)
      simpa [searchCalls] using he
    | filtered f search =>
      obtain ⟨a, ha, h⟩ := errorOf_bind_none h
      cases h
      cases (show search = true from hn)
      have := filter_complete ha
      constructor
      · rintro ⟨x, hx, hm⟩
        rcases List.mem_append.1 hx with hx | hx
        · simp only [searchCalls, if_true, List.mem_cons, List.not_mem_nil, or_false] at hx
          rw [hx] at hm
          exact he.1 hm
        · exact absurd hm (this x hx)
      · intro hh
        exact ⟨.equal s.vOrder.equal, by simp [searchCalls], he.2 hh⟩
    | mutated m search =>
      obtain ⟨a, ha, h⟩ := errorOf_bind_none h
      cases h
      cases (show search = true from hn)
      simpa [searchCalls] using he
    | _ => cases hn
  · unfold searchError
    cases s.vOrder.equal <;> simp

/-- **C150** A graph has no equality of vertices after an operation only if it had none before, or if the operation is one that replaces the vertices, either
by those of classes, or by those having another destructor, and isn't given one. -/
theorem C150_lost {r : Request} {s s' : Sig} {l : List Call} (hs : Carried s) (hr : r.FromUser) (h : perform r s = .ok (s', l)) :
    s'.vOrder.equal = none ↔ lacksEquality r s := by
  have hd := carried_sound hs
  cases r with
  | mapreduced p search => obtain ⟨a, ha, h⟩ := errorOf_bind_none h; cases h; rfl
  | induced i search => obtain ⟨a, ha, h⟩ := errorOf_bind_none h; cases h; rfl
  | filtered f search => obtain ⟨a, ha, h⟩ := errorOf_bind_none h; cases h; rfl
  | mutated m search =>
    obtain ⟨a, ha, h⟩ := errorOf_bind_none h
    cases h
    rw [mutator_sig ha]
    simp only [lacksEquality, inferredSig, emptyProp_user hr.2.2.1]
    cases hb : m.kernel.vOp.blank
    · by_cases hf : m.kernel.vOp.vertex.mFree = s.vFree
      · rw [if_pos (by simp [hf])]
        cases hm : m.vOrder.equal <;> simp [allowOrder, allow, hm, hf]
      · rw [if_neg (by simp [hf])]
        simp [hf]
    · rw [if_pos (by simp)]
      cases hm : m.vOrder.equal <;> simp [allowOrder, allow, hm]
  | composed c => obtain ⟨a, ha, h⟩ := errorOf_bind_none h; cases h; rfl
  | stretched x =>
    obtain ⟨a, ha, h⟩ := errorOf_bind_none h
    cases h
    exact iff_of_false (complete_iff.1 (filled_sig hd (stretcher_sig ha)).1).2.2.1 id
  | split x =>
    obtain ⟨a, ha, h⟩ := errorOf_bind_none h
    cases h
    exact iff_of_false (complete_iff.1 (filled_sig hd (splitter_sig ha)).1).2.2.1 id
  | merged c =>
    obtain ⟨a, ha, h⟩ := errorOf_bind_none h
    cases h
    unfold inferredMerger at ha
    by_cases hc : emptyProp c.kernel.vOp ≠ emptyClassifier c.classifier
    · rw [if_pos hc] at ha; cases ha
    · rw [if_neg hc] at ha
      obtain ⟨h1, -⟩ := merger_sig ha
      rw [emptyProp_user hr.2.2.2.1] at h1
      unfold lacksEquality
      dsimp only
      rcases h1 with ⟨hb, e1, -⟩ | ⟨hb, e1⟩
      · rw [if_pos hb, e1]
      · rw [if_neg (by simp [hb]), e1]
  | deduplicated =>
    obtain ⟨a, ha, h⟩ := errorOf_bind_none h
    cases h
    rw [(dedup_sig ha).1]
    rfl
  | postponed p => obtain ⟨a, ha, h⟩ := errorOf_bind_none h; cases h; rfl
  | spread b reflexive =>
    obtain ⟨a, ha, h⟩ := errorOf_bind_none h
    obtain ⟨a, ha, h⟩ := errorOf_bind_none h
    cases h
    rfl
  | partitioned c => obtain ⟨a, ha, h⟩ := errorOf_bind_none h; cases h; rfl

/-- **C150** A fabricated graph has no equality of vertices exactly if it isn't given one, and can't take over that of the original graph, because there's none or because
the fabricator has another destructor or no function for vertices. -/
theorem C150_fabricated {a : Fabricator} {s s' : Sig} (h : fabricate a s = .ok s') :
    s'.vOrder.equal = none ↔ a.sig.vOrder.equal = none ∧ (s.vOrder.equal = none ∨ a.vFab = none ∨ a.sig.vFree ≠ none) := by
  obtain ⟨a', ha, h⟩ := errorOf_bind_none h
  cases h
  unfold inferredFabricator at ha
  obtain ⟨e, h1, ha⟩ := errorOf_bind_none ha
  obtain ⟨v, h2, ha⟩ := errorOf_bind_none ha
  cases ha
  unfold fabricatorHalf at h2
  cases hf : a.vFab <;> cases hv : a.sig.vFree <;> simp [hf, hv] at h2 <;> subst h2 <;> simp [allowOrder, allow]

/-- **C150** A merge calls no missing function exactly if the order of labels that the graph already has is complete, or if edges are reduced without being
pruned. -/
theorem C150_merge {c : Merger} {s s' : Sig} {l : List Call} (hr : (Request.merged c).FromUser)
    (h : perform (.merged c) s = .ok (s', l)) :
    (∀ x ∈ l, ¬ x.Missing) ↔ s.eOrder.Complete ∨ (c.pruner = none ∧ c.kernel.eOp.blank = false) := by
  obtain ⟨a, ha, h⟩ := errorOf_bind_none h
  cases h
  unfold inferredMerger at ha
  by_cases hc : emptyProp c.kernel.vOp ≠ emptyClassifier c.classifier
  · rw [if_pos hc] at ha; cases ha
  · rw [if_neg hc] at ha
    obtain ⟨-, h2, h3, h4⟩ := merger_sig ha
    have he : emptyFold a.1.kernel.eOp = c.kernel.eOp.blank := by
      rw [emptyFold_user hr.2.2.2.2] at h2
      rcases h2 with ⟨e1, -, -, e2⟩ | ⟨e1, -, e2⟩
      · rw [e2, emptyFold_user hr.2.2.2.2]
      · rw [e1, filled_not_empty hr.2.2.2.2 e2]
    unfold mergeCalls
    rw [h3, he]
    by_cases hp : (c.pruner.isSome || c.kernel.eOp.blank) = true
    · rw [if_pos hp]
      constructor
      · exact fun hh => .inl fun x hx => hh x (List.mem_append_right _ hx)
      · rintro (hh | ⟨e1, e2⟩)
        · intro x hx
          rcases List.mem_append.1 hx with hx | hx
          · exact h4 x hx
          · exact hh x hx
        · rw [e1, e2] at hp; cases hp
    · rw [if_neg hp, List.append_nil]
      refine iff_of_true h4 (.inr ?_)
      cases hq : c.pruner <;> cases hb : c.kernel.eOp.blank <;> simp [hq, hb] at hp ⊢

/-- **C150** The order of labels in the specification of a merge makes no difference to what is called. -/
theorem C150_merge_order {c : Merger} {o : Order} {s s₁ s₂ : Sig} {l₁ l₂ : List Call} 
    (h₁ : perform (.merged c) s = .ok (s₁, l₁)) (h₂ : perform (.merged { c with eOrder := o }) s = .ok (s₂, l₂)) : l₁ = l₂ := by
  obtain ⟨a, ha, h⟩ := errorOf_bind_none h₁
  cases h
  obtain ⟨b, hb, h⟩ := errorOf_bind_none h₂
  cases h
  unfold inferredMerger at ha hb
  by_cases hc : emptyProp c.kernel.vOp ≠ emptyClassifier c.classifier
  · rw [if_pos hc] at ha; cases ha
  · rw [if_neg hc] at ha hb
    obtain ⟨-, a2, a3, -⟩ := merger_sig ha
    obtain ⟨-, b2, b3, -⟩ := merger_sig hb
    have hcl : a.1.classifier = b.1.classifier := by
      unfold inferredMerger' at ha hb
      obtain ⟨y, hy, ha⟩ := errorOf_bind_none ha
      obtain ⟨z, hz, ha⟩ := errorOf_bind_none ha
      obtain ⟨w, hw, ha⟩ := errorOf_bind_none ha
      cases ha
      obtain ⟨y', hy', hb⟩ := errorOf_bind_none hb
      obtain ⟨z', hz', hb⟩ := errorOf_bind_none hb
      obtain ⟨w', hw', hb⟩ := errorOf_bind_none hb
      cases hb
      have e1 : z.1.classifier = z'.1.classifier := by
        rw [(edges_sig hz).2.2.1, (edges_sig hz').2.2.1, (vertices_sig hy).2.2.2.2.2.2, (vertices_sig hy').2.2.2.2.2.2]
      unfold mergerClassifier at hw hw'
      rw [e1] at hw
      obtain ⟨k, hk, hw⟩ := errorOf_bind_none hw
      obtain ⟨k', hk', hw⟩ := errorOf_bind_none hw
      cases hw
      obtain ⟨j, hj, hw'⟩ := errorOf_bind_none hw'
      obtain ⟨j', hj', hw'⟩ := errorOf_bind_none hw'
      cases hw'
      rw [hk] at hj
      cases hj
      rw [hk'] at hj'
      cases hj'
      rfl
    have he : emptyFold a.1.kernel.eOp = emptyFold b.1.kernel.eOp := by
      rcases a2 with ⟨q1, -, -, q2⟩ | ⟨q1, -, q2⟩ <;> rcases b2 with ⟨p1, -, -, p2⟩ | ⟨p1, -, p2⟩
      · rw [q2, p2]
      · rw [p1] at q1; cases q1
      · rw [p1] at q1; cases q1
      · rw [Except.ok.inj (q2.symm.trans p2)]
    simp only [mergeCalls, a3, b3, he, hcl]

/-- **C150** A builder is accepted for spreading a graph exactly if it would be accepted for building one, and the orders and destructors that it has then are
those of the graph; if only the latter fails, the error is CRU_INCSPB. -/
theorem C150_spread (b : Builder) (reflexive : Bool) (s : Sig) :
    errorOf (perform (.spread b reflexive) s) = (verdict (builderTable b reflexive)).or
      (match inferredBuilder b reflexive with
        | .ok b' => if b'.sig = s then none else some INCSPB
        | .error _ => none) := by
  rw [← C51_builder]
  cases hb : inferredBuilder b reflexive with
  | error e => simp [perform, hb, bind, Except.bind, errorOf]
  | ok b' =>
    have hi : errorOf (identical b'.sig s) = if b'.sig = s then none else some INCSPB := by
      by_cases he : b'.sig = s
      · rw [if_pos he, he]
        unfold identical
        simp [errorOf]
      · rw [if_neg he]
        cases hq : identical b'.sig s with
        | ok u => exact absurd (identical_ok hq) he
        | error e =>
          unfold identical at hq
          split_ifs at hq <;> cases hq <;> rfl
    simp only [perform, hb, bind, Except.bind]
    rw [← hi]
    cases identical b'.sig s <;> rfl

/-! ## What the manual promises -/

/-- A builder of a graph of scalars, with everything inferred. -/
def plainBuilder : Builder := ⟨some (.user 0), none, ⟨⟨none, none⟩, ⟨none, none⟩, none, none⟩⟩

/-- The signature of the graph. -/
def plainSig : Sig :=
  ⟨⟨some .scalarHash, some .equalityBpred⟩, ⟨some .scalarHash, some .equalityBpred⟩, none, none⟩

/-- A merger that puts scalar vertices together by a property, and edges by a reduction, with no orders for the results. -/
def plainMerger : Merger :=
  ⟨⟨⟨{ noFold with map := some (.user 1) }, noFold, noFold⟩, ⟨none, none⟩⟩, ⟨none, none⟩, ⟨none, none⟩,
    ⟨⟨{ noFold with reduction := some (.user 2) }, noFold, noFold⟩, { noFold with reduction := some (.user 3) }⟩, none⟩

/-- A merger that only puts vertices together, so that edges are deduplicated. -/
def vertexMerger : Merger := { plainMerger with kernel := { plainMerger.kernel with eOp := noFold } }

theorem plain_carried : Carried plainSig :=
  .created (o := .built plainBuilder true) (l := plainSig.vOrder.calls ++ plainSig.eOrder.calls)
    ⟨⟨.inl rfl, .inl rfl⟩, ⟨.inl rfl, .inl rfl⟩⟩ rfl

theorem noFold_user : noFold.FromUser := ⟨.inl rfl, .inl rfl, .inl rfl, .inl rfl, .inl rfl, .inl rfl⟩

theorem plainMerger_user : (Request.merged plainMerger).FromUser :=
  ⟨⟨.inl rfl, .inl rfl⟩, ⟨.inl rfl, .inl rfl⟩, ⟨.inl rfl, .inl rfl⟩,
    ⟨⟨.inl rfl, .inl rfl, .inr ⟨2, rfl⟩, .inl rfl, .inl rfl, .inl rfl⟩, noFold_user, noFold_user⟩,
    ⟨.inl rfl, .inl rfl, .inr ⟨3, rfl⟩, .inl rfl, .inl rfl, .inl rfl⟩⟩

theorem vertexMerger_user : (Request.merged vertexMerger).FromUser :=
  ⟨⟨.inl rfl, .inl rfl⟩, ⟨.inl rfl, .inl rfl⟩, ⟨.inl rfl, .inl rfl⟩,
    ⟨⟨.inl rfl, .inl rfl, .inr ⟨2, rfl⟩, .inl rfl, .inl rfl, .inl rfl⟩, noFold_user, noFold_user⟩, noFold_user⟩

/-- The signature after merging a graph of scalars into one of scalars. -/
def mergedSig : Sig := ⟨⟨none, none⟩, ⟨none, none⟩, none, none⟩

theorem merged_carried : Carried mergedSig :=
  .performed plain_carried plainMerger_user
    (show perform (.merged plainMerger) plainSig = .ok (mergedSig, [.hash (some .scalarHash), .equal (some .equalityBpred)]) from rfl)

/-- **C150** The manual says that default orders are inferred if a merge reduces vertices or edges to scalars.  They are not: if a graph of scalars is merged twice without
giving any orders, then the second merge calls a missing function, with internal error 876, although it is accepted; -/
theorem C150_merge_default : ∃ s l, Carried s ∧ s.eFree = none ∧ perform (.merged vertexMerger) s = .ok (s, l) ∧ (∃ x ∈ l, x.Missing) ∧
    mergeError vertexMerger s false = some (-876) :=
  ⟨mergedSig, [.hash (some .scalarHash), .equal (some .equalityBpred), .hash none, .equal none], merged_carried, rfl, rfl,
    ⟨.hash none, by simp, .inl rfl⟩, rfl⟩

/-- **C150** and a search for the initial vertex of a zone in the merged graph ends with internal error 1765. -/
theorem C150_search_default : ∃ s, Carried s ∧ s.vFree = none ∧
    (∃ l, perform (.mapreduced ⟨noFold, noFold, noFold⟩ true) s = .ok (s, l) ∧ ∃ x ∈ l, x.Missing) ∧ searchError s = some (-1765) :=
  ⟨mergedSig, merged_carried, rfl, ⟨[.equal none], rfl, .equal none, by simp, .inl rfl⟩, rfl⟩

/-- A mutation of the vertices of a graph to scalars. -/
def scalarMutator : Mutator :=
  ⟨false, false, ⟨⟨{ noFold with map := some (.user 1) }, noFold, noFold⟩, noFold⟩, ⟨none, none⟩, ⟨none, none⟩⟩

/-- **C150** Nor is a default order of vertices inferred if a mutation changes them to scalars, although the manual says so. -/
theorem C150_mutation_default : ∃ s s' l, Carried s ∧ s.vOrder.Complete ∧ (Request.mutated scalarMutator false).FromUser ∧
    perform (.mutated scalarMutator false) s = .ok (s', l) ∧ s'.vFree = none ∧ s'.vOrder = ⟨none, none⟩ := by
  refine ⟨⟨⟨some (.user 5), some (.user 6)⟩, ⟨some .scalarHash, some .equalityBpred⟩, some (.user 7), none⟩,
    ⟨⟨none, none⟩, ⟨some .scalarHash, some .equalityBpred⟩, none, none⟩, [], ?_, ?_, ?_, rfl, rfl, rfl⟩
  · exact .created (o := .built ⟨some (.user 0), none, ⟨⟨some (.user 5), some (.user 6)⟩, ⟨none, none⟩, some (.user 7), none⟩⟩ true)
      ⟨⟨.inr ⟨5, rfl⟩, .inr ⟨6, rfl⟩⟩, ⟨.inl rfl, .inl rfl⟩⟩ rfl
  · rw [complete_iff]; simp
  · exact ⟨⟨.inl rfl, .inl rfl⟩, ⟨.inl rfl, .inl rfl⟩,
      ⟨⟨.inr ⟨1, rfl⟩, .inl rfl, .inl rfl, .inl rfl, .inl rfl, .inl rfl⟩, noFold_user, noFold_user⟩, noFold_user⟩

/-- A crosser for a graph with labels that are not scalars, and no order for them, as is allowed. -/
def exCrosser : Crosser := ⟨some (.user 0), ⟨⟨none, none⟩, ⟨none, none⟩, none, some (.user 4)⟩, none, some (.user 3)⟩

/-- The signature of the crossed graph: the order of labels consists of placeholders. -/
def crossedSig : Sig :=
  ⟨⟨some .scalarHash, some .equalityBpred⟩, ⟨some .undefinedHash, some .undefinedBpred⟩, none, some (.user 4)⟩

/-- **C150** Merging a product of graphs that has no order of labels is accepted, even with a pruner and an order for it in the specification, and calls the
placeholder, with internal error 1436. -/
theorem C150_merge_crossed : ∃ c : Merger, Carried crossedSig ∧ (Request.merged c).FromUser ∧ c.eOrder.Complete ∧ c.pruner ≠ none ∧
    (∃ s' l, perform (.merged c) crossedSig = .ok (s', l) ∧ ∃ x ∈ l, x.Missing) ∧ mergeError c crossedSig false = some (-1436) := by
  refine ⟨{ vertexMerger with pruner := some (.user 8), eOrder := ⟨some (.user 9), some (.user 10)⟩ }, ?_, ?_, ?_, by simp, ?_, rfl⟩
  · exact .created (o := .crossed exCrosser) ⟨⟨.inl rfl, .inl rfl⟩, ⟨.inl rfl, .inl rfl⟩⟩ rfl
  · exact ⟨⟨.inl rfl, .inl rfl⟩, ⟨.inr ⟨9, rfl⟩, .inr ⟨10, rfl⟩⟩, vertexMerger_user.2.2⟩
  · rw [complete_iff]; simp
  · exact ⟨_, _, rfl, .hash (some .undefinedHash), by simp [mergeCalls, crossedSig, Order.calls], .inr rfl⟩

/-- C150_present applies to a graph with a history: one that is crossed, and then mutated, with an order for its labels, can be composed. -/
example : ∃ s s' l, Carried s ∧ perform (.composed ⟨none, some (.user 2), ⟨noFold, noFold, noFold⟩, ⟨noFold, noFold, noFold⟩⟩) s = .ok (s', l) ∧
    l = [.hash (some (.user 9)), .equal (some (.user 10))] := by
  refine ⟨⟨⟨some .scalarHash, some .equalityBpred⟩, ⟨some (.user 9), some (.user 10)⟩, none, some (.user 4)⟩, _, _, ?_, rfl, rfl⟩
  exact .performed (r := .mutated ⟨false, false, ⟨⟨noFold, noFold, noFold⟩, noFold⟩, ⟨none, none⟩, ⟨some (.user 9), some (.user 10)⟩⟩ false)
    (.created (o := .crossed exCrosser) ⟨⟨.inl rfl, .inl rfl⟩, ⟨.inl rfl, .inl rfl⟩⟩ (s := crossedSig) rfl)
    ⟨⟨.inl rfl, .inl rfl⟩, ⟨.inr ⟨9, rfl⟩, .inr ⟨10, rfl⟩⟩, ⟨noFold_user, noFold_user, noFold_user⟩, noFold_user⟩ rfl

/-- C150_spread: a graph with everything inferred can be spread by the builder it has been built by, and not by one with another equality of vertices. -/
example : errorOf (perform (.spread plainBuilder true) plainSig) = none ∧
    errorOf (perform (.spread ⟨some (.user 0), none, ⟨⟨none, some (.user 1)⟩, ⟨none, none⟩, none, none⟩⟩ true) plainSig) = some INCSPB :=
  ⟨rfl, rfl⟩

/-- C150_lost and C150_merge apply to a merge of the graph with everything inferred. -/
example : (∃ l, perform (.merged plainMerger) plainSig = .ok (mergedSig, l)) ∧ lacksEquality (.merged plainMerger) plainSig :=
  ⟨⟨_, rfl⟩, rfl⟩

end Cru.Infer
