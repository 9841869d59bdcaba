import Verif.Proofs.Calls

/-!
# C153: accepted specifications never make the library call a missing function or a placeholder
-/

namespace Cru.Infer

/-- A step that's fine, or the error about classes without an operation on vertices. -/
def Allowed (r : Request) (st : Step) : Prop := st.Fine ∨ (st = .raise (-1144) ∧ r.Classless)

theorem optional_fine {f : Field} (h : f = none ∨ Present f) : ∀ st ∈ optional f, st.Fine := by
  intro st hst
  unfold optional at hst
  rcases h with rfl | h
  · cases hst
  · rw [if_pos h.isSome.2] at hst
    rw [List.mem_singleton.1 hst]; exact h

theorem prp_user {p : Prp} {l : List Fold} (h : ∀ f ∈ l, f.FromUser) (hs : ∀ f ∈ p.folds, f ∈ l) : p.FromUser :=
  ⟨h _ (hs _ (by simp [Prp.folds])), h _ (hs _ (by simp [Prp.folds])), h _ (hs _ (by simp [Prp.folds]))⟩

theorem calls_fine {fs : List Field} (h : ∀ f ∈ fs, Present f) : ∀ st ∈ fs.map Step.call, st.Fine := by
  intro st hst
  obtain ⟨f, hf, rfl⟩ := List.mem_map.1 hst
  exact h f hf

theorem does_mapreduced {p : Prp} {x : Bool} {s : Sig} {l : List Step} (hg : (Request.mapreduced p x).Given)
    (h : (Request.mapreduced p x).Does s l) : ∀ st ∈ l, st.Fine := by
  obtain ⟨p', hp, h⟩ := h
  have hu : p.FromUser := prp_user hg.1.1 (fun _ h => h)
  obtain ⟨q, hq, hp⟩ := errorOf_bind_none hp
  have hr := (ready hu.mild hq).1
  have hv := usable hu.vertex.clear (filledProp_ok hq).2.2
  by_cases hf : q.vertex.mFree = q.vertex.rFree
  · rw [if_pos hf] at hp
    cases hp
    rcases h with rfl | ⟨ds, -, rfl⟩ | ⟨d, rfl⟩
    · exact fun st hst => (vacuous_fine hr.vertex.toMild st hst).1
    · exact nodes_fine hr hv.reduction ds
    · intro st hst
      unfold mapreduceSteps at hst
      rw [if_neg (by simp [hv.reduction.isSome.1]), if_neg (by simpa using hf)] at hst
      rcases List.mem_append.1 hst with hst | hst
      · exact (node_fine hr d st hst).1
      · rw [List.mem_singleton.1 hst]; exact hv.reduction
  · rw [if_neg hf] at hp; cases hp

theorem induced_usable {i i' : Inducer} (hu : i.fold.FromUser) (hm : i.fold.map ≠ none) (h : inferredInducer i = .ok i') :
    Usable i'.fold ∧ i'.boundaryValue = i.boundaryValue := by
  unfold inferredInducer at h
  by_cases h1 : (i.boundaryValue.isNone && i.fold.vacuousCase.isNone) = true
  · rw [if_pos h1] at h; cases h
  rw [if_neg h1] at h
  obtain ⟨f, hf, h⟩ := errorOf_bind_none h
  cases h
  obtain ⟨g, hmap⟩ := Option.ne_none_iff_exists'.1 hm
  have e : (if i.fold.map.isNone then { i.fold with reduction := allow i.fold.reduction (some .undefinedBop) } else i.fold) = i.fold := by
    rw [if_neg (by rw [hmap]; simp)]
  dsimp only at hf
  rw [e] at hf
  refine ⟨usable ?_ hf, rfl⟩
  have := hu.clear
  exact ⟨⟨by simpa [allow, hmap] using this.map, this.bmap, this.vacuous⟩, this.reduction⟩

theorem does_induced {i : Inducer} {x : Bool} {s : Sig} {l : List Step} (hg : (Request.induced i x).Given) (hm : i.fold.map ≠ none)
    (h : (Request.induced i x).Does s l) : ∀ st ∈ l, st.Fine := by
  obtain ⟨i', hi, h⟩ := h
  obtain ⟨hu, hb⟩ := induced_usable (hg.1.1 _ (List.mem_singleton.2 rfl)) hm hi
  rcases h with rfl | ⟨k, rfl⟩
  · exact fun st hst => (vacuous_fine hu.toMild st hst).1
  · intro st hst
    unfold induceSteps at hst
    split_ifs at hst with hk
    · rw [List.mem_singleton.1 hst]
      refine present_of ?_ (by simpa using Option.isSome_iff_ne_none.1 hk.2)
      rw [hb]
      exact (hg.2 _ (List.mem_singleton.2 rfl)).present
    · exact (edges_fine hu k st hst).1

theorem does_filtered {f : Filter} {x : Bool} {s : Sig} {l : List Step} (hg : (Request.filtered f x).Given)
    (h : (Request.filtered f x).Does s l) : ∀ st ∈ l, st.Fine := by
  obtain ⟨f', hf, h⟩ := h
  have hv : f.kernel.vOp.FromUser := prp_user hg.1.1 (fun _ h => by simp only [Request.folds, Kernel.folds, List.mem_append]; exact .inl h)
  have he : f.kernel.eOp.FromUser := hg.1.1 _ (by simp [Request.folds, Kernel.folds])
  obtain ⟨v, h1, hf⟩ := errorOf_bind_none hf
  obtain ⟨e, h2, hf⟩ := errorOf_bind_none hf
  cases hf
  rcases h with ⟨d, rfl⟩ | ⟨k, rfl⟩ | rfl
  · intro st hst
    unfold deletableSteps at hst
    dsimp only at hst
    rcases filled_vertices hv h1 with hx | hx
    · rw [if_pos hx] at hst; cases hst
    · split_ifs at hst
      · cases hst
      · exact (node_fine hx d st hst).1
  · intro st hst
    unfold bucketSteps at hst
    dsimp only at hst
    rcases filled_edges he h2 with ⟨hx, ht⟩ | hx
    · rw [if_pos (by simp [hx, ht])] at hst; cases hst
    · split_ifs at hst
      · cases hst
      · obtain ⟨y, rfl, hy⟩ := edge_calls hx.toMapping _ st hst
        exact hy
      · exact (edges_fine hx _ st hst).1
  · exact optional_fine (hg.2 _ (List.mem_singleton.2 rfl)).present

/-- Mutations call functions only. -/
theorem does_mutated {m : Mutator} {x : Bool} {s : Sig} {l : List Step} (hg : (Request.mutated m x).Supplied)
    (h : (Request.mutated m x).Does s l) : ∀ st ∈ l, ∃ y, st = .call y ∧ Present y := by
  obtain ⟨m', s', hm, h⟩ := h
  have hv : m.kernel.vOp.FromUser := prp_user hg.1 (fun _ h => by simp only [Request.folds, Kernel.folds, List.mem_append]; exact .inl h)
  have he : m.kernel.eOp.FromUser := hg.1 _ (by simp [Request.folds, Kernel.folds])
  have key : (emptyProp m'.kernel.vOp = true ∨ Ready m'.kernel.vOp ∧ m'.kernel.vOp.Covered) ∧ (emptyFold m'.kernel.eOp = true ∨ Mapping m'.kernel.eOp) := by
    unfold inferredMutator at hm
    dsimp only at hm
    by_cases h1 : (m.localFirst && m.remoteFirst) = true
    · rw [if_pos h1] at hm; cases hm
    rw [if_neg h1] at hm
    by_cases h2 : emptyProp m.kernel.vOp = true
    · simp only [h2, if_true] at hm
      obtain ⟨q, hq, hm⟩ := errorOf_bind_none hm
      cases hm
      obtain ⟨a, b, -⟩ := mutator_edges he hq
      exact ⟨.inl (by rw [a]; exact h2), b⟩
    · rw [if_neg h2] at hm
      by_cases h3 : (!m.remoteFirst && !m.localFirst &&
          (!(emptyFold m.kernel.eOp) || looksAround m.kernel.vOp.incident || looksAround m.kernel.vOp.outgoing)) = true
      · rw [if_pos h3] at hm; cases hm
      · rw [if_neg h3] at hm
        obtain ⟨v, hv', hm⟩ := errorOf_bind_none hm
        obtain ⟨q, hq, hm⟩ := errorOf_bind_none hm
        cases hm
        obtain ⟨a, b, c⟩ := mutator_edges (m := { m with kernel := { m.kernel with vOp := v } }) he hq
        exact ⟨.inr ⟨by rw [a]; exact (ready_map hv.mild hv').1, by rw [a]; exact c⟩, b⟩
  rcases h with ⟨d, rfl⟩ | rfl
  · intro st hst
    unfold mutateSteps at hst
    split_ifs at hst with hx
    · cases hst
    · obtain ⟨hr, hc⟩ := key.1.resolve_left hx
      obtain ⟨h1, h2⟩ := node_fine hr d st hst
      obtain ⟨y, rfl⟩ := h2 hc
      exact ⟨y, rfl, h1⟩
  · intro st hst
    unfold mutateEdgeSteps at hst
    split_ifs at hst with hx
    · cases hst
    · exact edge_calls (key.2.resolve_left hx) _ st hst

theorem does_composed {c : Composer} {s : Sig} {l : List Step} (hg : (Request.composed c).Given)
    (h : (Request.composed c).Does s l) : ∀ st ∈ l, st.Fine := by
  obtain ⟨c', hc, h⟩ := h
  have h1 : c.loc.FromUser := prp_user hg.1.1 (fun _ h => by simp only [Request.folds, List.mem_append]; exact .inl h)
  have h2 : c.adjacent.FromUser := prp_user hg.1.1 (fun _ h => by simp only [Request.folds, List.mem_append]; exact .inr h)
  obtain ⟨_, _, hc⟩ := errorOf_bind_none hc
  dsimp only at hc
  by_cases hq : (if s.eFree.isNone = true then allow c.qop (some .identityQop) else c.qop).isNone = true
  · rw [if_pos hq] at hc; cases hc
  rw [if_neg hq] at hc
  obtain ⟨a, ha, hc⟩ := errorOf_bind_none hc
  obtain ⟨b, hb, hc⟩ := errorOf_bind_none hc
  cases hc
  rcases h with ⟨d, rfl⟩ | ⟨d, rfl⟩ | rfl
  · exact fun st hst => (node_fine (ready_map h1.mild hb).1 d st hst).1
  · exact fun st hst => (node_fine (ready_map h2.mild ha).1 d st hst).1
  · refine calls_fine (fs := [_, _]) ?_
    intro f hf
    simp only [List.mem_cons, List.not_mem_nil, or_false] at hf
    rcases hf with rfl | rfl
    · exact present_allow (hg.2 _ (by simp [Request.others])).present rfl
    · exact present_of (present_if (hg.2 _ (by simp [Request.others])) rfl) hq

theorem does_stretched {x : Stretcher} {s : Sig} {l : List Step} (hg : (Request.stretched x).Given)
    (h : (Request.stretched x).Does s l) : ∀ st ∈ l, st.Fine := by
  obtain ⟨x', s', hx, h⟩ := h
  have h1 : x.prop.FromUser := prp_user hg.1.1 (fun _ h => h)
  obtain ⟨_, _, hx⟩ := errorOf_bind_none hx
  obtain ⟨p, hp, hx⟩ := errorOf_bind_none hx
  by_cases hn : x.expander.isNone = true
  · rw [if_pos hn] at hx; cases hx
  rw [if_neg hn] at hx
  cases hx
  rcases h with ⟨d, rfl⟩ | rfl
  · exact fun st hst => (node_fine (ready_map h1.mild hp).1 d st hst).1
  · refine calls_fine (fs := [_]) ?_
    intro f hf
    rw [List.mem_singleton.1 hf]
    exact present_of (hg.2 _ (by simp [Request.others])).present hn

theorem does_split {x : Splitter} {s : Sig} {l : List Step} (hg : (Request.split x).Given)
    (h : (Request.split x).Does s l) : ∀ st ∈ l, st.Fine := by
  obtain ⟨x', s', hx, h⟩ := h
  have h1 : x.prop.FromUser := prp_user hg.1.1 (fun _ h => h)
  obtain ⟨s1, _, hx⟩ := errorOf_bind_none hx
  obtain ⟨p, hp, hx⟩ := errorOf_bind_none hx
  dsimp only at hx
  by_cases ha : (if s1.vFree.isNone = true then allow x.ana (some .identityBop) else x.ana).isNone = true
  · rw [if_pos ha] at hx; cases hx
  rw [if_neg ha] at hx
  by_cases hc : (if s1.vFree.isNone = true then allow x.cata (some .identityBop) else x.cata).isNone = true
  · rw [if_pos hc] at hx; cases hx
  rw [if_neg hc] at hx
  obtain ⟨ia, e1, hx⟩ := errorOf_bind_none hx
  obtain ⟨ic, e2, hx⟩ := errorOf_bind_none hx
  obtain ⟨oa, e3, hx⟩ := errorOf_bind_none hx
  obtain ⟨oc, e4, hx⟩ := errorOf_bind_none hx
  cases hx
  rcases h with ⟨d, rfl⟩ | rfl | ⟨c, hm, rfl⟩
  · exact fun st hst => (node_fine (ready_map h1.mild hp).1 d st hst).1
  · refine calls_fine (fs := [_, _, _]) ?_
    intro f hf
    simp only [List.mem_cons, List.not_mem_nil, or_false] at hf
    rcases hf with rfl | rfl | rfl
    · exact present_allow (hg.2 _ (by simp [Request.others])).present rfl
    · exact present_of (present_if (hg.2 _ (by simp [Request.others])) rfl) hc
    · exact present_of (present_if (hg.2 _ (by simp [Request.others])) rfl) ha
  · refine calls_fine (fs := [_, _]) ?_
    have : Present c.tpred ∧ Present c.top := by
      simp only [List.mem_cons, List.not_mem_nil, or_false] at hm
      rcases hm with rfl | rfl | rfl | rfl
      · exact ctop_present (hg.2 _ (by simp [Request.others])) (hg.2 _ (by simp [Request.others])) e1
      · exact ctop_present (hg.2 _ (by simp [Request.others])) (hg.2 _ (by simp [Request.others])) e2
      · exact ctop_present (hg.2 _ (by simp [Request.others])) (hg.2 _ (by simp [Request.others])) e3
      · exact ctop_present (hg.2 _ (by simp [Request.others])) (hg.2 _ (by simp [Request.others])) e4
    intro f hf
    simp only [List.mem_cons, List.not_mem_nil, or_false] at hf
    rcases hf with rfl | rfl
    · exact this.1
    · exact this.2

theorem merger_parts {c c' : Merger} {s s' : Sig} (hg : (Request.merged c).Given) (h : inferredMerger c s = .ok (c', s')) :
    Ready c'.classifier.prop ∧ (emptyFold c'.kernel.eOp = true ∨ Usable c'.kernel.eOp) ∧ c'.pruner = c.pruner ∧
    ((Ready c'.kernel.vOp ∧ Present c'.kernel.vOp.vertex.reduction) ∨
      (Request.merged c).Classless ∧ c'.kernel.vOp.vertex.map = some .undefinedTop) := by
  have hk : c.classifier.prop.FromUser := prp_user hg.1.1 (fun _ h => by simp only [Request.folds, List.mem_append]; exact .inl h)
  have hv : c.kernel.vOp.FromUser := prp_user hg.1.1 (fun _ h => by simp only [Request.folds, Kernel.folds, List.mem_append]; exact .inr (.inl h))
  have he : c.kernel.eOp.FromUser := hg.1.1 _ (by simp [Request.folds, Kernel.folds])
  unfold inferredMerger at h
  by_cases hi : emptyProp c.kernel.vOp ≠ emptyClassifier c.classifier
  · rw [if_pos hi] at h; cases h
  rw [if_neg hi] at h
  push Not at hi
  obtain ⟨⟨c1, s1⟩, h1, h⟩ := errorOf_bind_none h
  obtain ⟨⟨c2, s2⟩, h2, h⟩ := errorOf_bind_none h
  obtain ⟨c3, h3, h⟩ := errorOf_bind_none h
  cases h
  dsimp only at h2 h3
  -- vertices
  have v : c1.classifier = c.classifier ∧ c1.kernel.eOp = c.kernel.eOp ∧ c1.pruner = c.pruner ∧
      ((Ready c1.kernel.vOp ∧ Present c1.kernel.vOp.vertex.reduction) ∨
        (Request.merged c).Classless ∧ c1.kernel.vOp.vertex.map = some .undefinedTop) := by
    unfold mergerVertices at h1
    by_cases hx : emptyProp c.kernel.vOp = true
    · rw [if_pos hx] at h1
      cases h1
      refine ⟨rfl, rfl, rfl, .inr ?_⟩
      have hb : c.kernel.vOp.blank = true := by
        simpa only [Prp.blank, emptyProp, emptyFold_user hv.vertex, emptyFold_user hv.incident, emptyFold_user hv.outgoing] using hx
      have hc : c.classifier.blank = true := by
        rw [hi] at hx
        simpa only [Classifier.blank, Prp.blank, emptyClassifier, emptyProp, emptyFold_user hk.vertex, emptyFold_user hk.incident, emptyFold_user hk.outgoing,
          emptyOrder_user hg.1.2] using hx
      refine ⟨⟨hc, hb⟩, ?_⟩
      have : c.kernel.vOp.vertex.map = none := by
        simp only [Prp.blank, Fold.blank, Bool.and_eq_true] at hb
        simpa using hb.1.1.1.1.1.1.1
      dsimp only
      rw [this]; rfl
    · rw [if_neg hx] at h1
      obtain ⟨w, hw, h1⟩ := errorOf_bind_none h1
      cases h1
      exact ⟨rfl, rfl, rfl, .inl ⟨(ready hv.mild hw).1, (usable hv.vertex.clear (filledProp_ok hw).2.2).reduction⟩⟩
  -- edges
  have e : c2.classifier = c1.classifier ∧ c2.kernel.vOp = c1.kernel.vOp ∧ c2.pruner = c1.pruner ∧
      (emptyFold c2.kernel.eOp = true ∨ Usable c2.kernel.eOp) := by
    unfold mergerEdges at h2
    obtain ⟨y, hy, h2⟩ := errorOf_bind_none h2
    have : y.1.classifier = c1.classifier ∧ y.1.kernel.vOp = c1.kernel.vOp ∧ y.1.pruner = c1.pruner ∧
        (emptyFold y.1.kernel.eOp = true ∨ Usable y.1.kernel.eOp) := by
      by_cases hx : emptyFold c1.kernel.eOp = true
      · rw [if_pos hx] at hy; cases hy; exact ⟨rfl, rfl, rfl, .inl hx⟩
      · rw [if_neg hx] at hy
        obtain ⟨w, hw, hy⟩ := errorOf_bind_none hy
        cases hy
        exact ⟨rfl, rfl, rfl, .inr (usable (by rw [v.2.1]; exact he.clear) hw)⟩
    by_cases hp : y.1.pruner.isNone = true
    · rw [if_pos hp] at h2; cases h2; exact this
    · rw [if_neg hp] at h2
      obtain ⟨_, _, h2⟩ := errorOf_bind_none h2
      cases h2; exact this
  -- classifier
  unfold mergerClassifier at h3
  obtain ⟨k, hk1, h3⟩ := errorOf_bind_none h3
  obtain ⟨k', hk2, h3⟩ := errorOf_bind_none h3
  cases h3
  have hcl : c2.classifier = c.classifier := e.1.trans v.1
  refine ⟨ready_class ?_ hk2, e.2.2.2, e.2.2.1.trans v.2.2.1, by dsimp only; rw [e.2.1]; exact v.2.2.2⟩
  rw [hcl] at hk1
  by_cases hx : emptyClassifier c.classifier = true
  · rw [if_pos hx] at hk1
    obtain ⟨q, hq, hk1⟩ := errorOf_bind_none hk1
    cases hk1
    exact (ready_map hk.mild hq).2.1
  · rw [if_neg hx] at hk1
    cases hk1
    exact hk.mild

theorem does_merged {c : Merger} {s : Sig} {l : List Step} (hg : (Request.merged c).Given)
    (h : (Request.merged c).Does s l) : ∀ st ∈ l, Allowed (.merged c) st := by
  obtain ⟨c', s', hc, h⟩ := h
  obtain ⟨h1, h2, h3, h4⟩ := merger_parts hg hc
  rcases h with ⟨d, rfl⟩ | ⟨ds, -, rfl⟩ | ⟨k, rfl⟩ | rfl
  · exact fun st hst => .inl (node_fine h1 d st hst).1
  · intro st hst
    unfold classSteps at hst
    rcases h4 with ⟨h4, h5⟩ | ⟨h4, h5⟩
    · by_cases hm : c'.kernel.vOp.vertex.map ≠ some .undefinedTop
      · rw [if_pos hm] at hst; exact .inl (nodes_fine h4 h5 ds st hst)
      · exfalso
        push Not at hm
        rcases h4.vertex.map with hn | ⟨g, hn, hr⟩
        · rw [hm] at hn; cases hn
        · rw [hm] at hn; cases hn; cases hr
    · rw [if_neg (by simp [h5])] at hst
      split_ifs at hst
      · exact .inr ⟨List.mem_singleton.1 hst, h4⟩
      · cases hst
  · intro st hst
    unfold fuseSteps at hst
    split_ifs at hst with hx
    · cases hst
    · exact .inl (edges_fine (h2.resolve_left hx) _ st hst).1
  · intro st hst
    rw [h3] at hst
    exact .inl (optional_fine (hg.2 _ (List.mem_singleton.2 rfl)).present st hst)

theorem connect_fine {b b' : Builder} {x : Bool} (h1 : FromUser b.connector) (h2 : FromUser b.subconnector) (h : inferredBuilder b x = .ok b') :
    ∀ st ∈ connectSteps b', st.Fine := by
  have e : b'.connector = b.connector ∧ b'.subconnector = b.subconnector ∧ ¬ (b.connector.isNone = b.subconnector.isNone) := by
    unfold inferredBuilder at h
    by_cases ha : (b.subconnector.isNone && b.connector.isNone) = true
    · rw [if_pos ha] at h; cases h
    rw [if_neg ha] at h
    by_cases hb : (b.connector.isSome && b.subconnector.isSome) = true
    · simp only [hb, if_true] at h; cases h
    simp only [hb] at h
    obtain ⟨_, _, h⟩ := errorOf_bind_none h
    obtain ⟨_, _, h⟩ := errorOf_bind_none h
    have hne : ¬ (b.connector.isNone = b.subconnector.isNone) := by
      cases hc : b.connector <;> cases hd : b.subconnector <;> simp_all
    cases x
    · cases h
    · cases h
      exact ⟨rfl, rfl, hne⟩
  obtain ⟨e1, e2, e3⟩ := e
  intro st hst
  unfold connectSteps at hst
  rw [e1, e2, if_neg e3] at hst
  by_cases hc : b.connector.isSome = true
  · rw [if_pos hc] at hst
    rw [List.mem_singleton.1 hst]
    exact present_of h1.present (by simpa using Option.isSome_iff_ne_none.1 hc)
  · rw [if_neg hc] at hst
    rw [List.mem_singleton.1 hst]
    refine present_of h2.present fun hd => e3 ?_
    rw [hd]; simpa using hc

theorem does_postponed {p : Postponer} {s : Sig} {l : List Step} (hg : (Request.postponed p).Given)
    (h : (Request.postponed p).Does s l) : ∀ st ∈ l, st.Fine := by
  obtain ⟨p', s', hp, h⟩ := h
  unfold inferredPostponer at hp
  dsimp only at hp
  obtain ⟨_, _, hp⟩ := errorOf_bind_none hp
  by_cases h1 : p.postponable.isNone = true
  · rw [if_pos h1] at hp; cases hp
  rw [if_neg h1] at hp
  by_cases h2 : (if s.eFree.isNone = true then allow p.bop (some .identityBop) else p.bop).isNone = true
  · simp only [h2, if_true] at hp; cases hp
  rw [if_neg h2] at hp
  cases hp
  rcases h with rfl | rfl
  · refine calls_fine (fs := [_]) ?_
    intro f hf
    rw [List.mem_singleton.1 hf]
    exact present_of (hg.2 _ (by simp [Request.others])).present h1
  · refine calls_fine (fs := [_, _]) ?_
    intro f hf
    simp only [List.mem_cons, List.not_mem_nil, or_false] at hf
    rcases hf with rfl | rfl
    · exact present_allow (hg.2 _ (by simp [Request.others])).present rfl
    · exact present_of (present_if (hg.2 _ (by simp [Request.others])) rfl) h2

theorem does_partitioned {c : Option Classifier} {s : Sig} {l : List Step} (hg : (Request.partitioned c).Given)
    (h : (Request.partitioned c).Does s l) : ∀ st ∈ l, st.Fine := by
  obtain ⟨c', hc, d, rfl⟩ := h
  cases c with
  | none => cases hc
  | some c =>
    have hu : c.prop.FromUser := prp_user hg.1.1 (fun _ h => h)
    exact fun st hst => (node_fine (ready_class hu.mild hc) d st hst).1

/-! ## The property -/

/-- **C153**: whenever an operation accepts a specification made of functions of the user, every function it calls in its tasks is there and isn't a
placeholder, and the only error raised instead is that of a missing vacuous case.  The exceptions are inductions without a map, which are in
`C153_mapless`, and one error of mergers that have neither a classifier nor an operation on vertices. -/
theorem C153_present (r : Request) (s : Sig) (l : List Step) (hg : r.Given) (hm : ¬ r.Mapless) (h : r.Does s l) :
    ∀ st ∈ l, (∃ f, st = .call f ∧ Present f) ∨ st = .raise UNDVAC ∨ (st = .raise (-1144) ∧ r.Classless) := by
  have key : ∀ st ∈ l, Allowed r st := by
    cases r with
    | mapreduced p x => exact fun st hst => .inl (does_mapreduced hg h st hst)
    | induced i x => exact fun st hst => .inl (does_induced hg hm h st hst)
    | filtered f x => exact fun st hst => .inl (does_filtered hg h st hst)
    | mutated m x =>
      intro st hst
      obtain ⟨y, rfl, hy⟩ := does_mutated hg.1 h st hst
      exact .inl hy
    | composed c => exact fun st hst => .inl (does_composed hg h st hst)
    | stretched x => exact fun st hst => .inl (does_stretched hg h st hst)
    | split x => exact fun st hst => .inl (does_split hg h st hst)
    | merged c => exact does_merged hg h
    | deduplicated => exact h.elim
    | postponed p => exact fun st hst => .inl (does_postponed hg h st hst)
    | spread b x =>
      obtain ⟨b', hb, rfl⟩ := h
      exact fun st hst => .inl (connect_fine (hg.2 _ (by simp [Request.others])) (hg.2 _ (by simp [Request.others])) hb st hst)
    | partitioned c => exact fun st hst => .inl (does_partitioned hg h st hst)
  intro st hst
  rcases key st hst with hf | hf
  · cases st with
    | call f => exact .inl ⟨f, rfl, hf⟩
    | raise e => exact .inr (.inl (congrArg _ hf))
  · exact .inr (.inr hf)

/-- Mutations don't even run into a missing vacuous case. -/
theorem C153_mutated (m : Mutator) (x : Bool) (s : Sig) (l : List Step) (hg : (Request.mutated m x).Given) (h : (Request.mutated m x).Does s l) :
    ∀ st ∈ l, ∃ f, st = .call f ∧ Present f := does_mutated hg.1 h

/-- The same for operations by which graphs are made. -/
theorem C153_created (o : Origin) (l : List Step) (hu : ∀ f ∈ o.others, FromUser f) (h : o.Does l) : ∀ st ∈ l, ∃ f, st = .call f ∧ Present f := by
  have done : ∀ st : Step, st.Fine → st.IsCall → ∃ f, st = .call f ∧ Present f := by
    intro st h1 h2
    cases st with
    | call f => exact ⟨f, rfl, h1⟩
    | raise e => exact h2.elim
  cases o with
  | built b x =>
    obtain ⟨b', hb, rfl⟩ := h
    intro st hst
    have hf := connect_fine (hu _ (by simp [Origin.others])) (hu _ (by simp [Origin.others])) hb st hst
    refine done st hf ?_
    unfold connectSteps at hst
    split_ifs at hst
    · rw [List.mem_singleton.1 hst] at hf; exact absurd hf (show ¬ ((-589 : Int) = UNDVAC) by decide)
    · rw [List.mem_singleton.1 hst]; trivial
    · rw [List.mem_singleton.1 hst]; trivial
  | crossed c =>
    obtain ⟨c', hc, h⟩ := h
    unfold inferredCrosser at hc
    by_cases h1 : c.vProd.isNone = true
    · rw [if_pos h1] at hc; cases hc
    rw [if_neg h1] at hc
    by_cases h2 : c.bop.isNone = true
    · simp only [h2, if_true] at hc; cases hc
    simp only [h2] at hc
    obtain ⟨_, _, hc⟩ := errorOf_bind_none hc
    cases hc
    rcases h with rfl | rfl
    · intro st hst
      exact ⟨_, List.mem_singleton.1 hst, present_of (hu _ (by simp [Origin.others])).present h1⟩
    · intro st hst
      simp only [List.mem_cons, List.not_mem_nil, or_false] at hst
      rcases hst with rfl | rfl
      · exact ⟨_, rfl, present_allow (hu _ (by simp [Origin.others])).present rfl⟩
      · exact ⟨_, rfl, present_of (hu _ (by simp [Origin.others])).present h2⟩

/-- The same for the fabrication of graphs. -/
theorem C153_fabricated (a : Fabricator) (s : Sig) (l : List Step) (h1 : FromUser a.vFab) (h2 : FromUser a.eFab) (h : fabricates a s l) :
    ∀ st ∈ l, ∃ f, st = .call f ∧ Present f := by
  obtain ⟨a', ha, h⟩ := h
  have half : ∀ {code : Int} {fab free free' : Field} {o o' : Order} {y : Field × Field × Order}, FromUser fab →
      fabricatorHalf code fab free o free' o' = .ok y → Present y.1 := by
    intro code fab free free' o o' y hf hy
    unfold fabricatorHalf at hy
    split_ifs at hy with hs
    · cases hy; exact present_of hf.present (by simpa using Option.isSome_iff_ne_none.1 hs)
    · cases hy; exact present_of hf.present (by simpa using Option.isSome_iff_ne_none.1 hs)
    · cases hy; exact ⟨_, rfl, rfl⟩
  obtain ⟨e, he, ha⟩ := errorOf_bind_none ha
  obtain ⟨v, hv, ha⟩ := errorOf_bind_none ha
  cases ha
  rcases h with rfl | rfl
  · intro st hst; exact ⟨_, List.mem_singleton.1 hst, half h1 hv⟩
  · intro st hst; exact ⟨_, List.mem_singleton.1 hst, half h2 he⟩

/-! ## Errors -/

theorem run_subset (errs : Nat → Int) : ∀ (l : List Step) (t : Nat), ∀ st ∈ (run errs t l).1, st ∈ l
  | [], _, _, h => h
  | .raise e :: l, t, st, h => by rw [List.mem_singleton.1 h]; exact List.mem_cons_self
  | .call f :: l, t, st, h => by
    unfold run at h
    dsimp only at h
    split_ifs at h
    · rw [List.mem_singleton.1 h]; exact List.mem_cons_self
    · rcases List.mem_cons.1 h with rfl | h
      · exact List.mem_cons_self
      · exact List.mem_cons_of_mem _ (run_subset errs l (t + 1) st h)

theorem run_error (errs : Nat → Int) : ∀ (l : List Step) (t : Nat), (∀ st ∈ l, ∀ f, st = .call f → Present f) →
    (run errs t l).2 = 0 ∨ (∃ n, (run errs t l).2 = errs n) ∨ .raise (run errs t l).2 ∈ l
  | [], _, _ => .inl rfl
  | .raise e :: l, t, h => .inr (.inr List.mem_cons_self)
  | .call f :: l, t, h => by
    obtain ⟨g, rfl, hg⟩ := h _ List.mem_cons_self f rfl
    have ih := run_error errs l (t + 1) fun st hst => h st (List.mem_cons_of_mem _ hst)
    have rest : (run errs (t + 1) l).2 = 0 ∨ (∃ n, (run errs (t + 1) l).2 = errs n) ∨ .raise (run errs (t + 1) l).2 ∈ Step.call (some g) :: l := by
      rcases ih with ih | ih | ih
      · exact .inl ih
      · exact .inr (.inl ih)
      · exact .inr (.inr (List.mem_cons_of_mem _ ih))
    cases g with
    | user n =>
      unfold run
      dsimp only
      by_cases he : errs t ≠ 0
      · rw [if_pos he]; exact .inr (.inl ⟨t, rfl⟩)
      · rw [if_neg he]; exact rest
    | _ => first | exact rest | cases hg

/-- The error that the tasks report about the functions of an accepted specification is one that a function of the user has raised, or that of a
missing vacuous case, with the same exceptions. -/
theorem C153_errors (r : Request) (s : Sig) (l : List Step) (errs : Nat → Int) (t : Nat) (hg : r.Given) (hm : ¬ r.Mapless) (h : r.Does s l) :
    (run errs t l).2 = 0 ∨ (∃ n, (run errs t l).2 = errs n) ∨ (run errs t l).2 = UNDVAC ∨ ((run errs t l).2 = -1144 ∧ r.Classless) := by
  have hp := C153_present r s l hg hm h
  have hc : ∀ st ∈ l, ∀ f, st = .call f → Present f := by
    rintro st hst f rfl
    rcases hp _ hst with ⟨f', hf, hx⟩ | hf | ⟨hf, -⟩
    · cases hf; exact hx
    · cases hf
    · cases hf
  rcases run_error errs l t hc with he | he | he
  · exact .inl he
  · exact .inr (.inl he)
  · rcases hp _ he with ⟨f, hf, -⟩ | hf | ⟨hf, hx⟩
    · cases hf
    · injection hf with hf; exact .inr (.inr (.inl hf))
    · injection hf with hf; exact .inr (.inr (.inr ⟨hf, hx⟩))

/-- A fold over edges that's accepted runs into a missing vacuous case exactly if there are no edges and the user hasn't given one. -/
theorem C153_vacuous (f f' : Fold) (k : Nat) (hu : f.FromUser) (h : filledFold f = .ok f') :
    .raise UNDVAC ∈ edgesSteps f' k ↔ k = 0 ∧ f.vacuousCase = none := by
  have u := usable hu.clear h
  have hv := (filled h).1
  constructor
  · intro hst
    by_contra hc
    obtain ⟨x, hx⟩ := (edges_fine u k _ hst).2 (by rw [hv]; by_cases hk : k = 0 <;> simp_all)
    cases hx
  · rintro ⟨rfl, hn⟩
    unfold edgesSteps vacuousSteps
    rw [if_pos rfl, hv, hn]
    exact List.mem_cons_self

/-- Mergers with neither a classifier nor an operation on vertices raise an internal error for each class with more than one member, and for no others. -/
theorem C153_classless (c c' : Merger) (s s' : Sig) (ds : List (Nat × Nat)) (hg : (Request.merged c).Given) (hc : (Request.merged c).Classless)
    (h : inferredMerger c s = .ok (c', s')) : classSteps c' ds = if 1 < ds.length then [.raise (-1144)] else [] := by
  have hm : c'.kernel.vOp.vertex.map = some .undefinedTop := by
    unfold inferredMerger at h
    have hv : c.kernel.vOp.FromUser := prp_user hg.1.1 (fun _ h => by simp only [Request.folds, Kernel.folds, List.mem_append]; exact .inr (.inl h))
    split_ifs at h
    obtain ⟨⟨c1, s1⟩, h1, h⟩ := errorOf_bind_none h
    obtain ⟨⟨c2, s2⟩, h2, h⟩ := errorOf_bind_none h
    obtain ⟨c3, h3, h⟩ := errorOf_bind_none h
    cases h
    have hx : emptyProp c.kernel.vOp = true := by
      simpa only [Prp.blank, emptyProp, emptyFold_user hv.vertex, emptyFold_user hv.incident, emptyFold_user hv.outgoing] using hc.2
    unfold mergerVertices at h1
    rw [if_pos hx] at h1
    cases h1
    have hn : c.kernel.vOp.vertex.map = none := by
      have hb := hc.2
      simp only [Prp.blank, Fold.blank, Bool.and_eq_true] at hb
      simpa using hb.1.1.1.1.1.1.1
    have e2 : c2.kernel.vOp.vertex.map = some .undefinedTop := by
      unfold mergerEdges at h2
      obtain ⟨y, hy, h2⟩ := errorOf_bind_none h2
      have : y.1.kernel.vOp.vertex.map = some .undefinedTop := by
        dsimp only at hy
        split_ifs at hy
        · cases hy; dsimp only; rw [hn]; rfl
        · obtain ⟨w, hw, hy⟩ := errorOf_bind_none hy
          cases hy; dsimp only; rw [hn]; rfl
      by_cases hp : y.1.pruner.isNone = true
      · rw [if_pos hp] at h2; cases h2; exact this
      · rw [if_neg hp] at h2
        obtain ⟨_, _, h2⟩ := errorOf_bind_none h2
        cases h2; exact this
    unfold mergerClassifier at h3
    obtain ⟨k, hk1, h3⟩ := errorOf_bind_none h3
    obtain ⟨k', hk2, h3⟩ := errorOf_bind_none h3
    cases h3
    exact e2
  unfold classSteps
  rw [if_neg (by simp [hm])]

/-- An induction without a map is accepted only if it's without a `bmap` as well.  It works on vertices without edges.  On other vertices, a function that
isn't a placeholder is called at most once before the error about the missing map, and nothing else. -/
theorem C153_mapless (i i' : Inducer) (k : Nat) (errs : Nat → Int) (t : Nat) (hu : i.fold.FromUser) (hm : i.fold.map = none)
    (h : inferredInducer i = .ok i') :
    i.fold.bmap = none ∧
    (∀ st ∈ (run errs t (induceSteps i' (k + 1))).1, (∃ f, st = .call f ∧ Present f) ∨ st = .call (some .undefinedMap)) ∧
    (run errs t (induceSteps i' (k + 1))).1.length ≤ 2 ∧
    (run errs t (induceSteps i' (k + 1))).2 ≠ 0 ∧
    ((∀ n, errs n = 0) → (run errs t (induceSteps i' (k + 1))).2 = UNDMAP) := by
  unfold inferredInducer at h
  by_cases h1 : (i.boundaryValue.isNone && i.fold.vacuousCase.isNone) = true
  · rw [if_pos h1] at h; cases h
  rw [if_neg h1] at h
  obtain ⟨f, hf, h⟩ := errorOf_bind_none h
  cases h
  simp only [hm, Option.isNone_none, if_true] at hf
  have hb : i.fold.bmap = none := by
    rcases hu.bmap with hb | ⟨n, hb⟩
    · exact hb
    · unfold filledFold at hf
      rw [if_pos (by simp [hb, allow])] at hf
      cases hf
  obtain ⟨f1, f2, f3, f4⟩ := filled hf
  have full := full_of_filled hf
  have e1 : f.map = some .undefinedMap := by
    rw [filled_map (by simp [allow]) hf]; rfl
  have e2 : f.bmap = none := by
    have := full.one
    rw [e1] at this
    simpa using this
  have e3 : f.reduction.isNone = false := by
    have := full.red
    cases hr : f.reduction with
    | none => rw [hr] at this; cases this
    | some _ => rfl
  have efirst : f.first = some .undefinedMap := by simp [Fold.first, e1, e2]
  have enext : f.next = some .undefinedMap := by simp [Fold.next, e1]
  have hind : induceSteps { i with fold := f } (k + 1) = edgesSteps f (k + 1) := by
    unfold induceSteps; rw [if_neg (by simp)]
  refine ⟨hb, ?_⟩
  rw [hind]
  have hund : ∀ (u : Nat) (m : List Step), run errs u (.call (some .undefinedMap) :: m) = ([.call (some .undefinedMap)], UNDMAP) := by
    intro u m
    unfold run
    dsimp only [Fn.raises, Option.getD]
    rw [if_pos (by decide)]
  rcases hu.vacuousCase with hv | ⟨n, hv⟩
  · have hfree := full.ok (by rw [f1, hv]; rfl)
    have : edgesSteps f (k + 1) = .call (some .undefinedMap) :: restSteps f k := by
      unfold edgesSteps
      rw [if_neg (by simp), if_neg (by simp [e1]), if_neg (by simp [f1, hv]), if_neg (by simpa using hfree), efirst]
      rfl
    rw [this, hund]
    refine ⟨?_, by simp, by decide, fun _ => rfl⟩
    intro st hst
    exact .inr (List.mem_singleton.1 hst)
  · have : edgesSteps f (k + 1) = .call (some (.user n)) :: .call (some .undefinedMap) :: .call f.reduction :: (List.replicate k [Step.call f.next, .call f.reduction]).flatten := by
      unfold edgesSteps restSteps
      rw [if_neg (by simp), if_neg (by simp [e1]), if_pos (by simp [f1, hv]), if_neg (by simp), if_neg (by simp [e3])]
      simp [List.replicate_succ, f1, hv, enext]
    rw [this]
    have h0 : Present (some (.user n)) := ⟨_, rfl, rfl⟩
    unfold run
    dsimp only
    by_cases he : errs t ≠ 0
    · rw [if_pos he]
      refine ⟨?_, by simp, he, fun hz => absurd (hz t) he⟩
      intro st hst
      exact .inl ⟨_, List.mem_singleton.1 hst, h0⟩
    · rw [if_neg he, hund]
      refine ⟨?_, by simp, (by dsimp only; decide), fun _ => rfl⟩
      intro st hst
      rcases List.mem_cons.1 hst with rfl | hst
      · exact .inl ⟨_, rfl, h0⟩
      · exact .inr (List.mem_singleton.1 hst)

/-! ## The hypotheses can be met -/

/-- A fold by functions of the user, without a vacuous case. -/
def ownFold : Fold := ⟨some (.user 1), none, some (.user 2), none, none, none⟩

def wordSig : Sig := ⟨⟨some .scalarHash, some .equalityBpred⟩, ⟨some .scalarHash, some .equalityBpred⟩, none, none⟩

theorem ownFold_user : ownFold.FromUser := ⟨.inr ⟨1, rfl⟩, .inl rfl, .inr ⟨2, rfl⟩, .inl rfl, .inl rfl, .inl rfl⟩

theorem noFold_user : noFold.FromUser := ⟨.inl rfl, .inl rfl, .inl rfl, .inl rfl, .inl rfl, .inl rfl⟩

/-- A map and a reduction of vertices with a fold over their outgoing edges. -/
def ownRequest : Request := .mapreduced ⟨noFold, noFold, ownFold⟩ false

example : ownRequest.Given := by
  refine ⟨⟨?_, trivial⟩, fun f hf => by cases hf⟩
  intro f hf
  simp only [ownRequest, Request.folds, Prp.folds, List.mem_cons, List.not_mem_nil, or_false] at hf
  rcases hf with rfl | rfl | rfl
  · exact noFold_user
  · exact noFold_user
  · exact ownFold_user

example : ¬ ownRequest.Mapless := id

/-- A visit to a vertex with two outgoing edges after others. -/
example : ownRequest.Does wordSig
    [.call (some (.user 1)), .call (some (.user 1)), .call (some (.user 2)), .call (some .identityTop), .call (some .minimizingBop)] :=
  ⟨⟨⟨some .identityTop, none, some .minimizingBop, none, none, none⟩, noFold, ownFold⟩, by decide, .inr (.inr ⟨(0, 2), by decide⟩)⟩

/-- A visit to a vertex without outgoing edges. -/
example : ownRequest.Does wordSig [.raise UNDVAC, .call (some .identityTop), .call (some .minimizingBop)] :=
  ⟨⟨⟨some .identityTop, none, some .minimizingBop, none, none, none⟩, noFold, ownFold⟩, by decide, .inr (.inr ⟨(0, 0), by decide⟩)⟩

/-- A merger that reduces edges. -/
def edgeMerger : Merger := ⟨⟨⟨noFold, noFold, noFold⟩, ⟨none, none⟩⟩, ⟨none, none⟩, ⟨none, none⟩, ⟨⟨noFold, noFold, noFold⟩, ownFold⟩, none⟩

example : (Request.merged edgeMerger).Classless ∧ (Request.merged edgeMerger).Does wordSig [.raise (-1144)] := by
  refine ⟨⟨rfl, rfl⟩, ?_⟩
  refine ⟨_, _, rfl, .inr (.inl ⟨[(0, 0), (0, 0)], by simp, ?_⟩)⟩
  decide

/-- An induction by a vacuous case alone. -/
example : inferredInducer ⟨none, { noFold with vacuousCase := some (.user 3) }⟩ =
    .ok ⟨none, ⟨some .undefinedMap, none, some .undefinedBop, some (.user 3), none, none⟩⟩ := by decide

example : filledFold ownFold = .ok ownFold := by decide

end Cru.Infer
