import Verif.Spec.Calls
import Verif.Props.Infer

/-! # Lemmas about calls of the functions in a specification -/

namespace Cru.Infer

theorem FromUser.present {f : Field} (h : FromUser f) : f = none ∨ Present f := by
  rcases h with h | ⟨n, h⟩
  · exact .inl h
  · exact .inr ⟨_, h, rfl⟩

theorem present_allow {f : Field} (h : f = none ∨ Present f) {g : Fn} (hg : g.raises = none) : Present (allow f (some g)) := by
  rcases h with rfl | ⟨x, rfl, hx⟩
  · exact ⟨g, rfl, hg⟩
  · exact ⟨x, rfl, hx⟩

/-- No placeholders other than that of the reduction. -/
structure Mild (f : Fold) : Prop where
  map : f.map = none ∨ Present f.map
  bmap : f.bmap = none ∨ Present f.bmap
  vacuous : f.vacuousCase = none ∨ Present f.vacuousCase

/-- No placeholders. -/
structure Clear (f : Fold) : Prop extends Mild f where
  reduction : f.reduction = none ∨ Present f.reduction

theorem Fold.FromUser.clear {f : Fold} (h : f.FromUser) : Clear f :=
  ⟨⟨h.map.present, h.bmap.present, h.vacuousCase.present⟩, h.reduction.present⟩

/-- A fold whose map can be called. -/
structure Mapping (f : Fold) : Prop extends Mild f where
  either : (f.map.isNone && f.bmap.isNone) = false
  free : f.vacuousCase = none → f.mFree = f.rFree

/-- A fold whose reduction can be called as well. -/
structure Usable (f : Fold) : Prop extends Mapping f where
  reduction : Present f.reduction

theorem Usable.clear {f : Fold} (h : Usable f) : Clear f := ⟨h.toMild, .inr h.reduction⟩

theorem first_present {f : Fold} (h : Mapping f) : Present f.first := by
  unfold Fold.first
  have := h.either
  rcases h.bmap with hb | hb
  · rw [hb] at this ⊢
    rcases h.map with hm | hm
    · rw [hm] at this; cases this
    · simpa using hm
  · obtain ⟨g, hg, -⟩ := id hb
    rw [if_pos (by rw [hg]; rfl)]
    exact hb

theorem next_present {f : Fold} (h : Mapping f) : Present f.next := by
  unfold Fold.next
  have := h.either
  rcases h.map with hb | hb
  · rw [hb] at this ⊢
    rcases h.bmap with hm | hm
    · rw [hm] at this; cases this
    · simpa using hm
  · obtain ⟨g, hg, -⟩ := id hb
    rw [if_pos (by rw [hg]; rfl)]
    exact hb

theorem Present.isSome {f : Field} (h : Present f) : f.isNone = false ∧ f.isSome = true := by
  obtain ⟨g, rfl, -⟩ := h; exact ⟨rfl, rfl⟩

theorem rest_calls {f : Fold} (h : Usable f) (k : Nat) : ∀ st ∈ restSteps f k, ∃ x, st = .call x ∧ Present x := by
  intro st hst
  unfold restSteps at hst
  by_cases hk : k = 0
  · rw [if_pos hk] at hst; cases hst
  · rw [if_neg hk, if_neg (by simp [h.reduction.isSome.1])] at hst
    obtain ⟨l, hl, hst⟩ := List.mem_flatten.1 hst
    rw [List.eq_of_mem_replicate hl] at hst
    simp only [List.mem_cons, List.not_mem_nil, or_false] at hst
    rcases hst with rfl | rfl
    · exact ⟨_, rfl, next_present h.toMapping⟩
    · exact ⟨_, rfl, h.reduction⟩

theorem vacuous_fine {f : Fold} (h : Mild f) : ∀ st ∈ vacuousSteps f, st.Fine ∧ (f.vacuousCase ≠ none → ∃ x, st = .call x) := by
  intro st hst
  unfold vacuousSteps at hst
  rcases h.vacuous with hv | hv
  · rw [if_pos (by rw [hv]; rfl)] at hst
    rw [List.mem_singleton.1 hst]
    exact ⟨rfl, fun hc => absurd hv hc⟩
  · rw [if_neg (by simp [hv.isSome.1])] at hst
    rw [List.mem_singleton.1 hst]
    exact ⟨hv, fun _ => ⟨_, rfl⟩⟩

theorem edges_fine {f : Fold} (h : Usable f) (k : Nat) : ∀ st ∈ edgesSteps f k, st.Fine ∧ (k ≠ 0 ∨ f.vacuousCase ≠ none → ∃ x, st = .call x) := by
  intro st hst
  unfold edgesSteps at hst
  by_cases hk : k = 0
  · rw [if_pos hk] at hst
    have := vacuous_fine h.toMild st hst
    exact ⟨this.1, fun hc => this.2 (hc.resolve_left (fun h => h hk))⟩
  rw [if_neg hk, if_neg (by simp [h.either])] at hst
  have done : ∀ x, st = .call x ∧ Present x → st.Fine ∧ (k ≠ 0 ∨ f.vacuousCase ≠ none → ∃ x, st = .call x) := by
    rintro x ⟨rfl, hx⟩; exact ⟨hx, fun _ => ⟨x, rfl⟩⟩
  rcases h.vacuous with hv | hv
  · rw [if_neg (by simp [hv]), if_neg (by simpa using h.free hv)] at hst
    rcases List.mem_cons.1 hst with rfl | hst
    · exact done _ ⟨rfl, first_present h.toMapping⟩
    · obtain ⟨x, hx⟩ := rest_calls h _ st hst
      exact done x hx
  · rw [if_pos hv.isSome.2] at hst
    rcases List.mem_cons.1 hst with rfl | hst
    · exact done _ ⟨rfl, hv⟩
    · obtain ⟨x, hx⟩ := rest_calls h _ st hst
      exact done x hx

/-- A property that can be applied to vertices. -/
structure Ready (p : Prp) : Prop where
  vertex : Mapping p.vertex
  incident : emptyFold p.incident = true ∨ Usable p.incident
  outgoing : emptyFold p.outgoing = true ∨ Usable p.outgoing

/-- No folds over edges are short of a vacuous case. -/
def Prp.Covered (p : Prp) : Prop := ∀ f ∈ [p.incident, p.outgoing], emptyFold f = true ∨ f.vacuousCase ≠ none

theorem node_fine {p : Prp} (h : Ready p) (d : Nat × Nat) : ∀ st ∈ nodeSteps p d, st.Fine ∧ (p.Covered → ∃ x, st = .call x) := by
  intro st hst
  unfold nodeSteps at hst
  rw [if_neg (by simp [h.vertex.either])] at hst
  have side : ∀ (f : Fold) (k : Nat), emptyFold f = true ∨ Usable f → st ∈ (if emptyFold f = true then [] else edgesSteps f k) →
      st.Fine ∧ (emptyFold f = true ∨ f.vacuousCase ≠ none → ∃ x, st = .call x) := by
    intro f k hf hs
    by_cases he : emptyFold f = true
    · rw [if_pos he] at hs; cases hs
    · rw [if_neg he] at hs
      have := edges_fine (hf.resolve_left he) k st hs
      exact ⟨this.1, fun hc => this.2 (.inr (hc.resolve_left he))⟩
  rcases List.mem_append.1 hst with hst | hst
  · rcases List.mem_append.1 hst with hst | hst
    · exact ⟨(side _ _ h.incident hst).1, fun hc => (side _ _ h.incident hst).2 (hc _ (by simp))⟩
    · exact ⟨(side _ _ h.outgoing hst).1, fun hc => (side _ _ h.outgoing hst).2 (hc _ (by simp))⟩
  · rw [List.mem_singleton.1 hst]
    exact ⟨first_present h.vertex, fun _ => ⟨_, rfl⟩⟩

theorem nodes_fine {p : Prp} (h : Ready p) (hr : Present p.vertex.reduction) (ds : List (Nat × Nat)) : ∀ st ∈ nodesSteps p ds, st.Fine := by
  have more : ∀ ds, ∀ st ∈ nodesSteps.more p ds, st.Fine := by
    intro ds st hst
    unfold nodesSteps.more at hst
    by_cases hd : ds = []
    · rw [if_pos hd] at hst; cases hst
    · rw [if_neg hd, if_neg (by simp [hr.isSome.1])] at hst
      obtain ⟨d, -, hst⟩ := List.mem_flatMap.1 hst
      rcases List.mem_append.1 hst with hst | hst
      · exact (node_fine h d st hst).1
      · rw [List.mem_singleton.1 hst]; exact hr
  intro st hst
  cases ds with
  | nil => exact (vacuous_fine h.vertex.toMild st hst).1
  | cons d ds =>
    change st ∈ (if p.vertex.vacuousCase.isSome then _ else if p.vertex.mFree ≠ p.vertex.rFree then _ else _) at hst
    rcases h.vertex.vacuous with hv | hv
    · rw [if_neg (by simp [hv]), if_neg (by simpa using h.vertex.free hv)] at hst
      rcases List.mem_append.1 hst with hst | hst
      · exact (node_fine h d st hst).1
      · exact more _ _ hst
    · rw [if_pos hv.isSome.2] at hst
      rcases List.mem_cons.1 hst with rfl | hst
      · exact hv
      · exact more _ _ hst

/-! ## Filling -/

theorem filled {f f' : Fold} (h : filledFold f = .ok f') :
    f'.vacuousCase = f.vacuousCase ∧ (f'.map = f.map ∨ f'.map = some .identityTop) ∧ (f'.bmap = f.bmap ∨ f'.bmap = some .identityBop) ∧
    (f'.reduction = f.reduction ∨ f.reduction = none ∧ f'.reduction = some .minimizingBop) := by
  obtain ⟨map, bmap, red, vac, rf, mf⟩ := f
  cases map <;> cases bmap <;> cases red <;> cases rf <;> cases mf <;>
    simp [filledFold, fillMap, fillReduction, fillFrees, allow, Field.given, bind, Except.bind] at h <;>
    first | (subst h; simp; done) | (split_ifs at h <;> cases h <;> simp)

theorem filled_map {f f' : Fold} (hm : f.map ≠ none) (h : filledFold f = .ok f') : f'.map = f.map := by
  obtain ⟨map, bmap, red, vac, rf, mf⟩ := f
  cases map <;> cases bmap <;> cases red <;> cases rf <;> cases mf <;>
    simp [filledFold, fillMap, fillReduction, fillFrees, allow, Field.given, bind, Except.bind] at h hm <;>
    first | (subst h; simp; done) | (split_ifs at h <;> cases h <;> simp)

theorem mapping {f f' : Fold} (hm : Mild f) (h : filledFold f = .ok f') : Mapping f' := by
  obtain ⟨h1, h2, h3, h4⟩ := filled h
  have hf := full_of_filled h
  refine ⟨⟨?_, ?_, by rw [h1]; exact hm.vacuous⟩, hf.either, fun hv => hf.ok (by rw [hv]; rfl)⟩
  · rcases h2 with h2 | h2
    · rw [h2]; exact hm.map
    · rw [h2]; exact .inr ⟨_, rfl, rfl⟩
  · rcases h3 with h3 | h3
    · rw [h3]; exact hm.bmap
    · rw [h3]; exact .inr ⟨_, rfl, rfl⟩

theorem usable {f f' : Fold} (hm : Clear f) (h : filledFold f = .ok f') : Usable f' := by
  refine ⟨mapping hm.toMild h, ?_⟩
  obtain ⟨h1, h2, h3, h4⟩ := filled h
  have hf := (full_of_filled h).red
  rcases h4 with h4 | ⟨-, h4⟩
  · rw [h4] at hf ⊢
    rcases hm.reduction with h5 | h5
    · rw [h5] at hf; cases hf
    · exact h5
  · rw [h4]; exact ⟨_, rfl, rfl⟩

theorem unlessEmpty {f f' : Fold} (hm : Clear f) (h : filledUnlessEmpty f = .ok f') : (emptyFold f' = true ∨ Usable f') ∧ Clear f' ∧ f'.vacuousCase = f.vacuousCase := by
  unfold filledUnlessEmpty at h
  by_cases he : emptyFold f = true
  · rw [if_pos he] at h; cases h; exact ⟨.inl he, hm, rfl⟩
  · rw [if_neg he] at h
    exact ⟨.inr (usable hm h), (usable hm h).clear, (filled h).1⟩

/-- A property without placeholders, except for the reduction over vertices. -/
structure Prp.Mild (p : Prp) : Prop where
  vertex : Infer.Mild p.vertex
  incident : Clear p.incident
  outgoing : Clear p.outgoing

theorem Prp.FromUser.mild {p : Prp} (h : p.FromUser) : p.Mild := ⟨h.vertex.clear.toMild, h.incident.clear, h.outgoing.clear⟩

theorem ready {p q : Prp} (hm : p.Mild) (h : filledProp p = .ok q) :
    Ready q ∧ q.Mild ∧ q.incident.vacuousCase = p.incident.vacuousCase ∧ q.outgoing.vacuousCase = p.outgoing.vacuousCase := by
  obtain ⟨h1, h2, h3⟩ := filledProp_ok h
  obtain ⟨a1, a2, a3⟩ := unlessEmpty hm.incident h1
  obtain ⟨b1, b2, b3⟩ := unlessEmpty hm.outgoing h2
  have c := mapping hm.vertex h3
  exact ⟨⟨c, a1, b1⟩, ⟨c.toMild, a2, b2⟩, a3, b3⟩

theorem ready_map {p q : Prp} (hm : p.Mild) (h : filledMapProp p = .ok q) :
    Ready q ∧ q.Mild ∧ q.incident.vacuousCase = p.incident.vacuousCase ∧ q.outgoing.vacuousCase = p.outgoing.vacuousCase := by
  obtain ⟨h1, h2, h3⟩ := filledMapProp_ok h
  obtain ⟨a1, a2, a3⟩ := unlessEmpty hm.incident h1
  obtain ⟨b1, b2, b3⟩ := unlessEmpty hm.outgoing h2
  have c : Mapping q.vertex := mapping (f := { p.vertex with reduction := allow p.vertex.reduction (some .undefinedBop) }) ⟨hm.vertex.map, hm.vertex.bmap, hm.vertex.vacuous⟩ h3
  exact ⟨⟨c, a1, b1⟩, ⟨c.toMild, a2, b2⟩, a3, b3⟩

theorem ready_class {c k : Classifier} (hm : c.prop.Mild) (h : filledClassifier c = .ok k) : Ready k.prop := by
  unfold filledClassifier at h
  obtain ⟨p, hp, h⟩ := errorOf_bind_none h
  obtain ⟨_, _, h⟩ := errorOf_bind_none h
  cases h
  refine (ready ?_ hp).1
  exact ⟨⟨hm.vertex.map, hm.vertex.bmap, hm.vertex.vacuous⟩, hm.incident, hm.outgoing⟩

theorem filled_vertices {t : Field} {p q : Prp} (hu : p.FromUser) (h : filterVertices t p = .ok q) : emptyProp q = true ∨ Ready q := by
  have key : ∀ m : Field, m = none ∨ Present m →
      (if emptyProp { p with vertex := { p.vertex with map := allow m (some .disjoiningTop), reduction := allow p.vertex.reduction (some .undefinedBop) } } then
        .ok { p with vertex := { p.vertex with map := allow m (some .disjoiningTop), reduction := allow p.vertex.reduction (some .undefinedBop) } }
      else filledProp { p with vertex := { p.vertex with map := allow m (some .disjoiningTop), reduction := allow p.vertex.reduction (some .undefinedBop) } }) = Except.ok q →
      emptyProp q = true ∨ Ready q := by
    intro m hm h
    split_ifs at h with he
    · cases h; exact .inl he
    · have hM := hu.mild
      refine .inr (ready ?_ h).1
      exact ⟨⟨.inr (present_allow hm rfl), hM.vertex.bmap, hM.vertex.vacuous⟩, hM.incident, hM.outgoing⟩
  refine key _ ?_ h
  by_cases hc : (t.isSome && emptyProp p) = true
  · rw [if_pos hc]; exact .inr (present_allow hu.vertex.map.present rfl)
  · rw [if_neg hc]; exact hu.vertex.map.present

theorem filled_edges {t : Field} {e : Fold} {o : Order} {s : Sig} {x : Fold × Order} (hu : e.FromUser) (h : filterEdges t e o s = .ok x) :
    (emptyFold x.1 = true ∧ t = none) ∨ Usable x.1 := by
  unfold filterEdges at h
  have hc : Clear (if t.isSome && emptyFold e then { e with map := allow e.map (some .trueTop) } else e) := by
    have := hu.clear
    split_ifs
    · exact ⟨⟨.inr (present_allow this.map rfl), this.bmap, this.vacuous⟩, this.reduction⟩
    · exact this
  have hn : emptyFold (if t.isSome && emptyFold e then { e with map := allow e.map (some .trueTop) } else e) = true → t = none := by
    split_ifs with hx
    · intro hy
      simp only [Bool.and_eq_true] at hx
      exfalso
      revert hy
      rcases hu.map with hm | ⟨n, hm⟩ <;> simp [emptyFold, hm, allow, Field.given]
    · intro hy
      cases t with
      | none => rfl
      | some t => simp [hy] at hx
  dsimp only at h
  generalize (if (t.isSome && emptyFold e) = true then { e with map := allow e.map (some .trueTop) } else e) = e' at h hc hn
  by_cases ho : emptyOrder o = true
  · rw [if_pos ho] at h
    obtain ⟨f, hf, h⟩ := errorOf_bind_none h
    cases h
    rw [filledUnlessEmpty] at hf
    by_cases he : emptyFold e' = true
    · rw [if_pos he] at hf; cases hf; exact .inl ⟨he, hn he⟩
    · rw [if_neg he] at hf; exact .inr (usable hc hf)
  · rw [if_neg ho] at h
    obtain ⟨_, _, h⟩ := errorOf_bind_none h
    by_cases he : emptyFold e' = true
    · rw [if_pos he] at h; cases h
    · rw [if_neg he] at h
      obtain ⟨f, hf, h⟩ := errorOf_bind_none h
      obtain ⟨f', hf', h⟩ := errorOf_bind_none h
      cases h
      have u := usable hc hf
      rw [filledUnlessEmpty] at hf'
      by_cases he' : emptyFold f = true
      · rw [if_pos he'] at hf'; cases hf'; exact .inr u
      · rw [if_neg he'] at hf'; exact .inr (usable u.clear hf')

/-- The edge part of a mutator. -/
theorem mutator_edges {m m' : Mutator} (hu : m.kernel.eOp.FromUser) (h : mutatorEdges m = .ok m') :
    m'.kernel.vOp = m.kernel.vOp ∧ (emptyFold m'.kernel.eOp = true ∨ Mapping m'.kernel.eOp) ∧ m.kernel.vOp.Covered := by
  unfold mutatorEdges at h
  obtain ⟨e, he, h⟩ := errorOf_bind_none h
  by_cases h1 : (!(emptyFold m.kernel.vOp.incident) && m.kernel.vOp.incident.vacuousCase.isNone) = true
  · rw [if_pos h1] at h; cases h
  rw [if_neg h1] at h
  by_cases h2 : (!(emptyFold m.kernel.vOp.outgoing) && m.kernel.vOp.outgoing.vacuousCase.isNone) = true
  · rw [if_pos h2] at h; cases h
  · rw [if_neg h2] at h
    cases h
    refine ⟨rfl, ?_, ?_⟩
    · dsimp only at he ⊢
      split_ifs at he with hx
      · cases he; exact .inl hx
      · have := hu.clear
        unfold filledMap at he
        refine .inr (mapping ?_ he)
        exact ⟨this.map, this.bmap, this.vacuous⟩
    · intro f hf
      simp only [List.mem_cons, List.not_mem_nil, or_false] at hf
      rcases hf with rfl | rfl
      · cases hv : emptyFold m.kernel.vOp.incident
        · right; intro hc; rw [hv, hc] at h1; exact h1 rfl
        · exact .inl rfl
      · cases hv : emptyFold m.kernel.vOp.outgoing
        · right; intro hc; rw [hv, hc] at h2; exact h2 rfl
        · exact .inl rfl

theorem edge_calls {f : Fold} (h : Mapping f) (e : Int) : ∀ st ∈ edgeSteps f e, ∃ x, st = .call x ∧ Present x := by
  intro st hst
  unfold edgeSteps at hst
  rw [if_neg (by simp [h.either])] at hst
  exact ⟨_, List.mem_singleton.1 hst, first_present h⟩

theorem ctop_present {f : Field} {c d : Ctop} (h1 : FromUser c.tpred) (h2 : FromUser c.top) (h : filledCtop (scalarCtop f c) = .ok d) :
    Present d.tpred ∧ Present d.top := by
  have h3 : (scalarCtop f c).top = none ∨ Present (scalarCtop f c).top := by
    unfold scalarCtop
    split_ifs
    · exact .inr (present_allow h2.present rfl)
    · exact h2.present
  have h4 : (scalarCtop f c).tpred = c.tpred := by unfold scalarCtop; split_ifs <;> rfl
  unfold filledCtop at h
  by_cases hn : (scalarCtop f c).top.isNone = true
  · rw [if_pos hn] at h; cases h
  · rw [if_neg hn] at h
    cases h
    refine ⟨by dsimp only; rw [h4]; exact present_allow h1.present rfl, ?_⟩
    rcases h3 with h3 | h3
    · rw [h3] at hn; exact absurd rfl hn
    · exact h3

theorem present_of {f : Field} (h : f = none ∨ Present f) (hn : ¬ f.isNone = true) : Present f := by
  rcases h with rfl | h
  · exact absurd rfl hn
  · exact h

theorem present_if {f : Field} (h : FromUser f) {c : Prop} [Decidable c] {g : Fn} (hg : g.raises = none) :
    (if c then allow f (some g) else f) = none ∨ Present (if c then allow f (some g) else f) := by
  split_ifs
  · exact .inr (present_allow h.present hg)
  · exact h.present

end Cru.Infer
