import Verif.Spec.Infer
import Mathlib.Tactic.SplitIfs

/-!
# Inference of defaults (C51, C52)
-/

namespace Cru.Infer

/-! ## Tables and errors -/

@[simp] theorem verdict_nil : verdict [] = none := rfl

theorem verdict_append (l m : List (Bool × Int)) : verdict (l ++ m) = (verdict l).or (verdict m) := by
  induction l with
  | nil => simp
  | cons x l ih =>
    obtain ⟨c, e⟩ := x
    cases c <;> simp [verdict, ih]

theorem verdict_provided (b : Bool) (l : List (Bool × Int)) : verdict (provided b l) = if b then verdict l else none := by
  induction l with
  | nil => simp [provided]
  | cons x l ih =>
    obtain ⟨c, e⟩ := x
    cases b <;> cases c <;> simp_all [provided, verdict]

@[simp] theorem errorOf_ok {α : Type} (x : α) : errorOf (.ok x) = none := rfl
@[simp] theorem errorOf_pure {α : Type} (x : α) : errorOf (pure x) = none := rfl
@[simp] theorem errorOf_error {α : Type} (e : Int) : errorOf (.error e : Except Int α) = some e := rfl
@[simp] theorem errorOf_throw {α : Type} (e : Int) : errorOf (throw e : Except Int α) = some e := rfl

/-- If the rest ends with the same error whatever the first part yields. -/
theorem errorOf_bind {α β : Type} (x : Except Int α) (f : α → Except Int β) (y : Option Int)
    (h : ∀ a, x = .ok a → errorOf (f a) = y) : errorOf (x >>= f) = (errorOf x).or y := by
  cases x with
  | error e => rfl
  | ok a => exact (h a rfl).trans (by simp)

theorem errorOf_none {α : Type} {x : Except Int α} (h : errorOf x = none) : ∃ a, x = .ok a := by
  cases x with
  | error e => simp at h
  | ok a => exact ⟨a, rfl⟩

/-! ## Orders -/

theorem errorOf_fullOrder (o : Order) : errorOf (fullOrder o) = verdict (strictTable o) := by
  obtain ⟨h, e⟩ := o
  rcases h with _ | h <;> rcases e with _ | e <;> simp [fullOrder, strictTable, verdict, Field.given] <;> split_ifs <;> simp_all

/-- The order after adding the scalar default if there is no destructor. -/
theorem errorOf_defaulted (o : Order) (free : Field) :
    errorOf (fullOrder (if free.isNone then allowScalarOrder o else o)) = verdict (orderTable o free) := by
  rw [errorOf_fullOrder]
  obtain ⟨h, e⟩ := o
  rcases free with _ | free <;> rcases h with _ | h <;> rcases e with _ | e <;>
    simp [strictTable, orderTable, verdict, allowScalarOrder, allowOrder, allow]

theorem errorOf_filledSig (s : Sig) : errorOf (filledSig s) = verdict (sigTable s) := by
  obtain ⟨v, e, vf, ef⟩ := s
  have hs : sigTable ⟨v, e, vf, ef⟩ = provided ef.isSome (strictTable e) ++ provided vf.isSome (strictTable v) := rfl
  rw [hs, verdict_append, verdict_provided, verdict_provided, ← errorOf_fullOrder, ← errorOf_fullOrder]
  simp only [filledSig, filledOrder]
  cases ef <;> cases vf <;> cases hv : fullOrder v <;> cases he : fullOrder e <;> rfl

/-! ## Folds -/

theorem given_user {n : Nat} {p : Fn} (hp : ∀ n, p ≠ .user n) : Field.given (some (.user n)) p = true := by
  have := hp n
  simp [Field.given, Ne.symm this]

theorem emptyFold_user {f : Fold} (h : f.FromUser) : emptyFold f = f.blank := by
  obtain ⟨map, bmap, red, vac, rf, mf⟩ := f
  obtain ⟨h1, h2, h3, h4, h5, h6⟩ := h
  simp only [FromUser] at h1 h2 h3 h4 h5 h6
  rcases h1 with rfl | ⟨_, rfl⟩ <;> rcases h2 with rfl | ⟨_, rfl⟩ <;> rcases h3 with rfl | ⟨_, rfl⟩ <;>
    rcases h4 with rfl | ⟨_, rfl⟩ <;> simp [emptyFold, Fold.blank, Field.given]

theorem emptyProp_user {p : Prp} (h : p.FromUser) : emptyProp p = p.blank := by
  simp [emptyProp, Prp.blank, emptyFold_user h.1, emptyFold_user h.2, emptyFold_user h.3]

theorem emptyOrder_user {o : Order} (h : o.FromUser) : emptyOrder o = o.blank := by
  obtain ⟨a, b⟩ := o
  obtain ⟨h1, h2⟩ := h
  simp only [FromUser] at h1 h2
  rcases h1 with rfl | ⟨_, rfl⟩ <;> rcases h2 with rfl | ⟨_, rfl⟩ <;> simp [emptyOrder, Order.blank, Field.given]

theorem errorOf_filledFold {f : Fold} (h : f.FromUser) : errorOf (filledFold f) = verdict (foldTable f) := by
  obtain ⟨map, bmap, red, vac, rf, mf⟩ := f
  obtain ⟨h1, h2, h3, h4, h5, h6⟩ := h
  simp only [FromUser] at h1 h2 h3 h4 h5 h6
  rcases h1 with rfl | ⟨_, rfl⟩ <;> rcases h2 with rfl | ⟨_, rfl⟩ <;> rcases h3 with rfl | ⟨_, rfl⟩ <;>
    rcases h4 with rfl | ⟨_, rfl⟩ <;> rcases h5 with rfl | ⟨_, rfl⟩ <;> rcases h6 with rfl | ⟨_, rfl⟩ <;>
    simp [filledFold, fillMap, fillReduction, fillFrees, foldTable, verdict, Fold.destructed, Fold.incompatible, allow, Field.given,
      bind, Except.bind] <;> split_ifs <;> simp_all

/-- A fold with nothing left to infer. -/
structure Full (f : Fold) : Prop where
  one : (f.map.isSome && f.bmap.isSome) = false
  either : (f.map.isNone && f.bmap.isNone) = false
  red : f.reduction.isSome = true
  noMap : f.map = some .undefinedTop → f.mFree = f.rFree
  noRed : f.reduction = some .undefinedBop → f.mFree = f.rFree
  ok : Field.given f.vacuousCase .undefinedNop = false → f.mFree = f.rFree

theorem filled_of_full {f : Fold} (h : Full f) : filledFold f = .ok f := by
  obtain ⟨map, bmap, red, vac, rf, mf⟩ := f
  obtain ⟨h1, h2, h3, h4, h5, h6⟩ := h
  simp only at h1 h2 h3 h4 h5 h6
  have e1 : fillMap ⟨map, bmap, red, vac, rf, mf⟩ = .ok ⟨map, bmap, red, vac, rf, mf⟩ := by
    cases map <;> cases bmap <;> simp_all [fillMap, allow]
  have e2 : fillReduction ⟨map, bmap, red, vac, rf, mf⟩ = .ok ⟨map, bmap, red, vac, rf, mf⟩ := by
    cases red <;> simp_all [fillReduction, allow]
  have e3 : fillFrees ⟨map, bmap, red, vac, rf, mf⟩ = .ok ⟨map, bmap, red, vac, rf, mf⟩ := by
    have hm : (if map = some .undefinedTop then (⟨map, bmap, red, vac, rf, rf⟩ : Fold) else ⟨map, bmap, red, vac, rf, mf⟩) =
        ⟨map, bmap, red, vac, rf, mf⟩ := by
      by_cases hm : map = some .undefinedTop
      · rw [if_pos hm, h4 hm]
      · rw [if_neg hm]
    have hr : (if red = some .undefinedBop then (⟨map, bmap, red, vac, mf, mf⟩ : Fold) else ⟨map, bmap, red, vac, rf, mf⟩) =
        ⟨map, bmap, red, vac, rf, mf⟩ := by
      by_cases hm : red = some .undefinedBop
      · rw [if_pos hm, h5 hm]
      · rw [if_neg hm]
    simp only [fillFrees, hm, hr]
    by_cases hv : Field.given vac .undefinedNop = true
    · rw [if_pos hv]
    · rw [if_neg hv, if_pos (h6 (by simpa using hv))]
  simp only [filledFold, h1, e1, bind, Except.bind, e2, e3]
  rfl

theorem full_of_filled {f f' : Fold} (h : filledFold f = .ok f') : Full f' := by
  obtain ⟨map, bmap, red, vac, rf, mf⟩ := f
  unfold filledFold at h
  by_cases hb : (map.isSome && bmap.isSome) = true
  · simp only [hb, if_true] at h
    cases h
  · simp only [hb] at h
    have hm : ∀ g, fillMap ⟨map, bmap, red, vac, rf, mf⟩ = .ok g →
        (g.map.isSome && g.bmap.isSome) = false ∧ (g.map.isNone && g.bmap.isNone) = false := by
      intro g hg
      cases map <;> cases bmap <;> simp [fillMap, allow] at hg hb ⊢ <;> (try split_ifs at hg) <;> cases hg <;> simp
    cases h1 : fillMap ⟨map, bmap, red, vac, rf, mf⟩ with
    | error e => rw [h1] at h; cases h
    | ok g =>
      obtain ⟨a1, a2⟩ := hm g h1
      rw [h1] at h
      simp only [bind, Except.bind] at h
      cases h2 : fillReduction g with
      | error e => rw [h2] at h; cases h
      | ok k =>
        rw [h2] at h
        simp only at h
        have hk : k.map = g.map ∧ k.bmap = g.bmap ∧ k.reduction.isSome = true := by
          unfold fillReduction at h2
          split_ifs at h2 with q1 q2
          · cases h2; cases hr : g.reduction <;> simp [allow]
          · cases h2; exact ⟨rfl, rfl, by cases hr : g.reduction <;> simp_all⟩
        obtain ⟨km, kb, kr⟩ := hk
        rw [← km, ← kb] at a1 a2
        unfold fillFrees at h
        generalize hx : (if k.map = some .undefinedTop then { k with mFree := k.rFree } else k : Fold) = x at h
        have x1 : x.map = k.map ∧ x.bmap = k.bmap ∧ x.reduction = k.reduction ∧ (k.map = some .undefinedTop → x.mFree = x.rFree) := by
          rw [← hx]
          split_ifs with q
          · exact ⟨rfl, rfl, rfl, fun _ => rfl⟩
          · exact ⟨rfl, rfl, rfl, fun q' => absurd q' q⟩
        obtain ⟨xm, xb, xr, xf⟩ := x1
        simp only at h
        generalize hy : (if x.reduction = some .undefinedBop then { x with rFree := x.mFree } else x : Fold) = y at h
        have y1 : y.map = x.map ∧ y.bmap = x.bmap ∧ y.reduction = x.reduction ∧ (x.mFree = x.rFree → y.mFree = y.rFree) ∧
            (x.reduction = some .undefinedBop → y.mFree = y.rFree) := by
          rw [← hy]
          split_ifs with q
          · exact ⟨rfl, rfl, rfl, fun _ => rfl, fun _ => rfl⟩
          · exact ⟨rfl, rfl, rfl, id, fun q' => absurd q' q⟩
        obtain ⟨ym, yb, yr, yf, yu⟩ := y1
        have key : f' = y ∧ (Field.given y.vacuousCase .undefinedNop = false → y.mFree = y.rFree) := by
          by_cases q1 : Field.given y.vacuousCase .undefinedNop = true
          · rw [if_pos q1] at h; cases h; exact ⟨rfl, fun q => by rw [q] at q1; cases q1⟩
          · rw [if_neg q1] at h
            by_cases q2 : y.mFree = y.rFree
            · rw [if_pos q2] at h; cases h; exact ⟨rfl, fun _ => q2⟩
            · rw [if_neg q2] at h; cases h
        obtain ⟨rfl, hv⟩ := key
        refine ⟨?_, ?_, ?_, ?_, ?_, hv⟩
        · rw [ym, yb, xm, xb]; exact a1
        · rw [ym, yb, xm, xb]; exact a2
        · rw [yr, xr]; exact kr
        · intro q; rw [ym, xm] at q; exact yf (xf q)
        · intro q; rw [yr] at q; exact yu q

theorem filledFold_again {f f' : Fold} (h : filledFold f = .ok f') : filledFold f' = .ok f' :=
  filled_of_full (full_of_filled h)

theorem errorOf_filledMap {f : Fold} (h : f.FromUser) : errorOf (filledMap f) = verdict (mapTable f) := by
  obtain ⟨map, bmap, red, vac, rf, mf⟩ := f
  obtain ⟨h1, h2, h3, h4, h5, h6⟩ := h
  simp only [FromUser] at h1 h2 h3 h4 h5 h6
  rcases h1 with rfl | ⟨_, rfl⟩ <;> rcases h2 with rfl | ⟨_, rfl⟩ <;> rcases h3 with rfl | ⟨_, rfl⟩ <;>
    rcases h4 with rfl | ⟨_, rfl⟩ <;> rcases h5 with rfl | ⟨_, rfl⟩ <;> rcases h6 with rfl | ⟨_, rfl⟩ <;>
    simp [filledMap, filledFold, fillMap, fillReduction, fillFrees, mapTable, verdict, Fold.destructed, Fold.incompatible, allow,
      Field.given, bind, Except.bind] <;> split_ifs <;> simp_all

theorem errorOf_unlessEmpty {f : Fold} (h : f.FromUser) : errorOf (filledUnlessEmpty f) = verdict (foldTable f) := by
  unfold filledUnlessEmpty
  rw [emptyFold_user h]
  split_ifs with hb
  · simp only [Fold.blank, Bool.and_eq_true, Option.isNone_iff_eq_none] at hb
    obtain ⟨⟨⟨⟨⟨h1, h2⟩, h3⟩, h4⟩, h5⟩, h6⟩ := hb
    simp [foldTable, verdict, Fold.destructed, Fold.incompatible, h1, h2, h3, h4, h5, h6]
  · exact errorOf_filledFold h

/-- A property of which the vertex part is handled by itself. -/
theorem errorOf_filledProp {p : Prp} (hi : p.incident.FromUser) (ho : p.outgoing.FromUser) :
    errorOf (filledProp p) =
      ((verdict (foldTable p.incident)).or (verdict (foldTable p.outgoing))).or (errorOf (filledFold p.vertex)) := by
  unfold filledProp
  rw [← errorOf_unlessEmpty hi, ← errorOf_unlessEmpty ho]
  cases filledUnlessEmpty p.incident <;> cases filledUnlessEmpty p.outgoing <;> cases filledFold p.vertex <;> rfl

theorem errorOf_filledProp' {p : Prp} (h : p.FromUser) : errorOf (filledProp p) = verdict (propTable p) := by
  rw [errorOf_filledProp h.2 h.3, errorOf_filledFold h.1, propTable, verdict_append, verdict_append]

theorem errorOf_filledMapProp {p : Prp} (h : p.FromUser) : errorOf (filledMapProp p) = verdict (mapPropTable p) := by
  unfold filledMapProp
  rw [errorOf_bind _ _ ((verdict (foldTable p.incident)).or (verdict (foldTable p.outgoing)))]
  · rw [errorOf_filledMap h.1, mapPropTable, verdict_append, verdict_append, Option.or_assoc]
  · intro a ha
    rw [errorOf_filledProp (p := { p with vertex := a }) h.2 h.3]
    simp only [filledFold_again ha, errorOf_ok, Option.or_none]

/-! ## C51 -/

theorem errorOf_hash (o : Order) : errorOf (fullOrder { o with hash := allow o.hash (some .undefinedHash) }) = errorOf (fullOrder o) := by
  obtain ⟨h, e⟩ := o
  cases h <;> simp [fullOrder, allow, Field.given]

/-- **C51** cru_built: a builder is rejected exactly in the cases in the table, with the code of the first case that applies. -/
theorem C51_builder (b : Builder) (reflexive : Bool) :
    errorOf (inferredBuilder b reflexive) = verdict (builderTable b reflexive) := by
  obtain ⟨c, d, s⟩ := b
  simp only [builderTable, verdict_append, ← errorOf_defaulted]
  cases c <;> cases d <;> simp only [inferredBuilder, verdict]
  · rfl
  · generalize (if s.vFree.isNone then allowScalarOrder s.vOrder else s.vOrder) = v
    generalize (if s.eFree.isNone then allowScalarOrder s.eOrder else s.eOrder) = e
    cases hv : fullOrder v <;> cases he : fullOrder e <;> cases reflexive <;> simp [hv, he, bind, Except.bind] <;> rfl
  · generalize (if s.vFree.isNone then allowScalarOrder s.vOrder else s.vOrder) = v
    generalize (if s.eFree.isNone then allowScalarOrder s.eOrder else s.eOrder) = e
    rw [← errorOf_hash e]
    simp only [Option.isSome_some, if_true]
    generalize { e with hash := allow e.hash (some .undefinedHash) : Order } = e'
    cases hv : fullOrder v <;> cases he : fullOrder e' <;> cases reflexive <;> simp [hv, he, bind, Except.bind] <;> rfl
  · rfl

/-- **C51** cru_crossed. -/
theorem C51_crosser (c : Crosser) : errorOf (inferredCrosser c) = verdict (crosserTable c) := by
  obtain ⟨v, s, p, o⟩ := c
  simp only [crosserTable, verdict_append, ← errorOf_defaulted]
  cases v <;> cases o <;> simp only [inferredCrosser, verdict]
  · rfl
  · rfl
  · rfl
  · generalize (if s.vFree.isNone then allowScalarOrder s.vOrder else s.vOrder) = v
    cases hv : fullOrder v <;> simp [bind, Except.bind, hv] <;> rfl

theorem fill_frees_user {f f' : Fold} (h : f.FromUser) (hf : filledFold f = .ok f') : f'.mFree = f.mFree ∧ f'.rFree = f.rFree := by
  obtain ⟨map, bmap, red, vac, rf, mf⟩ := f
  obtain ⟨h1, h2, h3, h4, h5, h6⟩ := h
  simp only [FromUser] at h1 h2 h3 h4 h5 h6
  rcases h1 with rfl | ⟨_, rfl⟩ <;> rcases h2 with rfl | ⟨_, rfl⟩ <;> rcases h3 with rfl | ⟨_, rfl⟩ <;>
    rcases h4 with rfl | ⟨_, rfl⟩ <;> rcases h5 with rfl | ⟨_, rfl⟩ <;> rcases h6 with rfl | ⟨_, rfl⟩ <;>
    simp [filledFold, fillMap, fillReduction, fillFrees, allow, Field.given, bind, Except.bind] at hf <;>
    first | (subst hf; exact ⟨rfl, rfl⟩) | (split_ifs at hf; cases hf; exact ⟨rfl, rfl⟩)

/-- Given functions are kept when only the map is needed. -/
theorem fill_map_user {f f' : Fold} (h : f.FromUser) (hf : filledMap f = .ok f') : f.Kept f' := by
  obtain ⟨map, bmap, red, vac, rf, mf⟩ := f
  obtain ⟨h1, h2, h3, h4, h5, h6⟩ := h
  simp only [FromUser] at h1 h2 h3 h4 h5 h6
  rcases h1 with rfl | ⟨_, rfl⟩ <;> rcases h2 with rfl | ⟨_, rfl⟩ <;> rcases h3 with rfl | ⟨_, rfl⟩ <;>
    rcases h4 with rfl | ⟨_, rfl⟩ <;> rcases h5 with rfl | ⟨_, rfl⟩ <;> rcases h6 with rfl | ⟨_, rfl⟩ <;>
    simp [filledMap, filledFold, fillMap, fillReduction, fillFrees, allow, Field.given, bind, Except.bind] at hf <;>
    first | (subst hf; constructor <;> simp [Kept]) | (split_ifs at hf; cases hf; constructor <;> simp [Kept])

/-- **C51** cru_mapreduced. -/
theorem C51_mapreducer (p : Prp) (h : p.FromUser) : errorOf (inferredMapreducer p) = verdict (mapreducerTable p) := by
  simp only [mapreducerTable, verdict_append, ← errorOf_filledProp' h]
  unfold inferredMapreducer
  apply errorOf_bind
  intro q hq
  have hf : q.vertex.mFree = p.vertex.mFree ∧ q.vertex.rFree = p.vertex.rFree := by
    unfold filledProp at hq
    cases hi : filledUnlessEmpty p.incident with
    | error e => rw [hi] at hq; cases hq
    | ok i =>
      cases ho : filledUnlessEmpty p.outgoing with
      | error e => rw [hi, ho] at hq; cases hq
      | ok o =>
        cases hv : filledFold p.vertex with
        | error e => rw [hi, ho, hv] at hq; cases hq
        | ok v =>
          rw [hi, ho, hv] at hq
          cases hq
          exact fill_frees_user h.1 hv
  rw [hf.1, hf.2]
  simp only [verdict]
  by_cases he : p.vertex.mFree = p.vertex.rFree <;> simp [he]

/-- **C51** cru_induced. -/
theorem C51_inducer (i : Inducer) (h : i.fold.FromUser) : errorOf (inferredInducer i) = verdict (inducerTable i) := by
  obtain ⟨b, map, bmap, red, vac, rf, mf⟩ := i
  obtain ⟨h1, h2, h3, h4, h5, h6⟩ := h
  simp only [FromUser] at h1 h2 h3 h4 h5 h6
  cases b <;>
  rcases h1 with rfl | ⟨_, rfl⟩ <;> rcases h2 with rfl | ⟨_, rfl⟩ <;> rcases h3 with rfl | ⟨_, rfl⟩ <;>
    rcases h4 with rfl | ⟨_, rfl⟩ <;> rcases h5 with rfl | ⟨_, rfl⟩ <;> rcases h6 with rfl | ⟨_, rfl⟩ <;>
    simp [inferredInducer, filledFold, fillMap, fillReduction, fillFrees, inducerTable, verdict, Fold.destructed, Fold.incompatible, allow,
      Field.given, bind, Except.bind] <;> first | done | rfl | (split_ifs <;> rfl)

/-- **C51** cru_composed, for any signature of the graph. -/
theorem C51_composer (c : Composer) (s : Sig) (hl : c.loc.FromUser) (ha : c.adjacent.FromUser) :
    errorOf (inferredComposer c s) = verdict (composerTable c s) := by
  obtain ⟨qp, qo, l, a⟩ := c
  simp only [composerTable, verdict_append, ← errorOf_filledMapProp ha, ← errorOf_filledMapProp hl, ← errorOf_fullOrder]
  obtain ⟨v, e, vf, ef⟩ := s
  cases ef <;> cases qo <;> cases hv : fullOrder e <;> cases h1 : filledMapProp a <;> cases h2 : filledMapProp l <;>
    simp [inferredComposer, verdict, allow, bind, Except.bind, hv, h1, h2] <;> rfl

/-- **C51** cru_stretched. -/
theorem C51_stretcher (x : Stretcher) (s : Sig) (h : x.prop.FromUser) :
    errorOf (inferredStretcher x s) = verdict (stretcherTable x s) := by
  obtain ⟨e, p⟩ := x
  simp only [stretcherTable, verdict_append, ← errorOf_filledMapProp h, ← errorOf_filledSig]
  cases e <;> cases h1 : filledSig s <;> cases h2 : filledMapProp p <;>
    simp [inferredStretcher, verdict, bind, Except.bind, h1, h2] <;> rfl

/-- **C51** cru_split. -/
theorem C51_splitter (x : Splitter) (s : Sig) (h : x.prop.FromUser) :
    errorOf (inferredSplitter x s) = verdict (splitterTable x s) := by
  obtain ⟨ana, cata, fi, p, ia, ic, oa, oc⟩ := x
  simp only [splitterTable, verdict_append, ← errorOf_filledMapProp h, ← errorOf_filledSig]
  cases h1 : filledSig s with
  | error e => simp [inferredSplitter, h1, bind, Except.bind]
  | ok s' =>
    have hf : s'.vFree = s.vFree ∧ s'.eFree = s.eFree := by
      unfold filledSig at h1
      cases q1 : filledOrder s.eOrder s.eFree <;> cases q2 : filledOrder s.vOrder s.vFree <;> rw [q1, q2] at h1 <;> cases h1
      exact ⟨rfl, rfl⟩
    cases h2 : filledMapProp p with
    | error e => simp [inferredSplitter, h1, h2, bind, Except.bind]
    | ok q =>
      obtain ⟨v', e', vf, ef⟩ := s'
      obtain ⟨v, e, vf', ef'⟩ := s
      simp only at hf
      obtain ⟨rfl, rfl⟩ := hf
      obtain ⟨t1, a1⟩ := ia
      obtain ⟨t2, a2⟩ := ic
      obtain ⟨t3, a3⟩ := oa
      obtain ⟨t4, a4⟩ := oc
      cases vf <;> cases ef <;> cases ana <;> cases cata <;>
        simp [inferredSplitter, h1, h2, bind, Except.bind, allow, verdict] <;>
        first | done | rfl | (cases a1 <;> cases a2 <;> cases a3 <;> cases a4 <;> rfl)

theorem errorOf_classifier {c : Classifier} (h : c.prop.FromUser) : errorOf (filledClassifier c) = verdict (classifierTable c) := by
  obtain ⟨p, o⟩ := c
  have e1 : errorOf (filledProp { p with vertex := { p.vertex with reduction := allow p.vertex.reduction (some .undefinedBop) } }) =
      ((verdict (foldTable p.incident)).or (verdict (foldTable p.outgoing))).or (verdict (mapTable p.vertex)) := by
    rw [← errorOf_filledMap h.1]
    exact errorOf_filledProp (p := { p with vertex := { p.vertex with reduction := allow p.vertex.reduction (some .undefinedBop) } })
      h.2 h.3
  simp only [classifierTable, verdict_append, ← e1]
  unfold filledClassifier
  apply errorOf_bind
  intro q hq
  have hm : q.vertex.mFree = p.vertex.mFree := by
    unfold filledProp at hq
    simp only at hq
    cases hi : filledUnlessEmpty p.incident with
    | error e => rw [hi] at hq; cases hq
    | ok i =>
      cases ho : filledUnlessEmpty p.outgoing with
      | error e => rw [hi, ho] at hq; cases hq
      | ok o =>
        cases hv : filledMap p.vertex with
        | error e => unfold filledMap at hv; rw [hi, ho, hv] at hq; cases hq
        | ok v =>
          have hv' := hv
          unfold filledMap at hv'
          rw [hi, ho, hv'] at hq
          cases hq
          exact (fill_map_user h.1 hv).mFree
  simp only [hm, ← errorOf_defaulted]
  generalize (if p.vertex.mFree.isNone then allowScalarOrder o else o) = o'
  cases fullOrder o' <;> rfl

/-- **C51** cru_partition_of. -/
theorem C51_classifier (c : Classifier) (h : c.prop.FromUser) :
    errorOf (inferredClassifier (some c)) = verdict (classifierTable c) := errorOf_classifier h

/-- **C51** cru_partition_of without a classifier. -/
theorem C51_no_classifier : errorOf (inferredClassifier none) = some NULCSF := rfl

/-- **C51** cru_postponed. -/
theorem C51_postponer (p : Postponer) (s : Sig) : errorOf (inferredPostponer p s) = verdict (postponerTable p s) := by
  obtain ⟨a, b, c⟩ := p
  obtain ⟨v, e, vf, ef⟩ := s
  simp only [postponerTable, verdict_append, ← errorOf_defaulted]
  simp only [inferredPostponer]
  generalize (if ef.isNone then allowScalarOrder e else e) = o
  cases ho : fullOrder o <;> cases ef <;> cases a <;> cases c <;> simp [bind, Except.bind, ho, verdict, allow] <;> rfl

/-- **C51** cru_fabricated. -/
theorem C51_fabricator (a : Fabricator) (s : Sig) : errorOf (inferredFabricator a s) = verdict (fabricatorTable a) := by
  obtain ⟨vf, ef, v, e, d, g⟩ := a
  cases vf <;> cases ef <;> cases d <;> cases g <;> rfl

theorem merger_identity {o : Order} (h : errorOf (fullOrder o) = none) :
    errorOf (filledClassifier ⟨⟨{ noFold with map := some .identityTop }, noFold, noFold⟩, o⟩) = none := by
  obtain ⟨a, b⟩ := o
  cases a with
  | none => simp [fullOrder, Field.given] at h
  | some a =>
    cases b with
    | none =>
      simp only [fullOrder, Field.given] at h
      split_ifs at h <;> simp_all
    | some b =>
      have e : errorOf (filledClassifier ⟨⟨{ noFold with map := some .identityTop }, noFold, noFold⟩, ⟨some a, some b⟩⟩) =
          errorOf (fullOrder ⟨some a, some b⟩) := by
        simp only [filledClassifier, filledProp, filledUnlessEmpty, emptyFold, noFold, filledFold, fillMap, fillReduction, fillFrees,
          Field.given, allow, bind, Except.bind]
        simp only [allowScalarOrder, allowOrder, allow]
        simp
        cases fullOrder ⟨some a, some b⟩ <;> rfl
      rw [e, h]

/-- **C51** cru_deduplicated, for any signature of the graph. -/
theorem C51_deduplicator (s : Sig) : errorOf (deduplicator s) = verdict (deduplicatorTable s) := by
  simp only [deduplicatorTable, verdict_append, ← errorOf_fullOrder]
  obtain ⟨v, e, vf, ef⟩ := s
  cases h1 : fullOrder e with
  | error x => simp [deduplicator, h1, bind, Except.bind]
  | ok u =>
    cases h2 : fullOrder v with
    | error x => simp [deduplicator, h1, h2, bind, Except.bind]
    | ok u' =>
      have hm := merger_identity (o := v) (by rw [h2]; rfl)
      obtain ⟨k, hk⟩ := errorOf_none hm
      simp [deduplicator, h1, h2, bind, Except.bind, inferredMerger', mergerVertices, mergerEdges, mergerClassifier, emptyProp,
        emptyClassifier, emptyFold, noFold, Field.given] at hk ⊢
      simp [hk, pure, Except.pure]

theorem Fold.eq_of_blank {f : Fold} (h : f.blank = true) : f = noFold := by
  obtain ⟨map, bmap, red, vac, rf, mf⟩ := f
  simp only [Fold.blank, Bool.and_eq_true, Option.isNone_iff_eq_none] at h
  obtain ⟨⟨⟨⟨⟨rfl, rfl⟩, rfl⟩, rfl⟩, rfl⟩, rfl⟩ := h
  rfl

theorem Prp.eq_of_blank {p : Prp} (h : p.blank = true) : p = ⟨noFold, noFold, noFold⟩ := by
  obtain ⟨v, i, o⟩ := p
  simp only [Prp.blank, Bool.and_eq_true] at h
  rw [Fold.eq_of_blank h.1.1, Fold.eq_of_blank h.1.2, Fold.eq_of_blank h.2]

theorem Order.eq_of_blank {o : Order} (h : o.blank = true) : o = ⟨none, none⟩ := by
  obtain ⟨a, b⟩ := o
  simp only [Order.blank, Bool.and_eq_true, Option.isNone_iff_eq_none] at h
  obtain ⟨rfl, rfl⟩ := h
  rfl

theorem emptyClassifier_user {c : Classifier} (h : c.prop.FromUser) (ho : c.order.FromUser) : emptyClassifier c = c.blank := by
  simp [emptyClassifier, Classifier.blank, emptyProp_user h, emptyOrder_user ho]

theorem errorOf_mergerVertices {c : Merger} (s : Sig) (h : c.kernel.vOp.FromUser) :
    errorOf (mergerVertices c s) = verdict (propTable c.kernel.vOp) := by
  unfold mergerVertices
  rw [emptyProp_user h]
  split_ifs with hb
  · rw [Prp.eq_of_blank hb]; rfl
  · rw [← errorOf_filledProp' h]
    cases filledProp c.kernel.vOp <;> rfl

theorem mergerVertices_keeps {c : Merger} {s : Sig} {x : Merger × Sig} (h : mergerVertices c s = .ok x) :
    x.1.kernel.eOp = c.kernel.eOp ∧ x.1.eOrder = c.eOrder ∧ x.1.pruner = c.pruner ∧ x.1.classifier = c.classifier ∧
      x.2.eOrder = s.eOrder := by
  unfold mergerVertices at h
  split_ifs at h
  · cases h; exact ⟨rfl, rfl, rfl, rfl, rfl⟩
  · cases hv : filledProp c.kernel.vOp with
    | error e => rw [hv] at h; cases h
    | ok v => rw [hv] at h; cases h; exact ⟨rfl, rfl, rfl, rfl, rfl⟩

theorem errorOf_mergerEdges {c : Merger} (s : Sig) (h : c.kernel.eOp.FromUser) :
    errorOf (mergerEdges c s) = (verdict (foldTable c.kernel.eOp)).or
      (verdict (provided c.pruner.isSome
        (if c.kernel.eOp.blank then
          strictTable ⟨orElse c.eOrder.hash s.eOrder.hash, orElse c.eOrder.equal s.eOrder.equal⟩
        else strictTable c.eOrder))) := by
  have ho : (⟨orElse c.eOrder.hash s.eOrder.hash, orElse c.eOrder.equal s.eOrder.equal⟩ : Order) = allowOrder c.eOrder s.eOrder := by
    obtain ⟨a, b⟩ := c.eOrder
    cases a <;> cases b <;> rfl
  rw [ho, verdict_provided]
  unfold mergerEdges
  rw [emptyFold_user h]
  by_cases hb : c.kernel.eOp.blank = true
  · have e1 : verdict (foldTable c.kernel.eOp) = none := by rw [Fold.eq_of_blank hb]; rfl
    rw [e1, if_pos hb, if_pos hb, ← errorOf_fullOrder]
    cases hp : c.pruner with
    | none => rfl
    | some f => cases hf : fullOrder (allowOrder c.eOrder s.eOrder) <;> simp [bind, Except.bind, hf, hp]
  · rw [if_neg hb, if_neg hb, ← errorOf_fullOrder, ← errorOf_filledFold h]
    cases hp : c.pruner with
    | none => cases filledFold c.kernel.eOp <;> simp [bind, Except.bind, hp]
    | some f => cases filledFold c.kernel.eOp <;> cases hf : fullOrder c.eOrder <;> simp [bind, Except.bind, hf, hp]

theorem mergerEdges_keeps {c : Merger} {s : Sig} {x : Merger × Sig} (h : mergerEdges c s = .ok x) : x.1.classifier = c.classifier := by
  unfold mergerEdges at h
  split_ifs at h
  · simp only [bind, Except.bind] at h
    split_ifs at h
    · cases h; rfl
    · split at h
      · cases h
      · cases h; rfl
  · cases hf : filledFold c.kernel.eOp with
    | error e => rw [hf] at h; cases h
    | ok f =>
      rw [hf] at h
      simp only [bind, Except.bind] at h
      split_ifs at h
      · cases h; rfl
      · split at h
        · cases h
        · cases h; rfl

theorem errorOf_mergerClassifier {c : Merger} (h : c.classifier.prop.FromUser) (ho : c.classifier.order.FromUser) :
    errorOf (mergerClassifier c) = verdict (provided (!c.classifier.blank) (classifierTable c.classifier)) := by
  rw [verdict_provided]
  unfold mergerClassifier
  rw [emptyClassifier_user h ho]
  by_cases hb : c.classifier.blank = true
  · obtain ⟨⟨p, o⟩, a, b, k, r⟩ := c
    simp only [Classifier.blank, Bool.and_eq_true] at hb
    rw [Prp.eq_of_blank hb.1, Order.eq_of_blank hb.2]
    rfl
  · rw [if_neg hb]
    simp only [hb]
    rw [← errorOf_classifier h]
    cases hf : filledClassifier c.classifier <;> simp [bind, Except.bind, hf]

/-- **C51** cru_merged, for any signature of the graph. -/
theorem C51_merger (c : Merger) (s : Sig) (hv : c.kernel.vOp.FromUser) (he : c.kernel.eOp.FromUser)
    (hc : c.classifier.prop.FromUser) (ho : c.classifier.order.FromUser) :
    errorOf (inferredMerger c s) = verdict (mergerTable c s) := by
  unfold inferredMerger mergerTable
  simp only [verdict_append]
  rw [emptyProp_user hv, emptyClassifier_user hc ho]
  by_cases hb : c.kernel.vOp.blank = c.classifier.blank
  · rw [if_neg (by simpa using hb)]
    have e0 : verdict [(c.kernel.vOp.blank != c.classifier.blank, INCMRG)] = none := by simp [verdict, hb]
    rw [e0, Option.none_or]
    unfold inferredMerger'
    rw [errorOf_bind _ _ ((verdict (foldTable c.kernel.eOp)).or
      ((verdict (provided c.pruner.isSome
        (if c.kernel.eOp.blank then
          strictTable ⟨orElse c.eOrder.hash s.eOrder.hash, orElse c.eOrder.equal s.eOrder.equal⟩
        else strictTable c.eOrder))).or (verdict (provided (!c.classifier.blank) (classifierTable c.classifier))))),
      errorOf_mergerVertices s hv, Option.or_assoc, Option.or_assoc]
    intro x hx
    obtain ⟨k1, k2, k3, k4, k5⟩ := mergerVertices_keeps hx
    rw [errorOf_bind _ _ (verdict (provided (!c.classifier.blank) (classifierTable c.classifier)))]
    · rw [errorOf_mergerEdges _ (by rw [k1]; exact he), k1, k2, k3, k5, Option.or_assoc]
    · intro y hy
      have ky := mergerEdges_keeps hy
      rw [k4] at ky
      rw [errorOf_bind _ _ none]
      · rw [errorOf_mergerClassifier (by rw [ky]; exact hc) (by rw [ky]; exact ho), ky, Option.or_none]
      · intro a _; rfl
  · rw [if_pos hb]
    simp [verdict, hb]

/-- Properties that are filled successfully. -/
theorem filledProp_ok {p q : Prp} (h : filledProp p = .ok q) :
    filledUnlessEmpty p.incident = .ok q.incident ∧ filledUnlessEmpty p.outgoing = .ok q.outgoing ∧
      filledFold p.vertex = .ok q.vertex := by
  unfold filledProp at h
  cases hi : filledUnlessEmpty p.incident with
  | error e => rw [hi] at h; cases h
  | ok i =>
    cases ho : filledUnlessEmpty p.outgoing with
    | error e => rw [hi, ho] at h; cases h
    | ok o =>
      cases hv : filledFold p.vertex with
      | error e => rw [hi, ho, hv] at h; cases h
      | ok v =>
        rw [hi, ho, hv] at h
        cases h
        exact ⟨rfl, rfl, rfl⟩

theorem filledMapProp_ok {p q : Prp} (h : filledMapProp p = .ok q) :
    filledUnlessEmpty p.incident = .ok q.incident ∧ filledUnlessEmpty p.outgoing = .ok q.outgoing ∧
      filledMap p.vertex = .ok q.vertex := by
  unfold filledMapProp at h
  cases hv : filledMap p.vertex with
  | error e => rw [hv] at h; cases h
  | ok v =>
    rw [hv] at h
    obtain ⟨h1, h2, h3⟩ := filledProp_ok (p := { p with vertex := v }) h
    refine ⟨h1, h2, ?_⟩
    rw [← h3]
    exact (filledFold_again hv).symm

/-- What is left to say about a fold over edges after filling it. -/
theorem unlessEmpty_ok {f f' : Fold} (h : f.FromUser) (hf : filledUnlessEmpty f = .ok f') :
    (!(emptyFold f') && f'.vacuousCase.isNone) = (!f.blank && f.vacuousCase.isNone) := by
  unfold filledUnlessEmpty at hf
  rw [emptyFold_user h] at hf
  by_cases hb : f.blank = true
  · rw [if_pos hb] at hf
    cases hf
    rw [emptyFold_user h]
  · rw [if_neg hb] at hf
    obtain ⟨map, bmap, red, vac, rf, mf⟩ := f
    obtain ⟨h1, h2, h3, h4, h5, h6⟩ := h
    simp only [FromUser] at h1 h2 h3 h4 h5 h6
    rcases h1 with rfl | ⟨_, rfl⟩ <;> rcases h2 with rfl | ⟨_, rfl⟩ <;> rcases h3 with rfl | ⟨_, rfl⟩ <;>
      rcases h4 with rfl | ⟨_, rfl⟩ <;> rcases h5 with rfl | ⟨_, rfl⟩ <;> rcases h6 with rfl | ⟨_, rfl⟩ <;>
      simp [filledFold, fillMap, fillReduction, fillFrees, allow, Field.given, bind, Except.bind, Fold.blank] at hf hb ⊢ <;>
      first | done | (subst hf; simp [emptyFold, Field.given]) | (split_ifs at hf; cases hf; simp [emptyFold, Field.given])

theorem errorOf_mutatorEdges {m : Mutator} (h : m.kernel.eOp.FromUser) :
    errorOf (mutatorEdges m) = (verdict (mapTable m.kernel.eOp)).or
      (verdict [(!(emptyFold m.kernel.vOp.incident) && m.kernel.vOp.incident.vacuousCase.isNone, UNDVAC),
        (!(emptyFold m.kernel.vOp.outgoing) && m.kernel.vOp.outgoing.vacuousCase.isNone, UNDVAC)]) := by
  unfold mutatorEdges
  have he : emptyFold { m.kernel.eOp with reduction := allow m.kernel.eOp.reduction (some .undefinedBop) } = m.kernel.eOp.blank := by
    rw [← emptyFold_user h]
    cases hr : m.kernel.eOp.reduction <;> simp [emptyFold, allow, hr, Field.given]
  simp only [he]
  apply Eq.trans (errorOf_bind _ _ _ ?_)
  rotate_left
  · exact verdict [(!(emptyFold m.kernel.vOp.incident) && m.kernel.vOp.incident.vacuousCase.isNone, UNDVAC),
      (!(emptyFold m.kernel.vOp.outgoing) && m.kernel.vOp.outgoing.vacuousCase.isNone, UNDVAC)]
  · intro a _
    generalize (!(emptyFold m.kernel.vOp.incident) && m.kernel.vOp.incident.vacuousCase.isNone) = b
    generalize (!(emptyFold m.kernel.vOp.outgoing) && m.kernel.vOp.outgoing.vacuousCase.isNone) = b'
    cases b <;> cases b' <;> rfl
  · congr 1
    by_cases hb : m.kernel.eOp.blank = true
    · rw [if_pos hb, Fold.eq_of_blank hb]; rfl
    · rw [if_neg hb, ← errorOf_filledMap h]
      unfold filledMap
      cases hr : m.kernel.eOp.reduction <;> simp [allow]

/-- **C51** cru_mutated, for any signature of the graph. -/
theorem C51_mutator (m : Mutator) (s : Sig) (hv : m.kernel.vOp.FromUser) (he : m.kernel.eOp.FromUser) :
    errorOf (inferredMutator m s) = verdict (mutatorTable m) := by
  have hl : ∀ {f : Fold}, f.FromUser → looksAround f = (!f.blank && (f.map.isSome || f.bmap.isNone)) := by
    intro f hf
    rw [looksAround, emptyFold_user hf]
  unfold inferredMutator mutatorTable
  simp only [emptyProp_user hv, emptyFold_user he, hl hv.2, hl hv.3]
  by_cases hd : (m.localFirst && m.remoteFirst) = true
  · simp only [hd]
    rfl
  · have hd' : (m.localFirst && m.remoteFirst) = false := by simpa using hd
    simp only [hd', verdict_append]
    by_cases hb : m.kernel.vOp.blank = true
    · obtain ⟨lf, rf, ⟨v, e⟩, vo, eo⟩ := m
      simp only at hb he hd'
      have hv' := Prp.eq_of_blank hb
      subst hv'
      have e1 := errorOf_mutatorEdges (m := ⟨lf, rf, ⟨⟨noFold, noFold, noFold⟩, e⟩, vo, eo⟩) he
      have e2 : (!(emptyFold noFold) && noFold.vacuousCase.isNone) = false := rfl
      simp only [e2] at e1
      have e3 : verdict [(false, UNDVAC), (false, UNDVAC)] = none := rfl
      rw [e3, Option.or_none] at e1
      have e4 : noFold.blank = true := rfl
      have e5 : verdict (mapPropTable ⟨noFold, noFold, noFold⟩) = none := rfl
      simp only [Prp.blank, e4, e5, ← e1]
      cases mutatorEdges ⟨lf, rf, ⟨⟨noFold, noFold, noFold⟩, e⟩, vo, eo⟩ <;> rfl
    · have hb' : m.kernel.vOp.blank = false := by simpa using hb
      simp only [hb']
      generalize hg : (!m.kernel.eOp.blank || (!m.kernel.vOp.incident.blank && (m.kernel.vOp.incident.map.isSome || m.kernel.vOp.incident.bmap.isNone)) ||
        (!m.kernel.vOp.outgoing.blank && (m.kernel.vOp.outgoing.map.isSome || m.kernel.vOp.outgoing.bmap.isNone))) = g
      have key : errorOf (filledMapProp m.kernel.vOp >>= fun v =>
          mutatorEdges { m with kernel := { m.kernel with vOp := v } } >>= fun m' =>
            (pure (m', inferredSig s m.vOrder m.eOrder m.kernel) : Except Int (Mutator × Sig))) =
          (verdict (mapPropTable m.kernel.vOp)).or ((verdict (mapTable m.kernel.eOp)).or
            (verdict [(!m.kernel.vOp.incident.blank && m.kernel.vOp.incident.vacuousCase.isNone, UNDVAC),
              (!m.kernel.vOp.outgoing.blank && m.kernel.vOp.outgoing.vacuousCase.isNone, UNDVAC)])) := by
        rw [← errorOf_filledMapProp hv]
        apply errorOf_bind
        intro v hv'
        obtain ⟨k1, k2, -⟩ := filledMapProp_ok hv'
        rw [errorOf_bind _ _ none]
        · rw [Option.or_none, errorOf_mutatorEdges (m := { m with kernel := { m.kernel with vOp := v } }) he,
            unlessEmpty_ok hv.2 k1, unlessEmpty_ok hv.3 k2]
        · intro a _; rfl
      cases hlf : m.localFirst <;> cases hrf : m.remoteFirst <;> cases g <;> simp [hlf, hrf] at hd' <;>
        simp [verdict, Option.or_assoc, hlf, hrf] at key ⊢ <;> first | exact key | rfl

/-- A vertex fold of a filter. -/
theorem errorOf_filterVertices {p : Prp} (thinner : Field) (h : p.FromUser) :
    errorOf (filterVertices thinner p) = verdict (foldTable p.incident ++ foldTable p.outgoing ++
      [(p.vertex.bmap.isSome, -820), (p.vertex.reduction.isSome && p.vertex.incompatible, TPCMPR)]) := by
  unfold filterVertices
  simp only [emptyProp_user h, verdict_append]
  have key : ∀ f, (f = Fn.falseTop ∨ f = Fn.disjoiningTop) →
      errorOf (filledFold { p.vertex with map := allow p.vertex.map (some f), reduction := allow p.vertex.reduction (some .undefinedBop) }) =
      verdict [(p.vertex.bmap.isSome, -820), (p.vertex.reduction.isSome && p.vertex.incompatible, TPCMPR)] := by
    intro f hf
    obtain ⟨⟨map, bmap, red, vac, rf, mf⟩, i, o⟩ := p
    obtain ⟨⟨h1, h2, h3, h4, h5, h6⟩, -, -⟩ := h
    simp only [FromUser] at h1 h2 h3 h4 h5 h6
    rcases h1 with rfl | ⟨_, rfl⟩ <;> rcases h2 with rfl | ⟨_, rfl⟩ <;> rcases h3 with rfl | ⟨_, rfl⟩ <;>
      rcases h4 with rfl | ⟨_, rfl⟩ <;> rcases h5 with rfl | ⟨_, rfl⟩ <;> rcases h6 with rfl | ⟨_, rfl⟩ <;>
      rcases hf with rfl | rfl <;>
      simp [filledFold, fillMap, fillReduction, fillFrees, verdict, Fold.incompatible, allow, Field.given, bind, Except.bind] <;>
      first | done | (split_ifs <;> rfl)
  by_cases hb : p.blank = true
  · rw [Prp.eq_of_blank hb]
    cases thinner <;> rfl
  · simp only [hb]
    have hm : (if (thinner.isSome && false) = true then allow p.vertex.map (some .falseTop) else p.vertex.map) = p.vertex.map := by
      simp
    rw [hm]
    by_cases hc : emptyProp { p with vertex := { p.vertex with map := allow p.vertex.map (some .disjoiningTop), reduction := allow p.vertex.reduction (some .undefinedBop) } } = true
    · exfalso
      apply hb
      rw [← emptyProp_user h]
      rw [← hc]
      obtain ⟨⟨map, bmap, red, vac, rf, mf⟩, i, o⟩ := p
      obtain ⟨⟨h1, h2, h3, h4, h5, h6⟩, -, -⟩ := h
      simp only [FromUser] at h1 h2 h3 h4 h5 h6
      rcases h1 with rfl | ⟨_, rfl⟩ <;> rcases h3 with rfl | ⟨_, rfl⟩ <;> simp [emptyProp, emptyFold, allow, Field.given]
    · rw [if_neg hc, ← key _ (Or.inr rfl)]
      exact errorOf_filledProp (p := { p with vertex := { p.vertex with map := allow p.vertex.map (some .disjoiningTop), reduction := allow p.vertex.reduction (some .undefinedBop) } }) h.2 h.3

/-- A fold over edges of a filter. -/
theorem errorOf_filterEdges {e : Fold} {o : Order} (thinner : Field) (s : Sig) (he : e.FromUser) (ho : o.FromUser) :
    errorOf (filterEdges thinner e o s) = verdict (provided (!o.blank)
      (orderTable ⟨orElse o.hash s.eOrder.hash, orElse o.equal s.eOrder.equal⟩ s.eFree ++ [(e.blank && thinner.isNone, INCFIL)]) ++
      foldTable e) := by
  have hor : (⟨orElse o.hash s.eOrder.hash, orElse o.equal s.eOrder.equal⟩ : Order) = allowOrder o s.eOrder := by
    obtain ⟨a, b⟩ := o
    cases a <;> cases b <;> rfl
  rw [verdict_append, verdict_provided, verdict_append, hor, ← errorOf_defaulted]
  unfold filterEdges
  simp only [emptyFold_user he, emptyOrder_user ho]
  generalize hg : (if (thinner.isSome && e.blank) = true then { e with map := allow e.map (some .trueTop) } else e : Fold) = g
  have hemp : emptyFold g = (e.blank && thinner.isNone) := by
    rw [← hg]
    by_cases hb : e.blank = true
    · rw [Fold.eq_of_blank hb]
      cases thinner <;> rfl
    · have hb' : e.blank = false := by simpa using hb
      simp [hb', emptyFold_user he]
  have hfill : errorOf (filledUnlessEmpty g) = verdict (foldTable e) ∧
      ((e.blank && thinner.isNone) = false → errorOf (filledFold g) = verdict (foldTable e)) := by
    by_cases hb : e.blank = true
    · have hz : verdict (foldTable e) = none := by rw [Fold.eq_of_blank hb]; rfl
      rw [hz, ← hg, Fold.eq_of_blank hb]
      cases thinner
      · exact ⟨rfl, fun h => by cases h⟩
      · exact ⟨rfl, fun _ => rfl⟩
    · have hb' : e.blank = false := by simpa using hb
      have hge : g = e := by rw [← hg]; simp [hb']
      rw [hge]
      exact ⟨errorOf_unlessEmpty he, fun _ => errorOf_filledFold he⟩
  by_cases hob : o.blank = true
  · simp only [hob]
    rw [← hfill.1]
    cases filledUnlessEmpty g <;> rfl
  · have hob' : o.blank = false := by simpa using hob
    simp only [hob']
    generalize (if s.eFree.isNone then allowScalarOrder (allowOrder o s.eOrder) else allowOrder o s.eOrder) = o'
    cases hf : fullOrder o' with
    | error x => simp [bind, Except.bind, hf]
    | ok u =>
      simp only [hemp]
      by_cases hi : (e.blank && thinner.isNone) = true
      · simp only [hi]
        simp [bind, Except.bind, hf, verdict]
        rfl
      · have hi' : (e.blank && thinner.isNone) = false := Bool.eq_false_iff.mpr hi
        have h2 := hfill.2 hi'
        rw [← h2]
        simp only [hi']
        cases hgg : filledFold g with
        | error x => simp [bind, Except.bind, hf, verdict, hgg, pure, Except.pure]
        | ok g' =>
          have hag := filledFold_again hgg
          have hu : errorOf (filledUnlessEmpty g') = none := by
            unfold filledUnlessEmpty
            split_ifs
            · rfl
            · rw [hag]; rfl
          obtain ⟨z, hz⟩ := errorOf_none hu
          simp [bind, Except.bind, hf, verdict, hgg, pure, Except.pure, hz]

/-- **C51** cru_filtered, for any signature of the graph. -/
theorem C51_filter (f : Filter) (s : Sig) (hv : f.kernel.vOp.FromUser) (he : f.kernel.eOp.FromUser) (ho : f.order.FromUser) :
    errorOf (inferredFilter f s) = verdict (filterTable f s) := by
  unfold inferredFilter filterTable
  simp only
  rw [List.append_assoc (_ ++ _ ++ _), verdict_append, ← errorOf_filterVertices f.thinner hv, ← errorOf_filterEdges f.thinner s he ho]
  apply errorOf_bind
  intro v _
  cases filterEdges f.thinner f.kernel.eOp f.order s <;> rfl

/-! ## C51: disagreements with the manual pages -/

/-- A fold with only the fields a user would give. -/
def someMap : Field := some (.user 1)
def someFree : Field := some (.user 2)

/-- cru_fold(7) says that a default map may be inferred if m_free, map and bmap are NULL.  It is not, if there is an
r_free. -/
theorem C51_map_not_inferred : errorOf (filledFold { noFold with reduction := some (.user 3), rFree := someFree, vacuousCase := some (.user 4) }) =
    some UNDMAP := rfl

/-- cru_fold(7) says that a default reduction is inferred if r_free and reduction are NULL.  It is not, if there is an
m_free. -/
theorem C51_reduction_not_inferred : errorOf (filledFold { noFold with map := someMap, mFree := someFree, vacuousCase := some (.user 4) }) =
    some UNDRED := rfl

/-- cru_filtered(3) says that the reduction of the edge test is required only with an order.  With a destructor it is required
without an order as well. -/
theorem C51_filter_reduction (s : Sig) :
    errorOf (inferredFilter ⟨none, ⟨⟨noFold, noFold, noFold⟩, { noFold with map := someMap, mFree := someFree }⟩, ⟨none, none⟩⟩ s) = some UNDRED := rfl

/-- cru_fold(7) allows a bmap instead of a map anywhere.  In an inducer it always leads to an internal error, which is
not documented. -/
theorem C51_inducer_bmap (i : Inducer) (h : i.fold.FromUser) (hb : i.fold.bmap ≠ none)
    (hv : i.boundaryValue ≠ none ∨ i.fold.vacuousCase ≠ none) : errorOf (inferredInducer i) = some (-820) := by
  rw [C51_inducer i h]
  obtain ⟨f, hf⟩ := Option.ne_none_iff_exists'.mp hb
  rcases hv with hv | hv <;> obtain ⟨g, hg⟩ := Option.ne_none_iff_exists'.mp hv <;> simp [inducerTable, verdict, hf, hg]

/-- Likewise for the vertex test of a filter, if nothing else is wrong with it. -/
theorem C51_filter_bmap (s : Sig) :
    errorOf (inferredFilter ⟨none, ⟨⟨{ noFold with bmap := someMap }, noFold, noFold⟩, noFold⟩, ⟨none, none⟩⟩ s) = some (-820) := rfl

/-- cru_induced(3) says that a missing map is CRU_UNDMAP and a missing vacuous case is CRU_UNDVAC.  Neither is an error of the
specification by itself if there is a boundary value. -/
theorem C51_inducer_boundary : errorOf (inferredInducer ⟨some (.user 0), noFold⟩) = none := rfl

/-! ### Cases -/

/-- A builder with a destructor for vertices but no equality. -/
example : errorOf (inferredBuilder ⟨some (.user 0), none, ⟨⟨some (.user 1), none⟩, ⟨none, none⟩, some (.user 2), none⟩⟩ true) =
    some UNDEQU := rfl
/-- A builder that is accepted. -/
example : errorOf (inferredBuilder ⟨some (.user 0), none, ⟨⟨none, none⟩, ⟨none, none⟩, none, none⟩⟩ true) = none := rfl
/-- A property from the user with all three folds, rejected for its outgoing edges. -/
example : (⟨{ noFold with map := someMap }, { noFold with map := someMap }, { noFold with mFree := someFree }⟩ : Prp).FromUser := by
  constructor <;> constructor <;> simp [FromUser, noFold, someMap, someFree]
example : errorOf (inferredMapreducer ⟨{ noFold with map := someMap }, { noFold with map := someMap }, { noFold with mFree := someFree }⟩) =
    some UNDMAP := rfl
/-- A mutator of vertices and edges is accepted only with a direction. -/
example (s : Sig) : errorOf (inferredMutator ⟨false, false, ⟨⟨{ noFold with map := someMap }, noFold, noFold⟩, { noFold with map := someMap }⟩,
    ⟨none, none⟩, ⟨none, none⟩⟩ s) = some INCMUT := rfl
example (s : Sig) : errorOf (inferredMutator ⟨true, false, ⟨⟨{ noFold with map := someMap }, noFold, noFold⟩, { noFold with map := someMap }⟩,
    ⟨none, none⟩, ⟨none, none⟩⟩ s) = none := rfl
/-- A merger with a classifier and no vertex operation. -/
example (s : Sig) : errorOf (inferredMerger ⟨⟨⟨{ noFold with map := someMap }, noFold, noFold⟩, ⟨none, none⟩⟩, ⟨none, none⟩, ⟨none, none⟩,
    ⟨⟨noFold, noFold, noFold⟩, noFold⟩, none⟩ s) = some INCMRG := rfl
/-- A filter with an order and no edge test. -/
example : errorOf (inferredFilter ⟨none, ⟨⟨noFold, noFold, noFold⟩, noFold⟩, ⟨some (.user 0), none⟩⟩
    ⟨⟨none, none⟩, ⟨none, none⟩, none, none⟩) = some INCFIL := rfl

/-! ## C52 -/

/-- The order with the scalar default if there is no destructor, once it is known to be full. -/
theorem orderRule_of_full {o : Order} {free : Field} (h : errorOf (fullOrder (if free.isNone then allowScalarOrder o else o)) = none) :
    OrderRule o free (if free.isNone then allowScalarOrder o else o) := by
  rw [errorOf_defaulted] at h
  obtain ⟨a, b⟩ := o
  cases free <;> cases a <;> cases b <;> simp [orderTable, verdict] at h ⊢ <;>
    first
      | (simp [OrderRule, Defaulted, allowScalarOrder, allowOrder, allow]; done)
      | (split_ifs at h)

theorem errorOf_bind_none {α β : Type} {x : Except Int α} {f : α → Except Int β} {b : β} (h : (x >>= f) = .ok b) :
    ∃ a, x = .ok a ∧ f a = .ok b := by
  cases x with
  | error e => cases h
  | ok a => exact ⟨a, rfl, h⟩

theorem full_defined {o : Order} (h : errorOf (fullOrder o) = none) : allowUndefinedOrder o = o ∧ o.hash ≠ some .undefinedHash := by
  rw [errorOf_fullOrder] at h
  obtain ⟨a, b⟩ := o
  cases a <;> cases b <;> simp [strictTable, verdict] at h
  · split_ifs at h
  · exact ⟨rfl, fun hh => by simp_all⟩

/-- **C52** cru_built: functions of the orders of vertices and labels are kept if given and inferred only without a
destructor, and everything else is kept. -/
theorem C52_builder (b b' : Builder) (reflexive : Bool) (h : inferredBuilder b reflexive = .ok b') :
    OrderRule b.sig.vOrder b.sig.vFree b'.sig.vOrder ∧ OrderRule b.sig.eOrder b.sig.eFree b'.sig.eOrder ∧
      b'.connector = b.connector ∧ b'.subconnector = b.subconnector ∧ b'.sig.vFree = b.sig.vFree ∧ b'.sig.eFree = b.sig.eFree := by
  obtain ⟨c, d, s⟩ := b
  simp only [inferredBuilder] at h
  have hv := @orderRule_of_full s.vOrder s.vFree
  have he := @orderRule_of_full s.eOrder s.eFree
  revert h
  generalize (if s.vFree.isNone then allowScalarOrder s.vOrder else s.vOrder) = v at hv ⊢
  generalize (if s.eFree.isNone then allowScalarOrder s.eOrder else s.eOrder) = e at he ⊢
  have e1 : ∀ o : Order, errorOf (fullOrder (if c.isSome then { o with hash := allow o.hash (some .undefinedHash) } else o)) = none →
      errorOf (fullOrder o) = none ∧ (if c.isSome then { o with hash := allow o.hash (some .undefinedHash) } else o : Order) = o := by
    intro o ho
    cases c with
    | none => exact ⟨ho, rfl⟩
    | some f =>
      simp only [Option.isSome_some, if_true] at ho ⊢
      have h2 := (full_defined ho).2
      rw [errorOf_hash] at ho
      refine ⟨ho, ?_⟩
      obtain ⟨a, b⟩ := o
      cases a
      · simp [allow] at h2
      · rfl
  replace e1 := e1 e
  generalize (if c.isSome then { e with hash := allow e.hash (some .undefinedHash) } else e : Order) = e' at e1 ⊢
  intro h
  cases hfv : fullOrder v with
  | error x => cases c <;> cases d <;> simp [bind, Except.bind, hfv, throw, throwThe, MonadExceptOf.throw, pure, Except.pure] at h
  | ok u =>
    cases hfe : fullOrder e' with
    | error x => cases c <;> cases d <;> simp [bind, Except.bind, hfv, hfe, throw, throwThe, MonadExceptOf.throw, pure, Except.pure] at h
    | ok u' =>
      rw [hfv] at hv
      rw [hfe] at e1
      obtain ⟨e2, rfl⟩ := e1 rfl
      have hu := (full_defined e2).1
      cases c <;> cases d <;> cases reflexive <;>
        simp [bind, Except.bind, hfv, hfe, throw, throwThe, MonadExceptOf.throw, pure, Except.pure, hu] at h <;>
        (subst h; exact ⟨hv rfl, he e2, rfl, rfl, rfl, rfl⟩)

/-- **C52** cru_crossed: the order of vertices. -/
theorem C52_crosser (c c' : Crosser) (h : inferredCrosser c = .ok c') :
    OrderRule c.sig.vOrder c.sig.vFree c'.sig.vOrder ∧ Kept c.sig.eOrder.hash c'.sig.eOrder.hash ∧
      Kept c.sig.eOrder.equal c'.sig.eOrder.equal ∧ Kept c.bpred c'.bpred ∧ c'.bop = c.bop ∧ c'.vProd = c.vProd := by
  obtain ⟨v, s, p, o⟩ := c
  simp only [inferredCrosser] at h
  have hv := @orderRule_of_full s.vOrder s.vFree
  revert h
  generalize (if s.vFree.isNone then allowScalarOrder s.vOrder else s.vOrder) = v' at hv ⊢
  intro h
  cases hf : fullOrder v' with
  | error x => cases v <;> cases o <;> simp [bind, Except.bind, hf, throw, throwThe, MonadExceptOf.throw, pure, Except.pure] at h
  | ok u =>
    rw [hf] at hv
    cases v <;> cases o <;> simp [bind, Except.bind, hf, throw, throwThe, MonadExceptOf.throw, pure, Except.pure] at h
    subst h
    obtain ⟨vo, ⟨a, b⟩, vf, ef⟩ := s
    refine ⟨hv rfl, ?_, ?_, ?_, rfl, rfl⟩
    · cases a <;> cases ef <;> simp [Kept, allowUndefinedOrder, allowScalarOrder, allowOrder, allow]
    · cases b <;> cases ef <;> simp [Kept, allowUndefinedOrder, allowScalarOrder, allowOrder, allow]
    · cases p <;> simp [Kept, allow]

theorem orderRule_filled {o o' : Order} {free : Field} (h : filledOrder o free = .ok o') : OrderRule o free o' := by
  unfold filledOrder at h
  cases free with
  | none =>
    simp only [Option.isNone_none, if_true, Except.ok.injEq] at h
    subst h
    obtain ⟨a, b⟩ := o
    cases a <;> cases b <;> simp [OrderRule, Defaulted, allowScalarOrder, allowOrder, allow]
  | some f =>
    cases hf : fullOrder o with
    | error x => rw [hf] at h; cases h
    | ok u =>
      rw [hf] at h
      cases h
      have := @orderRule_of_full o (some f)
      exact this (by change errorOf (fullOrder o) = none; rw [hf]; rfl)

theorem orderRule_sig {s s' : Sig} (h : filledSig s = .ok s') :
    OrderRule s.eOrder s.eFree s'.eOrder ∧ OrderRule s.vOrder s.vFree s'.vOrder ∧ s'.vFree = s.vFree ∧ s'.eFree = s.eFree := by
  unfold filledSig at h
  obtain ⟨e, he, h⟩ := errorOf_bind_none h
  obtain ⟨v, hv, h⟩ := errorOf_bind_none h
  cases h
  exact ⟨orderRule_filled he, orderRule_filled hv, rfl, rfl⟩

/-- **C52** cru_stretched: the orders of the graph. -/
theorem C52_stretcher (x x' : Stretcher) (s s' : Sig) (h : inferredStretcher x s = .ok (x', s')) :
    OrderRule s.eOrder s.eFree s'.eOrder ∧ OrderRule s.vOrder s.vFree s'.vOrder ∧ s'.vFree = s.vFree ∧ s'.eFree = s.eFree := by
  unfold inferredStretcher at h
  obtain ⟨t, ht, h⟩ := errorOf_bind_none h
  obtain ⟨p, hp, h⟩ := errorOf_bind_none h
  cases hx : x.expander <;> simp [hx, bind, Except.bind, throw, throwThe, MonadExceptOf.throw, pure, Except.pure] at h
  obtain ⟨-, rfl⟩ := h
  exact orderRule_sig ht

/-- **C52** cru_postponed: the order of labels. -/
theorem C52_postponer (p p' : Postponer) (s s' : Sig) (h : inferredPostponer p s = .ok (p', s')) :
    OrderRule s.eOrder s.eFree s'.eOrder ∧ Kept p.bpred p'.bpred ∧ Kept p.bop p'.bop ∧ p'.postponable = p.postponable ∧
      s'.vOrder = s.vOrder ∧ s'.vFree = s.vFree ∧ s'.eFree = s.eFree := by
  obtain ⟨a, b, c⟩ := p
  obtain ⟨v, e, vf, ef⟩ := s
  simp only [inferredPostponer] at h
  have hv := @orderRule_of_full e ef
  revert h
  generalize (if ef.isNone then allowScalarOrder e else e) = o at hv ⊢
  intro h
  cases hf : fullOrder o with
  | error x => simp [bind, Except.bind, hf] at h
  | ok u =>
    rw [hf] at hv
    have hv := hv rfl
    cases a <;> cases c <;> cases ef <;> simp [bind, Except.bind, hf, throw, throwThe, MonadExceptOf.throw, pure, Except.pure, allow] at h <;>
      (obtain ⟨rfl, rfl⟩ := h
       refine ⟨hv, ?_, ?_, rfl, rfl, rfl, rfl⟩ <;> cases b <;> simp [Kept])

/-- **C52** cru_partition_of: the order of properties, which are reclaimed by the destructor of the map. -/
theorem C52_classifier (c c' : Classifier) (hc : c.prop.FromUser) (h : inferredClassifier (some c) = .ok c') :
    OrderRule c.order c.prop.vertex.mFree c'.order ∧ c.prop.vertex.Kept c'.prop.vertex := by
  unfold inferredClassifier filledClassifier at h
  simp only at h
  obtain ⟨q, hq, h⟩ := errorOf_bind_none h
  obtain ⟨-, -, hv⟩ := filledProp_ok hq
  have hk := fill_map_user hc.1 hv
  rw [hk.mFree] at h
  have ho := @orderRule_of_full c.order c.prop.vertex.mFree
  revert h
  generalize (if c.prop.vertex.mFree.isNone then allowScalarOrder c.order else c.order) = o at ho ⊢
  intro h
  obtain ⟨u, hu, h⟩ := errorOf_bind_none h
  cases h
  rw [hu] at ho
  exact ⟨ho rfl, hk⟩

/-- **C52** Folds: functions given in a fold are kept.  Destructors are kept as well, with the exception of the one for the reduction
in a fold that has no reduction. -/
theorem C52_fold_map (f f' : Fold) (h : f.FromUser) (hf : filledMap f = .ok f') : f.Kept f' := fill_map_user h hf

/-- **C52** Folds: the default map and reduction are used only for scalars. -/
theorem C52_fold (f f' : Fold) (h : f.FromUser) (hf : filledFold f = .ok f') :
    f.Kept f' ∧ f'.rFree = f.rFree ∧
      (f.map = none → f.bmap = none → f.mFree = none ∧ f.rFree = none ∧ f'.map = some .identityTop) ∧
      (f.reduction = none → f.mFree = none ∧ f.rFree = none ∧ f'.reduction = some .minimizingBop) := by
  obtain ⟨map, bmap, red, vac, rf, mf⟩ := f
  obtain ⟨h1, h2, h3, h4, h5, h6⟩ := h
  simp only [FromUser] at h1 h2 h3 h4 h5 h6
  rcases h1 with rfl | ⟨_, rfl⟩ <;> rcases h2 with rfl | ⟨_, rfl⟩ <;> rcases h3 with rfl | ⟨_, rfl⟩ <;>
    rcases h4 with rfl | ⟨_, rfl⟩ <;> rcases h5 with rfl | ⟨_, rfl⟩ <;> rcases h6 with rfl | ⟨_, rfl⟩ <;>
    simp [filledFold, fillMap, fillReduction, fillFrees, allow, Field.given, bind, Except.bind] at hf <;>
    first
      | (subst hf; refine ⟨?_, rfl, ?_, ?_⟩ <;> first | (constructor <;> simp [Kept]) | simp)
      | (split_ifs at hf; cases hf; refine ⟨?_, rfl, ?_, ?_⟩ <;> first | (constructor <;> simp [Kept]) | simp)

/-- A builder with an equality for vertices and no destructors: the equality is kept and the rest is inferred. -/
example : inferredBuilder ⟨some (.user 0), none, ⟨⟨none, some (.user 1)⟩, ⟨none, none⟩, none, none⟩⟩ true =
    .ok ⟨some (.user 0), none, ⟨⟨some .scalarHash, some (.user 1)⟩, ⟨some .scalarHash, some .equalityBpred⟩, none, none⟩⟩ := rfl
example : (inferredCrosser ⟨some (.user 0), ⟨⟨none, none⟩, ⟨none, none⟩, none, some (.user 5)⟩, none, some (.user 3)⟩).isOk = true := rfl
example : (inferredStretcher ⟨some (.user 0), ⟨noFold, noFold, noFold⟩⟩ ⟨⟨none, none⟩, ⟨none, some (.user 1)⟩, none, none⟩).isOk = true := rfl
example : (inferredPostponer ⟨some (.user 0), none, none⟩ ⟨⟨none, none⟩, ⟨none, some (.user 1)⟩, none, none⟩).isOk = true := rfl
example : (inferredClassifier (some ⟨⟨{ noFold with map := someMap }, noFold, noFold⟩, ⟨none, none⟩⟩)).isOk = true := rfl
example : filledFold { noFold with map := someMap } = .ok { noFold with map := someMap, reduction := some .minimizingBop } := rfl

end Cru.Infer
