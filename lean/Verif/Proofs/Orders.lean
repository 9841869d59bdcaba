import Verif.Spec.Orders
import Verif.Props.Infer

/-!
# Lemmas about the orders of graphs
-/

namespace Cru.Infer

theorem complete_of_full {o : Order} {u : Unit} (h : fullOrder o = .ok u) : o.Complete := by
  obtain ⟨a, b⟩ := o
  unfold fullOrder at h
  by_cases h1 : (!(Field.given a .undefinedHash)) = true
  · rw [if_pos h1] at h; cases h
  · rw [if_neg h1] at h
    by_cases h2 : (!(Field.given b .undefinedBpred)) = true
    · rw [if_pos h2] at h; cases h
    · intro x hx
      simp only [Order.calls, List.mem_cons, List.not_mem_nil, or_false] at hx
      simp [Field.given] at h1 h2
      rcases hx with rfl | rfl
      · rintro (hh | hh)
        · rw [hh] at h1; simp at h1
        · exact h1.2 hh
      · rintro (hh | hh)
        · rw [hh] at h2; simp at h2
        · exact h2.2 hh

theorem complete_iff {o : Order} :
    o.Complete ↔ o.hash ≠ none ∧ o.hash ≠ some .undefinedHash ∧ o.equal ≠ none ∧ o.equal ≠ some .undefinedBpred := by
  simp only [Order.Complete, Order.calls, List.mem_cons, List.not_mem_nil, or_false, forall_eq_or_imp, forall_eq, Call.Missing,
    not_or]
  exact and_assoc

/-- What holds of the signatures of all graphs. -/
structure Sound (s : Sig) : Prop where
  vHash : s.vOrder.hash ≠ some .undefinedHash
  vEqual : s.vOrder.equal ≠ some .undefinedBpred
  eHash : s.eFree = none → s.eOrder.hash ≠ some .undefinedHash
  eEqual : s.eFree = none → s.eOrder.equal ≠ some .undefinedBpred
  vScalarHash : s.vOrder.hash = some .scalarHash → s.vFree = none
  vScalarEqual : s.vOrder.equal = some .equalityBpred → s.vFree = none
  eScalarHash : s.eOrder.hash = some .scalarHash → s.eFree = none
  eScalarEqual : s.eOrder.equal = some .equalityBpred → s.eFree = none

theorem FromUser.ne {x : Field} (h : FromUser x) {f : Fn} (hf : ∀ n, f ≠ .user n) : x ≠ some f := by
  rcases h with rfl | ⟨n, rfl⟩
  · simp
  · intro hh
    cases hh
    exact hf n rfl

/-- An order inferred from one by the user. -/
theorem rule_default {o o' : Order} {free : Field} (h : OrderRule o free o') (ho : o.FromUser) :
    (o'.hash = some .scalarHash → free = none) ∧ (o'.equal = some .equalityBpred → free = none) := by
  obtain ⟨a, b⟩ := o
  obtain ⟨h1, h2⟩ := ho
  obtain ⟨r1, r2⟩ := h
  simp only [Defaulted] at r1 r2
  simp only at h1 h2 r1 r2
  constructor
  · intro hh
    rcases h1 with rfl | ⟨n, rfl⟩
    · simp at r1; exact r1.1
    · simp at r1; rw [r1] at hh; cases hh
  · intro hh
    rcases h2 with rfl | ⟨n, rfl⟩
    · simp at r2; exact r2.1
    · simp at r2; rw [r2] at hh; cases hh

/-- An order inferred from one by the user is complete. -/
theorem rule_complete {o o' : Order} {free : Field} (h : OrderRule o free o') (ho : o.FromUser) : o'.Complete := by
  obtain ⟨a, b⟩ := o
  obtain ⟨h1, h2⟩ := ho
  obtain ⟨r1, r2⟩ := h
  simp only [Defaulted] at r1 r2
  rw [complete_iff]
  rcases h1 with h1 | ⟨n, h1⟩ <;> rcases h2 with h2 | ⟨m, h2⟩ <;> simp only at h1 h2 <;> subst h1 <;> subst h2 <;> simp at r1 r2 <;>
    simp [r1, r2]

/-- An order inferred from one without placeholders. -/
theorem rule_kept {o o' : Order} {free : Field} (h : OrderRule o free o') (h1 : o.hash ≠ some .undefinedHash)
    (h2 : o.equal ≠ some .undefinedBpred) : o'.Complete := by
  obtain ⟨a, b⟩ := o
  obtain ⟨r1, r2⟩ := h
  simp only [Defaulted] at r1 r2
  rw [complete_iff]
  cases a <;> cases b <;> simp at r1 r2 h1 h2 <;> simp [r1, r2, h1, h2]

/-- Default functions of an order inferred from that of a graph. -/
theorem rule_scalar {o o' : Order} {free : Field} (h : OrderRule o free o') (h1 : o.hash = some .scalarHash → free = none)
    (h2 : o.equal = some .equalityBpred → free = none) :
    (o'.hash = some .scalarHash → free = none) ∧ (o'.equal = some .equalityBpred → free = none) := by
  obtain ⟨a, b⟩ := o
  obtain ⟨r1, r2⟩ := h
  simp only [Defaulted] at r1 r2
  cases a <;> cases b <;> simp at r1 r2 h1 h2 <;> simp [r1, r2] <;> first | exact h1 | exact h2 | exact ⟨h1, h2⟩

theorem filled_complete {o o' : Order} {free : Field} (h : filledOrder o free = .ok o')
    (h1 : free = none → o.hash ≠ some .undefinedHash) (h2 : free = none → o.equal ≠ some .undefinedBpred) : o'.Complete := by
  have hr := orderRule_filled h
  cases free with
  | none => exact rule_kept hr (h1 rfl) (h2 rfl)
  | some f =>
    unfold filledOrder at h
    simp only [Option.isNone_some, Bool.false_eq_true, if_false] at h
    obtain ⟨u, hu, h⟩ := errorOf_bind_none h
    cases h
    exact complete_of_full hu

theorem filled_sig {s s' : Sig} (hs : Sound s) (h : filledSig s = .ok s') :
    s'.vOrder.Complete ∧ s'.eOrder.Complete ∧ Sound s' := by
  have hr := orderRule_sig h
  unfold filledSig at h
  obtain ⟨e, he, h⟩ := errorOf_bind_none h
  obtain ⟨v, hv, h⟩ := errorOf_bind_none h
  cases h
  have ce := filled_complete he hs.eHash hs.eEqual
  have cv := filled_complete hv (fun _ => hs.vHash) (fun _ => hs.vEqual)
  have se := rule_scalar hr.1 hs.eScalarHash hs.eScalarEqual
  have sv := rule_scalar hr.2.1 hs.vScalarHash hs.vScalarEqual
  have ie := complete_iff.1 ce
  have iv := complete_iff.1 cv
  exact ⟨cv, ce, ⟨iv.2.1, iv.2.2.2, fun _ => ie.2.1, fun _ => ie.2.2.2, sv.1, sv.2, se.1, se.2⟩⟩

/-- Signatures with orders from the user. -/
theorem sound_user {v e : Order} {vf ef : Field} (hv : v.FromUser) (he : e.FromUser) : Sound ⟨v, e, vf, ef⟩ := by
  have n1 : ∀ n, Fn.undefinedHash ≠ .user n := by simp
  have n2 : ∀ n, Fn.undefinedBpred ≠ .user n := by simp
  have n3 : ∀ n, Fn.scalarHash ≠ .user n := by simp
  have n4 : ∀ n, Fn.equalityBpred ≠ .user n := by simp
  exact ⟨hv.1.ne n1, hv.2.ne n2, fun _ => he.1.ne n1, fun _ => he.2.ne n2, fun h => absurd h (hv.1.ne n3), fun h => absurd h (hv.2.ne n4),
    fun h => absurd h (he.1.ne n3), fun h => absurd h (he.2.ne n4)⟩

/-- What holds of the order of vertices. -/
def SoundV (o : Order) (free : Field) : Prop :=
  o.hash ≠ some .undefinedHash ∧ o.equal ≠ some .undefinedBpred ∧ (o.hash = some .scalarHash → free = none) ∧
    (o.equal = some .equalityBpred → free = none)

/-- What holds of the order of labels. -/
def SoundE (o : Order) (free : Field) : Prop :=
  (free = none → o.hash ≠ some .undefinedHash) ∧ (free = none → o.equal ≠ some .undefinedBpred) ∧ (o.hash = some .scalarHash → free = none) ∧
    (o.equal = some .equalityBpred → free = none)

theorem sound_iff {s : Sig} : Sound s ↔ SoundV s.vOrder s.vFree ∧ SoundE s.eOrder s.eFree :=
  ⟨fun h => ⟨⟨h.vHash, h.vEqual, h.vScalarHash, h.vScalarEqual⟩, ⟨h.eHash, h.eEqual, h.eScalarHash, h.eScalarEqual⟩⟩,
    fun h => ⟨h.1.1, h.1.2.1, h.2.1, h.2.2.1, h.1.2.2.1, h.1.2.2.2, h.2.2.2.1, h.2.2.2.2⟩⟩

theorem soundV_user {o : Order} {free : Field} (h : o.FromUser) : SoundV o free := (sound_iff.1 (sound_user (ef := none) h h)).1

theorem soundE_user {o : Order} {free : Field} (h : o.FromUser) : SoundE o free := (sound_iff.1 (sound_user (vf := none) h h)).2

theorem allow_ne {x y : Field} {f : Fn} (hx : x ≠ some f) (hy : y ≠ some f) : allow x y ≠ some f := by
  cases x <;> simp_all [allow]

theorem soundV_allow {o o' : Order} {free : Field} (h : o.FromUser) (h' : SoundV o' free) : SoundV (allowOrder o o') free := by
  obtain ⟨a, b⟩ := o
  obtain ⟨a', b'⟩ := o'
  have hu := soundV_user (free := free) h
  cases a <;> cases b <;> simp_all [SoundV, allowOrder, allow]

theorem soundE_allow {o o' : Order} {free : Field} (h : o.FromUser) (h' : SoundE o' free) : SoundE (allowOrder o o') free := by
  obtain ⟨a, b⟩ := o
  obtain ⟨a', b'⟩ := o'
  have hu := soundE_user (free := free) h
  cases a <;> cases b <;> simp_all [SoundE, allowOrder, allow]

theorem soundE_scalar {o : Order} (h : SoundE o none) : SoundE (allowScalarOrder o) none := by
  obtain ⟨a, b⟩ := o
  cases a <;> cases b <;> simp_all [SoundE, allowScalarOrder, allowOrder, allow]

theorem soundV_rule {o o' : Order} {free : Field} (h : OrderRule o free o') (ho : o.FromUser) : SoundV o' free := by
  have c := complete_iff.1 (rule_complete h ho)
  have d := rule_default h ho
  exact ⟨c.2.1, c.2.2.2, d.1, d.2⟩

theorem soundE_rule {o o' : Order} {free : Field} (h : OrderRule o free o') (ho : o.FromUser) : SoundE o' free := by
  have c := complete_iff.1 (rule_complete h ho)
  have d := rule_default h ho
  exact ⟨fun _ => c.2.1, fun _ => c.2.2.2, d.1, d.2⟩

theorem create_sound {o : Origin} {s : Sig} {l : List Call} (ho : o.FromUser) (h : create o = .ok (s, l)) :
    Sound s ∧ ∀ x ∈ l, ¬ x.Missing := by
  cases o with
  | built b reflexive =>
    obtain ⟨b', hb, h⟩ := errorOf_bind_none h
    cases h
    obtain ⟨h1, h2, -, -, h3, h4⟩ := C52_builder _ _ _ hb
    rw [sound_iff, h3, h4]
    refine ⟨⟨soundV_rule h1 ho.1, soundE_rule h2 ho.2⟩, fun x hx => ?_⟩
    rcases List.mem_append.1 hx with hx | hx
    · exact rule_complete h1 ho.1 x hx
    · exact rule_complete h2 ho.2 x hx
  | crossed c =>
    obtain ⟨c', hc, h⟩ := errorOf_bind_none h
    cases h
    obtain ⟨h1, -⟩ := C52_crosser _ _ hc
    have hs : c'.sig.vFree = c.sig.vFree ∧ c'.sig.eFree = c.sig.eFree ∧
        c'.sig.eOrder = allowUndefinedOrder (if c.sig.eFree.isNone then allowScalarOrder c.sig.eOrder else c.sig.eOrder) := by
      unfold inferredCrosser at hc
      by_cases hv : c.vProd.isNone = true
      · simp [hv, bind, Except.bind, throw, throwThe, MonadExceptOf.throw] at hc
      by_cases hb : c.bop.isNone = true
      · simp [hv, hb, bind, Except.bind, throw, throwThe, MonadExceptOf.throw, pure, Except.pure] at hc
      generalize hg : (if c.sig.vFree.isNone then allowScalarOrder c.sig.vOrder else c.sig.vOrder) = v at hc
      cases hf : fullOrder v with
      | error x => simp [hv, hb, hg, hf, bind, Except.bind, pure, Except.pure] at hc
      | ok u =>
        simp [hv, hb, hg, hf, bind, Except.bind, pure, Except.pure] at hc
        subst hc
        simp
    refine ⟨?_, rule_complete h1 ho.1⟩
    rw [sound_iff, hs.1, hs.2.1, hs.2.2]
    refine ⟨soundV_rule h1 ho.1, ?_⟩
    have hu := ho.2
    generalize c.sig.eOrder = o at hu ⊢
    obtain ⟨a, b⟩ := o
    obtain ⟨h1, h2⟩ := hu
    simp only at h1 h2
    rcases h1 with rfl | ⟨n, rfl⟩ <;> rcases h2 with rfl | ⟨m, rfl⟩ <;> cases c.sig.eFree <;>
      simp [SoundE, allowUndefinedOrder, allowScalarOrder, allowOrder, allow]

theorem half_sound {code : Int} {fab free free' : Field} {o o' : Order} {x : Field × Field × Order}
    (h : fabricatorHalf code fab free o free' o' = .ok x) :
    (x.2.1 = free ∧ x.2.2 = o) ∨ (x.2.1 = free' ∧ x.2.2 = allowOrder o o') := by
  unfold fabricatorHalf at h
  split_ifs at h <;> cases h
  · exact .inr ⟨rfl, rfl⟩
  · exact .inl ⟨rfl, rfl⟩
  · exact .inl ⟨rfl, rfl⟩

theorem fabricate_sound {a : Fabricator} {s s' : Sig} (hs : Sound s) (hv : a.sig.vOrder.FromUser) (he : a.sig.eOrder.FromUser)
    (h : fabricate a s = .ok s') : Sound s' := by
  obtain ⟨a', ha, h⟩ := errorOf_bind_none h
  cases h
  unfold inferredFabricator at ha
  obtain ⟨e, h1, ha⟩ := errorOf_bind_none ha
  obtain ⟨v, h2, ha⟩ := errorOf_bind_none ha
  cases ha
  have hs := sound_iff.1 hs
  rw [sound_iff]
  constructor
  · rcases half_sound h2 with ⟨q1, q2⟩ | ⟨q1, q2⟩
    · simp only [q1, q2]; exact soundV_user hv
    · simp only [q1, q2]; exact soundV_allow hv hs.1
  · rcases half_sound h1 with ⟨q1, q2⟩ | ⟨q1, q2⟩
    · simp only [q1, q2]; exact soundE_user he
    · simp only [q1, q2]; exact soundE_allow he hs.2

theorem inferredSig_sound {s : Sig} {v e : Order} (k : Kernel) (hs : Sound s) (hv : v.FromUser) (he : e.FromUser) :
    Sound (inferredSig s v e k) := by
  have hs := sound_iff.1 hs
  rw [sound_iff]
  unfold inferredSig
  dsimp only
  constructor
  · split_ifs
    · exact soundV_allow hv hs.1
    · exact soundV_user hv
  · have aux : ∀ x : Order × Field, SoundE x.1 x.2 → SoundE (if x.2.isNone then allowScalarOrder x.1 else x.1) x.2 := by
      rintro ⟨o, _ | f⟩ hx
      · exact soundE_scalar hx
      · exact hx
    apply aux
    split_ifs
    · exact soundE_allow he hs.2
    · exact soundE_user he

theorem mutator_sig {m : Mutator} {s : Sig} {x : Mutator × Sig} (h : inferredMutator m s = .ok x) :
    x.2 = inferredSig s m.vOrder m.eOrder m.kernel := by
  unfold inferredMutator at h
  split_ifs at h <;> simp only [bind, Except.bind, pure, Except.pure, throw, throwThe, MonadExceptOf.throw] at h <;>
    repeat' (split at h <;> try cases h)
  all_goals first | rfl | (cases h <;> rfl)

theorem vertices_sig {c : Merger} {s : Sig} {x : Merger × Sig} (h : mergerVertices c s = .ok x) :
    ((emptyProp c.kernel.vOp = true ∧ x.2.vOrder = s.vOrder ∧ x.2.vFree = s.vFree) ∨
      (emptyProp c.kernel.vOp = false ∧ x.2.vOrder = c.vOrder)) ∧ x.2.eOrder = s.eOrder ∧ x.2.eFree = s.eFree ∧
      x.1.kernel.eOp = c.kernel.eOp ∧ x.1.eOrder = c.eOrder ∧ x.1.pruner = c.pruner ∧ x.1.classifier = c.classifier := by
  unfold mergerVertices at h
  by_cases he : emptyProp c.kernel.vOp = true
  · rw [if_pos he] at h
    cases h
    exact ⟨.inl ⟨he, rfl, rfl⟩, rfl, rfl, rfl, rfl, rfl, rfl⟩
  · rw [if_neg he] at h
    obtain ⟨v, hv, h⟩ := errorOf_bind_none h
    cases h
    exact ⟨.inr ⟨by simpa using he, rfl⟩, rfl, rfl, rfl, rfl, rfl, rfl⟩

theorem edges_sig {c : Merger} {s : Sig} {x : Merger × Sig} (h : mergerEdges c s = .ok x) :
    ((emptyFold c.kernel.eOp = true ∧ x.2.eOrder = s.eOrder ∧ x.2.eFree = s.eFree ∧ x.1.kernel.eOp = c.kernel.eOp) ∨
      (emptyFold c.kernel.eOp = false ∧ x.2.eOrder = c.eOrder ∧ filledFold c.kernel.eOp = .ok x.1.kernel.eOp)) ∧
    x.1.pruner = c.pruner ∧ x.1.classifier = c.classifier ∧ x.2.vOrder = s.vOrder ∧ x.2.vFree = s.vFree := by
  unfold mergerEdges at h
  obtain ⟨y, hy, h⟩ := errorOf_bind_none h
  have hx : x.2 = y.2 ∧ x.1.pruner = y.1.pruner ∧ x.1.classifier = y.1.classifier ∧ x.1.kernel = y.1.kernel := by
    by_cases hp : y.1.pruner.isNone = true
    · rw [if_pos hp] at h
      cases h
      exact ⟨rfl, rfl, rfl, rfl⟩
    · rw [if_neg hp] at h
      obtain ⟨u, hu, h⟩ := errorOf_bind_none h
      cases h
      exact ⟨rfl, rfl, rfl, rfl⟩
  obtain ⟨h1, h2, h3, h4⟩ := hx
  rw [h1, h2, h3, h4]
  by_cases he : emptyFold c.kernel.eOp = true
  · rw [if_pos he] at hy
    cases hy
    exact ⟨.inl ⟨he, rfl, rfl, rfl⟩, rfl, rfl, rfl, rfl⟩
  · rw [if_neg he] at hy
    obtain ⟨e, hf, hy⟩ := errorOf_bind_none hy
    cases hy
    exact ⟨.inr ⟨by simpa using he, rfl, hf⟩, rfl, rfl, rfl, rfl⟩

theorem classifier_complete {c c' : Classifier} (h : filledClassifier c = .ok c') : c'.order.Complete := by
  unfold filledClassifier at h
  obtain ⟨p, hp, h⟩ := errorOf_bind_none h
  obtain ⟨u, hu, h⟩ := errorOf_bind_none h
  cases h
  exact complete_of_full hu

theorem merger_sig {c : Merger} {s : Sig} {x : Merger × Sig} (h : inferredMerger' c s = .ok x) :
    ((emptyProp c.kernel.vOp = true ∧ x.2.vOrder = s.vOrder ∧ x.2.vFree = s.vFree) ∨
      (emptyProp c.kernel.vOp = false ∧ x.2.vOrder = c.vOrder)) ∧
    ((emptyFold c.kernel.eOp = true ∧ x.2.eOrder = s.eOrder ∧ x.2.eFree = s.eFree ∧ x.1.kernel.eOp = c.kernel.eOp) ∨
      (emptyFold c.kernel.eOp = false ∧ x.2.eOrder = c.eOrder ∧ filledFold c.kernel.eOp = .ok x.1.kernel.eOp)) ∧
    x.1.pruner = c.pruner ∧ x.1.classifier.order.Complete := by
  unfold inferredMerger' at h
  obtain ⟨y, hy, h⟩ := errorOf_bind_none h
  obtain ⟨z, hz, h⟩ := errorOf_bind_none h
  obtain ⟨w, hw, h⟩ := errorOf_bind_none h
  cases h
  unfold mergerClassifier at hw
  obtain ⟨k, hk, hw⟩ := errorOf_bind_none hw
  obtain ⟨k', hk', hw⟩ := errorOf_bind_none hw
  cases hw
  obtain ⟨a1, a2, a3, a4, a5, a6, a7⟩ := vertices_sig hy
  obtain ⟨b1, b2, b3, b4, b5⟩ := edges_sig hz
  refine ⟨?_, ?_, b2.trans a6, classifier_complete hk'⟩
  · rw [b4, b5]; exact a1
  · rw [a2, a3, a4, a5] at b1; exact b1

theorem merger_sound {c : Merger} {s : Sig} {x : Merger × Sig} (hs : Sound s) (hv : c.vOrder.FromUser) (he : c.eOrder.FromUser)
    (h : inferredMerger' c s = .ok x) : Sound x.2 := by
  obtain ⟨h1, h2, -, -⟩ := merger_sig h
  have hs := sound_iff.1 hs
  rw [sound_iff]
  constructor
  · rcases h1 with ⟨-, e1, e2⟩ | ⟨-, e1⟩
    · rw [e1, e2]; exact hs.1
    · rw [e1]; exact soundV_user hv
  · rcases h2 with ⟨-, e1, e2, -⟩ | ⟨-, e1, -⟩
    · rw [e1, e2]; exact hs.2
    · rw [e1]; exact soundE_user he

theorem dedup_sig {s : Sig} {x : Merger × Sig} (h : deduplicator s = .ok x) :
    x.2 = s ∧ s.vOrder.Complete ∧ s.eOrder.Complete := by
  unfold deduplicator at h
  obtain ⟨u, hu, h⟩ := errorOf_bind_none h
  obtain ⟨u', hu', h⟩ := errorOf_bind_none h
  obtain ⟨h1, h2, -, -⟩ := merger_sig h
  refine ⟨?_, complete_of_full hu', complete_of_full hu⟩
  rcases h1 with ⟨-, e1, e2⟩ | ⟨e, -⟩
  · rcases h2 with ⟨-, e3, e4, -⟩ | ⟨e, -⟩
    · obtain ⟨x1, v, e, vf, ef⟩ := x
      simp only at e1 e2 e3 e4
      subst e1 e2 e3 e4
      rfl
    · simp [emptyFold, noFold, Field.given] at e
  · simp [emptyProp, emptyFold, noFold, Field.given] at e

theorem identical_ok {l r : Sig} {u : Unit} (h : identical l r = .ok u) : l = r := by
  obtain ⟨⟨a, b⟩, ⟨c, d⟩, e, f⟩ := l
  obtain ⟨⟨a', b'⟩, ⟨c', d'⟩, e', f'⟩ := r
  unfold identical at h
  dsimp only at h
  split_ifs at h with h1 h2 h3 h4 h5 h6
  simp only [ne_eq, Decidable.not_not] at h1 h2 h3 h4 h5 h6
  subst h1 h2 h3 h4 h5 h6
  rfl

theorem stretcher_sig {x : Stretcher} {s : Sig} {y : Stretcher × Sig} (h : inferredStretcher x s = .ok y) : filledSig s = .ok y.2 := by
  unfold inferredStretcher at h
  obtain ⟨t, ht, h⟩ := errorOf_bind_none h
  obtain ⟨p, hp, h⟩ := errorOf_bind_none h
  cases hx : x.expander <;> simp [hx, bind, Except.bind, throw, throwThe, MonadExceptOf.throw, pure, Except.pure] at h
  rw [ht, ← h]

theorem splitter_sig {x : Splitter} {s : Sig} {y : Splitter × Sig} (h : inferredSplitter x s = .ok y) : filledSig s = .ok y.2 := by
  unfold inferredSplitter at h
  obtain ⟨t, ht, h⟩ := errorOf_bind_none h
  obtain ⟨p, hp, h⟩ := errorOf_bind_none h
  dsimp only at h
  generalize (if t.vFree.isNone then allow x.ana (some .identityBop) else x.ana) = ana at h
  generalize (if t.vFree.isNone then allow x.cata (some .identityBop) else x.cata) = cata at h
  cases ana with
  | none => cases h
  | some f =>
    cases cata with
    | none => cases h
    | some g =>
      obtain ⟨_, _, h⟩ := errorOf_bind_none h
      obtain ⟨_, _, h⟩ := errorOf_bind_none h
      obtain ⟨_, _, h⟩ := errorOf_bind_none h
      obtain ⟨_, _, h⟩ := errorOf_bind_none h
      cases h
      exact ht

/-- The signature after an operation is sound. -/
theorem perform_sound {r : Request} {s s' : Sig} {l : List Call} (hs : Sound s) (hr : r.FromUser) (h : perform r s = .ok (s', l)) :
    Sound s' := by
  cases r with
  | mapreduced p search => obtain ⟨a, ha, h⟩ := errorOf_bind_none h; cases h; exact hs
  | induced i search => obtain ⟨a, ha, h⟩ := errorOf_bind_none h; cases h; exact hs
  | filtered f search => obtain ⟨a, ha, h⟩ := errorOf_bind_none h; cases h; exact hs
  | mutated m search =>
    obtain ⟨a, ha, h⟩ := errorOf_bind_none h
    cases h
    rw [mutator_sig ha]
    exact inferredSig_sound _ hs hr.1 hr.2.1
  | composed c => obtain ⟨a, ha, h⟩ := errorOf_bind_none h; cases h; exact hs
  | stretched x =>
    obtain ⟨a, ha, h⟩ := errorOf_bind_none h
    cases h
    exact (filled_sig hs (stretcher_sig ha)).2.2
  | split x =>
    obtain ⟨a, ha, h⟩ := errorOf_bind_none h
    cases h
    exact (filled_sig hs (splitter_sig ha)).2.2
  | merged c =>
    obtain ⟨a, ha, h⟩ := errorOf_bind_none h
    cases h
    unfold inferredMerger at ha
    by_cases hc : emptyProp c.kernel.vOp ≠ emptyClassifier c.classifier
    · rw [if_pos hc] at ha; cases ha
    · rw [if_neg hc] at ha
      exact merger_sound hs hr.1 hr.2.1 ha
  | deduplicated =>
    obtain ⟨a, ha, h⟩ := errorOf_bind_none h
    cases h
    rw [(dedup_sig ha).1]
    exact hs
  | postponed p => obtain ⟨a, ha, h⟩ := errorOf_bind_none h; cases h; exact hs
  | spread b reflexive =>
    obtain ⟨a, ha, h⟩ := errorOf_bind_none h
    obtain ⟨a, ha, h⟩ := errorOf_bind_none h
    cases h
    exact hs
  | partitioned c => obtain ⟨a, ha, h⟩ := errorOf_bind_none h; cases h; exact hs

theorem carried_sound {s : Sig} (h : Carried s) : Sound s := by
  induction h with
  | created ho h => exact (create_sound ho h).1
  | fabricated _ hv he h ih => exact fabricate_sound ih hv he h
  | performed _ hr h ih => exact perform_sound ih hr h

theorem filter_complete {f f' : Filter} {s : Sig} (h : inferredFilter f s = .ok f') : ∀ x ∈ filterCalls f', ¬ x.Missing := by
  unfold inferredFilter at h
  obtain ⟨v, hv, h⟩ := errorOf_bind_none h
  obtain ⟨e, he, h⟩ := errorOf_bind_none h
  cases h
  unfold filterCalls
  dsimp only
  intro x hx
  by_cases hc : ((emptyFold e.1 && f.thinner.isNone) || emptyOrder e.2) = true
  · rw [if_pos hc] at hx; cases hx
  · rw [if_neg hc] at hx
    have ho : ¬ emptyOrder e.2 = true := by
      intro hh
      rw [hh] at hc
      simp at hc
    unfold filterEdges at he
    dsimp only at he
    by_cases ht : emptyOrder f.order = true
    · rw [if_pos ht] at he
      obtain ⟨q, hq, he⟩ := errorOf_bind_none he
      cases he
      exact absurd ht ho
    · rw [if_neg ht] at he
      obtain ⟨u, hu, he⟩ := errorOf_bind_none he
      have hcomp := complete_of_full hu
      generalize (if s.eFree.isNone then allowScalarOrder (allowOrder f.order s.eOrder) else allowOrder f.order s.eOrder) = o at he hcomp
      generalize (if f.thinner.isSome && emptyFold f.kernel.eOp then
        ({ f.kernel.eOp with map := allow f.kernel.eOp.map (some .trueTop) } : Fold) else f.kernel.eOp) = q at he
      by_cases hq : emptyFold q = true
      · simp [hq, bind, Except.bind, throw, throwThe, MonadExceptOf.throw] at he
      · rw [if_neg hq] at he
        obtain ⟨_, _, he⟩ := errorOf_bind_none he
        obtain ⟨_, _, he⟩ := errorOf_bind_none he
        cases he
        exact hcomp x hx

theorem postponer_complete {p : Postponer} {s : Sig} {x : Postponer × Sig} (h : inferredPostponer p s = .ok x) : x.2.eOrder.Complete := by
  unfold inferredPostponer at h
  dsimp only at h
  obtain ⟨u, hu, h⟩ := errorOf_bind_none h
  have hc := complete_of_full hu
  generalize (if s.eFree.isNone then allowScalarOrder s.eOrder else s.eOrder) = o at h hc
  generalize (if s.eFree.isNone then allow p.bop (some .identityBop) else p.bop) = q at h
  cases hp : p.postponable <;> cases q <;>
    simp [hp, bind, Except.bind, throw, throwThe, MonadExceptOf.throw, pure, Except.pure] at h
  rw [← h]
  exact hc

theorem composer_complete {c c' : Composer} {s : Sig} (h : inferredComposer c s = .ok c') : s.eOrder.Complete := by
  unfold inferredComposer at h
  obtain ⟨u, hu, h⟩ := errorOf_bind_none h
  exact complete_of_full hu

/-- The fold that is inferred for edges has a reduction. -/
theorem filled_not_empty {f f' : Fold} (hf : f.FromUser) (h : filledFold f = .ok f') : emptyFold f' = false := by
  have hfull := full_of_filled h
  have hr := (C52_fold f f' hf h).1.reduction
  have hd := (C52_fold f f' hf h).2.2.2
  have : Field.given f'.reduction .undefinedBop = true := by
    rcases hf.reduction with h0 | ⟨n, h0⟩
    · rw [(hd h0).2.2]; rfl
    · rw [hr (by rw [h0]; simp), h0]; simp [Field.given]
  simp [emptyFold, this]

end Cru.Infer
