import Verif.Proofs.Fold

/-!
# C25 and C26: folds over edges and vertices

`made` and `freed` are logs of entries (object, destructor): the first gets an entry when a callback returns storage
that has a destructor, the second when a destructor is called.
-/

namespace Cru.Fold

variable {A U V : Type}

/-- Nothing has happened yet. -/
def start : World := ⟨0, 0, 0, 0, false⟩

theorem start_wf : start.WF := ⟨(by intro x hx; simp [start] at hx), (by simp [start])⟩

/-! ## C25 -/

/-- Callbacks that always succeed and compute the mathematical functions `f`, `g` and `z`, with destructors that never
fail. -/
structure Plain (fails : Nat → Nat → Int) (m : CruFold A V) (f : A → Option V) (g : Option V → Option V → Option V)
    (z : Option (Option V)) : Prop where
  dtor : ∀ n t, fails n t = 0
  anyMap : m.map.isSome ∨ m.bmap.isSome
  map : ∀ h, m.map = some h → ∀ t a, h t a = ⟨f a, 0⟩
  bmap : ∀ h, m.bmap = some h → ∀ t a, h t a = ⟨f a, 0⟩
  reduction : ∃ red, m.reduction = some red ∧ ∀ t x y, red t x y = ⟨g x y, 0⟩
  vacuous : ∀ v, m.vacuous = some v ↔ ∃ c, z = some c ∧ v = fun _ => ⟨c, 0⟩

theorem Plain.seed {fails : Nat → Nat → Int} {m : CruFold A V} {f : A → Option V} {g : Option V → Option V → Option V}
    {z : Option (Option V)} (h : Plain fails m f g z) : Computes m.seed f := by
  intro a w he
  unfold CruFold.seed
  split
  · next k hk => exact applied_value _ _ w _ (fun t => h.bmap _ hk t a) he
  · next k hb hk => exact applied_value _ _ w _ (fun t => h.map _ hk t a) he
  · next hb hk => rcases h.anyMap with h' | h' <;> simp_all

theorem Plain.next {fails : Nat → Nat → Int} {m : CruFold A V} {f : A → Option V} {g : Option V → Option V → Option V}
    {z : Option (Option V)} (h : Plain fails m f g z) : Computes m.next f := by
  intro a w he
  unfold CruFold.next
  split
  · next k hk => exact applied_value _ _ w _ (fun t => h.map _ hk t a) he
  · next k hb hk => exact applied_value _ _ w _ (fun t => h.bmap _ hk t a) he
  · next hb hk => rcases h.anyMap with h' | h' <;> simp_all

/-- C25, a fold over edges with a vacuous case: the vacuous case for no edges, and otherwise the reduction of each map
result on the left with the running result on the right, starting with the vacuous case. -/
theorem C25_edge_fold {fails : Nat → Nat → Int} {m : CruFold A V} {f : A → Option V} {g : Option V → Option V → Option V}
    {c : Option V} (h : Plain fails m f g (some c)) (es : List A) (w : World) (he : w.err = 0) :
    (reducedEdges fails m es w).1.map Obj.val = es.foldl (fun acc e => g (f e) acc) c ∧
    (reducedEdges fails m es w).2.err = 0 := by
  have hv : m.vacuous = some fun _ => ⟨c, 0⟩ := (h.vacuous _).2 ⟨c, rfl, rfl⟩
  have hz := applied_value (fun _ => (⟨c, 0⟩ : Outcome V)) m.rFree w c (fun _ => rfl) he
  have hm : ¬ (m.map.isNone = true ∧ m.bmap.isNone = true) := by
    rintro ⟨h1, h2⟩; rcases h.anyMap with h' | h' <;> simp_all
  unfold reducedEdges
  rw [if_neg (fun hh => hm hh.2)]
  unfold foldWith
  rw [hv]
  cases es with
  | nil => exact hz
  | cons e es =>
    obtain ⟨h1, h2⟩ := foldTail_value fails h.dtor m g h.reduction m.next f h.next (-891) (e :: es) _ hz.2
    exact ⟨by rw [h1, hz.1], h2⟩

/-- C25, without a vacuous case: the first map result takes its place. -/
theorem C25_edge_reduction {fails : Nat → Nat → Int} {m : CruFold A V} {f : A → Option V}
    {g : Option V → Option V → Option V} (h : Plain fails m f g none) (hd : m.mFree = m.rFree) (e : A) (es : List A) :
    (reducedEdges fails m (e :: es) start).1.map Obj.val = es.foldl (fun acc e => g (f e) acc) (f e) ∧
    (reducedEdges fails m (e :: es) start).2.err = 0 := by
  have hv : m.vacuous = none := by
    cases hv : m.vacuous with
    | none => rfl
    | some v => obtain ⟨c, hc, _⟩ := (h.vacuous v).1 hv; cases hc
  have hm : ¬ (m.map.isNone = true ∧ m.bmap.isNone = true) := by
    rintro ⟨h1, h2⟩; rcases h.anyMap with h' | h' <;> simp_all
  have hz := h.seed e start rfl
  unfold reducedEdges
  rw [if_neg (fun hh => hm hh.2)]
  unfold foldWith
  rw [hv]
  simp only [if_neg (not_not.2 hd)]
  obtain ⟨h1, h2⟩ := foldTail_value fails h.dtor m g h.reduction m.next f h.next (-891) es _ hz.2
  exact ⟨by rw [h1, hz.1], h2⟩

/-- C25: without a vacuous case an empty set is the error `CRU_UNDVAC` and there is no result. -/
theorem C25_no_vacuous_case (fails : Nat → Nat → Int) (m : CruFold A V) (hv : m.vacuous = none) :
    (reducedEdges fails m [] start).1 = none ∧ (reducedEdges fails m [] start).2.err = -554 := by
  simp [reducedEdges, foldWith, hv, World.raise, start]

/-- C25: with a left-commutative reduction the result does not depend on the order of the operands. -/
theorem C25_order_irrelevant {fails : Nat → Nat → Int} {m : CruFold A V} {f : A → Option V}
    {g : Option V → Option V → Option V} {c : Option V} (h : Plain fails m f g (some c))
    (hc : ∀ x y a, g x (g y a) = g y (g x a)) {es es' : List A} (hp : es.Perm es') :
    (reducedEdges fails m es start).1.map Obj.val = (reducedEdges fails m es' start).1.map Obj.val := by
  rw [(C25_edge_fold h es start rfl).1, (C25_edge_fold h es' start rfl).1]
  exact hp.foldl_eq' (fun x _ y _ z => hc _ _ _) c

/-- C25: likewise without a vacuous case, for a commutative and associative reduction. -/
theorem C25_order_irrelevant_reduction {fails : Nat → Nat → Int} {m : CruFold A V} {f : A → Option V}
    {g : Option V → Option V → Option V} (h : Plain fails m f g none) (hd : m.mFree = m.rFree)
    (hcomm : ∀ x y, g x y = g y x) (hassoc : ∀ x y z, g (g x y) z = g x (g y z)) {es es' : List A} (hp : es.Perm es') :
    (reducedEdges fails m es start).1.map Obj.val = (reducedEdges fails m es' start).1.map Obj.val := by
  have lc : ∀ x y a, g x (g y a) = g y (g x a) := by
    intro x y a; rw [← hassoc, hcomm x y, hassoc]
  have swap : ∀ (l : List A) (x y : Option V),
      l.foldl (fun acc e => g (f e) acc) (g x y) = g x (l.foldl (fun acc e => g (f e) acc) y) := by
    intro l
    induction l with
    | nil => intros; rfl
    | cons a l ih => intro x y; simp only [List.foldl_cons]; rw [lc, ih]
  have key : ∀ (l l' : List A), l.Perm l' → ∀ a b t t', l = a :: t → l' = b :: t' →
      t.foldl (fun acc e => g (f e) acc) (f a) = t'.foldl (fun acc e => g (f e) acc) (f b) := by
    intro l l' hp
    induction hp with
    | nil => intro a b t t' h1; cases h1
    | cons x hp' _ =>
      intro a b t t' h1 h2
      cases h1; cases h2
      exact hp'.foldl_eq' (fun x _ y _ z => lc _ _ _) _
    | swap x y l =>
      intro a b t t' h1 h2
      cases h1; cases h2
      simp only [List.foldl_cons]
      rw [hcomm]
    | trans h1 h2 ih1 ih2 =>
      intro a b t t' e1 e2
      rename_i l1 l2 l3
      cases l2 with
      | nil => have := h2.length_eq; rw [e2] at this; simp at this
      | cons c s => exact (ih1 a c t s e1 rfl).trans (ih2 c b s t' rfl e2)
  cases es with
  | nil => have := hp.length_eq; cases es' with
    | nil => rfl
    | cons => simp at this
  | cons e es =>
    cases es' with
    | nil => have := hp.length_eq; simp at this
    | cons e' es' =>
      rw [(C25_edge_reduction h hd e es).1, (C25_edge_reduction h hd e' es').1]
      exact key _ _ hp e e' es es' rfl rfl

/-- An edge fold of a prop that is empty, giving null, or whose callbacks always succeed. -/
inductive PlainIf (fails : Nat → Nat → Int) : Option (CruFold A V) → (List A → Option V) → Prop
  | empty : PlainIf fails none fun _ => none
  | fold {m : CruFold A V} {f : A → Option V} {g : Option V → Option V → Option V} {c : Option V}
      (h : Plain fails m f g (some c)) : PlainIf fails (some m) fun es => es.foldl (fun acc e => g (f e) acc) c

theorem PlainIf.value {fails : Nat → Nat → Int} {m : Option (CruFold A V)} {f : List A → Option V}
    (h : PlainIf fails m f) (es : List A) (w : World) (he : w.err = 0) :
    (reducedIf fails m es w).1.map Obj.val = f es ∧ (reducedIf fails m es w).2.err = 0 := by
  cases h with
  | empty => exact ⟨rfl, he⟩
  | fold h => exact C25_edge_fold h es w he

/-- The value a prop maps a vertex to: the vertex map applied to the folds of its incident and outgoing edges, null where
a fold is empty. -/
theorem C25_vertex_map {fails : Nat → Nat → Int} {p : CruProp A U V} {fv : Option V × U × Option V → Option V}
    {gv : Option V → Option V → Option V} {zv : Option (Option V)} (h : Plain fails p.vertex fv gv zv)
    {fi fo : U → List A → Option V} (hi : ∀ u, PlainIf fails (p.incident u) (fi u))
    (ho : ∀ u, PlainIf fails (p.outgoing u) (fo u)) (n : Vertex A U) (w : World) (he : w.err = 0) :
    (mappedNode fails p n w).1.map Obj.val = fv (fi n.vertex n.edgesIn, n.vertex, fo n.vertex n.edgesOut) ∧
    (mappedNode fails p n w).2.err = 0 := by
  have hm : ¬ (p.vertex.map.isNone = true ∧ p.vertex.bmap.isNone = true) := by
    rintro ⟨h1, h2⟩; rcases h.anyMap with h' | h' <;> simp_all
  unfold mappedNode
  rw [if_neg hm, if_neg (by simp [he])]
  simp only
  obtain ⟨h1, h2⟩ := (hi n.vertex).value n.edgesIn w he
  generalize reducedIf fails (p.incident n.vertex) n.edgesIn w = i at *
  obtain ⟨h3, h4⟩ := (ho n.vertex).value n.edgesOut i.2 h2
  generalize reducedIf fails (p.outgoing n.vertex) n.edgesOut i.2 = o at *
  obtain ⟨h5, h6⟩ := h.seed (i.1.map Obj.val, n.vertex, o.1.map Obj.val) o.2 h4
  generalize p.vertex.seed (i.1.map Obj.val, n.vertex, o.1.map Obj.val) o.2 = x at *
  have h7 := destroy_value fails h.dtor (rFreeOf (p.outgoing n.vertex)) o.1 _
    (destroy_value fails h.dtor (rFreeOf (p.incident n.vertex)) i.1 x.2 h6)
  rw [if_neg (by simp [h7])]
  exact ⟨by rw [h5, h1, h3], h7⟩

/-- C25, a fold over vertices: as for edges, each operand being the vertex map's value on the edge folds and the
vertex. -/
theorem C25_vertex_fold {fails : Nat → Nat → Int} {p : CruProp A U V} {fv : Option V × U × Option V → Option V}
    {g : Option V → Option V → Option V} {c : Option V} (h : Plain fails p.vertex fv g (some c))
    {fi fo : U → List A → Option V} (hi : ∀ u, PlainIf fails (p.incident u) (fi u))
    (ho : ∀ u, PlainIf fails (p.outgoing u) (fo u)) (ns : List (Vertex A U)) :
    (reducedNodes fails p ns start).1.map Obj.val =
      ns.foldl (fun acc n => g (fv (fi n.vertex n.edgesIn, n.vertex, fo n.vertex n.edgesOut)) acc) c ∧
    (reducedNodes fails p ns start).2.err = 0 := by
  have hv : p.vertex.vacuous = some fun _ => ⟨c, 0⟩ := (h.vacuous _).2 ⟨c, rfl, rfl⟩
  have hz := applied_value (fun _ => (⟨c, 0⟩ : Outcome V)) p.vertex.rFree start c (fun _ => rfl) rfl
  unfold reducedNodes foldWith
  simp only [hv]
  cases ns with
  | nil => exact hz
  | cons n ns =>
    obtain ⟨h1, h2⟩ := foldTail_value fails h.dtor
      ⟨some fun _ => ⟨c, 0⟩, none, none, p.vertex.reduction, p.vertex.mFree, p.vertex.rFree⟩ g h.reduction
      (mappedNode fails p) _ (fun n w he => C25_vertex_map h hi ho n w he) (-1281) (n :: ns) _ hz.2
    exact ⟨by rw [h1, hz.1], h2⟩

/-- The sum of the labels of a vertex's edges, with a vacuous case: `Plain` holds, and the fold of three edges. -/
def sumFold : CruFold Nat Nat where
  vacuous := some fun _ => ⟨some 10, 0⟩
  map := some fun _ e => ⟨some e, 0⟩
  bmap := none
  reduction := some fun _ x y => ⟨some (x.getD 0 + 2 * y.getD 0), 0⟩
  mFree := some 0
  rFree := some 1

theorem sumFold_plain : Plain (fun _ _ => 0) sumFold (fun e => some e) (fun x y => some (x.getD 0 + 2 * y.getD 0))
    (some (some 10)) :=
  ⟨fun _ _ => rfl, .inl rfl, (by intro h hh t a; cases hh; rfl), (by intro h hh; cases hh), ⟨_, rfl, fun _ _ _ => rfl⟩, by
    intro v
    constructor
    · intro h; cases h; exact ⟨_, rfl, rfl⟩
    · rintro ⟨c, hc, rfl⟩; cases hc; rfl⟩

example : (reducedEdges (fun _ _ => 0) sumFold [1, 2, 3] start).1.map Obj.val = some 91 := by decide

/-- A prop summing up vertices and the labels of their outgoing edges meets the hypotheses of the vertex theorems. -/
def sumProp : CruProp Nat Nat Nat where
  incident := fun _ => none
  outgoing := fun _ => some sumFold
  vertex :=
    { vacuous := some fun _ => ⟨some 0, 0⟩
      map := some fun _ x => ⟨some (x.2.1 + x.2.2.getD 0), 0⟩
      bmap := none
      reduction := some fun _ x y => ⟨some (x.getD 0 + y.getD 0), 0⟩
      mFree := some 2
      rFree := some 3 }

example : Plain (fun _ _ => 0) sumProp.vertex (fun x => some (x.2.1 + x.2.2.getD 0))
    (fun x y => some (x.getD 0 + y.getD 0)) (some (some 0)) :=
  ⟨fun _ _ => rfl, .inl rfl, (by intro h hh t a; cases hh; rfl), (by intro h hh; cases hh), ⟨_, rfl, fun _ _ _ => rfl⟩, by
    intro v
    constructor
    · intro h; cases h; exact ⟨_, rfl, rfl⟩
    · rintro ⟨c, hc, rfl⟩; cases hc; rfl⟩

example : ∀ u, PlainIf (fun _ _ => 0) (sumProp.outgoing u)
    (fun es => es.foldl (fun acc e => some ((some e).getD 0 + 2 * acc.getD 0)) (some 10)) :=
  fun _ => .fold sumFold_plain

example : (reducedNodes (fun _ _ => 0) sumProp [⟨5, [], [1]⟩, ⟨7, [4], []⟩] start).1.map Obj.val = some 43 := by decide

/-! ## C26 -/

/-- C26 for a fold over edges, whatever the callbacks and destructors do and wherever they fail: every object made is
an entry of its own, each was passed to the destructor it belongs to exactly once except the result, which was not, and
with an error there is no result.  For an empty list the result is that of the vacuous case, which the code returns even
if the vacuous case fails and returns storage at the same time; hence the hypothesis. -/
theorem C26_edge_fold (fails : Nat → Nat → Int) (m : CruFold A V) (es : List A)
    (hvac : ∀ z, m.vacuous = some z → es = [] → ∀ t, (z t).ux ≠ 0 → (z t).val = none) :
    let r := reducedEdges fails m es start
    (r.2.made.map Prod.fst).Nodup ∧ r.2.freed + owned m.rFree r.1 = r.2.made ∧ (r.2.err ≠ 0 → r.1 = none) := by
  intro r
  have h := reducedEdges_account fails m es start
  refine ⟨(h.1.wf start_wf).nodup, ?_, ?_⟩
  · have := h.1.ledger
    simp only [start, add_zero, zero_add] at this
    exact this.symm
  · intro he
    by_cases hne : es = []
    · subst hne
      cases hv : m.vacuous with
      | none => simp [r, reducedEdges, foldWith, hv]
      | some z =>
        have hz := hvac z hv rfl 0
        have hr : r = applied z m.rFree start := by simp [r, reducedEdges, foldWith, hv]
        rw [hr] at he ⊢
        unfold applied at he ⊢
        simp only [start, ne_eq, not_true_eq_false, if_false, World.raise] at he ⊢
        simp [hz he]
    · exact h.2 hne he

/-- C26 for a fold over vertices, including the storage made by the edge folds and the vertex map of every vertex. -/
theorem C26_vertex_fold (fails : Nat → Nat → Int) (p : CruProp A U V) (ns : List (Vertex A U))
    (hvac : ∀ z, p.vertex.vacuous = some z → ns = [] → ∀ t, (z t).ux ≠ 0 → (z t).val = none) :
    let r := reducedNodes fails p ns start
    (r.2.made.map Prod.fst).Nodup ∧ r.2.freed + owned p.vertex.rFree r.1 = r.2.made ∧ (r.2.err ≠ 0 → r.1 = none) := by
  intro r
  have h := reducedNodes_account fails p ns start
  refine ⟨(h.1.wf start_wf).nodup, ?_, ?_⟩
  · have := h.1.ledger
    simp only [start, add_zero, zero_add] at this
    exact this.symm
  · intro he
    by_cases hne : ns = []
    · subst hne
      cases hv : p.vertex.vacuous with
      | none => simp [r, reducedNodes, foldWith, hv]
      | some z =>
        have hz := hvac z hv rfl 0
        have hr : r = applied z p.vertex.rFree start := by simp [r, reducedNodes, foldWith, hv]
        rw [hr] at he ⊢
        unfold applied at he ⊢
        simp only [start, ne_eq, not_true_eq_false, if_false, World.raise] at he ⊢
        simp [hz he]
    · exact h.2 hne he

/-- C26 for the evaluation of one vertex by a prop. -/
theorem C26_vertex_map (fails : Nat → Nat → Int) (p : CruProp A U V) (n : Vertex A U) :
    let r := mappedNode fails p n start
    (r.2.made.map Prod.fst).Nodup ∧ r.2.freed + owned p.vertex.mFree r.1 = r.2.made ∧ (r.2.err ≠ 0 → r.1 = none) := by
  intro r
  have h := mappedNode_account fails p n start
  refine ⟨(h.1.wf start_wf).nodup, ?_, h.2⟩
  have := h.1.ledger
  simp only [start, add_zero, zero_add] at this
  exact this.symm

/-- The storage made in a fold of three edges: seven objects, the last one returned, the others destroyed. -/
example : (reducedEdges (fun _ _ => 0) sumFold [1, 2, 3] start).2.made.card = 7 ∧
    (reducedEdges (fun _ _ => 0) sumFold [1, 2, 3] start).2.freed.card = 6 := by decide

/-- The same fold with a reduction that fails at its second call and returns storage nevertheless. -/
example : let m := { sumFold with reduction := some fun t x y => ⟨some (x.getD 0 + y.getD 0), if t = 6 then 7 else 0⟩ }
    (reducedEdges (fun _ _ => 0) m [1, 2, 3] start).2.err = 7 ∧
    (reducedEdges (fun _ _ => 0) m [1, 2, 3] start).2.freed.card = 5 ∧
    (reducedEdges (fun _ _ => 0) m [1, 2, 3] start).2.made.card = 5 := by decide

/-- The hypothesis about the vacuous case cannot be dropped: a vacuous case that fails and returns storage is returned by
the fold of an empty list together with the error. -/
theorem C26_vacuous_case_returned_with_error :
    let m : CruFold Nat Nat := { sumFold with vacuous := some fun _ => ⟨some 1, 7⟩ }
    (reducedEdges (fun _ _ => 0) m [] start).2.err = 7 ∧ (reducedEdges (fun _ _ => 0) m [] start).1.isSome := by
  decide

end Cru.Fold
