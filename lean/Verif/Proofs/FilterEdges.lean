import Verif.Spec.Filter
import Verif.Props.Edges

/-! # Filtering: the edges of one node -/

namespace Cru

variable {α : Type}

/-- A group is everything in the list that's related to any member of it. -/
theorem IsGrouping.whole {r : α → α → Bool} (hr : IsEquality r) {es : List α} {b : List (List α)} (hb : IsGrouping (fun x y => r x y = true) es b)
    {k : List α} (hk : k ∈ b) {e : α} (he : e ∈ k) : k.Perm (es.filter (r e)) := by
  refine List.Perm.symm ((hb.perm.symm.filter _).trans (.of_eq ?_))
  obtain ⟨b1, b2, rfl⟩ := List.append_of_mem hk
  obtain ⟨h1, h2, h3⟩ := List.pairwise_append.1 hb.across
  have e1 : ∀ c : List (List α), (∀ l ∈ c, ∀ x ∈ l, r e x = false) → c.flatten.filter (r e) = [] := by
    intro c hc
    rw [List.filter_eq_nil_iff]
    intro x hx
    obtain ⟨l, hl, hx⟩ := List.mem_flatten.1 hx
    simp [hc l hl x hx]
  rw [List.flatten_append, List.flatten_cons, List.filter_append, List.filter_append, e1 b1, e1 b2]
  · simp only [List.nil_append, List.append_nil]
    rw [List.filter_eq_self]
    exact fun x hx => hb.within k (by simp) e he x hx
  · intro l hl x hx
    rw [Bool.eq_false_iff]
    exact (List.pairwise_cons.1 h2).1 l hl e he x hx
  · intro l hl x hx
    rw [Bool.eq_false_iff]
    exact fun h => h3 l hl k (by simp) x hx e he (hr.symm _ _ h)

theorem flatten_filter (p : List α → Bool) (b : List (List α)) : (b.filter p).flatten = (b.map fun k => if p k then k else []).flatten := by
  induction b with
  | nil => rfl
  | cons k b ih =>
    by_cases h : p k = true
    · simp [List.filter_cons, h, ih]
    · simp [List.filter_cons, h, ih]

/-- What's left by the edge test of a class. -/
theorem jointlyFiltered_perm {r : α → α → Bool} (hr : IsEquality r) {pass : List α → Bool} (hp : ∀ a b : List α, a.Perm b → pass a = pass b)
    {es : List α} {b : List (List α)} (hb : IsGrouping (fun x y => r x y = true) es b) :
    (jointlyFiltered pass b).1.Perm (es.filter fun e => pass (es.filter (r e))) := by
  simp only [jointlyFiltered, bucket_fold, List.append_nil]
  refine (flatten_perm (List.reverse_perm _)).trans ?_
  refine List.Perm.trans (.of_eq ?_) (hb.perm.filter _)
  rw [flatten_filter, List.filter_flatten]
  congr 1
  refine List.map_congr_left fun k hk => ?_
  have : ∀ e ∈ k, pass (es.filter (r e)) = pass k := fun e he => (hp _ _ (hb.whole hr hk he)).symm
  by_cases h : pass k = true
  · rw [if_pos h, List.filter_eq_self.2]
    exact fun e he => (this e he).trans h
  · rw [if_neg h, List.filter_eq_nil_iff.2]
    exact fun e he => by rw [this e he]; exact h

theorem unrelated_eq (es : List α) : unrelated es = es.reverse.map fun e => [e] := by
  have key : ∀ (es : List α) (acc : List (List α)), es.foldl (fun t e => [e] :: t) acc = es.reverse.map (fun e => [e]) ++ acc := by
    intro es
    induction es with
    | nil => simp
    | cons e es ih => intro acc; simp [ih]
  rw [unrelated, key, List.append_nil]

theorem jointlyFiltered_unrelated (pass : List α → Bool) (es : List α) : (jointlyFiltered pass (unrelated es)).1.Perm (es.filter fun e => pass [e]) := by
  simp only [jointlyFiltered, bucket_fold, List.append_nil]
  refine (flatten_perm (List.reverse_perm _)).trans ?_
  rw [flatten_filter, unrelated_eq]
  refine List.Perm.trans (.of_eq ?_) ((List.reverse_perm es).filter _)
  induction es.reverse with
  | nil => rfl
  | cons e l ih =>
    simp only [List.map_cons, List.flatten_cons, ih]
    by_cases h : pass [e] = true <;> simp [List.filter_cons, h]

namespace Filter

variable {N V L : Type} {u : Filter V L} {g : Gr N V L} {m : N}

theorem inferred_none (h : u.thinner = none) : u.inferred = u := by simp [Filter.inferred, h]

theorem inferred_thinner : u.inferred.thinner = u.thinner := by unfold Filter.inferred; split <;> rfl

theorem inferred_order : u.inferred.order = u.order := by unfold Filter.inferred; split <;> rfl

theorem inferred_passes : passes u.inferred g m = passes u g m := by
  funext e
  unfold Filter.inferred
  split
  · unfold passes
    rcases u.edge with _ | t
    · rcases u.order with _ | o <;> simp
    · simp
  · rfl

theorem inferred_lawful (hl : u.Lawful) : u.inferred.Lawful := by
  unfold Filter.inferred
  split
  · refine ⟨hl.equal, ?_, hl.thinner, hl.compatible⟩
    intro t ht v es es' hp
    rcases he : u.edge with _ | t'
    · rw [he] at ht; cases ht; rfl
    · rw [he] at ht; cases ht; exact hl.fold _ he v es es' hp
  · exact hl

theorem edge_weak (hl : u.Lawful) {lt} (h : u.thinner = some lt) :
    IsStrictWeak fun a b : L × N => lt (a.1, g.vertex a.2) (b.1, g.vertex b.2) :=
  ⟨fun _ _ h' => (hl.thinner lt h).asymm _ _ h', fun _ _ _ h' => (hl.thinner lt h).weak _ _ _ h'⟩

theorem edge_equality (hl : u.Lawful) {o} (h : u.order = some o) : IsEquality fun a b : L × N => o.2 a.1 b.1 :=
  ⟨fun _ => (hl.equal o h).1.refl _, fun _ _ h' => (hl.equal o h).1.symm _ _ h', fun _ _ _ h' => (hl.equal o h).1.trans _ _ _ h'⟩

theorem edge_respects (hl : u.Lawful) {o} (h : u.order = some o) : HashRespects (fun a : L × N => o.1 a.1) fun a b => o.2 a.1 b.1 :=
  fun _ _ h' => (hl.equal o h).2 _ _ h'

/-- Nothing is lost. -/
theorem filtered_perm (hl : u.Lawful) (es : List (L × N)) : ((filtered u g m es).1 ++ (filtered u g m es).2.1).Perm es := by
  refine C28_filtered_complete (edgeFilter u g m) ?_ ?_ ?_ es
  · intro lt h
    obtain ⟨t, h1, rfl⟩ := Option.map_eq_some_iff.1 h
    exact edge_weak hl h1
  · intro h r h'
    obtain ⟨o, h1, h2⟩ := Option.map_eq_some_iff.1 h'
    cases h2
    exact ⟨edge_equality hl h1, edge_respects hl h1⟩
  · intro h r lt h1 h2 x x' y y' h3 h4
    obtain ⟨o, h5, h6⟩ := Option.map_eq_some_iff.1 h1
    cases h6
    obtain ⟨t, h7, rfl⟩ := Option.map_eq_some_iff.1 h2
    exact hl.compatible o t h5 h7 _ _ _ _ h3 h4

theorem pick_perm (hl : u.Lawful) (es : List (L × N)) : ((pick u g m es).1 ++ (pick u g m es).2.1).Perm es := by
  unfold pick
  dsimp only
  split
  · exact filtered_perm hl es
  · simp

theorem view_perm {es es' : List (L × N)} (h : es.Perm es') : (view g es).Perm (view g es') := h.map _

/-- What's left without a thinner. -/
theorem pick_kept (hl : u.Lawful) (ht : u.thinner = none) :
    (pick u g m (g.out m)).1.Perm ((g.out m).filter (passes u g m)) := by
  have e1 : (pick u g m (g.out m)).1 = (filteredEdges (edgeFilter u g m) (g.out m)).1 := by
    simp [pick, eligible, ht, filtered]
  rw [e1]
  unfold filteredEdges
  rcases he : u.edge with _ | t
  · have : (g.out m).filter (passes u g m) = g.out m := by
      rw [List.filter_eq_self]
      intro e _
      simp [passes, he]
    simp [edgeFilter, he, ht, this]
  · have hne : ((edgeFilter u g m).emptyFold && (edgeFilter u g m).thinner.isNone) = false := by simp [edgeFilter, he]
    rw [hne]
    simp only [Bool.false_eq_true, if_false]
    rcases ho : u.order with _ | o
    · have h1 : (edgeFilter u g m).order = none := by simp [edgeFilter, ho]
      have h2 : (edgeFilter u g m).thinner = none := by simp [edgeFilter, ht]
      rw [h1, h2]
      rcases hv : t.vacuous with _ | _
      · have h3 : (edgeFilter u g m).vacuous = false := by simp [edgeFilter, he, hv]
        rw [h3]
        refine (C28_individually_filtered _ _).1.trans (.of_eq (List.filter_congr fun e _ => ?_))
        simp [edgeFilter, he, passes, ho, hv]
      · have h3 : (edgeFilter u g m).vacuous = true := by simp [edgeFilter, he, hv]
        rw [h3]
        refine (jointlyFiltered_unrelated _ _).trans (.of_eq (List.filter_congr fun e _ => ?_))
        simp [edgeFilter, he, passes, ho, hv, view, ends]
    · have h1 : (edgeFilter u g m).order = some (fun e => o.1 e.1, fun a b => o.2 a.1 b.1) := by simp [edgeFilter, ho]
      have h2 : (edgeFilter u g m).thinner = none := by simp [edgeFilter, ht]
      rw [h1, h2]
      refine (jointlyFiltered_perm (edge_equality hl ho) (fun a b h => ?_)
        (rallied_grouping (edge_equality hl ho) (edge_respects hl ho) (g.out m))).trans (.of_eq (List.filter_congr fun e _ => ?_))
      · simp only [edgeFilter, he, Option.any_some]
        exact hl.fold t he _ _ _ (view_perm h)
      · simp [edgeFilter, he, passes, ho, view, ends]

theorem deletable_fails {p} (hp : u.probe = some p) (he : (p (g.vertex m) (view g (g.inn m)) (view g (g.out m))).2 = 0) :
    deletable u g m (g.out m) = (fails u g m, 0) := by
  unfold deletable fails
  rw [hp]
  simp only [Option.any_some, he, ne_eq, not_true_eq_false, if_false]
  exact Prod.ext rfl he

/-- What's left with a thinner. -/
theorem pick_thinned (hl : u.Lawful) {lt} (ht : u.thinner = some lt) (hp : ∀ e, ¬ ProbeError u g m e) :
    Thinned u lt g m (pick u.inferred g m (g.out m)).1 := by
  have hl' := inferred_lawful hl
  have ht' : u.inferred.thinner = some lt := by rw [inferred_thinner, ht]
  have hd : deletable u.inferred g m (g.out m) = (!(u.probe.isSome && !fails u g m), 0) := by
    unfold Filter.inferred
    rw [ht]
    simp only [Option.isSome_some, if_true]
    rcases h : u.probe with _ | p
    · simp [deletable]
    · have h0 : (p (g.vertex m) (view g (g.inn m)) (view g (g.out m))).2 = 0 := by
        by_contra hne
        exact hp _ ⟨hne, p, h, rfl⟩
      have := deletable_fails (u := u) h h0
      simp only [deletable, h, Option.getD_some] at this ⊢
      rw [this]
      simp
  have hel : eligible u.inferred g m (g.out m) = (!(u.probe.isSome && !fails u g m), 0) := by
    unfold eligible
    rw [ht', hd]
    simp
  unfold Thinned
  split
  · rename_i c
    have : pick u.inferred g m (g.out m) = (g.out m, [], 0) := by
      unfold pick
      rw [hel]
      simp [c.1, c.2]
    rw [this]
  · rename_i c
    have hpk : (pick u.inferred g m (g.out m)).1 = (filteredEdges (edgeFilter u.inferred g m) (g.out m)).1 := by
      unfold pick
      rw [hel]
      dsimp only
      rw [if_pos]
      · rfl
      · refine ⟨?_, rfl⟩
        by_contra hc
        rw [Bool.not_eq_true, Bool.not_eq_false', Bool.and_eq_true, Bool.not_eq_true'] at hc
        exact c hc
    rw [hpk, ← inferred_passes (u := u)]
    have hcl : classmates u (g.out m) = classmates u.inferred (g.out m) := by
      funext e; unfold classmates; rw [inferred_order]
    rw [hcl]
    clear hpk hel hd hp hcl c
    have hedge : ∃ t, u.inferred.edge = some t := by
      unfold Filter.inferred; rw [ht]; exact ⟨_, rfl⟩
    generalize u.inferred = w at *
    obtain ⟨t, he⟩ := hedge
    unfold filteredEdges
    have hne : ((edgeFilter w g m).emptyFold && (edgeFilter w g m).thinner.isNone) = false := by simp [edgeFilter, he]
    rw [hne]
    simp only [Bool.false_eq_true, if_false]
    have h2 : (edgeFilter w g m).thinner = some fun a b => lt (a.1, g.vertex a.2) (b.1, g.vertex b.2) := by simp [edgeFilter, ht']
    have hw := edge_weak (g := g) hl' ht'
    rw [h2]
    rcases ho : w.order with _ | o
    · have h1 : (edgeFilter w g m).order = none := by simp [edgeFilter, ho]
      rw [h1]
      have hcm : ∀ e, classmates w (g.out m) e = [e] := fun e => by simp [classmates, ho]
      rcases hv : t.vacuous with _ | _
      · have h3 : (edgeFilter w g m).vacuous = false := by simp [edgeFilter, he, hv]
        rw [h3]
        have hps : (edgeFilter w g m).pass1 = passes w g m := by funext e; simp [edgeFilter, he, passes, ho, hv]
        rw [hps]
        obtain ⟨a1, a2, a3⟩ := C28_individually_thinned (passes w g m) hw (g.out m)
        refine ⟨a2, fun hx => ?_⟩
        obtain ⟨e, b1, b2, b3⟩ := a3 hx
        refine ⟨e, ?_, b2, by rw [hcm]; exact .of_eq b1, b3⟩
        exact a1.mem_iff.1 (by rw [b1]; simp)
      · have h3 : (edgeFilter w g m).vacuous = true := by simp [edgeFilter, he, hv]
        rw [h3]
        dsimp only
        have hps : ∀ e, (edgeFilter w g m).passG [e] = passes w g m e := by intro e; simp [edgeFilter, he, passes, ho, hv, view, ends]
        obtain ⟨a1, a2, a3⟩ := jointlyThinned_spec (edgeFilter w g m).passG hw (rel := Eq) (es := g.out m) (b := unrelated (g.out m))
          (unrelated_perm _).1 (fun k hk => by obtain ⟨e, -, rfl⟩ := (unrelated_perm _).2 k hk; simp)
          (fun k hk x hx y hy => by
            obtain ⟨e, -, rfl⟩ := (unrelated_perm _).2 k hk
            rw [List.mem_singleton.1 hx, List.mem_singleton.1 hy])
          (fun x x' y y' h1 h2 => by rw [h1, h2])
        have hmem : ∀ e ∈ g.out m, [e] ∈ unrelated (g.out m) := by
          intro e he'
          rw [unrelated_eq]
          exact List.mem_map.2 ⟨e, List.mem_reverse.2 he', rfl⟩
        refine ⟨fun h => a2 fun k hk => ?_, fun ⟨e, he', hpe⟩ => ?_⟩
        · obtain ⟨e, he', rfl⟩ := (unrelated_perm _).2 k hk
          rw [hps]; exact h e he'
        · obtain ⟨b1, b2, b3⟩ := a3 ⟨[e], hmem e he', by rw [hps]; exact hpe⟩
          obtain ⟨d, hd, hd'⟩ := (unrelated_perm _).2 _ b1
          refine ⟨d, hd, by rw [← hps, ← hd']; exact b2, by rw [hcm]; exact .of_eq hd', fun x hx hpx => ?_⟩
          exact b3 [x] (hmem x hx) (by rw [hps]; exact hpx) x (by simp) d (by rw [hd']; simp)
    · have h1 : (edgeFilter w g m).order = some (fun e => o.1 e.1, fun a b => o.2 a.1 b.1) := by simp [edgeFilter, ho]
      rw [h1]
      dsimp only
      have hgr := rallied_grouping (edge_equality hl' ho) (edge_respects hl' ho) (g.out m)
      have hps : ∀ k ∈ rallied (fun e : L × N => o.1 e.1) (fun a b => o.2 a.1 b.1) (g.out m), ∀ e ∈ k, (edgeFilter w g m).passG k = passes w g m e := by
        intro k hk e hek
        have := hgr.whole (edge_equality hl' ho) hk hek
        simp only [edgeFilter, he, passes, ho, Option.any_some]
        exact hl'.fold t he _ _ _ (view_perm this)
      have hmem : ∀ e ∈ g.out m, ∃ k ∈ rallied (fun e : L × N => o.1 e.1) (fun a b => o.2 a.1 b.1) (g.out m), e ∈ k := fun e h =>
        List.mem_flatten.1 (hgr.perm.mem_iff.2 h)
      obtain ⟨a1, a2, a3⟩ := C28_jointly_thinned (edgeFilter w g m).passG hw hgr
        (fun x x' y y' h1 h2 => hl'.compatible o lt ho ht' _ _ _ _ h1 h2)
      refine ⟨fun h => a2 fun k hk => ?_, fun ⟨e, he', hpe⟩ => ?_⟩
      · obtain ⟨e, l, rfl⟩ := List.exists_cons_of_ne_nil (hgr.nonempty k hk)
        rw [hps _ hk e (by simp)]
        exact h e (hgr.perm.mem_iff.1 (List.mem_flatten.2 ⟨_, hk, by simp⟩))
      · obtain ⟨k, hk, hek⟩ := hmem e he'
        obtain ⟨b1, b2, b3⟩ := a3 ⟨k, hk, by rw [hps k hk e hek]; exact hpe⟩
        generalize (jointlyThinned (edgeFilter w g m).passG (fun a b => lt (a.1, g.vertex a.2) (b.1, g.vertex b.2))
          (rallied (fun e : L × N => o.1 e.1) (fun a b => o.2 a.1 b.1) (g.out m))).1 = rs at *
        obtain ⟨d, hd⟩ := List.exists_mem_of_ne_nil _ (hgr.nonempty _ b1)
        refine ⟨d, hgr.perm.mem_iff.1 (List.mem_flatten.2 ⟨_, b1, hd⟩), by rw [← hps _ b1 d hd]; exact b2, ?_, fun x hx hpx => ?_⟩
        · refine (hgr.whole (edge_equality hl' ho) b1 hd).trans (.of_eq ?_)
          simp [classmates, ho]
        · obtain ⟨k', hk', hx'⟩ := hmem x hx
          exact b3 k' hk' (by rw [hps k' hk' x hx']; exact hpx) x hx' d hd

end Filter

end Cru
