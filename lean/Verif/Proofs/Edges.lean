import Verif.Model.Edges
import Verif.Spec.Grouping

namespace Cru

variable {α : Type}

theorem IsEquality.of_head {eq : α → α → Bool} (h : IsEquality eq) {a b c : α} (h1 : eq a b = true)
    (h2 : eq a c = true) : eq b c = true :=
  h.trans _ _ _ (h.symm _ _ h1) h2

theorem mem_bundleInsert {r : α → α → Bool} {e : α} {b : List (List α)} {g : List α}
    (hg : g ∈ bundleInsert r e b) : ∀ x ∈ g, x = e ∨ ∃ g' ∈ b, x ∈ g' := by
  induction b with
  | nil => simp [bundleInsert] at hg; subst hg; simp
  | cons g' bs ih =>
    cases g' with
    | nil =>
      simp only [bundleInsert, List.mem_cons] at hg
      rcases hg with rfl | hg
      · simp
      · intro x hx; right; exact ⟨g, by simp [hg], hx⟩
    | cons a t =>
      simp only [bundleInsert] at hg
      split at hg
      · rcases List.mem_cons.1 hg with rfl | hg
        · intro x hx
          rcases List.mem_cons.1 hx with rfl | hx
          · simp
          · right; exact ⟨a :: t, by simp, hx⟩
        · intro x hx; right; exact ⟨g, by simp [hg], hx⟩
      · rcases List.mem_cons.1 hg with rfl | hg
        · intro x hx; right; exact ⟨a :: t, by simp, hx⟩
        · intro x hx
          rcases ih hg x hx with h | ⟨g', h1, h2⟩
          · exact .inl h
          · exact .inr ⟨g', by simp [h1], h2⟩

theorem bundleInsert_grouping {r : α → α → Bool} (hr : IsEquality r) {es : List α} {b : List (List α)} (e : α)
    (h : IsGrouping (fun x y => r x y = true) es b) :
    IsGrouping (fun x y => r x y = true) (e :: es) (bundleInsert r e b) := by
  induction b generalizing es with
  | nil =>
    have : es = [] := by have := h.perm; simpa using this
    subst this
    exact ⟨by simp [bundleInsert], by simp [bundleInsert],
      by simp [bundleInsert, hr.refl], by simp [bundleInsert]⟩
  | cons g bs ih =>
    have hne := h.nonempty g (by simp)
    cases g with
    | nil => exact absurd rfl hne
    | cons a t =>
      obtain ⟨hp, hn, hw, ha⟩ := h
      rw [List.pairwise_cons] at ha
      have hbs : IsGrouping (fun x y => r x y = true) bs.flatten bs :=
        ⟨List.Perm.refl _, fun g hg => hn g (by simp [hg]), fun g hg => hw g (by simp [hg]), ha.2⟩
      have hi := ih hbs
      have hat := hw (a :: t) (by simp)
      by_cases hra : r a e = true
      · simp only [bundleInsert, hra, if_true]
        have hea : ∀ x ∈ (a :: t), r e x = true := fun x hx =>
          hr.of_head hra (hat a (by simp) x hx)
        refine ⟨?_, ?_, ?_, ?_⟩
        · simpa using hp
        · intro g hg
          rcases List.mem_cons.1 hg with rfl | hg
          · simp
          · exact hn g (by simp [hg])
        · intro g hg x hx y hy
          rcases List.mem_cons.1 hg with rfl | hg
          · rcases List.mem_cons.1 hx with hx' | hx'
            · rw [hx']
              rcases List.mem_cons.1 hy with hy' | hy'
              · rw [hy']; exact hr.refl _
              · exact hea y hy'
            · rcases List.mem_cons.1 hy with hy' | hy'
              · rw [hy']; exact hr.symm _ _ (hea x hx')
              · exact hat x hx' y hy'
          · exact hw g (by simp [hg]) x hx y hy
        · rw [List.pairwise_cons]
          refine ⟨?_, ha.2⟩
          intro g hg x hx y hy
          rcases List.mem_cons.1 hx with rfl | hx
          · intro hxy
            exact ha.1 g hg a (by simp) y hy (hr.trans _ _ _ hra hxy)
          · exact ha.1 g hg x hx y hy
      · simp only [bundleInsert, hra, if_false, Bool.false_eq_true]
        refine ⟨?_, ?_, ?_, ?_⟩
        · rw [List.flatten_cons] at hp ⊢
          refine List.Perm.trans (List.Perm.append_left _ hi.perm) ?_
          exact List.perm_middle.trans (hp.cons _)
        · intro g hg
          rcases List.mem_cons.1 hg with rfl | hg
          · simp
          · exact hi.nonempty g hg
        · intro g hg
          rcases List.mem_cons.1 hg with rfl | hg
          · exact hat
          · exact hi.within g hg
        · rw [List.pairwise_cons]
          refine ⟨?_, hi.across⟩
          intro g hg x hx y hy
          rcases mem_bundleInsert hg y hy with rfl | ⟨g', h1, h2⟩
          · intro hxy
            exact hra (hr.trans _ _ _ (hat a (by simp) x hx) hxy)
          · exact ha.1 g' h1 x hx y h2

theorem bundled_grouping {r : α → α → Bool} (hr : IsEquality r) (es : List α) :
    IsGrouping (fun x y => r x y = true) es (bundled r es) := by
  have key : ∀ (es acc : List α) (b : List (List α)), IsGrouping (fun x y => r x y = true) acc b →
      IsGrouping (fun x y => r x y = true) (es.reverse ++ acc) (es.foldl (fun b e => bundleInsert r e b) b) := by
    intro es
    induction es with
    | nil => intro acc b h; simpa using h
    | cons e es ih =>
      intro acc b h
      have := ih _ _ (bundleInsert_grouping hr e h)
      simpa using this
  have h := key es [] [] ⟨by simp, by simp, by simp, by simp⟩
  simp only [List.append_nil] at h
  exact ⟨h.perm.trans (List.reverse_perm _), h.nonempty, h.within, h.across⟩

theorem judyKeys_nodup (key : α → Nat) (es : List α) : (judyKeys key es).Nodup :=
  (List.perm_insertionSort _ _).nodup_iff.2 (List.nodup_dedup _)

theorem mem_judyKeys (key : α → Nat) (es : List α) (k : Nat) : k ∈ judyKeys key es ↔ ∃ e ∈ es, key e = k := by
  rw [judyKeys, (List.perm_insertionSort _ _).mem_iff, List.mem_dedup, List.mem_map]

theorem mem_judyBin (key : α → Nat) (es : List α) (k : Nat) (e : α) :
    e ∈ judyBin key es k ↔ e ∈ es ∧ key e = k := by
  simp [judyBin]

/-- Splitting a list by a key: the bins put together are the list. -/
theorem flatMap_bins_perm (key : α → Nat) : ∀ (ks : List Nat) (es : List α), ks.Nodup → (∀ e ∈ es, key e ∈ ks) →
    (ks.flatMap (judyBin key es)).Perm es := by
  intro ks
  induction ks with
  | nil =>
    intro es _ h
    cases es with
    | nil => simp
    | cons e es => exact absurd (h e (by simp)) (by simp)
  | cons k ks ih =>
    intro es hn h
    rw [List.nodup_cons] at hn
    rw [List.flatMap_cons]
    have h2 : (ks.flatMap (judyBin key es)) = ks.flatMap (judyBin key (es.filter (fun e => ¬ key e = k))) := by
      refine List.flatMap_congr ?_
      intro k' hk'
      simp only [judyBin, List.filter_filter]
      congr 1
      refine List.filter_congr ?_
      intro e _
      have : k' ≠ k := fun h => hn.1 (h ▸ hk')
      by_cases he : key e = k' <;> simp [he, this]
    rw [h2]
    have h3 := ih (es.filter (fun e => ¬ key e = k)) hn.2 (by
      intro e he
      simp at he
      have := h e he.1
      simp [he.2] at this
      exact this)
    refine (List.Perm.append (List.reverse_perm _) h3).trans ?_
    simpa using List.filter_append_perm (fun e => decide (key e = k)) es

theorem foldl_append_front {β γ : Type} (f : β → List γ) (ks : List β) (acc : List γ) :
    ks.foldl (fun b k => f k ++ b) acc = (ks.reverse.flatMap f) ++ acc := by
  induction ks generalizing acc with
  | nil => simp
  | cons k ks ih => simp [ih]

theorem flatten_perm {b c : List (List α)} (h : b.Perm c) : b.flatten.Perm c.flatten := by
  induction h with
  | nil => simp
  | cons x _ ih => simpa using ih.append_left x
  | swap x y l => simp only [List.flatten_cons, ← List.append_assoc]; exact List.perm_append_comm.append_right _
  | trans _ _ ih1 ih2 => exact ih1.trans ih2

/-- Groups of groups. -/
theorem grouping_flatMap {r : α → α → Bool} {key : α → Nat} (hk : HashRespects key r)
    (f : Nat → List (List α)) (ks : List Nat) (es : List α) (hn : ks.Nodup) (hks : ∀ k, k ∈ ks ↔ ∃ e ∈ es, key e = k)
    (hf : ∀ k ∈ ks, IsGrouping (fun x y => r x y = true) (judyBin key es k) (f k)) :
    IsGrouping (fun x y => r x y = true) es (ks.flatMap f) := by
  have mem : ∀ k ∈ ks, ∀ g ∈ f k, ∀ x ∈ g, key x = k := by
    intro k hk g hg x hx
    have : x ∈ (f k).flatten := List.mem_flatten.2 ⟨g, hg, hx⟩
    rw [(hf k hk).perm.mem_iff, mem_judyBin] at this
    exact this.2
  refine ⟨?_, ?_, ?_, ?_⟩
  · have h1 : (ks.flatMap f).flatten.Perm (ks.flatMap (judyBin key es)) := by
      have : ∀ ks' : List Nat, (∀ k ∈ ks', k ∈ ks) → (ks'.flatMap f).flatten.Perm (ks'.flatMap (judyBin key es)) := by
        intro ks'
        induction ks' with
        | nil => simp
        | cons k ks' ih =>
          intro h
          simp only [List.flatMap_cons, List.flatten_append]
          exact ((hf k (h k (by simp))).perm).append (ih (fun k hk => h k (by simp [hk])))
      exact this ks (fun _ h => h)
    exact h1.trans (flatMap_bins_perm key ks es hn (fun e he => (hks _).2 ⟨e, he, rfl⟩))
  · intro g hg
    obtain ⟨k, hk, hg⟩ := List.mem_flatMap.1 hg
    exact (hf k hk).nonempty g hg
  · intro g hg
    obtain ⟨k, hk, hg⟩ := List.mem_flatMap.1 hg
    exact (hf k hk).within g hg
  · rw [List.pairwise_flatMap]
    refine ⟨fun k hk => (hf k hk).across, ?_⟩
    refine List.Pairwise.imp_of_mem ?_ hn
    intro k k' hk1 hk2 hne g hg g' hg' x hx y hy hxy
    exact hne ((mem k hk1 g hg x hx).symm.trans ((hk x y hxy).trans (mem k' hk2 g' hg' y hy)))

theorem rallied_grouping {h : α → Nat} {r : α → α → Bool} (hr : IsEquality r) (hh : HashRespects h r) (es : List α) :
    IsGrouping (fun x y => r x y = true) es (rallied h r es) := by
  have e1 : rallied h r es = (judyKeys h es).reverse.flatMap (fun k => bundled r (judyBin h es k)) := by
    simp [rallied, foldl_append_front (fun k => bundled r (judyBin h es k))]
  rw [e1]
  refine grouping_flatMap hh _ _ es ?_ ?_ ?_
  · exact List.nodup_reverse.2 (judyKeys_nodup h es)
  · intro k; rw [List.mem_reverse, mem_judyKeys]
  · intro k _; exact bundled_grouping hr _

theorem sameNode_equality (node : α → Nat) : IsEquality (fun a b => decide (node a = node b)) :=
  ⟨by simp, by simp +contextual, by simp +contextual⟩

theorem marshalled_grouping (node : α → Nat) (es : List α) :
    IsGrouping (fun x y => node x = node y) es (marshalled node es) := by
  have e1 : marshalled node es = (judyKeys node es).reverse.flatMap (fun k => [judyBin node es k]) := by
    have := foldl_append_front (fun k => [judyBin node es k]) (judyKeys node es) []
    simpa [marshalled] using this
  have h : IsGrouping (fun x y => decide (node x = node y) = true) es (marshalled node es) := by
    rw [e1]
    refine grouping_flatMap (key := node) (r := fun a b => decide (node a = node b)) 
      (by intro a b; simp) _ _ es ?_ ?_ ?_
    · exact List.nodup_reverse.2 (judyKeys_nodup node es)
    · intro k; rw [List.mem_reverse, mem_judyKeys]
    · intro k hk
      rw [List.mem_reverse, mem_judyKeys] at hk
      obtain ⟨e, he, hek⟩ := hk
      refine ⟨by simp, ?_, ?_, by simp⟩
      · intro g hg
        simp only [List.mem_singleton] at hg
        subst hg
        intro h0
        have : e ∈ judyBin node es k := (mem_judyBin ..).2 ⟨he, hek⟩
        rw [h0] at this
        cases this
      · intro g hg x hx y hy
        simp only [List.mem_singleton] at hg
        subst hg
        rw [mem_judyBin] at hx hy
        simp [hx.2, hy.2]
  simpa using h

theorem bucketed_grouping (node : α → Nat) (es : List α) :
    IsGrouping (fun x y => node x = node y) es (bucketed node es) := by
  simpa [bucketed] using bundled_grouping (sameNode_equality node) es

/-- Transversals of each group make a transversal of the finer relation. -/
theorem transversal_flatMap {r : α → α → Prop} {q : α → α → Prop} {es : List α} {b : List (List α)}
    (hb : IsGrouping r es b) (f : List α → List α × List α)
    (hf : ∀ g ∈ b, IsTransversal q g (f g).1 (f g).2) (hw : ∀ x y, q x y → r x y) :
    IsTransversal q es (b.flatMap (fun g => (f g).1)) (b.flatMap (fun g => (f g).2)) := by
  refine ⟨?_, ?_, ?_⟩
  · refine List.Perm.trans ?_ hb.perm
    have : ∀ b' : List (List α), (∀ g ∈ b', g ∈ b) →
        (b'.flatMap (fun g => (f g).1) ++ b'.flatMap (fun g => (f g).2)).Perm b'.flatten := by
      intro b'
      induction b' with
      | nil => simp
      | cons g b' ih =>
        intro h
        have ih := ih (fun g hg => h g (by simp [hg]))
        simp only [List.flatMap_cons, List.flatten_cons]
        refine List.Perm.trans ?_ (((hf g (h g (by simp))).perm).append ih)
        simp only [List.append_assoc]
        refine List.Perm.append_left _ ?_
        rw [← List.append_assoc, ← List.append_assoc]
        exact List.perm_append_comm.append_right _
    exact this b (fun _ h => h)
  · rw [List.pairwise_flatMap]
    refine ⟨fun g hg => (hf g hg).distinct, ?_⟩
    refine List.Pairwise.imp_of_mem ?_ hb.across
    intro g g' hg hg' hgg x hx y hy hxy
    refine hgg x ?_ y ?_ (hw _ _ hxy)
    · exact ((hf g hg).perm.mem_iff).1 (by simp [hx])
    · exact ((hf g' hg').perm.mem_iff).1 (by simp [hy])
  · intro e he
    rw [← hb.perm.mem_iff, List.mem_flatten] at he
    obtain ⟨g, hg, heg⟩ := he
    obtain ⟨o, ho, hq⟩ := (hf g hg).covers e heg
    exact ⟨o, List.mem_flatMap.2 ⟨g, hg, ho⟩, hq⟩

theorem uniqueBucket_transversal {r veq : α → α → Bool} (hr : IsEquality r) (hv : IsEquality veq) (g : List α)
    (hg : ∀ x ∈ g, ∀ y ∈ g, r x y = true) :
    IsTransversal (fun x y => r x y = true ∧ veq x y = true) g (uniqueBucket veq g).1 (uniqueBucket veq g).2 := by
  induction g with
  | nil => exact ⟨by simp [uniqueBucket], by simp [uniqueBucket], by simp⟩
  | cons p rest ih =>
    have ih := ih (fun x hx y hy => hg x (by simp [hx]) y (by simp [hy]))
    by_cases h : rest.any (veq p) = true
    · simp only [uniqueBucket, h, if_true]
      refine ⟨List.perm_middle.trans (ih.perm.cons _), ih.distinct, ?_⟩
      intro e he
      rcases List.mem_cons.1 he with rfl | he
      · rw [List.any_eq_true] at h
        obtain ⟨y, hy, hey⟩ := h
        obtain ⟨o, ho, h1, h2⟩ := ih.covers y hy
        have hor : o ∈ rest := ih.perm.mem_iff.1 (by simp [ho])
        exact ⟨o, ho, hg o (by simp [hor]) e (by simp), hv.trans _ _ _ h2 (hv.symm _ _ hey)⟩
      · exact ih.covers e he
    · simp only [uniqueBucket, h, if_false, Bool.false_eq_true]
      refine ⟨by simpa using ih.perm, ?_, ?_⟩
      · rw [List.pairwise_cons]
        refine ⟨?_, ih.distinct⟩
        intro y hy hpy
        have hor : y ∈ rest := ih.perm.mem_iff.1 (by simp [hy])
        exact h (List.any_eq_true.2 ⟨y, hor, hpy.2⟩)
      · intro e he
        rcases List.mem_cons.1 he with rfl | he
        · exact ⟨e, by simp, hr.refl _, hv.refl _⟩
        · obtain ⟨o, ho, h1⟩ := ih.covers e he
          exact ⟨o, by simp [ho], h1⟩

theorem unique_transversal {h : α → Nat} {leq veq : α → α → Bool} (hl : IsEquality leq) (hh : HashRespects h leq)
    (hv : IsEquality veq) (es : List α) :
    IsTransversal (fun x y => leq x y = true ∧ veq x y = true) es (unique h leq veq es)
      (uniqueDropped h leq veq es) := by
  have hb := rallied_grouping hl hh es
  have := transversal_flatMap (q := fun x y => leq x y = true ∧ veq x y = true) hb (uniqueBucket veq)
    (fun g hg => uniqueBucket_transversal hl hv g (hb.within g hg)) (fun x y h => h.1)
  refine ⟨?_, ?_, ?_⟩
  · exact ((List.reverse_perm _).append_right _).trans this.perm
  · rw [unique, List.pairwise_reverse]
    refine this.distinct.imp ?_
    intro x y hxy h'
    exact hxy ⟨hl.symm _ _ h'.1, hv.symm _ _ h'.2⟩
  · intro e he
    obtain ⟨o, ho, h'⟩ := this.covers e he
    exact ⟨o, by simpa [unique] using ho, h'⟩

theorem splitRepeats_spec {leq : α → α → Bool} (hl : IsEquality leq) (es : List α) : ∀ seen : List α,
    ((splitRepeats leq seen es).1 ++ (splitRepeats leq seen es).2).Perm es ∧
    (splitRepeats leq seen es).1.Sublist es ∧
    (splitRepeats leq seen es).1.Pairwise (fun x y => ¬ leq x y = true) ∧
    (∀ o ∈ (splitRepeats leq seen es).1, ∀ s ∈ seen, ¬ leq s o = true) ∧
    (∀ e ∈ es, (∃ o ∈ (splitRepeats leq seen es).1, leq o e = true) ∨ ∃ s ∈ seen, leq s e = true) := by
  induction es with
  | nil => intro seen; simp [splitRepeats]
  | cons e es ih =>
    intro seen
    by_cases h : seen.any (leq e) = true
    · obtain ⟨h1, h1', h2, h3, h4⟩ := ih seen
      simp only [splitRepeats, h, if_true]
      refine ⟨?_, h1'.trans (List.sublist_cons_self _ _), h2, h3, ?_⟩
      · rw [← List.append_assoc]
        exact (List.perm_append_comm.trans (by simpa using h1))
      · intro x hx
        rcases List.mem_cons.1 hx with rfl | hx
        · obtain ⟨s, hs, hes⟩ := List.any_eq_true.1 h
          exact .inr ⟨s, hs, hl.symm _ _ hes⟩
        · exact h4 x hx
    · obtain ⟨h1, h1', h2, h3, h4⟩ := ih (seen ++ [e])
      simp only [splitRepeats, h, if_false, Bool.false_eq_true]
      refine ⟨by simpa using h1, h1'.cons_cons _, ?_, ?_, ?_⟩
      · rw [List.pairwise_cons]
        exact ⟨fun y hy => h3 y hy e (by simp), h2⟩
      · intro o ho s hs
        rcases List.mem_cons.1 ho with rfl | ho
        · intro hso
          exact h (List.any_eq_true.2 ⟨s, hs, hl.symm _ _ hso⟩)
        · exact h3 o ho s (by simp [hs])
      · intro x hx
        rcases List.mem_cons.1 hx with rfl | hx
        · exact .inl ⟨x, by simp, hl.refl _⟩
        · rcases h4 x hx with ⟨o, ho, h'⟩ | ⟨s, hs, h'⟩
          · exact .inl ⟨o, by simp [ho], h'⟩
          · simp only [List.mem_append, List.mem_singleton] at hs
            rcases hs with hs | rfl
            · exact .inr ⟨s, hs, h'⟩
            · exact .inl ⟨s, by simp, h'⟩

theorem deduplicatedBrigade_eq (leq : α → α → Bool) (b : List (List α)) :
    deduplicatedBrigade leq b = (b.reverse.flatMap (fun g => (splitRepeats leq [] g).1),
      b.reverse.flatMap (fun g => (splitRepeats leq [] g).2)) := by
  have key : ∀ (b : List (List α)) (acc : List α × List α),
      b.foldl (fun r bucket => ((splitRepeats leq [] bucket).1 ++ r.1, (splitRepeats leq [] bucket).2 ++ r.2)) acc =
      (b.reverse.flatMap (fun g => (splitRepeats leq [] g).1) ++ acc.1,
        b.reverse.flatMap (fun g => (splitRepeats leq [] g).2) ++ acc.2) := by
    intro b
    induction b with
    | nil => simp
    | cons g b ih => intro acc; simp [ih]
  simpa [deduplicatedBrigade] using key b ([], [])

theorem deduplicatedBrigade_transversal {leq : α → α → Bool} (hl : IsEquality leq) {node : α → Nat} {es : List α}
    {b : List (List α)} (hb : IsGrouping (fun x y => node x = node y) es b) :
    IsTransversal (fun x y => node x = node y ∧ leq x y = true) es (deduplicatedBrigade leq b).1
      (deduplicatedBrigade leq b).2 := by
  have ht := transversal_flatMap (q := fun x y => node x = node y ∧ leq x y = true) hb (splitRepeats leq [])
    (by
      intro g hg
      obtain ⟨h1, _, h2, _, h4⟩ := splitRepeats_spec hl g []
      refine ⟨h1, h2.imp (fun h => fun h' => h h'.2), ?_⟩
      intro e he
      rcases h4 e he with ⟨o, ho, h'⟩ | ⟨s, hs, _⟩
      · exact ⟨o, ho, hb.within g hg o (h1.mem_iff.1 (by simp [ho])) e he, h'⟩
      · cases hs) (fun x y h => h.1)
  rw [deduplicatedBrigade_eq]
  have hp : (b.reverse.flatMap (fun g => (splitRepeats leq [] g).1)).Perm
      (b.flatMap (fun g => (splitRepeats leq [] g).1)) := (List.reverse_perm b).flatMap_right _
  have hp' : (b.reverse.flatMap (fun g => (splitRepeats leq [] g).2)).Perm
      (b.flatMap (fun g => (splitRepeats leq [] g).2)) := (List.reverse_perm b).flatMap_right _
  refine ⟨(hp.append hp').trans ht.perm, ?_, ?_⟩
  · refine hp.symm.pairwise ht.distinct ?_
    intro x y h h'
    exact h ⟨h'.1.symm, hl.symm _ _ h'.2⟩
  · intro e he
    obtain ⟨o, ho, h'⟩ := ht.covers e he
    exact ⟨o, hp.mem_iff.2 ho, h'⟩

/-! ### The minimum -/

theorem minScan_spec {lt : α → α → Bool} (hlt : IsStrictWeak lt) (es : List α) :
    ∀ (pre : List α) (m : α) (mi : Nat), pre[mi]? = some m → (∀ x ∈ pre, lt x m = false) →
      ∃ k m', minScan lt m mi pre.length es = k ∧ (pre ++ es)[k]? = some m' ∧ ∀ x ∈ pre ++ es, lt x m' = false := by
  induction es with
  | nil => intro pre m mi h1 h2; exact ⟨mi, m, rfl, by simpa using h1, by simpa using h2⟩
  | cons e es ih =>
    intro pre m mi h1 h2
    have hlen : mi < pre.length := by
      rw [List.getElem?_eq_some_iff] at h1; exact h1.1
    by_cases h : lt e m = true
    · obtain ⟨k, m', h3, h4, h5⟩ := ih (pre ++ [e]) e pre.length (by simp) (by
        intro x hx
        simp only [List.mem_append, List.mem_singleton] at hx
        rcases hx with hx | rfl
        · have hxm := h2 x hx
          cases hxe : lt x e with
          | false => rfl
          | true =>
            rcases hlt.weak e m x h with h' | h'
            · have := hlt.asymm x e hxe; simp [this] at h'
            · simp [hxm] at h'
        · cases hxx : lt x x with
          | false => rfl
          | true => have := hlt.asymm x x hxx; simp [this] at hxx)
      refine ⟨k, m', ?_, by simpa using h4, by simpa using h5⟩
      simpa [minScan, h] using h3
    · obtain ⟨k, m', h3, h4, h5⟩ := ih (pre ++ [e]) m mi (by rw [List.getElem?_append_left hlen]; exact h1) (by
        intro x hx
        simp only [List.mem_append, List.mem_singleton] at hx
        rcases hx with hx | rfl
        · exact h2 x hx
        · simpa using h)
      refine ⟨k, m', ?_, by simpa using h4, by simpa using h5⟩
      simpa [minScan, h] using h3

theorem minimumEdge_spec {lt : α → α → Bool} (hlt : IsStrictWeak lt) (es : List α) (hne : es ≠ []) :
    ∃ m rest, minimumEdge lt es = some (m, rest) ∧ (m :: rest).Perm es ∧ ∀ x ∈ es, lt x m = false := by
  cases es with
  | nil => exact absurd rfl hne
  | cons e es =>
    obtain ⟨k, m, h1, h2, h3⟩ := minScan_spec hlt es [e] e 0 (by simp) (by
      intro x hx
      simp only [List.mem_singleton] at hx
      subst hx
      cases hxx : lt x x with
      | false => rfl
      | true => have := hlt.asymm x x hxx; simp [this] at hxx)
    simp only [List.length_singleton, List.singleton_append] at h1 h2 h3
    refine ⟨m, (e :: es).eraseIdx k, ?_, ?_, h3⟩
    · simp only [minimumEdge, h1, h2, Option.map_some]
    · rw [List.getElem?_eq_some_iff] at h2
      obtain ⟨hk, rfl⟩ := h2
      exact List.getElem_cons_eraseIdx_perm hk

theorem minimumEdge_eq_none {lt : α → α → Bool} (hlt : IsStrictWeak lt) (es : List α) :
    minimumEdge lt es = none ↔ es = [] := by
  constructor
  · intro h
    by_contra hne
    obtain ⟨m, rest, h1, _⟩ := minimumEdge_spec hlt es hne
    rw [h] at h1; cases h1
  · rintro rfl; rfl

end Cru
