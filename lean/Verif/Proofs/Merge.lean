import Verif.Model.Merge
import Verif.Proofs.Trav
import Verif.Proofs.Edges
import Verif.Props.Classify

/-! # Classes made by merging -/

namespace Cru.Merge

open Net

variable {n : Nat} {N V L P : Type}

/-- Groupings of lists with no members related across them. -/
theorem grouping_join {ι α : Type} {rel : α → α → Prop} (hsymm : ∀ a b, rel a b → rel b a) (es : ι → List α) (f : ι → List (List α))
    (ks : List ι) (hn : ks.Nodup) (hf : ∀ k ∈ ks, IsGrouping rel (es k) (f k))
    (hx : ∀ k ∈ ks, ∀ l ∈ ks, ∀ x ∈ es k, ∀ y ∈ es l, rel x y → k = l) :
    IsGrouping rel (ks.flatMap es) (ks.flatMap f) := by
  have hmem : ∀ k ∈ ks, ∀ g ∈ f k, ∀ x ∈ g, x ∈ es k :=
    fun k hk g hg x hx => (hf k hk).perm.mem_iff.1 (List.mem_flatten.2 ⟨g, hg, hx⟩)
  induction ks with
  | nil => exact ⟨by simp, by simp, by simp, by simp⟩
  | cons k ks ih =>
    have ih := ih (List.nodup_cons.1 hn).2 (fun k h => hf k (List.mem_cons_of_mem _ h))
      (fun a ha b hb => hx a (List.mem_cons_of_mem _ ha) b (List.mem_cons_of_mem _ hb))
      (fun k h => hmem k (List.mem_cons_of_mem _ h))
    have h0 := hf k List.mem_cons_self
    simp only [List.flatMap_cons]
    refine ⟨?_, ?_, ?_, ?_⟩
    · rw [List.flatten_append]; exact h0.perm.append ih.perm
    · intro g hg; rcases List.mem_append.1 hg with hg | hg
      · exact h0.nonempty g hg
      · exact ih.nonempty g hg
    · intro g hg; rcases List.mem_append.1 hg with hg | hg
      · exact h0.within g hg
      · exact ih.within g hg
    · refine List.pairwise_append.2 ⟨h0.across, ih.across, ?_⟩
      intro g hg g' hg' x hxg y hyg' hr
      obtain ⟨l, hl, hg'⟩ := List.mem_flatMap.1 hg'
      have := hx k List.mem_cons_self l (List.mem_cons_of_mem _ hl) x (hmem k List.mem_cons_self g hg x hxg) y
        (hmem l (List.mem_cons_of_mem _ hl) g' hg' y hyg') hr
      exact (List.nodup_cons.1 hn).1 (this ▸ hl)

theorem grouping_perm {α : Type} {rel : α → α → Prop} {es es' : List α} {b : List (List α)} (h : IsGrouping rel es b)
    (hp : es.Perm es') : IsGrouping rel es' b := ⟨h.perm.trans hp, h.nonempty, h.within, h.across⟩

section Bin

variable [DecidableEq N] {same : P → P → Bool} {prop : N → P}

/-- A new class. -/
theorem grouping_new (hs : IsEquality same) {es : List N} {bin : List (List N)} {m : N}
    (hb : IsGrouping (fun a b => same (prop a) (prop b) = true) es bin)
    (hf : (bin.filterMap List.head?).find? (fun r => same (prop m) (prop r)) = none) :
    IsGrouping (fun a b => same (prop a) (prop b) = true) (es ++ [m]) (bin ++ [[m]]) := by
  refine ⟨?_, ?_, ?_, ?_⟩
  · simpa using hb.perm.append_right [m]
  · intro g hg; rcases List.mem_append.1 hg with hg | hg
    · exact hb.nonempty g hg
    · simp at hg; simp [hg]
  · intro g hg; rcases List.mem_append.1 hg with hg | hg
    · exact hb.within g hg
    · simp at hg; subst hg; intro x hx y hy; simp at hx hy; subst hx; subst hy; exact hs.refl _
  · refine List.pairwise_append.2 ⟨hb.across, by simp, ?_⟩
    intro g hg g' hg' x hx y hy hr
    simp at hg'; subst hg'
    simp at hy; subst hy
    obtain ⟨r, t, rfl⟩ : ∃ r t, g = r :: t := by
      cases g with
      | nil => exact absurd rfl (hb.nonempty [] hg)
      | cons r t => exact ⟨r, t, rfl⟩
    have h1 := hb.within _ hg r List.mem_cons_self x hx
    exact List.find?_eq_none.1 hf r (List.mem_filterMap.2 ⟨_, hg, rfl⟩) (hs.symm _ _ (hs.trans _ _ _ h1 hr))

theorem assimilated_other {r m : N} {l : List (List N)} (h : ∀ g ∈ l, g.head? ≠ some r) : l.map (assimilated r m) = l := by
  conv => rhs; rw [← List.map_id l]
  refine List.map_congr_left fun g hg => ?_
  cases g with
  | nil => rfl
  | cons a t =>
    have : a ≠ r := by have := h _ hg; simpa using this
    simp [assimilated, this]

/-- Another member of a class. -/
theorem grouping_assimilated (hs : IsEquality same) {es : List N} {bin : List (List N)} {m r : N}
    (hb : IsGrouping (fun a b => same (prop a) (prop b) = true) es bin)
    (hf : (bin.filterMap List.head?).find? (fun r => same (prop m) (prop r)) = some r) :
    IsGrouping (fun a b => same (prop a) (prop b) = true) (es ++ [m]) (bin.map (assimilated r m)) ∧
    ∃ pre t post, bin = pre ++ (r :: t) :: post ∧ bin.map (assimilated r m) = pre ++ (r :: m :: t) :: post := by
  have hr := List.find?_some hf
  obtain ⟨g, hg, hh⟩ := List.mem_filterMap.1 (List.mem_of_find?_eq_some hf)
  obtain ⟨t, rfl⟩ : ∃ t, g = r :: t := by
    cases g with
    | nil => cases hh
    | cons a t => simp at hh; subst hh; exact ⟨t, rfl⟩
  obtain ⟨pre, post, rfl⟩ := List.append_of_mem hg
  have hac := List.pairwise_append.1 hb.across
  have hac2 := List.pairwise_cons.1 hac.2.1
  have hpre : ∀ g ∈ pre, g.head? ≠ some r := by
    intro g hg h
    have hm : r ∈ g := List.mem_of_mem_head? (by simp [h])
    exact hac.2.2 g hg _ List.mem_cons_self r hm r List.mem_cons_self (hs.refl _)
  have hpost : ∀ g ∈ post, g.head? ≠ some r := by
    intro g hg h
    have hm : r ∈ g := List.mem_of_mem_head? (by simp [h])
    exact hac2.1 g hg r List.mem_cons_self r hm (hs.refl _)
  have e : (pre ++ (r :: t) :: post).map (assimilated r m) = pre ++ (r :: m :: t) :: post := by
    rw [List.map_append, List.map_cons, assimilated_other hpre, assimilated_other hpost]
    simp [assimilated]
  rw [e]
  have hmem : ∀ x ∈ r :: m :: t, x = m ∨ x ∈ r :: t := by intro x hx; simp at hx ⊢; tauto
  refine ⟨⟨?_, ?_, ?_, ?_⟩, pre, t, post, rfl, rfl⟩
  · refine List.Perm.trans ?_ (hb.perm.append_right [m])
    rw [List.perm_iff_count]
    intro a
    simp only [List.flatten_append, List.flatten_cons, List.count_append, List.count_cons, List.count_nil]
    omega
  · intro g hg
    rcases List.mem_append.1 hg with hg | hg
    · exact hb.nonempty g (List.mem_append_left _ hg)
    · rcases List.mem_cons.1 hg with rfl | hg
      · simp
      · exact hb.nonempty g (List.mem_append_right _ (List.mem_cons_of_mem _ hg))
  · intro g hg
    rcases List.mem_append.1 hg with hg | hg
    · exact hb.within g (List.mem_append_left _ hg)
    · rcases List.mem_cons.1 hg with rfl | hg
      · have hw := hb.within (r :: t) (by simp)
        have hmx : ∀ x ∈ r :: t, same (prop m) (prop x) = true := fun x hx => hs.trans _ _ _ hr (hw r List.mem_cons_self x hx)
        intro x hx y hy
        rcases hmem x hx with ex | hx' <;> rcases hmem y hy with ey | hy'
        · rw [ex, ey]; exact hs.refl _
        · rw [ex]; exact hmx y hy'
        · rw [ey]; exact hs.symm _ _ (hmx x hx')
        · exact hw x hx' y hy'
      · exact hb.within g (List.mem_append_right _ (List.mem_cons_of_mem _ hg))
  · refine List.pairwise_append.2 ⟨hac.1, List.pairwise_cons.2 ⟨?_, hac2.2⟩, ?_⟩
    · intro g hg x hx y hy hxy
      rcases hmem x hx with rfl | hx
      · exact hac2.1 g hg r List.mem_cons_self y hy (hs.trans _ _ _ (hs.symm _ _ hr) hxy)
      · exact hac2.1 g hg x hx y hy hxy
    · intro g hg g' hg' x hx y hy hxy
      rcases List.mem_cons.1 hg' with rfl | hg'
      · rcases hmem y hy with rfl | hy
        · exact hac.2.2 g hg _ List.mem_cons_self x hx r List.mem_cons_self (hs.trans _ _ _ hxy hr)
        · exact hac.2.2 g hg _ List.mem_cons_self x hx y hy hxy
      · exact hac.2.2 g hg g' (List.mem_cons_of_mem _ hg') x hx y hy hxy

end Bin

variable [DecidableEq N] [DecidableEq P] {g : Gr N V L} {prop : N → P} {hash : P → Nat} {eq : Nat → P → P → Bool × Int}
  {same : P → P → Bool}

/-- What holds while vertices are merged. -/
structure Inv (g : Gr N V L) (prop : N → P) (hash : P → Nat) (same : P → P → Bool) (hn : 0 < n)
    (seen : Fin n → List N) (err : Fin n → Int) (s : Mem n N) : Prop where
  noErr : ∀ i, err i = 0
  home : ∀ i, ∀ m ∈ seen i, Build.lane hn (hash (prop m)) = i
  group : ∀ i h, IsGrouping (fun a b => same (prop a) (prop b) = true) ((seen i).filter fun m => decide (hash (prop m) = h)) (s.bins i h)
  /-- the base node remains -/
  base : ∀ i h, ∀ k ∈ s.bins i h, g.base ∈ k → k.head? = some g.base

theorem inv_start {hn : 0 < n} : Inv g prop hash same hn (fun _ => []) (fun _ => 0) (⟨fun _ _ => [], 0⟩ : Mem n N) :=
  ⟨fun _ => rfl, fun i m hm => absurd hm (by simp), fun i h => ⟨by simp, by simp, by simp, by simp⟩, fun i h k hk => absurd hk (by simp)⟩

theorem inv_visit (heq : ∀ t x y, eq t x y = (same x y, 0)) (hs : IsEquality same) {hn : 0 < n} (seen : Fin n → List N)
    (err : Fin n → Int) (s : Mem n N) (m : N) (hi : Inv g prop hash same hn seen err s)
    (hm : m ∉ seen (Build.lane hn (hash (prop m))))
    (hfirst : (m = g.base ∧ ∀ i, seen i = []) ∨ g.base ∈ seen (Build.lane hn (hash (prop g.base)))) :
    Inv g prop hash same hn
      (Function.update seen (Build.lane hn (hash (prop m))) (seen (Build.lane hn (hash (prop m))) ++ [m]))
      (Function.update err (Build.lane hn (hash (prop m))) (visit prop hash eq (Build.lane hn (hash (prop m))) s m).2)
      (visit prop hash eq (Build.lane hn (hash (prop m))) s m).1 := by
  have hse := Classify.search_plain heq hs (prop := prop) m
    ((s.bins (Build.lane hn (hash (prop m))) (hash (prop m))).filterMap List.head?) s.clock
  generalize hlane : Build.lane hn (hash (prop m)) = i at *
  have hv2 : (visit prop hash eq i s m).2 = 0 := hse.2
  have hfil : ∀ h, h ≠ hash (prop m) → (seen i ++ [m]).filter (fun a => decide (hash (prop a) = h)) =
      (seen i).filter fun a => decide (hash (prop a) = h) := by
    intro h hh; simp [List.filter_append, Ne.symm hh]
  have hfil' : (seen i ++ [m]).filter (fun a => decide (hash (prop a) = hash (prop m))) =
      (seen i).filter (fun a => decide (hash (prop a) = hash (prop m))) ++ [m] := by
    simp [List.filter_append]
  have hgm := hi.group i (hash (prop m))
  have hnew : ∀ bin', (visit prop hash eq i s m).1.bins =
        Function.update s.bins i (Function.update (s.bins i) (hash (prop m)) bin') →
      IsGrouping (fun a b => same (prop a) (prop b) = true)
        ((seen i).filter (fun a => decide (hash (prop a) = hash (prop m))) ++ [m]) bin' →
      (∀ k ∈ bin', g.base ∈ k → k.head? = some g.base) →
      Inv g prop hash same hn (Function.update seen i (seen i ++ [m])) (Function.update err i (visit prop hash eq i s m).2)
        (visit prop hash eq i s m).1 := by
    intro bin' hbins hgrp hbase
    refine ⟨?_, ?_, ?_, ?_⟩
    · intro j
      by_cases hj : j = i
      · subst hj; rw [Function.update_self]; exact hv2
      · rw [Function.update_of_ne hj]; exact hi.noErr j
    · intro j a ha
      by_cases hj : j = i
      · subst hj
        simp only [Function.update_self, List.mem_append, List.mem_singleton] at ha
        rcases ha with ha | rfl
        · exact hi.home j a ha
        · exact hlane
      · rw [Function.update_of_ne hj] at ha; exact hi.home j a ha
    · intro j h
      rw [hbins]
      by_cases hj : j = i
      · subst hj
        simp only [Function.update_self]
        by_cases hq : h = hash (prop m)
        · subst hq; simp only [Function.update_self]; rw [hfil']; exact hgrp
        · rw [Function.update_of_ne hq, hfil h hq]; exact hi.group j h
      · simp only [Function.update_of_ne hj]; exact hi.group j h
    · intro j h
      rw [hbins]
      by_cases hj : j = i
      · subst hj
        simp only [Function.update_self]
        by_cases hq : h = hash (prop m)
        · subst hq; simp only [Function.update_self]; exact hbase
        · rw [Function.update_of_ne hq]; exact hi.base j h
      · simp only [Function.update_of_ne hj]; exact hi.base j h
  rcases hf : ((s.bins i (hash (prop m))).filterMap List.head?).find? (fun r => same (prop m) (prop r)) with _ | r
  · refine hnew (s.bins i (hash (prop m)) ++ [[m]]) ?_ (grouping_new hs hgm hf) ?_
    · unfold visit; simp only; rw [hse.1, hf]
    · intro k hk
      rcases List.mem_append.1 hk with hk | hk
      · exact hi.base i _ k hk
      · simp at hk; subst hk; intro hb; simp at hb; simp [hb]
  · obtain ⟨h1, pre, t, post, h2, h3⟩ := grouping_assimilated hs hgm hf
    refine hnew ((s.bins i (hash (prop m))).map (assimilated r m)) ?_ h1 ?_
    · unfold visit; simp only; rw [hse.1, hf]
    · rw [h3]
      intro k hk hb
      rcases List.mem_append.1 hk with hk | hk
      · exact hi.base i _ k (by rw [h2]; exact List.mem_append_left _ hk) hb
      · rcases List.mem_cons.1 hk with rfl | hk
        · have hb' : g.base = m ∨ g.base ∈ r :: t := by simp at hb ⊢; tauto
          rcases hb' with hb | hb
          · rcases hfirst with ⟨-, hall⟩ | hseen
            · have := (hgm.perm.mem_iff (a := r)).1 (by rw [h2]; simp)
              rw [hall i] at this; simp at this
            · rw [hb, hlane] at hseen; exact absurd hseen hm
          · have := hi.base i _ (r :: t) (by rw [h2]; simp) hb
            simpa using this
        · exact hi.base i _ k (by rw [h2]; exact List.mem_append_right _ (List.mem_cons_of_mem _ hk)) hb

theorem inv_reach (heq : ∀ t x y, eq t x y = (same x y, 0)) (hs : IsEquality same) {hn : 0 < n} :
    ∀ x, Bag.Reach (task g prop hash eq hn) g.base start x → Inv g prop hash same hn x.1.seen x.1.err x.1.mem :=
  Trav.induct_first (motive := Inv g prop hash same hn) inv_start
    fun seen err s m hi _ _ hm hfirst => inv_visit heq hs seen err s m hi hm hfirst

/-- The classes at the end. -/
theorem classes_grouping (hs : IsEquality same) (hh : HashRespects hash same) {hn : 0 < n} {x : Trav.Job n N (Mem n N)}
    (hi : Inv g prop hash same hn x.seen x.err x.mem) :
    IsGrouping (fun a b => same (prop a) (prop b) = true) ((List.finRange n).flatMap x.seen) (classes prop hash x) ∧
    ∀ k ∈ classes prop hash x, g.base ∈ k → k.head? = some g.base := by
  have hun : ∀ i, unpacked (x.mem.bins i) (judyKeys (fun m => hash (prop m)) (x.seen i)) =
      (judyKeys (fun m => hash (prop m)) (x.seen i)).reverse.flatMap (x.mem.bins i) := by
    intro i; unfold unpacked; rw [foldl_append_front (x.mem.bins i)]; simp
  refine ⟨?_, ?_⟩
  · refine grouping_join (fun a b => hs.symm _ _) x.seen _ _ (List.nodup_finRange n) ?_ ?_
    · intro i _
      rw [hun]
      refine grouping_flatMap (key := fun m => hash (prop m)) (fun a b h => hh _ _ h) _ _ _
        (List.nodup_reverse.2 (judyKeys_nodup _ _)) (fun k => by rw [List.mem_reverse, mem_judyKeys]) ?_
      intro k _
      exact grouping_perm (hi.group i k) (List.reverse_perm _).symm
    · intro i _ j _ a ha b hb hab
      rw [← hi.home i a ha, ← hi.home j b hb, hh _ _ hab]
  · intro k hk hb
    obtain ⟨i, -, hk⟩ := List.mem_flatMap.1 hk
    rw [hun] at hk
    obtain ⟨h, -, hk⟩ := List.mem_flatMap.1 hk
    exact hi.base i h k hk hb

end Cru.Merge
