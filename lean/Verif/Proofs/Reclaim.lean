import Verif.Model.Reclaim
import Mathlib.Data.List.Count
import Mathlib.Data.List.FinRange

/-! # Lemmas on the memory of classes -/

namespace Cru.Reclaim

variable {n : Nat} {V : Type} [DecidableEq V]

/-- The classes in the maps, once for each vertex. -/
def entries (h : Heap n V) : List Nat := ((List.finRange n).flatMap h.maps).map Prod.snd

theorem count_update (f : Fin n → List (V × Nat)) (i : Fin n) (e : V × Nat) (c : Nat) :
    (((List.finRange n).flatMap (Function.update f i (f i ++ [e]))).map Prod.snd).count c =
      (((List.finRange n).flatMap f).map Prod.snd).count c + if e.2 = c then 1 else 0 := by
  have key : ∀ l : List (Fin n), l.Nodup → ((l.flatMap (Function.update f i (f i ++ [e]))).map Prod.snd).count c =
      ((l.flatMap f).map Prod.snd).count c + if i ∈ l then (if e.2 = c then 1 else 0) else 0 := by
    intro l hl
    induction l with
    | nil => simp
    | cons j l ih =>
      obtain ⟨hj, hl⟩ := List.nodup_cons.1 hl
      simp only [List.flatMap_cons, List.map_append, List.count_append, ih hl]
      by_cases hij : i = j
      · subst hij
        simp only [Function.update_self, hj, if_false, List.mem_cons, true_or, if_true, List.map_append, List.map_cons, List.map_nil,
          List.count_append, List.count_singleton, beq_iff_eq, Nat.add_zero]
        omega
      · have : Function.update f i (f i ++ [e]) j = f j := Function.update_of_ne (Ne.symm hij) _ _
        simp only [this, List.mem_cons, hij, false_or]
        omega
  simpa using key _ (List.nodup_finRange n)

/-- The invariant: every class allocated is freed or has one more vertex than its number of references. -/
structure Inv (h : Heap n V) (xs : List Nat) : Prop where
  ok : h.bad = false
  nodup : h.dead.Nodup
  old : ∀ c ∈ h.dead, c < h.next
  count : ∀ c, xs.count c = if c ∈ h.dead ∨ h.next ≤ c then 0 else h.refs c + 1

theorem Inv.live {h : Heap n V} {xs : List Nat} (hi : Inv h xs) {c : Nat} (hc : c ∈ xs) : c ∉ h.dead ∧ c < h.next := by
  have h1 := hi.count c
  have h2 := List.count_pos_iff.2 hc
  by_contra hn
  have : c ∈ h.dead ∨ h.next ≤ c := by
    by_cases hd : c ∈ h.dead
    · exact .inl hd
    · exact .inr (Nat.le_of_not_lt fun hl => hn ⟨hd, hl⟩)
  rw [if_pos this] at h1
  omega

/-- Freeing a class uses up one of its entries. -/
theorem freeClass_inv {h : Heap n V} {c : Nat} {xs : List Nat} (hi : Inv h (c :: xs)) : Inv (freeClass h c) xs := by
  obtain ⟨hd, hl⟩ := hi.live (List.mem_cons_self (a := c))
  have hc := hi.count
  unfold freeClass
  rw [if_neg hd]
  by_cases hr : h.refs c ≠ 0
  · rw [if_pos hr]
    refine ⟨hi.ok, hi.nodup, hi.old, ?_⟩
    intro d
    have hd' := hc d
    rw [List.count_cons] at hd'
    by_cases hdc : d = c
    · subst hdc
      have hn : ¬ (d ∈ h.dead ∨ h.next ≤ d) := by
        rintro (h1 | h1)
        · exact hd h1
        · omega
      rw [if_neg hn] at hd'
      show _ = if d ∈ h.dead ∨ h.next ≤ d then 0 else Function.update h.refs d (h.refs d - 1) d + 1
      rw [if_neg hn, Function.update_self]
      simp at hd'
      omega
    · simp only [Function.update_of_ne hdc]
      simp [Ne.symm hdc] at hd'
      exact hd'
  · rw [if_neg hr]
    push Not at hr
    refine ⟨hi.ok, List.nodup_cons.2 ⟨hd, hi.nodup⟩, ?_, ?_⟩
    · intro d hdm
      rcases List.mem_cons.1 hdm with rfl | hdm
      · exact hl
      · exact hi.old d hdm
    · intro d
      have hd' := hc d
      rw [List.count_cons] at hd'
      by_cases hdc : d = c
      · subst hdc
        have hn : ¬ (d ∈ h.dead ∨ h.next ≤ d) := by
          rintro (h1 | h1)
          · exact hd h1
          · omega
        rw [if_neg hn] at hd'
        rw [if_pos (.inl List.mem_cons_self)]
        simp at hd'
        omega
      · simp [Ne.symm hdc] at hd'
        simp only [List.mem_cons, hdc, false_or]
        exact hd'

theorem freeClass_maps (h : Heap n V) (c : Nat) : (freeClass h c).maps = h.maps := by
  unfold freeClass
  split_ifs <;> rfl

theorem Inv.perm {h : Heap n V} {xs ys : List Nat} (hi : Inv h xs) (hp : ∀ c, ys.count c = xs.count c) : Inv h ys :=
  ⟨hi.ok, hi.nodup, hi.old, fun c => (hp c).trans (hi.count c)⟩

/-- Storing an association, for a class that has one reference more than entries. -/
theorem associate_inv {h : Heap n V} {i : Fin n} {v : V} {c : Nat} {store : Bool} (hi : Inv h (c :: entries h)) :
    Inv (associate h i v c store) (entries (associate h i v c store)) := by
  obtain ⟨hd, hl⟩ := hi.live (List.mem_cons_self (a := c))
  unfold associate
  rw [if_neg hd]
  split_ifs with hs
  · refine Inv.perm (xs := c :: entries h) ⟨hi.ok, hi.nodup, hi.old, hi.count⟩ ?_
    intro d
    rw [entries, count_update, List.count_cons]
    simp [entries]
  · have := freeClass_inv hi
    rwa [show entries (freeClass h c) = entries h by rw [entries, freeClass_maps]; rfl]

theorem image_entries {h : Heap n V} {i : Fin n} {u : V} {c : Nat} (hc : Table.imageNj u (h.maps i) = some c) : c ∈ entries h := by
  have : ∀ l : List (V × Nat), Table.imageNj u l = some c → (u, c) ∈ l := by
    intro l
    induction l with
    | nil => intro h; cases h
    | cons x l ih =>
      intro h
      unfold Table.imageNj at h
      split_ifs at h with h1
      · cases h; subst h1; exact List.mem_cons_self
      · exact List.mem_cons_of_mem _ (ih h)
  exact List.mem_map.2 ⟨(u, c), List.mem_flatMap.2 ⟨i, List.mem_finRange i, this _ hc⟩, rfl⟩

theorem act_inv {h : Heap n V} (hi : Inv h (entries h)) {a : Act n V} (hp : Proper h a) : Inv (act h a) (entries (act h a)) := by
  cases a with
  | first i v alloc store =>
    cases alloc with
    | false => exact hi
    | true =>
      refine associate_inv (h := (newClass h).1) (c := h.next) ?_
      refine ⟨hi.ok, hi.nodup, fun c hc => Nat.lt_succ_of_lt (hi.old c hc), ?_⟩
      intro c
      have hc := hi.count c
      show (h.next :: entries h).count c = if c ∈ h.dead ∨ h.next + 1 ≤ c then 0 else Function.update h.refs h.next 0 c + 1
      rw [List.count_cons]
      by_cases hn : c = h.next
      · subst hn
        rw [if_pos (.inr (le_refl _))] at hc
        have hn : ¬ (h.next ∈ h.dead ∨ h.next + 1 ≤ h.next) := by
          rintro (hd | hd)
          · exact absurd (hi.old _ hd) (lt_irrefl _)
          · omega
        rw [if_neg hn, hc, Function.update_self]
        simp
      · rw [hc, Function.update_of_ne hn]
        have he : (c ∈ h.dead ∨ h.next ≤ c) ↔ (c ∈ h.dead ∨ h.next + 1 ≤ c) := by
          constructor <;> rintro (hd | hd)
          · exact .inl hd
          · exact .inr (by omega)
          · exact .inl hd
          · exact .inr (by omega)
        simp [he, Ne.symm hn]
  | again i v u look store =>
    simp only [act]
    split
    · exact hi
    · rename_i c hc
      have hm : c ∈ entries h := by
        cases look with
        | false => cases hc
        | true => exact image_entries hc
      obtain ⟨hd, hl⟩ := hi.live hm
      have he : copiedClass h c = { h with refs := Function.update h.refs c (h.refs c + 1) } := by
        unfold copiedClass; rw [if_neg hd]
      rw [he]
      refine associate_inv (h := { h with refs := Function.update h.refs c (h.refs c + 1) }) ?_
      refine ⟨hi.ok, hi.nodup, hi.old, ?_⟩
      intro d
      have hdc := hi.count d
      show (c :: entries h).count d = if d ∈ h.dead ∨ h.next ≤ d then 0 else Function.update h.refs c (h.refs c + 1) d + 1
      rw [List.count_cons, hdc]
      by_cases hcd : d = c
      · subst hcd
        have : ¬ (d ∈ h.dead ∨ h.next ≤ d) := by
          rintro (h1 | h1)
          · exact hd h1
          · omega
        simp [this]
      · simp [Function.update_of_ne hcd, Ne.symm hcd]
  | unite x y =>
    obtain ⟨⟨i, e, he, rfl⟩, j, f, hf, rfl⟩ := hp
    have h1 := (hi.live (c := e.2) (List.mem_map.2 ⟨e, List.mem_flatMap.2 ⟨i, List.mem_finRange i, he⟩, rfl⟩)).1
    have h2 := (hi.live (c := f.2) (List.mem_map.2 ⟨f, List.mem_flatMap.2 ⟨j, List.mem_finRange j, hf⟩, rfl⟩)).1
    exact ⟨by simp [act, hi.ok, h1, h2], hi.nodup, hi.old, hi.count⟩

theorem history_inv {h : Heap n V} (hh : History h) : Inv h (entries h) := by
  induction hh with
  | empty => exact ⟨rfl, List.nodup_nil, by simp [empty], fun c => by
      have : (List.finRange n).flatMap (fun _ => ([] : List (V × Nat))) = [] := by simp [List.flatMap_eq_nil_iff]
      simp [empty, entries, this]⟩
  | act a _ hp ih => exact act_inv ih hp

end Cru.Reclaim
