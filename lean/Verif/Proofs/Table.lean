import Verif.Model.Table
import Verif.Spec.Grouping

/-!
# Lemmas about multiset table bins
-/

namespace Cru.Table

variable {L H : Type} {eq : L → L → Bool}

/-- The number of times a label has been counted in a bin: zero if it is absent. -/
def val (eq : L → L → Bool) (l : L) : Bin L → Nat
  | [] => 0
  | x :: t => if eq l x.1 then x.2 + 1 else val eq l t

/-- Labels in a bin are pairwise different. -/
def Good (eq : L → L → Bool) (b : Bin L) : Prop := b.Pairwise fun x y => eq x.1 y.1 = false

theorem eq_congr (he : IsEquality eq) {a b c : L} (h : eq a b = true) : eq a c = eq b c := by
  cases h1 : eq a c <;> cases h2 : eq b c <;> first | rfl | skip
  · have := he.trans _ _ _ h h2; simp_all
  · have := he.trans _ _ _ (he.symm _ _ h) h1; simp_all

theorem eq_comm' (he : IsEquality eq) (a b : L) : eq a b = eq b a := by
  cases h1 : eq a b <;> cases h2 : eq b a <;> first | rfl | skip
  · have := he.symm _ _ h2; simp_all
  · have := he.symm _ _ h1; simp_all

theorem val_multirecord (he : IsEquality eq) (l l' : L) (b : Bin L) :
    val eq l (multirecord eq l' b) = if eq l l' then max 1 (val eq l b) else val eq l b := by
  induction b with
  | nil => by_cases h : eq l l' = true <;> simp [multirecord, val, h]
  | cons x t ih =>
    by_cases h : eq l' x.1 = true
    · rw [multirecord, if_pos h]
      by_cases g : eq l l' = true
      · rw [if_pos g]
        have : eq l x.1 = true := he.trans _ _ _ g h
        simp [val, this]
      · rw [if_neg g]
    · rw [multirecord, if_neg h]
      by_cases k : eq l x.1 = true
      · have : ¬ eq l l' = true := fun g => h (he.trans _ _ _ (he.symm _ _ g) k)
        simp [val, k, this]
      · simp [val, k, ih]

theorem val_mergeEntry (he : IsEquality eq) (l : L) (q : L × Nat) (b : Bin L) :
    val eq l (mergeEntry eq q b) = val eq l b + if eq l q.1 then q.2 + 1 else 0 := by
  induction b with
  | nil => by_cases h : eq l q.1 = true <;> simp [mergeEntry, val, h]
  | cons x t ih =>
    by_cases h : eq x.1 q.1 = true
    · rw [mergeEntry, if_pos h]
      have e : eq l x.1 = eq l q.1 := by
        rw [eq_comm' he l, eq_comm' he l, eq_congr he h]
      by_cases g : eq l x.1 = true
      · rw [← e, if_pos g]; simp only [val, g, if_true]; omega
      · rw [← e, if_neg g]; simp only [val]; rw [if_neg g, if_neg g]; rfl
    · rw [mergeEntry, if_neg h]
      by_cases k : eq l x.1 = true
      · have : ¬ eq l q.1 = true := fun g => h (he.trans _ _ _ (he.symm _ _ k) g)
        simp [val, k, this]
      · simp only [val]; rw [if_neg k, if_neg k, ih]

theorem val_eq_zero (l : L) (b : Bin L) (h : ∀ x ∈ b, eq l x.1 = false) : val eq l b = 0 := by
  induction b with
  | nil => rfl
  | cons x t ih =>
    simp only [val]
    rw [if_neg (by simp [h x (by simp)])]
    exact ih fun y hy => h y (by simp [hy])

theorem val_multimerge (he : IsEquality eq) (l : L) (t q : Bin L) (hq : Good eq q) :
    val eq l (multimerge eq t q) = val eq l t + val eq l q := by
  induction q generalizing t with
  | nil => rfl
  | cons x q ih =>
    have hq' := List.pairwise_cons.1 hq
    have : multimerge eq t (x :: q) = multimerge eq (mergeEntry eq x t) q := rfl
    rw [this, ih _ hq'.2, val_mergeEntry he]
    by_cases g : eq l x.1 = true
    · have z : val eq l q = 0 := val_eq_zero l q fun y hy => by rw [eq_congr he g]; exact hq'.1 y hy
      simp only [val, g, if_true, z]; omega
    · simp only [val]; rw [if_neg g, if_neg g]; omega

theorem mem_multirecord {l : L} {b : Bin L} {y : L × Nat} (h : y ∈ multirecord eq l b) : y ∈ b ∨ y.1 = l := by
  induction b with
  | nil => simp [multirecord] at h; simp [h]
  | cons x t ih =>
    rw [multirecord] at h
    split at h
    · exact .inl h
    · rcases List.mem_cons.1 h with rfl | h
      · simp
      · rcases ih h with h | h <;> simp [h]

theorem mem_mergeEntry {q : L × Nat} {b : Bin L} {y : L × Nat} (h : y ∈ mergeEntry eq q b) :
    (∃ z ∈ b, z.1 = y.1) ∨ y.1 = q.1 := by
  induction b with
  | nil => simp [mergeEntry] at h; simp [h]
  | cons x t ih =>
    rw [mergeEntry] at h
    split at h
    · rcases List.mem_cons.1 h with rfl | h
      · exact .inl ⟨x, by simp, rfl⟩
      · exact .inl ⟨y, by simp [h], rfl⟩
    · rcases List.mem_cons.1 h with rfl | h
      · exact .inl ⟨y, by simp, rfl⟩
      · rcases ih h with ⟨z, hz, e⟩ | h
        · exact .inl ⟨z, by simp [hz], e⟩
        · exact .inr h

theorem good_multirecord (he : IsEquality eq) (l : L) {b : Bin L} (hb : Good eq b) : Good eq (multirecord eq l b) := by
  induction b with
  | nil => simp [multirecord, Good]
  | cons x t ih =>
    rw [multirecord]
    split
    · exact hb
    · next h =>
      have hb' := List.pairwise_cons.1 hb
      refine List.pairwise_cons.2 ⟨fun y hy => ?_, ih hb'.2⟩
      rcases mem_multirecord hy with hy | hy
      · exact hb'.1 y hy
      · rw [hy, eq_comm' he]; simpa using h

theorem good_mergeEntry (q : L × Nat) {b : Bin L} (hb : Good eq b) : Good eq (mergeEntry eq q b) := by
  induction b with
  | nil => simp [mergeEntry, Good]
  | cons x t ih =>
    have hb' := List.pairwise_cons.1 hb
    rw [mergeEntry]
    split
    · exact List.pairwise_cons.2 ⟨hb'.1, hb'.2⟩
    · next h =>
      refine List.pairwise_cons.2 ⟨fun y hy => ?_, ih hb'.2⟩
      rcases mem_mergeEntry hy with ⟨z, hz, e⟩ | e
      · rw [← e]; exact hb'.1 z hz
      · rw [e]; simpa using h

theorem good_multimerge (q : Bin L) {b : Bin L} (hb : Good eq b) : Good eq (multimerge eq b q) := by
  induction q generalizing b with
  | nil => exact hb
  | cons x q ih => exact ih (good_mergeEntry x hb)

theorem find_val (l : L) (b : Bin L) :
    (b.find? fun x => eq l x.1).isSome = decide (0 < val eq l b) ∧
      (match b.find? fun x => eq l x.1 with | some x => x.2 | none => 0) = val eq l b - 1 := by
  induction b with
  | nil => simp [val]
  | cons x t ih =>
    by_cases h : eq l x.1 = true
    · simp [List.find?, val, h]
    · simp only [Bool.not_eq_true] at h
      simp only [List.find?, val, h]
      simpa using ih

end Cru.Table
