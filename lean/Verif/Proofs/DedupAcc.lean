import Verif.Spec.DedupAcc
import Verif.Proofs.SplitAcc
import Verif.Proofs.Edges

/-! # Accounting for the removal of repeated edges -/

namespace Cru.DedupAcc

open Fold
open MergeAcc (Bal)
open Request (Env alloc destroy_frame alloc_bal)
open SpawnAcc (Verdict heldLabels)
open SplitAcc (passed passed_bal)

variable {N V : Type} {c : Env}

@[simp] theorem labels_nil (c : Env) : labels c ([] : List (Edge N V)) = 0 := rfl

@[simp] theorem labels_cons (c : Env) (e : Edge N V) (es : List (Edge N V)) : labels c (e :: es) = owned c.eFree e.label + labels c es := by
  simp [labels, heldLabels]

@[simp] theorem labels_append (c : Env) (es fs : List (Edge N V)) : labels c (es ++ fs) = labels c es + labels c fs := by
  simp [labels, heldLabels]

theorem labels_perm (c : Env) {es fs : List (Edge N V)} (h : es.Perm fs) : labels c es = labels c fs := by
  induction h with
  | nil => rfl
  | cons e _ ih => simp [ih]
  | swap a b l => simp; abel
  | trans _ _ h1 h2 => exact h1.trans h2

theorem freeEdges_bal (c : Env) (es : List (Edge N V)) (w : World) (x : Multiset (Nat × Nat)) : Bal w (freeEdges c es w) (labels c es + x) x :=
  SpawnAcc.freeLabels_bal c _ w x

/-! ## Sticky errors -/

theorem raise_sticky {w : World} (e : Int) (h : w.err ≠ 0) : (w.raise e).err = w.err := by simp [World.raise, h]

theorem destroy_sticky {w : World} (d : Option Nat) (x : Option (Obj V)) (h : w.err ≠ 0) : (destroy c.fails d x w).err = w.err := by
  unfold destroy
  split
  · simp [World.raise, h]
  · rfl

theorem freeEdges_sticky (es : List (Edge N V)) {w : World} (h : w.err ≠ 0) : (freeEdges c es w).err = w.err := by
  unfold freeEdges SpawnAcc.freeLabels
  induction es generalizing w with
  | nil => rfl
  | cons e es ih =>
    simp only [List.map_cons, List.foldl_cons]
    rw [ih (by rw [destroy_sticky _ _ h]; exact h), destroy_sticky _ _ h]

/-! ## Marshalling -/

theorem stow_perm (c : Env) (es : List (Edge N V)) (w : World) : (stow c es w).1.1 ++ (stow c es w).1.2 = es := by
  induction es generalizing w with
  | nil => rfl
  | cons e es ih =>
    unfold stow
    split_ifs
    · rfl
    · rfl
    · simp [ih]

theorem stow_bal (c : Env) (es : List (Edge N V)) (w : World) (x : Multiset (Nat × Nat)) : Bal w (stow c es w).2 x x := by
  induction es generalizing w with
  | nil => exact Bal.refl w x
  | cons e es ih =>
    unfold stow
    split_ifs
    · exact Bal.refl w x
    · exact alloc_bal c w x
    · exact (alloc_bal c w x).trans (ih _)

theorem stow_left (c : Env) (es : List (Edge N V)) (w : World) (h : (stow c es w).2.err = 0) : (stow c es w).1.2 = [] := by
  induction es generalizing w with
  | nil => rfl
  | cons e es ih =>
    unfold stow at h ⊢
    split_ifs at h ⊢ with h1 h2
    · exact absurd h h1
    · exact absurd h h2
    · exact ih _ h

theorem pushBuckets_bal (c : Env) (ks b : List (List (Edge N V))) (w : World) (x : Multiset (Nat × Nat)) :
    Bal w (pushBuckets c ks b w).2 (labels c ks.flatten + labels c b.flatten + x)
      (labels c (pushBuckets c ks b w).1.1.flatten + labels c (pushBuckets c ks b w).1.2 + x) := by
  induction ks generalizing b w with
  | nil => exact (Bal.refl w _).cast rfl (by simp [pushBuckets])
  | cons k ks ih =>
    unfold pushBuckets
    split_ifs
    · exact (Bal.refl w _).cast rfl (by dsimp only; abel)
    · refine ((alloc_bal c w _).trans (freeEdges_bal c k _ _)).cast ?_ rfl
      simp; abel
    · refine (alloc_bal c w _).trans ((ih (k :: b) _).cast ?_ rfl)
      simp; abel

/-- Without an error, all buckets have been pushed. -/
theorem pushBuckets_eq (c : Env) (ks b : List (List (Edge N V))) (w : World) (h : (pushBuckets c ks b w).2.err = 0) :
    (pushBuckets c ks b w).1 = (ks.reverse ++ b, []) := by
  induction ks generalizing b w with
  | nil => rfl
  | cons k ks ih =>
    unfold pushBuckets at h ⊢
    split_ifs at h ⊢ with h1 h2
    · exact absurd h h1
    · rw [freeEdges_sticky k h2] at h; exact absurd h h2
    · rw [ih _ _ h]; simp

theorem bins_perm (addr : N → Nat) (es : List (Edge N V)) : (bins addr es).flatten.Perm es :=
  ((List.reverse_perm _).flatten).trans (marshalled_grouping (fun e => addr e.dst) es).perm

theorem marshal_bal (c : Env) (addr : N → Nat) (es : List (Edge N V)) (w : World) (x : Multiset (Nat × Nat)) :
    Bal w (marshal c addr es w).2 (labels c es + x)
      (labels c (marshal c addr es w).1.1.flatten + labels c (marshal c addr es w).1.2 + x) := by
  unfold marshal
  dsimp only
  have h1 := stow_bal c es w (labels c es + x)
  have h2 := pushBuckets_bal c (bins addr (stow c es w).1.1) [] (stow c es w).2 (labels c (stow c es w).1.2 + x)
  have h3 : labels c es = labels c (stow c es w).1.1 + labels c (stow c es w).1.2 := by rw [← labels_append, stow_perm]
  have h4 := labels_perm c (bins_perm addr (stow c es w).1.1)
  have h5 := h1.trans (h2.cast (by rw [h3, h4]; simp; abel) rfl)
  split_ifs
  · refine h5.cast rfl ?_
    simp; abel
  · refine h5.cast rfl ?_
    rename_i h
    have := pushBuckets_eq c (bins addr (stow c es w).1.1) [] (stow c es w).2 (by simpa using h)
    rw [this]; simp; abel

/-- Without an error, the buckets are those of the value level. -/
theorem marshal_eq (c : Env) (addr : N → Nat) (es : List (Edge N V)) (w : World) (h : (marshal c addr es w).2.err = 0) :
    (marshal c addr es w).1 = (marshalled (fun e => addr e.dst) es, []) := by
  unfold marshal at h ⊢
  dsimp only at h ⊢
  by_cases he : (pushBuckets c (bins addr (stow c es w).1.1) [] (stow c es w).2).2.err ≠ 0
  · rw [if_pos he] at h; exact absurd h he
  · rw [if_neg he]
    have h1 := pushBuckets_eq c (bins addr (stow c es w).1.1) [] (stow c es w).2 (by simpa using he)
    have h2 : (stow c es w).2.err = 0 := by
      by_contra h2
      refine he ?_
      have : ∀ (ks b : List (List (Edge N V))) (w : World), w.err ≠ 0 → (pushBuckets c ks b w).2.err ≠ 0 := by
        intro ks b w hw
        cases ks with
        | nil => exact hw
        | cons k ks => rw [pushBuckets, if_pos hw]; exact hw
      exact this _ _ _ h2
    have h3 := stow_left c es w h2
    have h4 := stow_perm c es w
    rw [h3, List.append_nil] at h4
    rw [h1, h3, h4]
    simp [bins]

/-! ## Repeated labels -/

theorem repeats_bal (c : Env) (same : Nat → Verdict) (b : Bool) (es : List (Edge N V)) (w : World) (x : Multiset (Nat × Nat)) :
    Bal w (repeats c same b es w).2 (labels c es + x)
      (labels c (repeats c same b es w).1.1 + labels c (repeats c same b es w).1.2 + x) := by
  induction es generalizing b w x with
  | nil => exact (Bal.refl w _).cast rfl (by simp [repeats])
  | cons e es ih =>
    unfold repeats
    by_cases hw : w.err ≠ 0
    · rw [if_pos hw]; exact (Bal.refl w _).cast rfl (by simp)
    · rw [if_neg hw]
      dsimp only
      have h1 : ∀ y, Bal w (if b then (false, w) else passed same w).2 y y := by
        intro y
        split_ifs
        · exact Bal.refl w y
        · exact passed_bal same w y
      generalize (if b then (false, w) else passed same w) = v at h1 ⊢
      split_ifs
      · refine (h1 _).trans ((ih false v.2 (owned c.eFree e.label + x)).cast ?_ ?_)
        · simp; abel
        · simp; abel
      · refine (h1 _).trans ((alloc_bal c v.2 _).trans ((ih false _ (owned c.eFree e.label + x)).cast ?_ ?_))
        · simp; abel
        · simp; abel

theorem repeating_bal (c : Env) (same : Nat → Verdict) (es : List (Edge N V)) (w : World) (x : Multiset (Nat × Nat)) :
    Bal w (repeating c same es w).2 (labels c es + x)
      (labels c (repeating c same es w).1.1 + labels c (repeating c same es w).1.2 + x) := by
  unfold repeating
  split_ifs
  · exact (Bal.refl w _).cast rfl (by simp)
  · exact repeats_bal c same true es w x

theorem dedupLoop_bal (c : Env) (same : Nat → Verdict) (bs : List (List (Edge N V))) (r : List (Edge N V)) (w : World)
    (x : Multiset (Nat × Nat)) :
    Bal w (dedupLoop c same bs r w).2 (labels c bs.flatten + labels c r + x) (labels c (dedupLoop c same bs r w).1 + x) := by
  induction bs generalizing r w with
  | nil => exact (Bal.refl w _).cast rfl (by simp [dedupLoop])
  | cons b bs ih =>
    unfold dedupLoop
    dsimp only
    have h1 := repeating_bal c same b w (labels c bs.flatten + labels c r + x)
    have h2 := freeEdges_bal c (repeating c same b w).1.2 (repeating c same b w).2
      (labels c (repeating c same b w).1.1 + (labels c bs.flatten + labels c r + x))
    refine (h1.cast ?_ rfl).trans ((h2.cast ?_ rfl).trans ((ih _ _).cast ?_ rfl))
    · simp; abel
    · abel
    · simp; abel

theorem dedup_bal (c : Env) (same : Nat → Verdict) (addr : N → Nat) (es : List (Edge N V)) (w : World) (x : Multiset (Nat × Nat)) :
    Bal w (dedup c same addr es w).2 (labels c es + x) (labels c (dedup c same addr es w).1 + x) := by
  unfold dedup
  dsimp only
  have h1 := marshal_bal c addr es w x
  generalize marshal c addr es w = m at h1 ⊢
  have h2 := dedupLoop_bal c same m.1.1 [] m.2 (labels c m.1.2 + x)
  generalize dedupLoop c same m.1.1 [] m.2 = d at h2 ⊢
  have h3 := h1.trans (h2.cast (by simp; abel) rfl)
  split_ifs
  · refine h3.trans ((freeEdges_bal c d.1 d.2 _).trans ((freeEdges_bal c m.1.2 _ _).cast rfl ?_))
    simp
  · refine h3.trans ((freeEdges_bal c m.1.2 d.2 (labels c d.1 + x)).cast ?_ rfl)
    abel

/-! ## What's left -/

theorem repeats_sub (c : Env) (same : Nat → Verdict) (b : Bool) (es : List (Edge N V)) (w : World) :
    (repeats c same b es w).1.1.Sublist es := by
  induction es generalizing b w with
  | nil => simp [repeats]
  | cons e es ih =>
    unfold repeats
    by_cases hw : w.err ≠ 0
    · rw [if_pos hw]
    · rw [if_neg hw]
      dsimp only
      generalize (if b then (false, w) else passed same w) = v
      split_ifs
      · exact (ih _ _).cons e
      · exact (ih _ _).cons₂ e

/-- The first edge is left. -/
theorem repeats_first (c : Env) (same : Nat → Verdict) (e : Edge N V) (es : List (Edge N V)) (w : World) :
    e ∈ (repeats c same true (e :: es) w).1.1 := by
  unfold repeats
  split_ifs <;> simp_all

theorem repeating_sub (c : Env) (same : Nat → Verdict) (es : List (Edge N V)) (w : World) : (repeating c same es w).1.1.Sublist es := by
  unfold repeating
  split_ifs
  · exact .refl _
  · exact repeats_sub c same true es w

theorem repeating_first (c : Env) (same : Nat → Verdict) (e : Edge N V) (es : List (Edge N V)) (w : World) :
    e ∈ (repeating c same (e :: es) w).1.1 := by
  unfold repeating
  split_ifs
  · simp
  · exact repeats_first c same e es w

theorem dedupLoop_sub (c : Env) (same : Nat → Verdict) (bs : List (List (Edge N V))) (r : List (Edge N V)) (w : World) :
    ∀ e ∈ (dedupLoop c same bs r w).1, e ∈ bs.flatten ∨ e ∈ r := by
  induction bs generalizing r w with
  | nil => exact fun e h => .inr h
  | cons b bs ih =>
    intro e he
    unfold dedupLoop at he
    rcases ih _ _ e he with h | h
    · exact .inl (by simp only [List.flatten_cons, List.mem_append]; exact .inr h)
    · rcases List.mem_append.1 h with h | h
      · exact .inl (by simp only [List.flatten_cons, List.mem_append]; exact .inl ((repeating_sub c same b w).subset h))
      · exact .inr h

theorem dedupLoop_keeps (c : Env) (same : Nat → Verdict) (bs : List (List (Edge N V))) (r : List (Edge N V)) (w : World) :
    (∀ e ∈ r, e ∈ (dedupLoop c same bs r w).1) ∧ ∀ e l, e :: l ∈ bs → e ∈ (dedupLoop c same bs r w).1 := by
  induction bs generalizing r w with
  | nil => exact ⟨fun e h => h, by simp⟩
  | cons b bs ih =>
    unfold dedupLoop
    obtain ⟨h1, h2⟩ := ih ((repeating c same b w).1.1 ++ r) (freeEdges c (repeating c same b w).1.2 (repeating c same b w).2)
    refine ⟨fun e h => h1 e (by simp [h]), fun e l h => ?_⟩
    rcases List.mem_cons.1 h with h | h
    · subst h
      exact h1 e (List.mem_append_left _ (repeating_first c same e l w))
    · exact h2 e l h

theorem dedupLoop_sticky (same : Nat → Verdict) (bs : List (List (Edge N V))) (r : List (Edge N V)) {w : World} (h : w.err ≠ 0) :
    (dedupLoop c same bs r w).2.err = w.err := by
  induction bs generalizing r w with
  | nil => rfl
  | cons b bs ih =>
    unfold dedupLoop
    have h1 : (repeating c same b w).2 = w := by
      unfold repeating
      split_ifs
      · rfl
      · cases b with
        | nil => rfl
        | cons e es => rw [repeats, if_pos h]
    have h2 : (freeEdges c (repeating c same b w).1.2 (repeating c same b w).2).err = w.err := by rw [freeEdges_sticky _ (by rw [h1]; exact h), h1]
    rw [ih _ (by rw [h2]; exact h), h2]

/-- Without an error, edges lead to the same nodes as before. -/
theorem dedup_dst (c : Env) (same : Nat → Verdict) (addr : N → Nat) (ha : Function.Injective addr) (es : List (Edge N V)) (w : World)
    (h : (dedup c same addr es w).2.err = 0) (m : N) :
    (∃ e ∈ (dedup c same addr es w).1, e.dst = m) ↔ ∃ e ∈ es, e.dst = m := by
  unfold dedup at h ⊢
  dsimp only at h ⊢
  by_cases he : (dedupLoop c same (marshal c addr es w).1.1 [] (marshal c addr es w).2).2.err ≠ 0
  · rw [if_pos he] at h
    have h1 := freeEdges_sticky (c := c) (dedupLoop c same (marshal c addr es w).1.1 [] (marshal c addr es w).2).1 he
    rw [freeEdges_sticky _ (by rw [h1]; exact he), h1] at h
    exact absurd h he
  · rw [if_neg he]
    have h1 : (marshal c addr es w).2.err = 0 := by
      by_contra h1
      exact he (by rw [dedupLoop_sticky same _ _ h1]; exact h1)
    have h2 := marshal_eq c addr es w h1
    rw [h2]
    have hg := marshalled_grouping (fun e : Edge N V => addr e.dst) es
    dsimp only
    constructor
    · rintro ⟨e, h3, h4⟩
      rcases dedupLoop_sub c same _ _ _ e h3 with h5 | h5
      · exact ⟨e, hg.perm.mem_iff.1 h5, h4⟩
      · simp at h5
    · rintro ⟨e, h3, h4⟩
      obtain ⟨b, h5, h6⟩ := List.mem_flatten.1 (hg.perm.mem_iff.2 h3)
      cases b with
      | nil => simp at h6
      | cons f l =>
        refine ⟨f, (dedupLoop_keeps c same _ _ _).2 f l h5, ?_⟩
        rw [← h4]
        exact ha (hg.within _ h5 f (by simp) e h6)

/-- After an error, nothing is left. -/
theorem dedup_err (c : Env) (same : Nat → Verdict) (addr : N → Nat) (es : List (Edge N V)) (w : World)
    (h : (dedup c same addr es w).2.err ≠ 0) : (dedup c same addr es w).1 = [] := by
  unfold dedup at h ⊢
  dsimp only at h ⊢
  split_ifs at h ⊢ with he
  · rfl
  · have h1 : (marshal c addr es w).2.err = 0 := by
      by_contra h1
      exact he (by rw [dedupLoop_sticky same _ _ h1]; exact h1)
    have h2 : (marshal c addr es w).1.2 = [] := by rw [marshal_eq c addr es w h1]
    rw [h2] at h
    exact absurd h he

end Cru.DedupAcc
