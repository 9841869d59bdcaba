import Verif.Spec.Table
import Verif.Proofs.Table
import Mathlib.Data.List.Induction

/-!
# C53, C58, C59: tables, sets and maps
-/

namespace Cru.Table

variable {L H : Type} [DecidableEq H] {eq : L → L → Bool} {hash : L → H}

private def value (hash : L → H) (eq : L → L → Bool) (l : L) (t : Table L H) : Nat := val eq l (t (hash l))

omit [DecidableEq H] in
private theorem already_value (l : L) (t : Table L H) : alreadyRecorded hash eq l t = decide (0 < value hash eq l t) :=
  (find_val l (t (hash l))).1

omit [DecidableEq H] in
private theorem multiplicity_value (l : L) (t : Table L H) : multiplicity hash eq l t = value hash eq l t - 1 :=
  (find_val l (t (hash l))).2

private theorem value_record (he : IsEquality eq) (hh : ∀ a b, eq a b = true → hash a = hash b) (l l' : L) (t : Table L H) :
    value hash eq l (record hash eq l' t) = if eq l l' then max 1 (value hash eq l t) else value hash eq l t := by
  unfold value record
  split
  · exact val_multirecord he l l' _
  · next h => rw [if_neg fun g => h (hh _ _ g)]

omit [DecidableEq H] in
private theorem value_merge (he : IsEquality eq) (l : L) (t q : Table L H) (hq : ∀ h, Good eq (q h)) :
    value hash eq l (merge eq t q) = value hash eq l t + value hash eq l q := val_multimerge he l _ _ (hq _)

private theorem made_good (he : IsEquality eq) {t : Table L H} (ht : Made hash eq t) (h : H) : Good eq (t h) := by
  induction ht with
  | empty => exact List.Pairwise.nil
  | record l _ ih =>
    unfold record; split
    · exact good_multirecord he l ih
    · exact ih
  | merge _ _ ih _ => exact good_multimerge _ ih

private theorem recorded_made_from (ls : List L) (t : Table L H) (ht : Made hash eq t) :
    Made hash eq (ls.foldl (fun t l => record hash eq l t) t) := by
  induction ls generalizing t with
  | nil => exact ht
  | cons l ls ih => exact ih _ (.record l ht)

private theorem merged_made {sets : List (List L)} {t : Table L H} (h : Merged hash eq sets t) : Made hash eq t := by
  induction h with
  | one ls => exact recorded_made_from ls _ .empty
  | both _ _ iha ihb => exact .merge iha ihb

private theorem value_recorded_from (he : IsEquality eq) (hh : ∀ a b, eq a b = true → hash a = hash b) (l : L) (ls : List L)
    (t : Table L H) : value hash eq l (ls.foldl (fun t l => record hash eq l t) t) =
      if ls.any fun x => eq l x then max 1 (value hash eq l t) else value hash eq l t := by
  induction ls generalizing t with
  | nil => rfl
  | cons a ls ih =>
    rw [List.foldl_cons, ih, value_record he hh]
    by_cases h : eq l a = true <;> by_cases g : (ls.any fun x => eq l x) = true <;> simp [h, g]
    omega

private theorem value_merged (he : IsEquality eq) (hh : ∀ a b, eq a b = true → hash a = hash b) (l : L)
    {sets : List (List L)} {t : Table L H} (h : Merged hash eq sets t) : value hash eq l t = containing eq l sets := by
  induction h with
  | one ls =>
    rw [recorded, value_recorded_from he hh]
    by_cases g : (ls.any fun x => eq l x) = true <;> simp [value, val, containing, g]
  | both ha hb iha ihb =>
    rw [value_merge he l _ _ (made_good he (merged_made hb)), iha, ihb, containing, containing, containing, List.countP_append]

/-- **C53.** However tables made from sets of labels are merged, a label equal to a member of any of them is found, and its
multiplicity, numbered from zero, is the number of sets having a member equal to it. -/
theorem C53_multiplicity (he : IsEquality eq) (hh : ∀ a b, eq a b = true → hash a = hash b) (l : L)
    {sets : List (List L)} {t : Table L H} (h : Merged hash eq sets t) :
    multiplicity hash eq l t = containing eq l sets - 1 := by
  rw [multiplicity_value, value_merged he hh l h]

/-- **C53.** The membership test agrees. -/
theorem C53_recorded (he : IsEquality eq) (hh : ∀ a b, eq a b = true → hash a = hash b) (l : L)
    {sets : List (List L)} {t : Table L H} (h : Merged hash eq sets t) :
    alreadyRecorded hash eq l t = true ↔ ∃ ls ∈ sets, ∃ x ∈ ls, eq l x = true := by
  rw [already_value, value_merged he hh l h, decide_eq_true_iff, containing, List.countP_pos_iff]
  simp

/-- **C53.** In whatever table, recording a label makes it and its equals found, changes no multiplicity, and leaves the
membership of other labels alone. -/
theorem C53_record (he : IsEquality eq) (hh : ∀ a b, eq a b = true → hash a = hash b) (l l' : L) (t : Table L H) :
    alreadyRecorded hash eq l (record hash eq l' t) = (eq l l' || alreadyRecorded hash eq l t) ∧
      multiplicity hash eq l (record hash eq l' t) = multiplicity hash eq l t := by
  rw [already_value, already_value, multiplicity_value, multiplicity_value, value_record he hh]
  by_cases h : eq l l' = true
  · simp only [h, if_true, Bool.true_or, decide_eq_true_iff]; omega
  · simp [h]

/-- **C53.** Merging one table made by any operations into another: a label is found afterwards if and only if it was in
either, and its multiplicity is the successor of their sum if it was in both, and otherwise unchanged. -/
theorem C53_merge (he : IsEquality eq) (l : L) {t q : Table L H} (hq : Made hash eq q) :
    alreadyRecorded hash eq l (merge eq t q) = (alreadyRecorded hash eq l t || alreadyRecorded hash eq l q) ∧
      multiplicity hash eq l (merge eq t q) = multiplicity hash eq l t + multiplicity hash eq l q +
        if alreadyRecorded hash eq l t && alreadyRecorded hash eq l q then 1 else 0 := by
  simp only [already_value, multiplicity_value]
  rw [value_merge he l t q (made_good he hq)]
  refine ⟨?_, ?_⟩
  · rw [← Bool.decide_or]; exact decide_eq_decide.2 (by omega)
  · rw [← Bool.decide_and]
    by_cases h : 0 < value hash eq l t ∧ 0 < value hash eq l q
    · rw [if_pos (decide_eq_true h)]; omega
    · rw [if_neg (by simpa using h)]; omega

/-- **C53.** A table of a smaller index, such as the single bin used without Judy arrays, answers the same. -/
theorem C53_index_irrelevant {H' : Type} [DecidableEq H'] {hash' : L → H'} (he : IsEquality eq)
    (hh : ∀ a b, eq a b = true → hash a = hash b) (hh' : ∀ a b, eq a b = true → hash' a = hash' b) (l : L)
    {sets : List (List L)} {t : Table L H} {t' : Table L H'} (h : Merged hash eq sets t) (h' : Merged hash' eq sets t') :
    multiplicity hash eq l t = multiplicity hash' eq l t' ∧ alreadyRecorded hash eq l t = alreadyRecorded hash' eq l t' := by
  rw [multiplicity_value, multiplicity_value, already_value, already_value, value_merged he hh l h, value_merged he hh' l h']
  exact ⟨rfl, rfl⟩

/-- Equality of the last digits, hashed by parity so that different labels collide. -/
private def eq10 (a b : Nat) : Bool := a % 10 == b % 10

private theorem eq10_equality : IsEquality eq10 :=
  ⟨by simp [eq10], by simp only [eq10, beq_iff_eq]; omega, by simp only [eq10, beq_iff_eq]; omega⟩

private theorem eq10_hash (a b : Nat) : eq10 a b = true → a % 2 = b % 2 := by simp only [eq10, beq_iff_eq]; omega

private def demo : Table Nat Nat :=
  let table := recorded (fun a => a % 2) eq10
  merge eq10 (merge eq10 (table [1, 3, 11]) (table [5, 23])) (table [2, 13])

private theorem demo_merged : Merged (fun a => a % 2) eq10 [[1, 3, 11], [5, 23], [2, 13]] demo :=
  .both (.both (.one _) (.one _)) (.one _)

/-- Three is in all three sets. -/
example : multiplicity (fun a => a % 2) eq10 33 demo = 2 := by
  rw [C53_multiplicity eq10_equality eq10_hash 33 demo_merged]; decide

example : alreadyRecorded (fun a => a % 2) eq10 7 demo = false := by
  rw [Bool.eq_false_iff, Ne, C53_recorded eq10_equality eq10_hash 7 demo_merged]; decide

/-! ## C58: node sets -/

section Sets
variable {N : Type} [DecidableEq N]

omit [DecidableEq N] in
private theorem inSet_snoc_set (ops : List (SetOp N)) (m n : N) : InSet (ops ++ [.testAndSet m]) n ↔ n = m ∨ InSet ops n := by
  constructor
  · rintro ⟨a, b, e, h⟩
    rcases List.eq_nil_or_concat b with rfl | ⟨b, x, rfl⟩
    · have := (List.append_inj' e rfl).2; simp at this; exact .inl this.symm
    · rw [List.concat_eq_append, ← List.cons_append, ← List.append_assoc] at e
      have e' := List.append_inj' e rfl
      exact .inr ⟨a, b, e'.1, fun g => h (by simp [g])⟩
  · rintro (rfl | ⟨a, b, rfl, h⟩)
    · exact ⟨ops, [], rfl, by simp⟩
    · exact ⟨a, b ++ [.testAndSet m], by simp, by simpa using h⟩

omit [DecidableEq N] in
private theorem inSet_snoc_clear (ops : List (SetOp N)) (m n : N) : InSet (ops ++ [.clear m]) n ↔ n ≠ m ∧ InSet ops n := by
  constructor
  · rintro ⟨a, b, e, h⟩
    rcases List.eq_nil_or_concat b with rfl | ⟨b, x, rfl⟩
    · have := (List.append_inj' e rfl).2; simp at this
    · rw [List.concat_eq_append, ← List.cons_append, ← List.append_assoc] at e
      have e' := List.append_inj' e rfl
      simp at e'
      obtain ⟨e1, rfl⟩ := e'
      exact ⟨fun g => h (by simp [g]), a, b, by simpa using e1, fun g => h (by simp [g])⟩
  · rintro ⟨hne, a, b, rfl, h⟩
    exact ⟨a, b ++ [.clear m], by simp, by simp [h, hne]⟩

private theorem member_iff (n : N) (s : List N) : member n s = true ↔ n ∈ s := by
  induction s with
  | nil => simp [member]
  | cons x s ih =>
    rw [member]
    by_cases h : x = n
    · simp [h]
    · rw [if_neg h, ih]; simp [Ne.symm h]

private theorem clear_eq (n : N) (s : List N) : clearMembership n s = s.erase n := by
  induction s with
  | nil => rfl
  | cons x s ih =>
    rw [clearMembership]
    by_cases h : x = n
    · simp [h]
    · rw [if_neg h, ih, List.erase_cons_tail (by simpa using h)]

private theorem runSet_inv (ops : List (SetOp N)) : (runSet ops).Nodup ∧ ∀ n, n ∈ runSet ops ↔ InSet ops n := by
  induction ops using List.reverseRecOn with
  | nil => exact ⟨List.nodup_nil, fun n => ⟨fun h => (by cases h), fun ⟨a, b, e, _⟩ => (by simp at e)⟩⟩
  | append_singleton ops o ih =>
    obtain ⟨hd, hm⟩ := ih
    cases o with
    | testAndSet m =>
      have e : runSet (ops ++ [.testAndSet m]) = (testAndSet m (runSet ops)).2 := by simp [runSet]
      rw [e, testAndSet]
      by_cases h : member m (runSet ops) = true
      · rw [if_pos h]
        refine ⟨hd, fun n => ?_⟩
        rw [inSet_snoc_set, hm]
        exact ⟨.inr, fun g => g.elim (fun e => e ▸ (hm _).1 ((member_iff _ _).1 h)) id⟩
      · rw [if_neg h]
        refine ⟨List.nodup_cons.2 ⟨fun g => h ((member_iff _ _).2 g), hd⟩, fun n => ?_⟩
        rw [inSet_snoc_set, ← hm, List.mem_cons]
    | clear m =>
      have e : runSet (ops ++ [.clear m]) = clearMembership m (runSet ops) := by simp [runSet]
      rw [e, clear_eq]
      refine ⟨hd.erase m, fun n => ?_⟩
      rw [inSet_snoc_clear, ← hm, hd.mem_erase_iff]

/-- **C58.** After any operations on an initially empty set, the membership test tells whether the node has been set and not
cleared since. -/
theorem C58_member (ops : List (SetOp N)) (n : N) : member n (runSet ops) = true ↔ InSet ops n := by
  rw [member_iff, (runSet_inv ops).2]

/-- **C58.** A test-and-set reports that same condition as of just before it. -/
theorem C58_testAndSet (ops : List (SetOp N)) (n : N) : (testAndSet n (runSet ops)).1 = true ↔ InSet ops n := by
  rw [← C58_member, testAndSet]
  by_cases h : member n (runSet ops) = true <;> simp [h]

/-- **C58.** Nothing is stored twice, so the store is no bigger than the set. -/
theorem C58_no_duplicates (ops : List (SetOp N)) : (runSet ops).Nodup := (runSet_inv ops).1

/-- **C58.** An insertion without a test is as good when the node is absent, which is when Judy arrays don't object to it
(table.c:551). -/
theorem C58_setMembership (ops : List (SetOp N)) (n : N) (h : ¬ InSet ops n) :
    setMembership n (runSet ops) = runSet (ops ++ [.testAndSet n]) := by
  have h' : ¬ member n (runSet ops) = true := fun g => h ((C58_member ops n).1 g)
  have e : runSet (ops ++ [.testAndSet n]) = (testAndSet n (runSet ops)).2 := by simp [runSet]
  rw [e, testAndSet, if_neg h', setMembership]

/-- **C58.** When it isn't absent, a later removal fails to remove it, unlike with Judy arrays. -/
theorem C58_setMembership_twice (ops : List (SetOp N)) (n : N) (h : InSet ops n) :
    member n (clearMembership n (setMembership n (runSet ops))) = true := by
  rw [clear_eq, setMembership, List.erase_cons_head]
  exact (C58_member ops n).2 h

example : InSet [SetOp.testAndSet 1, .testAndSet 2, .clear 1, .testAndSet 1, .clear 2] 1 ∧
    ¬ InSet [SetOp.testAndSet 1, .testAndSet 2, .clear 1, .testAndSet 1, .clear 2] 2 := by
  constructor
  · rw [← C58_member]; decide
  · rw [← C58_member]; decide

end Sets

/-! ## C59: vertex maps -/

section Maps
variable {V C : Type} [DecidableEq V]

private theorem firstOf_snoc (xs : List (V × C)) (x : V × C) (v : V) :
    firstOf (xs ++ [x]) v = (firstOf xs v).or (if x.1 = v then some x.2 else none) := by
  unfold firstOf
  rw [List.find?_append]
  cases h : xs.find? fun x => decide (x.1 = v) with
  | some y => simp
  | none => by_cases g : x.1 = v <;> simp [g]

private theorem firstOf_none (xs : List (V × C)) (v : V) : firstOf xs v = none ↔ v ∉ xs.map Prod.fst := by
  simp only [firstOf, Option.map_eq_none_iff, List.find?_eq_none, decide_eq_true_iff, List.mem_map, not_exists, not_and]

private theorem imageNj_eq (v : V) (m : List (V × C)) : imageNj v m = firstOf m v := by
  induction m with
  | nil => rfl
  | cons x m ih =>
    rw [imageNj]
    by_cases h : x.1 = v
    · simp [firstOf, h]
    · rw [if_neg h, ih]; simp [firstOf, h]

private theorem associated_snoc (xs : List (V × C)) (x : V × C) : associated (xs ++ [x]) =
    let r := associate (associated xs).1 x.1 x.2 (associated xs).2.1
    (r.1, r.2.1, (associated xs).2.2 ++ r.2.2.toList) := by simp [associated]

private theorem associatedNj_snoc (xs : List (V × C)) (x : V × C) : associatedNj (xs ++ [x]) =
    let r := associateNj (associatedNj xs).1 x.1 x.2
    (r.1, (associatedNj xs).2 ++ r.2.toList) := by simp [associatedNj]

private theorem associated_inv (xs : List (V × C)) : (∀ v, (associated xs).1 v = firstOf xs v) ∧
    ((associated xs).2.1 = if (xs.map Prod.fst).Nodup then 0 else PARDPV) := by
  induction xs using List.reverseRecOn with
  | nil => exact ⟨fun _ => rfl, rfl⟩
  | append_singleton xs x ih =>
    obtain ⟨hm, he⟩ := ih
    rw [associated_snoc]
    have hnd : ((xs ++ [x]).map Prod.fst).Nodup ↔ (xs.map Prod.fst).Nodup ∧ x.1 ∉ xs.map Prod.fst := by
      rw [List.map_append, List.nodup_append]
      simp only [List.map_cons, List.map_nil, List.nodup_cons, List.not_mem_nil, not_false_iff, List.nodup_nil, and_true,
        true_and, List.mem_singleton, ne_eq, forall_eq]
      exact and_congr_right fun _ => ⟨fun h g => h _ g rfl, fun h a ha e => h (e ▸ ha)⟩
    cases h : firstOf xs x.1 with
    | some c =>
      have hin : ¬ x.1 ∉ xs.map Prod.fst := fun g => by rw [(firstOf_none _ _).2 g] at h; cases h
      simp only [associate, hm, h]
      refine ⟨fun v => ?_, ?_⟩
      · rw [firstOf_snoc]
        by_cases g : x.1 = v
        · rw [← g, h]; rfl
        · rw [if_neg g, Option.or_none]
      · rw [if_neg (fun g => hin (hnd.1 g).2), he]
        split <;> simp [PARDPV]
    | none =>
      simp only [associate, hm, h]
      refine ⟨fun v => ?_, ?_⟩
      · rw [firstOf_snoc]
        by_cases g : v = x.1
        · rw [if_pos g, g, h]; simp
        · rw [if_neg g, if_neg (Ne.symm g), Option.or_none]
      · have hn : x.1 ∉ xs.map Prod.fst := (firstOf_none _ _).1 h
        rw [he]
        by_cases g : (xs.map Prod.fst).Nodup
        · rw [if_pos g, if_pos (hnd.2 ⟨g, hn⟩)]
        · rw [if_neg g, if_neg fun k => g (hnd.1 k).1]

private theorem associatedNj_inv (xs : List (V × C)) : (∀ v, imageNj v (associatedNj xs).1 = firstOf xs v) ∧
    ((associatedNj xs).1.map Prod.snd ++ (associatedNj xs).2).Perm (xs.map Prod.snd) ∧
    (associatedNj xs).2 = (associated xs).2.2 := by
  induction xs using List.reverseRecOn with
  | nil => exact ⟨fun _ => rfl, .nil, rfl⟩
  | append_singleton xs x ih =>
    obtain ⟨hm, hp, hf⟩ := ih
    rw [associatedNj_snoc, associated_snoc]
    cases h : firstOf xs x.1 with
    | some c =>
      simp only [associateNj, associate, hm, (associated_inv xs).1, h]
      refine ⟨fun v => ?_, ?_, by rw [hf]⟩
      · rw [firstOf_snoc]
        by_cases g : x.1 = v
        · rw [← g, h]; rfl
        · rw [if_neg g, Option.or_none]
      · rw [← List.append_assoc, List.map_append]
        exact hp.append_right _
    | none =>
      simp only [associateNj, associate, hm, (associated_inv xs).1, h]
      refine ⟨fun v => ?_, ?_, by rw [hf]⟩
      · rw [imageNj_eq, firstOf_snoc, ← imageNj_eq, hm, firstOf_snoc]
      · rw [List.map_append, List.map_append, Option.toList_none, List.append_nil, List.append_assoc]
        exact (List.perm_append_comm.append_left _).trans (by rw [← List.append_assoc]; exact hp.append_right _)

/-- **C59.** However the map is stored, a vertex is mapped to the class first associated with it. -/
theorem C59_image (xs : List (V × C)) (v : V) :
    (associated xs).1 v = firstOf xs v ∧ imageNj v (associatedNj xs).1 = firstOf xs v :=
  ⟨(associated_inv xs).1 v, (associatedNj_inv xs).1 v⟩

/-- **C59.** With Judy arrays, `CRU_PARDPV` is raised if and only if a vertex is given twice. -/
theorem C59_duplicates_reported (xs : List (V × C)) : (associated xs).2.1 = if (xs.map Prod.fst).Nodup then 0 else PARDPV :=
  (associated_inv xs).2

/-- **C59.** Each class is either kept or freed, once, and the freed ones are the same either way. -/
theorem C59_classes_accounted (xs : List (V × C)) :
    ((associatedNj xs).1.map Prod.snd ++ (associatedNj xs).2).Perm (xs.map Prod.snd) ∧
      (associatedNj xs).2 = (associated xs).2.2 := (associatedNj_inv xs).2

example : (associated [(1, "a"), (2, "b"), (1, "c")]).2 = (PARDPV, ["c"]) ∧
    associatedNj [(1, "a"), (2, "b"), (1, "c")] = ([(1, "a"), (2, "b")], ["c"]) := by decide

end Maps

end Cru.Table
