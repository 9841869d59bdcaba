import Verif.Spec.Says
import Verif.Model.BuildAcc

/-! # No error is lost: callbacks, allocations, requests and removal of repeated edges -/

namespace Cru.Fold

variable {V : Type}

theorem Says.refl (w : World) : Says w w := ⟨id, fun _ h => h⟩

theorem Says.trans {a b c : World} (h : Says a b) (h' : Says b c) : Says a c :=
  ⟨fun e => h.err (h'.err e), fun e u => h.upset (h'.err e) (h'.upset e u)⟩

/-- Something done with an error doesn't matter as long as there's an error. -/
theorem Says.of_err {w w' : World} (h : w'.err ≠ 0) : Says w w' := ⟨fun e => absurd e h, fun e => absurd e h⟩

theorem raise_zero {w : World} {e : Int} : (w.raise e).err = 0 ↔ w.err = 0 ∧ e = 0 := by
  unfold World.raise; dsimp only
  by_cases h : w.err = 0 <;> simp [h]

theorem Says.raise (w : World) (e : Int) : Says w (w.raise e) := ⟨fun h => (raise_zero.1 h).1, fun _ h => h⟩

/-- A function that's called with an outcome `e`. -/
theorem Says.called {w w' : World} {e : Int} (h1 : w'.err = w.err) (h2 : w'.upset = true → w.upset = true ∨ e ≠ 0) : Says w (w'.raise e) :=
  ⟨fun h => h1 ▸ (raise_zero.1 h).1, fun h u => (h2 u).resolve_right fun hn => hn (raise_zero.1 h).2⟩

theorem applied_says (f : Nat → Outcome V) (d : Option Nat) (w : World) : Says w (applied f d w).2 := by
  unfold applied
  split_ifs
  · exact .refl w
  · exact Says.called rfl (by simp)

theorem destroy_says (fails : Nat → Nat → Int) (d : Option Nat) (x : Option (Obj V)) (w : World) : Says w (destroy fails d x w) := by
  unfold destroy
  split
  · exact Says.called rfl (by simp)
  · exact .refl w

theorem foldl_says {A : Type} (f : World → A → World) (hf : ∀ w a, Says w (f w a)) (l : List A) (w : World) : Says w (l.foldl f w) := by
  induction l generalizing w with
  | nil => exact .refl w
  | cons a l ih => exact (hf w a).trans (ih _)

end Cru.Fold

namespace Cru.Request

open Fold

variable {V : Type}

theorem alloc_says (c : Env) (w : World) : Says w (alloc c w) :=
  Says.called rfl (by cases h : c.mem w.clock <;> simp)

theorem freeEdges_says (c : Env) (es : List (Edge V)) (w : World) : Says w (freeEdges c es w) :=
  foldl_says _ (fun _ _ => (destroy_says _ _ _ _).trans (destroy_says _ _ _ _)) es w

end Cru.Request

namespace Cru.SplitAcc

open Fold

theorem passed_says (f : Nat → SpawnAcc.Verdict) (w : World) : Says w (passed f w).2 := by
  unfold passed
  split_ifs
  · exact .refl w
  · exact Says.called rfl (by simp)

end Cru.SplitAcc

namespace Cru.SpawnAcc

open Fold

variable {V : Type}

theorem freeLabels_says (c : Request.Env) (es : List (Option (Obj V))) (w : World) : Says w (freeLabels c es w) :=
  foldl_says _ (fun _ _ => destroy_says _ _ _ _) es w

theorem freeNodes_says (c : Request.Env) (as : List (Node V)) (w : World) : Says w (freeNodes c as w) :=
  foldl_says _ (fun _ _ => (freeLabels_says _ _ _).trans (destroy_says _ _ _ _)) as w

end Cru.SpawnAcc

namespace Cru.DedupAcc

open Fold
open Request (Env alloc alloc_says)
open SpawnAcc (Verdict)
open SplitAcc (passed passed_says)

variable {N V : Type} {c : Env}

theorem freeEdges_says (es : List (Edge N V)) (w : World) : Says w (freeEdges c es w) := SpawnAcc.freeLabels_says _ _ _

theorem stow_says (es : List (Edge N V)) (w : World) : Says w (stow c es w).2 := by
  induction es generalizing w with
  | nil => exact .refl w
  | cons e es ih =>
    unfold stow
    split_ifs
    · exact .refl w
    · exact alloc_says c w
    · exact (alloc_says c w).trans (ih _)

theorem pushBuckets_says (ks b : List (List (Edge N V))) (w : World) : Says w (pushBuckets c ks b w).2 := by
  induction ks generalizing b w with
  | nil => exact .refl w
  | cons e es ih =>
    unfold pushBuckets
    split_ifs
    · exact .refl w
    · exact (alloc_says c w).trans (freeEdges_says _ _)
    · exact (alloc_says c w).trans (ih _ _)

theorem marshal_says (addr : N → Nat) (es : List (Edge N V)) (w : World) : Says w (marshal c addr es w).2 := by
  unfold marshal
  dsimp only
  split_ifs <;> exact (stow_says _ _).trans (pushBuckets_says _ _ _)

theorem repeats_says (same : Nat → Verdict) (first : Bool) (es : List (Edge N V)) (w : World) : Says w (repeats c same first es w).2 := by
  induction es generalizing first w with
  | nil => exact .refl w
  | cons e es ih =>
    unfold repeats
    by_cases h : w.err ≠ 0
    · rw [if_pos h]; exact .refl w
    · rw [if_neg h]
      dsimp only
      have h1 : Says w (if first then (false, w) else passed same w).2 := by
        cases first
        · exact passed_says _ _
        · exact .refl w
      generalize (if first then (false, w) else passed same w) = v at h1 ⊢
      split
      · exact h1.trans (ih _ _)
      · exact h1.trans ((alloc_says _ _).trans (ih _ _))

theorem repeating_says (same : Nat → Verdict) (es : List (Edge N V)) (w : World) : Says w (repeating c same es w).2 := by
  unfold repeating
  split_ifs
  · exact .refl w
  · exact repeats_says _ _ _ _

theorem dedupLoop_says (same : Nat → Verdict) (bs : List (List (Edge N V))) (r : List (Edge N V)) (w : World) : Says w (dedupLoop c same bs r w).2 := by
  induction bs generalizing r w with
  | nil => exact .refl w
  | cons b bs ih => exact (repeating_says _ _ _).trans ((freeEdges_says _ _).trans (ih _ _))

theorem dedup_says (same : Nat → Verdict) (addr : N → Nat) (es : List (Edge N V)) (w : World) : Says w (dedup c same addr es w).2 := by
  unfold dedup
  dsimp only
  have h := (marshal_says (c := c) addr es w).trans (dedupLoop_says (c := c) same (marshal c addr es w).1.1 [] _)
  split_ifs
  · exact h.trans ((freeEdges_says _ _).trans (freeEdges_says _ _))
  · exact h.trans (freeEdges_says _ _)

end Cru.DedupAcc

namespace Cru.BuildAcc

open Fold Net
open Request (Env Edge Link alloc alloc_says freeEdges freeEdges_says)
open SpawnAcc (Node Verdict freeNodes freeNodes_says)
open SplitAcc (passed passed_says unsent)
open DedupAcc (dedup dedup_says)

variable {n : Nat} {V : Type} {c : Env} {o : Ops V}

theorem unequal_says (f : Nat → Verdict) (a b : Option (Obj V)) (w : World) : Says w (unequal f a b w).2 := by
  unfold unequal
  split_ifs
  · exact .refl w
  · exact .refl w
  · exact Says.called rfl (by simp)

theorem place_says (bs : List (List (Edge V))) (e : Edge V) (w : World) : Says w (place c o bs e w).2 := by
  induction bs generalizing w with
  | nil => exact alloc_says c w
  | cons b bs ih =>
    unfold place
    dsimp only
    split_ifs
    · exact passed_says _ _
    · exact passed_says _ _
    · exact (passed_says _ _).trans (ih _)

theorem bundle_says (es : List (Edge V)) (bs : List (List (Edge V))) (w : World) : Says w (bundle c o es bs w).2 := by
  induction es generalizing bs w with
  | nil => exact .refl w
  | cons e es ih =>
    unfold bundle
    by_cases h : w.err ≠ 0
    · rw [if_pos h]; exact .refl w
    · rw [if_neg h]
      dsimp only
      split
      · exact place_says _ _ _
      · exact (place_says _ _ _).trans (ih _ _)

theorem rallyBins_says (ks acc : List (List (Edge V))) (w : World) : Says w (rallyBins c o ks acc w).2 := by
  induction ks generalizing acc w with
  | nil => exact .refl w
  | cons e es ih =>
    unfold rallyBins
    dsimp only
    split
    · exact bundle_says _ _ _
    · exact (bundle_says _ _ _).trans (ih _ _)

theorem inserts_says (k : Nat) (w : World) : Says w (inserts c k w) := by
  induction k generalizing w with
  | zero => exact .refl w
  | succ k ih =>
    unfold inserts
    split_ifs
    · exact .refl w
    · exact (alloc_says c w).trans (ih _)

theorem rally_says (es : List (Edge V)) (w : World) : Says w (rally c o es w).2 := by
  unfold rally
  dsimp only
  split_ifs
  · exact inserts_says _ _
  · exact (inserts_says _ _).trans (rallyBins_says _ _ _)

theorem clash_says (v : Option (Obj V)) (es : List (Edge V)) (w : World) : Says w (clash o v es w).2 := by
  induction es generalizing w with
  | nil => exact .refl w
  | cons e es ih =>
    unfold clash
    dsimp only
    split_ifs
    · exact (unequal_says _ _ _ _).trans (ih _)
    · exact unequal_says _ _ _ _

theorem uniqueBucket_says (l r : List (Edge V)) (w : World) : Says w (uniqueBucket c o l r w).2 := by
  induction l generalizing r w with
  | nil => exact .refl w
  | cons e es ih =>
    unfold uniqueBucket
    dsimp only
    split_ifs
    · exact (clash_says _ _ _).trans ((freeEdges_says _ _ _).trans (ih _ _))
    · exact (clash_says _ _ _).trans (ih _ _)

theorem uniqueBuckets_says (bs : List (List (Edge V))) (r : List (Edge V)) (w : World) : Says w (uniqueBuckets c o bs r w).2 := by
  induction bs generalizing r w with
  | nil => exact .refl w
  | cons b bs ih => exact (uniqueBucket_says _ _ _).trans (ih _ _)

theorem unique_says (es : List (Edge V)) (w : World) : Says w (unique c o es w).2 := by
  unfold unique
  dsimp only
  split
  · exact (rally_says _ _).trans (freeEdges_says _ _ _)
  · exact (rally_says _ _).trans (uniqueBuckets_says _ _ _)

theorem scatterOut_says (es : List (Edge V)) (w : World) : Says w (scatterOut c o es w).2 := by
  induction es generalizing w with
  | nil => exact .refl w
  | cons e es ih =>
    unfold scatterOut
    split_ifs
    · exact freeEdges_says _ _ _
    · exact (alloc_says c w).trans (freeEdges_says _ _ _)
    · exact (alloc_says c w).trans (ih _)

theorem scatterKnown_says (es : List (Nat × Nat)) (w : World) : Says w (scatterKnown c o es w).2 := by
  induction es generalizing w with
  | nil => exact .refl w
  | cons e es ih =>
    unfold scatterKnown
    split_ifs
    · exact alloc_says c w
    · exact (alloc_says c w).trans (ih _)

theorem call_says (w : World) : Says w (call c o w).2 := Says.called rfl (by simp)

theorem record_says (w : World) : Says w (record c o w) := by
  unfold record
  split_ifs
  · exact alloc_says c w
  · exact (alloc_says c w).trans (passed_says _ _)
  · exact (alloc_says c w).trans ((passed_says _ _).trans (alloc_says _ _))

theorem reachNew_says (v : Option (Obj V)) (initial q : Bool) (w : World) : Says w (reachNew c o v initial q w).2 := by
  unfold reachNew
  dsimp only
  have h0 : Says w (if o.sub = true ∧ initial = false then record c o w else w) := by
    split_ifs
    · exact record_says _
    · exact .refl w
  generalize (if o.sub = true ∧ initial = false then record c o w else w) = w0 at h0 ⊢
  have h1 := h0.trans (call_says (c := c) (o := o) w0)
  have h2 := h1.trans (alloc_says c _)
  have h3 : Says w (if q then alloc c (call c o w0).2 else alloc c (alloc c (call c o w0).2)) := by
    split_ifs
    · exact h2
    · exact h2.trans (alloc_says _ _)
  generalize (if q then alloc c (call c o w0).2 else alloc c (alloc c (call c o w0).2)) = w3 at h3 ⊢
  split_ifs
  · exact h1.trans ((destroy_says _ _ _ _).trans (freeEdges_says _ _ _))
  · exact h2.trans ((destroy_says _ _ _ _).trans (freeEdges_says _ _ _))
  · exact h3.trans ((freeEdges_says _ _ _).trans (destroy_says _ _ _ _))
  · exact h3.trans ((unique_says _ _).trans (scatterOut_says _ _))

theorem reachExtant_says (v : Option (Obj V)) (w : World) : Says w (reachExtant c o v w).2 := by
  unfold reachExtant
  dsimp only
  have h1 := destroy_says c.fails c.vFree v w
  split_ifs
  · exact h1
  · exact h1.trans (passed_says _ _)
  · exact h1.trans ((passed_says _ _).trans ((record_says _).trans ((call_says _).trans ((unique_says _ _).trans (scatterOut_says _ _)))))

theorem breakOut_says (initial : Bool) (w : World) : Says w (breakOut c o initial w).2 := by
  unfold breakOut
  by_cases h : o.sub = false
  · rw [if_pos h]; exact (call_says _).trans (scatterOut_says _ _)
  · rw [if_neg h]
    by_cases h' : initial = true
    · rw [if_pos h']; exact Says.raise _ _
    · rw [if_neg h']
      dsimp only
      refine (record_says (c := c) (o := o) w).trans ((call_says (c := c) (o := o) _).trans (Says.trans ?_ ((dedup_says _ _ _ _).trans (scatterOut_says _ _))))
      split_ifs
      · exact Says.raise _ _
      · exact .refl _

/-! ## Workers -/

/-- If any user function or allocation has failed, there's a worker with an error. -/
def Told (s : Job n V) : Prop := s.world.upset = true → ∃ i, s.err i ≠ 0

theorem told_store {i : Fin n} {s s' : Job n V} {w : World} (h : Told s) (he : s'.err = s.err) (hw : Says (own i s) w) : Told (store i s' w) := by
  intro hu
  by_cases hz : w.err = 0
  · obtain ⟨j, hj⟩ := h (hw.upset hz hu)
    refine ⟨j, ?_⟩
    have : j ≠ i := by rintro rfl; exact hj (hw.err hz)
    simpa [store, this, he] using hj
  · exact ⟨i, by simpa [store] using hz⟩

theorem told_same {s s' : Job n V} (h : Told s) (he : s'.err = s.err) (hw : s'.world = s.world) : Told s' := by
  unfold Told; rw [he, hw]; exact h

theorem poll_same (s : Job n V) (i : Fin n) : (poll s i).err = s.err ∧ (poll s i).world = s.world := by
  unfold poll; split_ifs <;> exact ⟨rfl, rfl⟩

theorem poll_told {s : Job n V} (i : Fin n) (h : Told s) : Told (poll s i) := told_same h (poll_same s i).1 (poll_same s i).2

theorem halt_told {s : Job n V} (i : Fin n) (h : Told s) : Told (halt i s) := told_same h rfl rfl

theorem discard_told {s : Job n V} (i : Fin n) (v : Option (Obj V)) (h : Told s) : Told (discard c i v s) :=
  halt_told i (told_store h rfl (destroy_says _ _ _ _))

theorem begin_told (ends : Fin n → List (Nat × Nat)) (i : Fin n) {s : Job n V} (h : Told s) : Told (begin c o ends i s).1 := by
  unfold begin
  dsimp only
  split_ifs
  · exact h
  · exact told_store h rfl (alloc_says _ _)
  · exact told_store h rfl ((alloc_says _ _).trans (scatterKnown_says _ _))

theorem walk_says (v : Option (Obj V)) (as : List (Node V)) (ks : List Nat) (w : World) : Says w (walk o v as ks w).2 := by
  induction ks generalizing w with
  | nil => exact .refl w
  | cons k ks ih =>
    unfold walk
    dsimp only
    split_ifs
    · exact (unequal_says _ _ _ _).trans (ih _)
    · exact unequal_says _ _ _ _

theorem admit_told (i : Fin n) {s : Job n V} (v : Option (Obj V)) (initial : Bool) (h : Told s) : Told (admit c o i s v initial).1 := by
  unfold admit
  have h1 := (alloc_says c (own i s)).trans (walk_says (o := o) v (s.nodes i) (s.tab i (o.vHash v)) (alloc c (own i s)))
  by_cases e1 : s.err i ≠ 0 ∨ s.stop i = true
  · rw [if_pos e1]; exact discard_told i v h
  rw [if_neg e1]
  by_cases e2 : (alloc c (own i s)).err ≠ 0
  · rw [if_pos e2]; exact discard_told i v (told_store h rfl (alloc_says _ _))
  rw [if_neg e2]
  dsimp only
  generalize walk o v (s.nodes i) (s.tab i (o.vHash v)) (alloc c (own i s)) = r at h1 ⊢
  by_cases e3 : r.2.err ≠ 0
  · rw [if_pos e3]; exact discard_told i v (told_store h rfl h1)
  rw [if_neg e3]
  split
  · exact told_store h rfl (h1.trans (reachExtant_says _ _))
  · by_cases e4 : o.limit ≠ 0 ∧ o.limit ≤ s.count i
    · rw [if_pos e4]; exact discard_told i v (poll_told i (told_store h rfl (h1.trans (Says.raise _ _))))
    · rw [if_neg e4]; exact told_store h rfl (h1.trans (reachNew_says _ _ _ _))

theorem visit_told (i : Fin n) {s : Job n V} (k : Nat) (initial : Bool) (h : Told s) : Told (visit c o i s k initial).1 := by
  unfold visit
  by_cases e1 : s.err i ≠ 0
  · rw [if_pos e1]; exact halt_told i h
  rw [if_neg e1]
  split
  · exact h
  · split
    · exact h
    · dsimp only
      split
      · exact halt_told i (told_store h rfl (breakOut_says _ _))
      · exact told_store h rfl (breakOut_says _ _)

theorem handle_told (ends : Fin n → List (Nat × Nat)) (i : Fin n) {s : Job n V} (p : Pkt V) (h : Told s) : Told (handle c o ends i s p).1 := by
  unfold handle
  have := begin_told (c := c) (o := o) ends i (poll_told i h)
  cases p with
  | fresh v initial => exact admit_told i v initial this
  | known _ k initial => exact visit_told i k initial this

theorem reach_told {hn : 0 < n} {ends : Fin n → List (Nat × Nat)} {p₀ : Pkt V} {g₀ : Job n V} {x : Job n V × Multiset (Pkt V)}
    (h : Bag.Reach (task c o ends hn) p₀ g₀ x) (h0 : Told g₀) : Told x.1 := by
  induction h with
  | init => exact h0
  | step _ hs ih =>
    cases hs with
    | handle g p b => exact handle_told _ _ _ ih
    | env e g b => exact told_same ih rfl rfl

theorem tidy_says (remote : Nat → Nat → Nat) (as : List (Node V)) (k : Nat) (w : World) : Says w (tidy c o remote as k w).2 := by
  induction as generalizing k w with
  | nil => exact .refl w
  | cons a as ih => exact (dedup_says _ _ _ _).trans (ih _ _)

theorem leave_told (remote : Fin n → Nat → Nat → Nat) {s : Job n V} (i : Fin n) (h : Told s) : Told (leave c o remote s i) := by
  unfold leave
  dsimp only
  have h1 : Says (own i s) (if s.err i = 0 ∧ o.sub = true then tidy c o (remote i) (s.nodes i) 0 (own i s) else (s.nodes i, own i s)).2 := by
    split_ifs
    · exact tidy_says _ _ _ _
    · exact .refl _
  generalize (if s.err i = 0 ∧ o.sub = true then tidy c o (remote i) (s.nodes i) 0 (own i s) else (s.nodes i, own i s)) = t at h1 ⊢
  split_ifs
  · exact told_store h rfl (h1.trans (freeNodes_says _ _ _))
  · exact told_store h rfl h1

theorem leaveAll_told (remote : Fin n → Nat → Nat → Nat) {s : Job n V} (h : Told s) : Told (leaveAll c o remote s) := by
  unfold leaveAll
  generalize List.finRange n = l
  induction l generalizing s with
  | nil => exact h
  | cons i l ih => exact ih (leave_told remote i h)

end Cru.BuildAcc
