import Verif.Spec.MergeAcc
import Verif.Proofs.Fold
import Verif.Proofs.Edges

/-! # Accounting for the storage used by `cru_merged` -/

namespace Cru.MergeAcc

open Fold

variable {A U V : Type}

/-- From `w` to `w'`, what was held is `i` before and `o` after. -/
structure Bal (w w' : World) (i o : Multiset (Nat × Nat)) : Prop where
  ledger : w'.made + w.freed + i = w.made + w'.freed + o
  wf : w.WF → w'.WF

theorem Bal.refl (w : World) (o : Multiset (Nat × Nat)) : Bal w w o o := ⟨rfl, id⟩

theorem Bal.trans {w w' w'' : World} {i o o' : Multiset (Nat × Nat)} (h : Bal w w' i o) (h' : Bal w' w'' o o') : Bal w w'' i o' := by
  refine ⟨?_, h'.wf ∘ h.wf⟩
  have h1 := h.ledger
  have h2 := h'.ledger
  have : (w'.made + w'.freed + o) + (w''.made + w.freed + i) = (w'.made + w'.freed + o) + (w.made + w''.freed + o') := by
    calc (w'.made + w'.freed + o) + (w''.made + w.freed + i)
        = (w'.made + w.freed + i) + (w''.made + w'.freed + o) := by abel
      _ = (w.made + w'.freed + o) + (w'.made + w''.freed + o') := by rw [h1, h2]
      _ = _ := by abel
  exact add_left_cancel this

theorem Bal.frame {w w' : World} {i o : Multiset (Nat × Nat)} (h : Bal w w' i o) (x : Multiset (Nat × Nat)) :
    Bal w w' (i + x) (o + x) := by
  refine ⟨?_, h.wf⟩
  rw [← add_assoc, h.ledger, add_assoc]

theorem Bal.cast {w w' : World} {i o i' o' : Multiset (Nat × Nat)} (h : Bal w w' i o) (hi : i = i') (ho : o = o') : Bal w w' i' o' := by
  subst hi ho; exact h

theorem Bal.of_account {w w' : World} {o : Multiset (Nat × Nat)} (h : Account w w' o) : Bal w w' 0 o :=
  ⟨by rw [add_zero, h.ledger], h.wf⟩

theorem Bal.errs {w w' : World} {i o : Multiset (Nat × Nat)} (h : Bal w w' i o) (e e' : Int) :
    Bal { w with err := e } { w' with err := e' } i o :=
  ⟨h.ledger, fun hw => ⟨(h.wf ⟨hw.past, hw.nodup⟩).past, (h.wf ⟨hw.past, hw.nodup⟩).nodup⟩⟩

theorem Bal.err (w : World) (e : Int) (o : Multiset (Nat × Nat)) : Bal w { w with err := e } o o :=
  ⟨rfl, fun hw => ⟨hw.past, hw.nodup⟩⟩

theorem Bal.reset (w : World) (e : Int) (u : Bool) (o : Multiset (Nat × Nat)) : Bal w { w with err := e, upset := u } o o :=
  ⟨rfl, fun hw => ⟨hw.past, hw.nodup⟩⟩

theorem Bal.raise (w : World) (e : Int) (o : Multiset (Nat × Nat)) : Bal w (w.raise e) o o :=
  ⟨rfl, fun hw => ⟨hw.past, hw.nodup⟩⟩

theorem Bal.upsetting (w : World) (e : Int) (u : Bool) (o : Multiset (Nat × Nat)) : Bal w ({ w with upset := u }.raise e) o o :=
  ⟨rfl, fun hw => ⟨hw.past, hw.nodup⟩⟩

theorem Bal.tick (w : World) (e : Int) (o : Multiset (Nat × Nat)) {u : Bool} : Bal w ({ w with clock := w.clock + 1, upset := u }.raise e) o o :=
  ⟨rfl, fun hw => ⟨fun x hx => Nat.lt_succ_of_lt (hw.past x hx), hw.nodup⟩⟩

theorem destroy_bal (c : Merger A U V) (d : Option Nat) (x : Option (Obj V)) (w : World) : Bal w (destroy c.fails d x w) (owned d x) 0 := by
  cases d with
  | none => exact Bal.refl w _
  | some n =>
    cases x with
    | none => exact Bal.refl w _
    | some o =>
      refine ⟨?_, fun hw => ⟨fun x hx => Nat.lt_succ_of_lt (hw.past x hx), hw.nodup⟩⟩
      simp only [destroy, World.raise, owned, ← Multiset.singleton_add]
      abel

/-! ## What lists hold -/

@[simp] theorem held_nil (d : Option Nat) : held d ([] : List (Option (Obj V))) = 0 := rfl

@[simp] theorem held_cons (d : Option Nat) (x : Option (Obj V)) (xs : List (Option (Obj V))) : held d (x :: xs) = owned d x + held d xs := by
  simp [held]

@[simp] theorem held_append (d : Option Nat) (xs ys : List (Option (Obj V))) : held d (xs ++ ys) = held d xs + held d ys := by
  simp [held]

theorem held_perm (d : Option Nat) {xs ys : List (Option (Obj V))} (h : xs.Perm ys) : held d xs = held d ys :=
  by
  unfold held; exact (h.map (owned d)).foldr_eq (lcomm := ⟨fun a b c => add_left_comm a b c⟩) 0

@[simp] theorem labels_nil : labels ([] : List (Edge V)) = [] := rfl

@[simp] theorem labels_cons (e : Edge V) (es : List (Edge V)) : labels (e :: es) = e.label :: labels es := rfl

@[simp] theorem labels_append (es fs : List (Edge V)) : labels (es ++ fs) = labels es ++ labels fs := by simp [labels]

theorem labels_perm {es fs : List (Edge V)} (h : es.Perm fs) : (labels es).Perm (labels fs) := h.map _

@[simp] theorem storage_nil (v e p : Option Nat) : storage v e p ([] : List (Item V)) = 0 := rfl

@[simp] theorem storage_cons (v e p : Option Nat) (m : Item V) (k : List (Item V)) :
    storage v e p (m :: k) = m.held v e p + storage v e p k := by simp [storage]

@[simp] theorem storage_append (v e p : Option Nat) (k l : List (Item V)) :
    storage v e p (k ++ l) = storage v e p k + storage v e p l := by simp [storage]

theorem storage_split (v e p : Option Nat) (k : List (Item V)) :
    storage v e p k = held v (k.map Item.vertex) + held e (labels (k.flatMap Item.out)) + held p (k.map Item.prop) := by
  induction k with
  | nil => rfl
  | cons m k ih =>
    simp only [storage_cons, ih, Item.held, List.map_cons, List.flatMap_cons, labels_append, held_append, held_cons]
    abel

theorem storage_filter (v e p : Option Nat) (q : Item V → Bool) (k : List (Item V)) :
    storage v e p k = storage v e p (k.filter q) + storage v e p (k.filter fun m => !q m) := by
  induction k with
  | nil => rfl
  | cons m k ih =>
    by_cases h : q m = true
    · simp [h, ih]; abel
    · simp [h, ih]; abel

theorem destroyAll_bal (c : Merger A U V) (d : Option Nat) (xs : List (Option (Obj V))) (w : World) :
    Bal w (destroyAll c d xs w) (held d xs) 0 := by
  induction xs generalizing w with
  | nil => exact Bal.refl w _
  | cons x xs ih =>
    have h := ((destroy_bal c d x w).frame (held d xs)).trans ((ih (destroy c.fails d x w)).cast (by simp) rfl)
    exact h.cast (by simp) rfl

theorem unpropped_bal (c : Merger A U V) (k : List (Item V)) (w : World) : Bal w (unpropped c k w) (held c.pFree (k.map Item.prop)) 0 :=
  destroyAll_bal c _ _ w

theorem freeNodes_bal (c : Merger A U V) (v e : Option Nat) (k : List (Item V)) (w : World) :
    Bal w (freeNodes c v e k w) (held v (k.map Item.vertex) + held e (labels (k.flatMap Item.out))) 0 := by
  induction k generalizing w with
  | nil => exact Bal.refl w _
  | cons m k ih =>
    have h1 := (destroyAll_bal c e (labels m.out) w).frame
      (owned v m.vertex + (held v (k.map Item.vertex) + held e (labels (k.flatMap Item.out))))
    have h2 := (destroy_bal c v m.vertex (destroyAll c e (labels m.out) w)).frame
      (held v (k.map Item.vertex) + held e (labels (k.flatMap Item.out)))
    have h3 := (h1.trans (h2.cast (by simp) rfl)).trans ((ih _).cast (by simp) rfl)
    refine h3.cast ?_ rfl
    simp only [List.map_cons, List.flatMap_cons, labels_append, held_append, held_cons]
    abel

theorem discard_bal (c : Merger A U V) (v e : Option Nat) (k : List (Item V)) (w : World) :
    Bal w (discard c v e k w) (storage v e c.pFree k) 0 := by
  have h1 := (unpropped_bal c k w).frame (held v (k.map Item.vertex) + held e (labels (k.flatMap Item.out)))
  have h2 := h1.trans ((freeNodes_bal c v e k (unpropped c k w)).cast (by simp) rfl)
  refine h2.cast ?_ rfl
  rw [storage_split]; abel

/-! ## Vertices -/

theorem withVertex_storage (v e p : Option Nat) (x : Option (Obj V)) (k : List (Item V)) (hk : k ≠ []) :
    storage v e p (withVertex x k) = owned v x + held e (labels (k.flatMap Item.out)) + held p (k.map Item.prop) := by
  cases k with
  | nil => exact absurd rfl hk
  | cons m k =>
    have : ∀ k : List (Item V), storage v e p (k.map fun m => { m with vertex := none }) =
        held e (labels (k.flatMap Item.out)) + held p (k.map Item.prop) := by
      intro k
      induction k with
      | nil => rfl
      | cons m k ih =>
        simp only [List.map_cons, storage_cons, ih, Item.held, owned_none, List.flatMap_cons, labels_append, held_append, held_cons]
        abel
    simp only [withVertex, storage_cons, this, Item.held, List.flatMap_cons, labels_append, held_append, List.map_cons, held_cons]
    abel

theorem fuseOne_bal (c : Merger A U V) (k : List (Item V)) (hk : k ≠ []) (w : World) :
    Bal w (fuseOne c k w).2 (storage c.gV c.gE c.pFree k) (storage c.kV c.gE c.pFree (fuseOne c k w).1) := by
  unfold fuseOne
  dsimp only
  have h0 : ∀ o, Bal w (crowded c k w) o o := by
    intro o
    unfold crowded
    split
    · exact Bal.raise w _ o
    · exact Bal.refl w o
  by_cases h : (crowded c k w).err = 0 ∧ c.vop.isNone
  · rw [if_pos h]
    have : c.kV = c.gV := by
      unfold Merger.kV
      cases hv : c.vop with
      | none => rfl
      | some p => simp [hv] at h
    rw [this]
    exact h0 _
  · rw [if_neg h]
    have hx : ∀ x : Option (Obj V) × World, Bal (crowded c k w) x.2 0 (owned c.kV x.1) →
        Bal w (destroyAll c c.gV (k.map Item.vertex) x.2) (storage c.gV c.gE c.pFree k) (storage c.kV c.gE c.pFree (withVertex x.1 k)) := by
      intro x hx
      have h1 := (h0 _).trans (hx.frame (storage c.gV c.gE c.pFree k))
      have h2 := (destroyAll_bal c c.gV (k.map Item.vertex) x.2).frame
        (owned c.kV x.1 + (held c.gE (labels (k.flatMap Item.out)) + held c.pFree (k.map Item.prop)))
      refine (h1.trans (h2.cast ?_ rfl)).cast (by simp) ?_
      · rw [storage_split]; abel
      · rw [withVertex_storage _ _ _ _ _ hk]; abel
    apply hx
    cases hv : c.vop with
    | none =>
      simp only [owned_none]
      exact Bal.refl _ _
    | some p =>
      dsimp only
      have hkv : c.kV = p.vertex.rFree := by simp [Merger.kV, hv]
      by_cases he : (crowded c k w).err ≠ 0
      · rw [if_pos he]
        simp only [owned_none]
        exact Bal.refl _ _
      · rw [if_neg he, hkv]
        exact Bal.of_account (reducedNodes_account c.fails p _ _).1

theorem fuse_bal (c : Merger A U V) (ks : List (List (Item V))) (hk : ∀ k ∈ ks, k ≠ []) (w : World) :
    Bal w (fuse c ks w).2 (storage c.gV c.gE c.pFree ks.flatten) (storage c.kV c.gE c.pFree (fuse c ks w).1.flatten) := by
  induction ks generalizing w with
  | nil => exact Bal.refl w _
  | cons k ks ih =>
    have h1 := (fuseOne_bal c k (hk k (by simp)) w).frame (storage c.gV c.gE c.pFree ks.flatten)
    have h2 := (ih (fun k hk' => hk k (by simp [hk'])) (fuseOne c k w).2).frame (storage c.kV c.gE c.pFree (fuseOne c k w).1)
    refine (h1.trans (h2.cast (add_comm _ _) rfl)).cast (by simp) ?_
    simp [fuse, add_comm]

theorem withVertex_ne (x : Option (Obj V)) (k : List (Item V)) (hk : k ≠ []) : withVertex x k ≠ [] := by
  cases k with
  | nil => exact absurd rfl hk
  | cons m k => simp [withVertex]

theorem fuse_ne (c : Merger A U V) (ks : List (List (Item V))) (hk : ∀ k ∈ ks, k ≠ []) (w : World) : ∀ k ∈ (fuse c ks w).1, k ≠ [] := by
  induction ks generalizing w with
  | nil => intro k hk'; simp [fuse] at hk'
  | cons k ks ih =>
    intro l hl
    simp only [fuse, List.mem_cons] at hl
    rcases hl with rfl | hl
    · unfold fuseOne
      dsimp only
      split
      · exact hk k (by simp)
      · exact withVertex_ne _ _ (hk k (by simp))
    · exact ih (fun k hk' => hk k (by simp [hk'])) _ l hl

/-! ## Edges -/

theorem pruneLoop_bal (f : Nat → Edge V → Bool × Int) (d : Option Nat) (es : List (Edge V)) (w : World) :
    Bal w (pruneLoop f es w).2 (held d (labels es)) (held d (labels (pruneLoop f es w).1.1) + held d (labels (pruneLoop f es w).1.2)) := by
  induction es generalizing w with
  | nil => exact (Bal.refl w _).cast rfl (by simp [pruneLoop])
  | cons e es ih =>
    unfold pruneLoop
    by_cases h : w.err ≠ 0
    · rw [if_pos h]
      refine ((ih w).frame (owned d e.label)).cast (by simp [add_comm]) ?_
      simp; abel
    · rw [if_neg h]
      dsimp only
      have h1 := (Bal.tick w (f w.clock e).2 (held d (labels (e :: es)))).trans
        (((ih ({ w with clock := w.clock + 1, upset := w.upset || decide ((f w.clock e).2 ≠ 0) }.raise (f w.clock e).2)).frame (owned d e.label)).cast (by simp [add_comm]) rfl)
      split
      · refine h1.cast rfl ?_
        simp; abel
      · refine h1.cast rfl ?_
        simp; abel

theorem filterEdges_bal (c : Merger A U V) (es : List (Edge V)) (w : World) :
    Bal w (filterEdges c es w).2 (held c.gE (labels es)) (held c.gE (labels (filterEdges c es w).1)) := by
  unfold filterEdges
  cases c.pruner with
  | none => exact Bal.refl w _
  | some f =>
    have h := (destroyAll_bal c c.gE (labels (pruneLoop f es w).1.2) (pruneLoop f es w).2).frame
      (held c.gE (labels (pruneLoop f es w).1.1))
    exact (pruneLoop_bal f c.gE es w).trans (h.cast (add_comm _ _) (by simp))

theorem brigade_bal (c : Merger A U V) (es : List (Edge V)) (w : World) :
    Bal w (brigade c es w).2 (held c.gE (labels es)) (held c.gE (labels (brigade c es w).1.flatten)) := by
  unfold brigade
  split
  · exact destroyAll_bal c _ _ w
  · exact (Bal.refl w _).cast rfl (held_perm _ (labels_perm (marshalled_grouping _ es).perm.symm))

theorem repeating_bal (c : Merger A U V) (d : Option Nat) (seen es : List (Edge V)) (w : World) :
    Bal w (repeating c seen es w).2 (held d (labels es))
      (held d (labels (repeating c seen es w).1.1) + held d (labels (repeating c seen es w).1.2)) := by
  induction es generalizing w seen with
  | nil => exact (Bal.refl w _).cast rfl (by simp [repeating])
  | cons e es ih =>
    unfold repeating
    by_cases h : w.err ≠ 0
    · rw [if_pos h]
      exact (Bal.refl w _).cast rfl (by simp)
    · rw [if_neg h]
      by_cases hs : seen.isEmpty = true
      · rw [if_pos hs]
        refine ((ih [e] w).frame (owned d e.label)).cast (by simp [add_comm]) ?_
        simp; abel
      · rw [if_neg hs]
        dsimp only
        have h1 : ∀ s, _ := fun s => (Bal.tick w (c.repeated w.clock seen e).2 (held d (labels (e :: es)))).trans
          (((ih s ({ w with clock := w.clock + 1, upset := w.upset || decide ((c.repeated w.clock seen e).2 ≠ 0) }.raise (c.repeated w.clock seen e).2)).frame (owned d e.label)).cast
            (by simp [add_comm]) rfl)
        split
        · refine (h1 seen).cast rfl ?_
          simp; abel
        · refine (h1 (seen ++ [e])).cast rfl ?_
          simp; abel

theorem labels_redirect (f : Nat → Nat) (es : List (Edge V)) : labels (es.map fun e => { e with remote := f e.remote }) = labels es := by
  simp [labels, Function.comp_def]

theorem dedupLoop_bal (c : Merger A U V) (bs : List (List (Edge V))) (r : List (Edge V)) (w : World) :
    Bal w (dedupLoop c bs r w).2 (held c.gE (labels bs.flatten) + held c.gE (labels r)) (held c.gE (labels (dedupLoop c bs r w).1)) := by
  induction bs generalizing r w with
  | nil => exact (Bal.refl w _).cast (by simp [dedupLoop]) rfl
  | cons b bs ih =>
    unfold dedupLoop
    dsimp only
    have h1 := (repeating_bal c c.gE [] b w).frame (held c.gE (labels bs.flatten) + held c.gE (labels r))
    have h2 := (destroyAll_bal c c.gE (labels (repeating c [] b w).1.2) (repeating c [] b w).2).frame
      (held c.gE (labels (repeating c [] b w).1.1) + (held c.gE (labels bs.flatten) + held c.gE (labels r)))
    refine ((h1.trans (h2.cast (by abel) rfl)).trans ((ih _ _).cast ?_ rfl)).cast ?_ rfl
    · rw [labels_append, held_append, labels_redirect]; abel
    · simp [add_assoc]

theorem reduceLoop_bal (c : Merger A U V) (m : CruFold A V) (bs : List (List (Edge V))) (r : List (Edge V)) (w : World) :
    Bal w (reduceLoop c m bs r w).2 (held c.gE (labels bs.flatten) + held m.rFree (labels r))
      (held m.rFree (labels (reduceLoop c m bs r w).1)) := by
  induction bs generalizing r w with
  | nil => exact (Bal.refl w _).cast (by simp [reduceLoop]) rfl
  | cons b bs ih =>
    cases b with
    | nil =>
      unfold reduceLoop
      exact ((Bal.raise w (-572) _).trans (ih r _)).cast (by simp) rfl
    | cons e b =>
      unfold reduceLoop
      dsimp only
      have h1 := (Bal.of_account (reducedEdges_account c.fails m ((e :: b).map c.operand) w).1).frame
        (held c.gE (labels (e :: b)) + (held c.gE (labels bs.flatten) + held m.rFree (labels r)))
      generalize reducedEdges c.fails m ((e :: b).map c.operand) w = x at h1 ⊢
      have hin : 0 + (held c.gE (labels (e :: b)) + (held c.gE (labels bs.flatten) + held m.rFree (labels r))) =
          held c.gE (labels ((e :: b) :: bs).flatten) + held m.rFree (labels r) := by
        rw [List.flatten_cons, labels_append, held_append]; abel
      by_cases he : x.2.err ≠ 0
      · rw [if_pos he]
        have h2 := (destroy_bal c m.rFree x.1 x.2).frame
          (held c.gE (labels (e :: b)) + (held c.gE (labels bs.flatten) + held m.rFree (labels r)))
        have h3 := (destroyAll_bal c c.gE (labels (e :: b)) (destroy c.fails m.rFree x.1 x.2)).frame
          (held c.gE (labels bs.flatten) + held m.rFree (labels r))
        exact (((h1.trans h2).trans (h3.cast (by abel) rfl)).trans ((ih r _).cast (by abel) rfl)).cast hin rfl
      · rw [if_neg he]
        have h3 := (destroyAll_bal c c.gE (labels (e :: b)) x.2).frame
          (owned m.rFree x.1 + (held c.gE (labels bs.flatten) + held m.rFree (labels r)))
        refine ((h1.trans (h3.cast (by abel) rfl)).trans ((ih (⟨x.1, c.cls e.remote⟩ :: r) _).cast ?_ rfl)).cast hin rfl
        rw [labels_cons, held_cons]; abel

theorem unlessError_bal (c : Merger A U V) (d : Option Nat) {w : World} {i : Multiset (Nat × Nat)} (x : List (Edge V) × World)
    (h : Bal w x.2 i (held d (labels x.1))) : Bal w (unlessError c d x).2 i (held d (labels (unlessError c d x).1)) := by
  unfold unlessError
  split
  · exact h.trans (destroyAll_bal c d _ _)
  · exact h

theorem fusedEdges_bal (c : Merger A U V) (k : List (Item V)) (w : World) :
    Bal w (fusedEdges c k w).2 (held c.gE (labels (k.flatMap Item.out))) (held c.sE (labels (fusedEdges c k w).1)) := by
  unfold fusedEdges
  dsimp only
  set es := (k.flatMap Item.out).reverse with hes
  have hrev : held c.gE (labels (k.flatMap Item.out)) = held c.gE (labels es) :=
    held_perm _ (labels_perm (List.reverse_perm _).symm)
  rw [hrev]
  set w1 := if c.pruner.isSome then { w with upset := w.upset || decide (c.recording w.clock es ≠ 0) }.raise (c.recording w.clock es) else w with hw1
  have h0 : Bal w w1 (held c.gE (labels es)) (held c.gE (labels es)) := by
    rw [hw1]; split
    · exact Bal.upsetting w _ _ _
    · exact Bal.refl w _
  have h1 := (h0.trans (filterEdges_bal c es w1)).trans (brigade_bal c _ _)
  cases he : c.eop with
  | none =>
    have hs : c.sE = c.gE := by simp [Merger.sE, he]
    rw [hs]
    dsimp only
    exact unlessError_bal c _ _ (h1.trans ((dedupLoop_bal c _ [] _).cast (by simp) rfl))
  | some m =>
    have hs : c.sE = m.rFree := by simp [Merger.sE, he]
    rw [hs]
    dsimp only
    exact unlessError_bal c _ _ (h1.trans ((reduceLoop_bal c m _ [] _).cast (by simp) rfl))

theorem withEdges_storage (v e p : Option Nat) (es : List (Edge V)) (k : List (Item V)) (hk : k ≠ []) :
    storage v e p (withEdges es k) = held v (k.map Item.vertex) + held e (labels es) + held p (k.map Item.prop) := by
  cases k with
  | nil => exact absurd rfl hk
  | cons m k =>
    have : ∀ k : List (Item V), storage v e p (k.map fun m => { m with out := [] }) =
        held v (k.map Item.vertex) + held p (k.map Item.prop) := by
      intro k
      induction k with
      | nil => rfl
      | cons m k ih =>
        simp only [List.map_cons, storage_cons, ih, Item.held, labels_nil, held_nil, held_cons]
        abel
    simp only [withEdges, storage_cons, this, Item.held, List.map_cons, held_cons]
    abel

theorem mergeOne_bal (c : Merger A U V) (k : List (Item V)) (hk : k ≠ []) (w : World) :
    Bal w (mergeOne c k w).2 (storage c.kV c.gE c.pFree k) (storage c.kV c.sE c.pFree (mergeOne c k w).1) := by
  unfold mergeOne
  have hin : storage c.kV c.gE c.pFree k = held c.gE (labels (k.flatMap Item.out)) +
      (held c.kV (k.map Item.vertex) + held c.pFree (k.map Item.prop)) := by
    rw [storage_split]; abel
  rw [hin]
  split
  · refine ((destroyAll_bal c c.gE (labels (k.flatMap Item.out)) w).frame _).cast rfl ?_
    rw [withEdges_storage _ _ _ _ _ hk]; simp
  · refine ((fusedEdges_bal c k w).frame _).cast rfl ?_
    dsimp only
    rw [withEdges_storage _ _ _ _ _ hk]; abel

theorem mergeEdges_bal (c : Merger A U V) (ks : List (List (Item V))) (hk : ∀ k ∈ ks, k ≠ []) (r : List (Item V)) (w : World) :
    Bal w (mergeEdges c ks r w).2 (storage c.kV c.gE c.pFree ks.flatten + storage c.kV c.sE c.pFree r)
      (storage c.kV c.sE c.pFree (mergeEdges c ks r w).1) := by
  induction ks generalizing r w with
  | nil => exact (Bal.refl w _).cast (by simp [mergeEdges]) rfl
  | cons k ks ih =>
    unfold mergeEdges
    dsimp only
    have h1 := (mergeOne_bal c k (hk k (by simp)) w).frame (storage c.kV c.gE c.pFree ks.flatten + storage c.kV c.sE c.pFree r)
    refine (h1.trans ((ih (fun k hk' => hk k (by simp [hk'])) _ _).cast ?_ rfl)).cast ?_ rfl
    · rw [storage_append]; abel
    · simp [add_assoc]

/-! ## Workers -/

/-- What a worker holds, where `v` is the destructor of vertices of classes. -/
def Port.held (c : Merger A U V) (v : Option Nat) (p : Port V) : Multiset (Nat × Nat) :=
  storage v c.gE c.pFree p.deferred.flatten + storage c.gV c.gE c.pFree p.deletions + storage c.kV c.sE c.pFree p.survivors

theorem discards_bal (c : Merger A U V) (v e : Option Nat) (ks : List (List (Item V))) (w : World) :
    Bal w (ks.foldl (fun w k => discard c v e k w) w) (storage v e c.pFree ks.flatten) 0 := by
  induction ks generalizing w with
  | nil => exact Bal.refl w _
  | cons k ks ih =>
    exact (((discard_bal c v e k w).frame (storage v e c.pFree ks.flatten)).trans ((ih _).cast (by simp) rfl)).cast (by simp) rfl

theorem demerge_bal (c : Merger A U V) (hd : c.dE = c.sE) (p : Port V) (w : World) : Bal w (demerge c p w) (p.held c c.kV) 0 := by
  unfold demerge Port.held
  rw [hd]
  have h1 := (discards_bal c c.kV c.gE p.deferred w).frame
    (storage c.gV c.gE c.pFree p.deletions + storage c.kV c.sE c.pFree p.survivors)
  have h2 := (discard_bal c c.gV c.gE p.deletions (p.deferred.foldl (fun w k => discard c c.kV c.gE k w) w)).frame
    (storage c.kV c.sE c.pFree p.survivors)
  exact ((h1.trans (h2.cast (by simp) rfl)).trans ((discard_bal c c.kV c.sE p.survivors _).cast (by simp) rfl)).cast (by abel) rfl

theorem demerges_bal (c : Merger A U V) (hd : c.dE = c.sE) (ps : List (Port V)) (w : World) :
    Bal w (ps.foldl (fun w p => demerge c p w) w) (ps.map (Port.held c c.kV)).sum 0 := by
  induction ps generalizing w with
  | nil => exact Bal.refl w _
  | cons p ps ih =>
    exact (((demerge_bal c hd p w).frame (ps.map (Port.held c c.kV)).sum).trans ((ih _).cast (by simp) rfl)).cast (by simp) rfl

theorem eachPort_bal {act : Port V → World → Port V × World} {I : Port V → Prop} {f g : Port V → Multiset (Nat × Nat)}
    (ha : ∀ p w, I p → Bal w (act p w).2 (f p) (g (act p w).1)) (hg : ∀ p e, g { p with err := e } = g p) (e : Port V → Int)
    (ps : List (Port V)) (hI : ∀ p ∈ ps, I p) (w : World) :
    Bal w (eachPort act e ps w).2 (ps.map f).sum ((eachPort act e ps w).1.map g).sum := by
  induction ps generalizing w with
  | nil => exact Bal.refl w _
  | cons p ps ih =>
    unfold eachPort
    dsimp only
    have h1 := ((Bal.err w (e p) (f p)).trans (ha p { w with err := e p } (hI p (by simp)))).frame (ps.map f).sum
    have h2 := (ih (fun p hp => hI p (by simp [hp])) (act p { w with err := e p }).2).frame (g (act p { w with err := e p }).1)
    refine (h1.trans (h2.cast (add_comm _ _) rfl)).cast (by simp) ?_
    simp [hg, add_comm]

theorem eachPort_mem {act : Port V → World → Port V × World} {e : Port V → Int} {J I : Port V → Prop}
    (ha : ∀ p w x, J p → I { (act p w).1 with err := x }) (ps : List (Port V)) (hJ : ∀ p ∈ ps, J p) (w : World) :
    ∀ q ∈ (eachPort act e ps w).1, I q := by
  induction ps generalizing w with
  | nil => intro q hq; simp [eachPort] at hq
  | cons p ps ih =>
    intro q hq
    simp only [eachPort, List.mem_cons] at hq
    rcases hq with rfl | hq
    · exact ha p _ _ (hJ p (by simp))
    · exact ih (fun p hp => hJ p (by simp [hp])) _ q hq

theorem passes_bal (c : Merger A U V) (first second third : Int) (unstarted : Bool) (visited : Item V → Bool) (ps : List (Port V))
    (hk : ∀ p ∈ ps, ∀ k ∈ p.deferred, k ≠ []) (w : World) :
    Bal w (passes c first second third unstarted visited ps w).2.2 (ps.map (Port.held c c.gV)).sum
      (((passes c first second third unstarted visited ps w).2.1.map (Port.held c c.kV)).sum +
        storage c.kV c.sE c.pFree (passes c first second third unstarted visited ps w).1) := by
  unfold passes
  dsimp only
  set x := eachPort (fun p w => ({ p with deferred := (fuse c p.deferred w).1 }, (fuse c p.deferred w).2)) Port.err ps w with hx
  have h1 : Bal w x.2 (ps.map (Port.held c c.gV)).sum (x.1.map (Port.held c c.kV)).sum := by
    rw [hx]
    refine eachPort_bal (I := fun p => ∀ k ∈ p.deferred, k ≠ []) ?_ (fun _ _ => rfl) _ ps hk w
    intro p w hp
    refine ((fuse_bal c p.deferred hp w).frame
      (storage c.gV c.gE c.pFree p.deletions + storage c.kV c.sE c.pFree p.survivors)).cast ?_ ?_
    · unfold Port.held; abel
    · unfold Port.held; abel
  have hx1 : ∀ p ∈ x.1, ∀ k ∈ p.deferred, k ≠ [] := by
    rw [hx]
    refine eachPort_mem (J := fun p => ∀ k ∈ p.deferred, k ≠ []) (I := fun p => ∀ k ∈ p.deferred, k ≠ []) ?_ ps hk w
    intro p w _ hp
    exact fuse_ne c p.deferred hp w
  split
  · exact (h1.trans (Bal.err _ _ _)).cast rfl (by simp)
  split
  · exact (h1.trans (Bal.err _ _ _)).cast rfl (by simp)
  set y := eachPort (fun p w => ({ p with deferred := [], survivors := (mergeEdges c p.deferred p.survivors w).1 },
      (mergeEdges c p.deferred p.survivors w).2)) (fun _ => 0) x.1 x.2 with hy
  have h2 : Bal w y.2 (ps.map (Port.held c c.gV)).sum (y.1.map (Port.held c c.kV)).sum := by
    refine h1.trans ?_
    rw [hy]
    refine eachPort_bal (I := fun p => ∀ k ∈ p.deferred, k ≠ []) ?_ (fun _ _ => rfl) _ x.1 hx1 x.2
    intro p w hp
    refine ((mergeEdges_bal c p.deferred hp p.survivors w).frame (storage c.gV c.gE c.pFree p.deletions)).cast ?_ ?_
    · unfold Port.held; abel
    · unfold Port.held; simp [add_comm]
  split
  · exact (h2.trans (Bal.err _ _ _)).cast rfl (by simp)
  · refine (h2.trans (Bal.err _ _ _)).cast rfl ?_
    dsimp only
    generalize y.1 = qs
    induction qs with
    | nil => rfl
    | cons q qs ih =>
      simp only [List.map_cons, List.sum_cons, ih, List.flatMap_cons, storage_append]
      unfold Port.held
      rw [storage_filter c.kV c.sE c.pFree visited q.survivors]
      abel

theorem storage_stripped (v e p : Option Nat) (k : List (Item V)) :
    storage v e p k = storage v e p (k.map fun m => { m with prop := none }) + held p (k.map Item.prop) := by
  induction k with
  | nil => rfl
  | cons m k ih =>
    simp only [storage_cons, List.map_cons, held_cons, ih, Item.held, owned_none]
    abel

theorem finish_bal (c : Merger A U V) (hd : c.dE = c.sE) (reported : Bool) (last : Int) (x : List (Item V) × List (Port V) × World)
    (hb : (finish c reported last x).2.err ≠ -513) :
    Bal x.2.2 (finish c reported last x).2 ((x.2.1.map (Port.held c c.kV)).sum + storage c.kV c.sE c.pFree x.1)
      (storage c.kV c.sE c.pFree (finish c reported last x).1) := by
  unfold finish at hb ⊢
  dsimp only at hb ⊢
  set w0 := x.2.1.foldl (fun w p => demerge c p w) x.2.2 with hw0
  set w1 := if reported then w0 else { w0 with err := x.2.2.err } with hw1
  set w2 := (unpropped c x.1 w1).raise last with hw2
  set g := x.1.map fun m => { m with prop := none } with hg
  have h0 : Bal x.2.2 w1 ((x.2.1.map (Port.held c c.kV)).sum + storage c.kV c.sE c.pFree x.1) (storage c.kV c.sE c.pFree x.1) := by
    refine ((demerges_bal c hd x.2.1 x.2.2).frame (storage c.kV c.sE c.pFree x.1)).trans ?_
    rw [← hw0, hw1, zero_add]
    split
    · exact Bal.refl _ _
    · exact Bal.err _ _ _
  have h1 : Bal x.2.2 w2 ((x.2.1.map (Port.held c c.kV)).sum + storage c.kV c.sE c.pFree x.1) (storage c.kV c.sE c.pFree g) := by
    refine (h0.trans (((unpropped_bal c x.1 w1).frame (storage c.kV c.sE c.pFree g)).cast ?_ (by simp))).trans (Bal.raise _ _ _)
    rw [storage_stripped _ _ _ x.1, add_comm]
  by_cases he : w2.err = 0
  · rw [if_pos he]; exact h1
  · rw [if_neg he] at hb ⊢
    by_cases hb' : w2.err = -513
    · rw [if_pos hb'] at hb; exact absurd hb' hb
    · rw [if_neg hb']
      refine h1.trans ((freeNodes_bal c c.kV c.sE g w2).cast ?_ (by simp))
      rw [storage_split]
      have : held c.pFree (g.map Item.prop) = 0 := by
        rw [hg]
        generalize x.1 = k
        induction k with
        | nil => rfl
        | cons m k ih => simp only [List.map_cons, held_cons, owned_none, zero_add]; exact ih
      rw [this, add_zero]

end Cru.MergeAcc
