import Verif.Proofs.Says
import Verif.Model.MergeAcc

/-! # No error is lost: folds and merging -/

namespace Cru.Fold

variable {A U V : Type} (fails : Nat → Nat → Int)

theorem seed_says (m : CruFold A V) (e : A) (w : World) : Says w (m.seed e w).2 := by
  unfold CruFold.seed
  split
  · exact applied_says _ _ w
  · exact applied_says _ _ w
  · exact .refl w

theorem next_says (m : CruFold A V) (e : A) (w : World) : Says w (m.next e w).2 := by
  unfold CruFold.next
  split
  · exact applied_says _ _ w
  · exact applied_says _ _ w
  · exact .refl w

theorem foldLoop_says (m : CruFold A V) {mapAct : A → World → Option (Obj V) × World} (hm : ∀ e w, Says w (mapAct e w).2)
    (red : Nat → Option V → Option V → Outcome V) (es : List A) (r : Option (Obj V)) (w : World) : Says w (foldLoop fails m red mapAct es r w).2 := by
  induction es generalizing r w with
  | nil => exact .refl w
  | cons e es ih =>
    unfold foldLoop
    by_cases h : w.err ≠ 0
    · rw [if_pos h]; exact .refl w
    rw [if_neg h]
    refine Says.trans ?_ (ih _ _)
    refine Says.trans ?_ ((destroy_says _ _ _ _).trans (destroy_says _ _ _ _))
    split_ifs
    · exact hm e w
    · exact (hm e w).trans (applied_says _ _ _)

theorem foldTail_says (m : CruFold A V) {mapAct : A → World → Option (Obj V) × World} (hm : ∀ e w, Says w (mapAct e w).2) (noRed : Int) (es : List A)
    {w : World} (s : Option (Obj V) × World) (hs : Says w s.2) : Says w (foldTail fails m mapAct noRed es s).2 := by
  unfold foldTail
  have h : Says w (match es, m.reduction with
    | [], _ => s
    | _ :: _, none => (s.1, s.2.raise noRed)
    | _ :: _, some red => foldLoop fails m red mapAct es s.1 s.2).2 := by
    split
    · exact hs
    · exact hs.trans (Says.raise _ _)
    · exact hs.trans (foldLoop_says fails m hm _ _ _ _)
  dsimp only
  split_ifs
  · exact h.trans (destroy_says _ _ _ _)
  · exact h

theorem foldWith_says (m : CruFold A V) {seedAct mapAct : A → World → Option (Obj V) × World} (hs : ∀ e w, Says w (seedAct e w).2)
    (hm : ∀ e w, Says w (mapAct e w).2) (badFree noRed : Int) (es : List A) (w : World) :
    Says w (foldWith fails m seedAct mapAct badFree noRed es w).2 := by
  unfold foldWith
  split
  · exact Says.raise _ _
  · exact applied_says _ _ w
  · exact foldTail_says fails m hm _ _ _ (applied_says _ _ w)
  · split_ifs
    · exact Says.raise _ _
    · exact foldTail_says fails m hm _ _ _ (hs _ w)

theorem reducedEdges_says (m : CruFold A V) (es : List A) (w : World) : Says w (reducedEdges fails m es w).2 := by
  unfold reducedEdges
  split_ifs
  · exact Says.raise _ _
  · exact foldWith_says fails m (seed_says m) (next_says m) _ _ es w

theorem reducedIf_says (m : Option (CruFold A V)) (es : List A) (w : World) : Says w (reducedIf fails m es w).2 := by
  unfold reducedIf
  split
  · exact .refl w
  · exact reducedEdges_says fails _ es w

theorem mappedNode_says (p : CruProp A U V) (n : Vertex A U) (w : World) : Says w (mappedNode fails p n w).2 := by
  unfold mappedNode
  by_cases h1 : p.vertex.map.isNone ∧ p.vertex.bmap.isNone
  · rw [if_pos h1]; exact Says.raise _ _
  rw [if_neg h1]
  by_cases h2 : w.err ≠ 0
  · rw [if_pos h2]; exact .refl w
  rw [if_neg h2]
  have h : Says w (destroy fails (rFreeOf (p.outgoing n.vertex)) (reducedIf fails (p.outgoing n.vertex) n.edgesOut (reducedIf fails (p.incident n.vertex) n.edgesIn w).2).1
      (destroy fails (rFreeOf (p.incident n.vertex)) (reducedIf fails (p.incident n.vertex) n.edgesIn w).1
        (p.vertex.seed ((reducedIf fails (p.incident n.vertex) n.edgesIn w).1.map Obj.val, n.vertex,
          (reducedIf fails (p.outgoing n.vertex) n.edgesOut (reducedIf fails (p.incident n.vertex) n.edgesIn w).2).1.map Obj.val)
          (reducedIf fails (p.outgoing n.vertex) n.edgesOut (reducedIf fails (p.incident n.vertex) n.edgesIn w).2).2).2)) :=
    (((reducedIf_says fails _ _ w).trans (reducedIf_says fails _ _ _)).trans (seed_says _ _ _)).trans
      ((destroy_says _ _ _ _).trans (destroy_says _ _ _ _))
  dsimp only
  split_ifs
  · exact h.trans (destroy_says _ _ _ _)
  · exact h

theorem reducedNodes_says (p : CruProp A U V) (ns : List (Vertex A U)) (w : World) : Says w (reducedNodes fails p ns w).2 :=
  foldWith_says fails _ (mappedNode_says fails p) (mappedNode_says fails p) _ _ ns w

end Cru.Fold

namespace Cru.MergeAcc

open Fold

variable {A U V : Type} (c : Merger A U V)

theorem destroyAll_says (d : Option Nat) (xs : List (Option (Obj V))) (w : World) : Says w (destroyAll c d xs w) :=
  foldl_says _ (fun _ _ => destroy_says _ _ _ _) xs w

theorem freeNodes_says (v e : Option Nat) (k : List (Item V)) (w : World) : Says w (freeNodes c v e k w) :=
  foldl_says _ (fun _ _ => (destroyAll_says c _ _ _).trans (destroy_says _ _ _ _)) k w

theorem discard_says (v e : Option Nat) (k : List (Item V)) (w : World) : Says w (discard c v e k w) :=
  (destroyAll_says c _ _ w).trans (freeNodes_says c _ _ _ _)

theorem demerge_says (p : Port V) (w : World) : Says w (demerge c p w) :=
  ((foldl_says _ (fun _ _ => discard_says c _ _ _ _) _ w).trans (discard_says c _ _ _ _)).trans (discard_says c _ _ _ _)

theorem fuseOne_says (k : List (Item V)) (w : World) : Says w (fuseOne c k w).2 := by
  have h0 : Says w (crowded c k w) := by
    unfold crowded
    split_ifs
    · exact Says.raise _ _
    · exact .refl w
  unfold fuseOne
  dsimp only
  by_cases h : (crowded c k w).err = 0 ∧ c.vop.isNone
  · rw [if_pos h]; exact h0
  · rw [if_neg h]
    refine h0.trans (Says.trans ?_ (destroyAll_says c _ _ _))
    split
    · exact .refl _
    · split_ifs
      · exact .refl _
      · exact reducedNodes_says _ _ _ _

theorem fuse_says (ks : List (List (Item V))) (w : World) : Says w (fuse c ks w).2 := by
  induction ks generalizing w with
  | nil => exact .refl w
  | cons k ks ih => exact (fuseOne_says c k w).trans (ih _)

theorem pruneLoop_says (f : Nat → Edge V → Bool × Int) (es : List (Edge V)) (w : World) : Says w (pruneLoop f es w).2 := by
  induction es generalizing w with
  | nil => exact .refl w
  | cons e es ih =>
    unfold pruneLoop
    by_cases h : w.err ≠ 0
    · rw [if_pos h]; exact ih w
    rw [if_neg h]
    dsimp only
    split_ifs
    · refine Says.trans ?_ (ih _)
      exact Says.called rfl (by simp)
    · refine Says.trans ?_ (ih _)
      exact Says.called rfl (by simp)

theorem filterEdges_says (es : List (Edge V)) (w : World) : Says w (filterEdges c es w).2 := by
  unfold filterEdges
  split
  · exact .refl w
  · exact (pruneLoop_says _ es w).trans (destroyAll_says c _ _ _)

theorem brigade_says (es : List (Edge V)) (w : World) : Says w (brigade c es w).2 := by
  unfold brigade
  split_ifs
  · exact destroyAll_says c _ _ _
  · exact .refl w

theorem repeating_says (seen es : List (Edge V)) (w : World) : Says w (repeating c seen es w).2 := by
  induction es generalizing w seen with
  | nil => unfold repeating; exact .refl w
  | cons e es ih =>
    unfold repeating
    dsimp only
    split_ifs
    · exact .refl w
    · exact ih _ w
    · refine Says.trans ?_ (ih _ _)
      exact Says.called rfl (by simp)
    · refine Says.trans ?_ (ih _ _)
      exact Says.called rfl (by simp)

theorem dedupLoop_says (bs : List (List (Edge V))) (r : List (Edge V)) (w : World) : Says w (dedupLoop c bs r w).2 := by
  induction bs generalizing w r with
  | nil => exact .refl w
  | cons b bs ih => exact ((repeating_says c [] b w).trans (destroyAll_says c _ _ _)).trans (ih _ _)

theorem reduceLoop_says (m : CruFold A V) (bs : List (List (Edge V))) (r : List (Edge V)) (w : World) : Says w (reduceLoop c m bs r w).2 := by
  induction bs generalizing w r with
  | nil => exact .refl w
  | cons b bs ih =>
    cases b with
    | nil => unfold reduceLoop; exact (Says.raise _ _).trans (ih _ _)
    | cons e b =>
      unfold reduceLoop
      dsimp only
      have h := reducedEdges_says c.fails m ((e :: b).map c.operand) w
      split_ifs
      · exact (h.trans ((destroy_says _ _ _ _).trans (destroyAll_says c _ _ _))).trans (ih _ _)
      · exact (h.trans (destroyAll_says c _ _ _)).trans (ih _ _)

theorem unlessError_says (d : Option Nat) {w : World} (x : List (Edge V) × World) (h : Says w x.2) : Says w (unlessError c d x).2 := by
  unfold unlessError
  split_ifs
  · exact h.trans (destroyAll_says c _ _ _)
  · exact h

theorem fusedEdges_says (k : List (Item V)) (w : World) : Says w (fusedEdges c k w).2 := by
  unfold fusedEdges
  dsimp only
  have h1 : Says w (if c.pruner.isSome then { w with upset := w.upset || decide (c.recording w.clock (k.flatMap Item.out).reverse ≠ 0) }.raise
      (c.recording w.clock (k.flatMap Item.out).reverse) else w) := by
    split_ifs
    · exact Says.called rfl (by simp)
    · exact .refl w
  generalize (if c.pruner.isSome then _ else w) = w1 at h1 ⊢
  have h2 := (h1.trans (filterEdges_says c (k.flatMap Item.out).reverse w1)).trans
    (brigade_says c (filterEdges c (k.flatMap Item.out).reverse w1).1 _)
  split
  · exact unlessError_says c _ _ (h2.trans (dedupLoop_says c _ _ _))
  · exact unlessError_says c _ _ (h2.trans (reduceLoop_says c _ _ _ _))

theorem mergeOne_says (k : List (Item V)) (w : World) : Says w (mergeOne c k w).2 := by
  unfold mergeOne
  split_ifs
  · exact destroyAll_says c _ _ _
  · exact fusedEdges_says c k w

theorem mergeEdges_says (ks : List (List (Item V))) (r : List (Item V)) (w : World) : Says w (mergeEdges c ks r w).2 := by
  induction ks generalizing w r with
  | nil => exact .refl w
  | cons k ks ih => exact (mergeOne_says c k w).trans (ih _ _)

/-- Errors of workers stay with them. -/
theorem eachPort_tells {act : Port V → World → Port V × World} (ha : ∀ p w, Says w (act p w).2) (e : Port V → Int) (ps : List (Port V)) (w : World)
    (hz : ∀ q ∈ (eachPort act e ps w).1, q.err = 0) :
    ((eachPort act e ps w).2.upset = true → w.upset = true) ∧ ∀ p ∈ ps, e p = 0 := by
  induction ps generalizing w with
  | nil => exact ⟨id, by simp⟩
  | cons p ps ih =>
    unfold eachPort at hz ⊢
    dsimp only at hz ⊢
    simp only [List.mem_cons, forall_eq_or_imp] at hz ⊢
    obtain ⟨h1, h2⟩ := ih _ hz.2
    have h := ha p { w with err := e p }
    exact ⟨fun hu => h.upset hz.1 (h1 hu), h.err hz.1, h2⟩

theorem status_zero (ps : List (Port V)) (late : Int) : status ps late = 0 ↔ (∀ p ∈ ps, p.err = 0) ∧ late = 0 := by
  unfold status
  cases hf : ps.find? fun p => p.err ≠ 0 with
  | none =>
    have : ∀ p ∈ ps, p.err = 0 := by simpa using hf
    simpa using fun _ => this
  | some p =>
    have h1 : p.err ≠ 0 := by simpa using List.find?_some hf
    have h2 := List.mem_of_find?_eq_some hf
    simpa [h1] using fun h => absurd (h p h2) h1

end Cru.MergeAcc
