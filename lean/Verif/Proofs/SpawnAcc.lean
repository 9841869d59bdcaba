import Verif.Spec.SpawnAcc
import Verif.Proofs.Request
import Verif.Proofs.Trav
import Mathlib.Algebra.BigOperators.Fin

/-! # Accounting for new nodes -/

namespace Cru.SpawnAcc

open Net Fold
open MergeAcc (Bal)
open Request (Env alloc edge destroy_frame alloc_bal edge_bal edge_cases)

variable {n : Nat} {K C V : Type} {c : Env}

theorem owned_none (d : Option Nat) : owned d (none : Option (Obj V)) = 0 := by cases d <;> rfl

theorem applied_bal (f : Nat → Outcome V) (d : Option Nat) (w : World) (o : Multiset (Nat × Nat)) :
    Bal w (applied f d w).2 o (owned d (applied f d w).1 + o) :=
  ((Bal.of_account (applied_account f d w)).frame o).cast (by simp) rfl

theorem freeLabels_bal (c : Env) (ls : List (Option (Obj V))) (w : World) (o : Multiset (Nat × Nat)) :
    Bal w (freeLabels c ls w) (heldLabels c ls + o) o := by
  induction ls generalizing w with
  | nil => exact (Bal.refl w o).cast (by simp [heldLabels]) rfl
  | cons l ls ih =>
    refine ((destroy_frame c c.eFree l w _).trans (ih _)).cast ?_ rfl
    simp only [heldLabels, List.map_cons, List.sum_cons]; abel

theorem freeNode_bal (c : Env) (a : Node V) (w : World) (o : Multiset (Nat × Nat)) : Bal w (freeNode c a w) (a.held c + o) o := by
  refine ((freeLabels_bal c a.out w _).trans (destroy_frame c c.vFree a.vertex _ o)).cast ?_ rfl
  simp only [Node.held]; abel

theorem freeNodes_bal (c : Env) (as : List (Node V)) (w : World) (o : Multiset (Nat × Nat)) : Bal w (freeNodes c as w) (held c as + o) o := by
  induction as generalizing w with
  | nil => exact (Bal.refl w o).cast (by simp [held]) rfl
  | cons a as ih =>
    refine ((freeNode_bal c a w _).trans (ih _)).cast ?_ rfl
    simp only [held, List.map_cons, List.sum_cons]; abel

theorem newEdges_bal (c : Env) (ef : Nat → C → Outcome V) (es : List (C × K)) (ls : List (Option (Obj V) × K)) (w : World)
    (o : Multiset (Nat × Nat)) :
    Bal w (newEdges c ef es ls w).2 (heldLabels c (ls.map Prod.fst) + o) (heldLabels c ((newEdges c ef es ls w).1.map Prod.fst) + o) := by
  induction es generalizing ls w with
  | nil => exact Bal.refl w _
  | cons e es ih =>
    unfold newEdges
    by_cases hw : w.err ≠ 0
    · rw [if_pos hw]; exact Bal.refl w _
    · rw [if_neg hw]
      dsimp only
      have h1 := applied_bal (fun t => ef t e.1) c.eFree w (heldLabels c (ls.map Prod.fst) + o)
      generalize applied (fun t => ef t e.1) c.eFree w = x at h1 ⊢
      have h2 := edge_bal c x.1 none [] x.2 (heldLabels c (ls.map Prod.fst) + o)
      have h3 := ih ((edge c x.1 none [] x.2).1.map (fun y => (y.label, e.2)) ++ ls) (edge c x.1 none [] x.2).2
      refine h1.trans ((h2.cast ?_ rfl).trans (h3.cast ?_ rfl))
      · simp [owned_none]
      · rcases edge_cases c x.1 none [] x.2 with h | h <;> rw [h] <;>
          simp [heldLabels, Request.Edge.held, owned_none, add_assoc]

theorem scatterOut_bal (c : Env) (res : Nat → Bool) (es : List (Option (Obj V) × K)) (w : World) (o : Multiset (Nat × Nat)) :
    Bal w (scatterOut c res es w).2 (heldLabels c (es.map Prod.fst) + o) (heldLabels c (scatterOut c res es w).1.1 + o) := by
  induction es generalizing w o with
  | nil => exact Bal.refl w _
  | cons e es ih =>
    unfold scatterOut
    split_ifs with h
    · refine (alloc_bal c w _).trans ((freeLabels_bal c _ _ o).cast rfl ?_)
      simp [heldLabels, owned_none]
    · refine (alloc_bal c w _).trans ((ih (alloc c w) (owned c.eFree e.1 + o)).cast ?_ ?_)
      · simp only [heldLabels, List.map_cons, List.sum_cons]; abel
      · simp only [heldLabels, List.map_cons, List.sum_cons]; abel

/-- What a reply holds. -/
def Reply.held (c : Env) (r : Reply K V) : Multiset (Nat × Nat) := SpawnAcc.held c r.node.toList

theorem Reply.held_none (c : Env) (l : List K) : (⟨none, l⟩ : Reply K V).held c = 0 := rfl

theorem Reply.held_some (c : Env) (a : Node V) (l : List K) : (⟨some a, l⟩ : Reply K V).held c = a.held c := by
  simp [Reply.held, SpawnAcc.held]

theorem applied_err (f : Nat → Outcome V) (d : Option Nat) (w : World) (hf : ∀ t, (f t).ux ≠ 0 → (f t).val = none)
    (h : (applied f d w).2.err ≠ 0) : (applied f d w).1 = none := by
  unfold applied at h ⊢
  by_cases hw : w.err ≠ 0
  · rw [if_pos hw]
  · rw [if_neg hw] at h ⊢
    simp only [World.raise, if_neg hw] at h ⊢
    rw [hf _ h]; rfl

theorem newNode_bal (c : Env) (res : Nat → Bool) (vf : Nat → K → Outcome V) (ef : Nat → C → Outcome V) (out : K → List (C × K))
    (hv : ∀ t k, (vf t k).ux ≠ 0 → (vf t k).val = none) (k : K) (w : World) (o : Multiset (Nat × Nat)) :
    Bal w (newNode c res vf ef out k w).2 o ((newNode c res vf ef out k w).1.held c + o) := by
  unfold newNode
  dsimp only
  have h1 := applied_bal (fun t => vf t k) c.vFree w o
  have h0 := applied_err (fun t => vf t k) c.vFree w (fun t => hv t k)
  generalize applied (fun t => vf t k) c.vFree w = v at h0 h1 ⊢
  by_cases e1 : v.2.err ≠ 0
  · rw [if_pos e1]
    exact h1.cast rfl (by rw [h0 e1, owned_none, Reply.held_none])
  · rw [if_neg e1]
    by_cases e2 : (alloc c v.2).err ≠ 0
    · rw [if_pos e2]
      refine h1.trans ((alloc_bal c v.2 _).trans ((destroy_frame c c.vFree v.1 _ o).cast rfl ?_))
      rw [Reply.held_none, zero_add]
    · rw [if_neg e2]
      have h3 := newEdges_bal c ef (out k) [] (alloc c v.2) (owned c.vFree v.1 + o)
      generalize newEdges c ef (out k) [] (alloc c v.2) = x at h3 ⊢
      have h4 : Bal w x.2 o ((⟨v.1, x.1.map Prod.fst⟩ : Node V).held c + o) := by
        refine (h1.trans ((alloc_bal c v.2 _).trans (h3.cast ?_ rfl))).cast rfl ?_
        · simp [heldLabels]
        · simp only [Node.held]; abel
      have h5 : ∀ w2 : World, w2 = (if x.2.err ≠ 0 then x.2 else alloc c x.2) → Bal w w2 o ((⟨v.1, x.1.map Prod.fst⟩ : Node V).held c + o) := by
        rintro w2 rfl
        split_ifs
        · exact h4
        · exact h4.trans (alloc_bal c x.2 _)
      have h6 := h5 _ rfl
      generalize (if x.2.err ≠ 0 then x.2 else alloc c x.2) = w2 at h6 ⊢
      by_cases e3 : w2.err ≠ 0
      · rw [if_pos e3]
        refine h6.trans ((freeNode_bal c _ _ o).cast rfl ?_)
        rw [Reply.held_none, zero_add]
      · rw [if_neg e3]
        refine h6.trans ((scatterOut_bal c res x.1 w2 (owned c.vFree v.1 + o)).cast ?_ ?_)
        · simp only [Node.held]; abel
        · rw [Reply.held_some]; simp only [Node.held]; abel

theorem packets_bal (c : Env) (pred : Nat → C → Verdict) (bop : Nat → C → Outcome V) (es : List (C × K)) (ps : List (Option (Obj V) × K))
    (w : World) (o : Multiset (Nat × Nat)) :
    Bal w (packets c pred bop es ps w).2 (heldLabels c (ps.map Prod.fst) + o) (heldLabels c ((packets c pred bop es ps w).1.map Prod.fst) + o) := by
  induction es generalizing ps w with
  | nil => exact Bal.refl w _
  | cons e es ih =>
    unfold packets
    by_cases hw : w.err ≠ 0
    · rw [if_pos hw]; exact Bal.refl w _
    · rw [if_neg hw]
      dsimp only
      have h1 := Bal.tick w (pred w.clock e.1).ux (heldLabels c (ps.map Prod.fst) + o) (u := w.upset || decide ((pred w.clock e.1).ux ≠ 0))
      generalize World.raise { w with clock := w.clock + 1, upset := w.upset || decide ((pred w.clock e.1).ux ≠ 0) } (pred w.clock e.1).ux = w1 at h1 ⊢
      by_cases e1 : w1.err ≠ 0 ∨ (pred w.clock e.1).val = false
      · rw [if_pos e1]; exact h1.trans (ih _ _)
      · rw [if_neg e1]
        have h2 := h1.trans (alloc_bal c w1 _)
        by_cases e2 : (alloc c w1).err ≠ 0
        · rw [if_pos e2]; exact h2.trans (ih _ _)
        · rw [if_neg e2]
          have h3 := h2.trans (applied_bal (fun t => bop t e.1) c.eFree (alloc c w1) _)
          generalize applied (fun t => bop t e.1) c.eFree (alloc c w1) = x at h3 ⊢
          by_cases e3 : x.2.err ≠ 0
          · rw [if_pos e3]; exact h3.trans ((destroy_frame c c.eFree x.1 x.2 _).trans (ih _ _))
          · rw [if_neg e3]
            have h4 : ∀ w3 : World, w3 = (if (alloc c x.2).err ≠ 0 then alloc c x.2 else alloc c (alloc c x.2)) →
                Bal w w3 (heldLabels c (ps.map Prod.fst) + o) (owned c.eFree x.1 + (heldLabels c (ps.map Prod.fst) + o)) := by
              rintro w3 rfl
              split_ifs
              · exact h3.trans (alloc_bal c x.2 _)
              · exact h3.trans ((alloc_bal c x.2 _).trans (alloc_bal c _ _))
            have h5 := h4 _ rfl
            generalize (if (alloc c x.2).err ≠ 0 then alloc c x.2 else alloc c (alloc c x.2)) = w3 at h5 ⊢
            by_cases e4 : w3.err ≠ 0
            · rw [if_pos e4]; exact h5.trans ((destroy_frame c c.eFree x.1 w3 _).trans (ih _ _))
            · rw [if_neg e4]
              refine h5.trans ((ih ((x.1, e.2) :: ps) w3).cast ?_ rfl)
              simp only [heldLabels, List.map_cons, List.sum_cons]; abel

theorem heldLabels_reverse (c : Env) (ls : List (Option (Obj V))) : heldLabels c ls.reverse = heldLabels c ls := by
  unfold heldLabels
  rw [List.map_reverse, List.sum_reverse]

theorem reachedNewNode_bal (c : Env) (vp : Nat → K → Outcome V) (pred : Nat → C → Verdict) (bop : Nat → C → Outcome V)
    (out : K → List (C × K)) (k : K) (w : World) (o : Multiset (Nat × Nat)) :
    Bal w (reachedNewNode c vp pred bop out k w).2 o ((reachedNewNode c vp pred bop out k w).1.held c + o) := by
  unfold reachedNewNode
  dsimp only
  have h1 := (packets_bal c pred bop (out k) [] w o).cast (by simp [heldLabels] : _ = o) rfl
  generalize packets c pred bop (out k) [] w = p at h1 ⊢
  by_cases e1 : p.2.err ≠ 0
  · rw [if_pos e1]
    exact h1.trans ((freeLabels_bal c _ _ o).cast rfl (by rw [Reply.held_none, zero_add]))
  · rw [if_neg e1]
    have h2 := h1.trans (alloc_bal c p.2 _)
    by_cases e2 : (alloc c p.2).err ≠ 0
    · rw [if_pos e2]
      exact h2.trans ((freeLabels_bal c _ _ o).cast rfl (by rw [Reply.held_none, zero_add]))
    · rw [if_neg e2]
      have h3 := h2.trans (applied_bal (fun t => vp t k) c.vFree (alloc c p.2) _)
      generalize applied (fun t => vp t k) c.vFree (alloc c p.2) = v at h3 ⊢
      have h4 : ∀ w2 : World, w2 = (if v.2.err ≠ 0 then v.2 else alloc c v.2) →
          Bal w w2 o (owned c.vFree v.1 + (heldLabels c (p.1.map Prod.fst) + o)) := by
        rintro w2 rfl
        split_ifs
        · exact h3
        · exact h3.trans (alloc_bal c v.2 _)
      have h5 := h4 _ rfl
      generalize (if v.2.err ≠ 0 then v.2 else alloc c v.2) = w2 at h5 ⊢
      by_cases e3 : w2.err ≠ 0
      · rw [if_pos e3]
        refine h5.trans (((freeNode_bal c ⟨v.1, []⟩ w2 (heldLabels c (p.1.map Prod.fst) + o)).cast ?_ rfl).trans
          ((freeLabels_bal c _ _ o).cast rfl (by rw [Reply.held_none, zero_add])))
        simp [Node.held, heldLabels]
      · rw [if_neg e3]
        refine h5.cast rfl ?_
        rw [Reply.held_some, Node.held, heldLabels_reverse]; abel

/-! ## Workers -/

theorem heldLabels_set (c : Env) (ls : List (Option (Obj V))) (q : Nat) :
    heldLabels c ls = owned c.eFree (ls[q]?).join + heldLabels c (ls.set q none) := by
  induction ls generalizing q with
  | nil => simp [heldLabels, owned_none]
  | cons l ls ih =>
    cases q with
    | zero => simp [heldLabels, owned_none]
    | succ q =>
      have := ih q
      simp only [heldLabels, List.map_cons, List.sum_cons, List.set_cons_succ, List.getElem?_cons_succ] at this ⊢
      rw [this]; abel

theorem held_clear (c : Env) (as : List (Node V)) (k q : Nat) : held c as = owned c.eFree (labelAt as k q) + held c (clearAt as k q) := by
  induction as generalizing k with
  | nil => simp [held, labelAt, clearAt, owned_none]
  | cons a as ih =>
    cases k with
    | zero =>
      simp only [held, List.map_cons, List.sum_cons, labelAt, clearAt, List.modify_zero_cons, Node.held, List.getElem?_cons_zero, Option.bind_some]
      rw [heldLabels_set c a.out q]; abel
    | succ k =>
      have := ih k
      simp only [held, List.map_cons, List.sum_cons, labelAt, clearAt, List.modify_succ_cons, List.getElem?_cons_succ] at this ⊢
      rw [this]; abel

theorem allHeld_update (c : Env) (as : Fin n → List (Node V)) (i : Fin n) (l : List (Node V)) :
    ∃ o, allHeld c as = held c (as i) + o ∧ allHeld c (Function.update as i l) = held c l + o := by
  refine ⟨∑ j ∈ Finset.univ.erase i, held c (as j), ?_, ?_⟩
  · exact (Finset.add_sum_erase _ (fun j => held c (as j)) (Finset.mem_univ i)).symm
  · rw [allHeld, ← Finset.add_sum_erase _ _ (Finset.mem_univ i), Function.update_self]
    congr 1
    refine Finset.sum_congr rfl fun j hj => ?_
    rw [Function.update_of_ne (Finset.ne_of_mem_erase hj)]

/-- The ledger is balanced. -/
def Good (c : Env) (s : Work n K V) : Prop := s.mem.world.WF ∧ s.mem.world.made = s.mem.world.freed + allHeld c s.mem.nodes

theorem Good.step {s : Work n K V} (h : Good c s) {as : Fin n → List (Node V)} {w : World}
    (hb : Bal s.mem.world w (allHeld c s.mem.nodes) (allHeld c as)) : w.WF ∧ w.made = w.freed + allHeld c as := by
  refine ⟨hb.wf h.1, ?_⟩
  exact (Request.Exact.bal hb h.1 h.2).2

theorem Good.discard {s : Work n K V} (h : Good c s) (b : Bool) (i : Fin n) (p : Pkt n K) : Good c (discard c b i s p) := by
  unfold SpawnAcc.discard
  rcases p.carrier with _ | ⟨j, k, q⟩
  · exact h
  · dsimp only
    split_ifs
    · obtain ⟨o, h1, h2⟩ := allHeld_update c s.mem.nodes j (clearAt (s.mem.nodes j) k q)
      refine h.step ?_
      refine (Bal.err s.mem.world (s.err i) _).trans ((destroy_frame c c.eFree (labelAt (s.mem.nodes j) k q) _ (held c (clearAt (s.mem.nodes j) k q) + o)).cast ?_ h2.symm)
      rw [h1, held_clear c (s.mem.nodes j) k q, add_assoc]
    · exact h

/-- Making a node is accounted for. -/
def Fair (c : Env) (make : K → World → Reply K V × World) : Prop :=
  ∀ k w o, Bal w (make k w).2 o ((make k w).1.held c + o)

theorem good_inv [DecidableEq K] {make : K → World → Reply K V × World} (hm : Fair c make) {b : Bool} {limit : Nat} {hash : K → Nat}
    {hn : 0 < n} {p₀ : Pkt n K} : ∀ x, Bag.Reach (task c make b limit hash hn) p₀ start x → Good c x.1 := by
  intro x hx
  induction hx with
  | init =>
    refine ⟨⟨fun x hx => absurd hx (Multiset.notMem_zero x), Multiset.nodup_zero⟩, ?_⟩
    simp [start, Trav.start, allHeld, held]
  | step hr hs ih =>
    cases hs with
    | env e s m => exact ih
    | handle s p rest =>
      simp only [task, handle]
      generalize Build.lane hn (hash p.key) = i
      obtain ⟨sample, stop, e, -⟩ := Trav.poll_eq s i
      rw [e]
      have ih' : Good c { s with sample := sample, stop := stop } := ih
      generalize ({ s with sample := sample, stop := stop } : Work n K V) = s' at ih' ⊢
      have ha : Good c
          { s' with err := Function.update s'.err i (alloc c { s'.mem.world with err := 0 }).err, mem := { s'.mem with world := alloc c { s'.mem.world with err := 0 } } } :=
        ih'.step ((Bal.err _ 0 _).trans (alloc_bal c _ _))
      split_ifs with c1 c2 c3 c4
      · exact ih'.discard _ _ _
      · exact ha.discard _ _ _
      · exact ha
      · exact ha
      · obtain ⟨o, h1, h2⟩ := allHeld_update c s'.mem.nodes i
          (s'.mem.nodes i ++ (make p.key (alloc c { s'.mem.world with err := 0 })).1.node.toList)
        refine ih'.step ((Bal.err _ 0 _).trans ((alloc_bal c _ _).trans ((hm p.key _ _).cast rfl ?_)))
        change _ = allHeld c (Function.update s'.mem.nodes i _)
        rw [h2, h1, held, held, List.map_append, List.sum_append, Reply.held, SpawnAcc.held]; abel

/-! ## The end -/

theorem released_bal (c : Env) (s : Work n K V) (l : List (Fin n)) (w : World) (o : Multiset (Nat × Nat)) :
    Bal w (l.foldl (fun w i => if s.err i ≠ 0 then freeNodes c (s.mem.nodes i) w else w) w)
      ((l.map fun i => held c (s.mem.nodes i)).sum + o)
      (held c (l.flatMap fun i => if s.err i ≠ 0 then [] else s.mem.nodes i) + o) := by
  induction l generalizing w o with
  | nil => exact (Bal.refl w o).cast (by simp) (by simp [held])
  | cons i l ih =>
    rw [List.foldl_cons, List.flatMap_cons, List.map_cons, List.sum_cons]
    by_cases h : s.err i ≠ 0
    · rw [if_pos h, if_pos h, List.nil_append]
      exact ((freeNodes_bal c _ w _).trans (ih _ o)).cast (by abel) rfl
    · rw [if_neg h, if_neg h]
      refine (ih w (held c (s.mem.nodes i) + o)).cast (by abel) ?_
      simp only [held, List.map_append, List.sum_append]; abel

theorem finish_bal (c : Env) (s : Work n K V) :
    Bal s.mem.world (finish c s).2 (allHeld c s.mem.nodes) (held c ((finish c s).1.getD [])) := by
  have h1 := (Bal.err s.mem.world (status s) _).trans (released_bal c s (List.finRange n) { s.mem.world with err := status s } 0)
  have h2 : (List.map (fun i => held c (s.mem.nodes i)) (List.finRange n)).sum + 0 = allHeld c s.mem.nodes := by
    rw [add_zero, allHeld, ← List.ofFn_eq_map, List.sum_ofFn]
  have h3 : Bal s.mem.world (released c s { s.mem.world with err := status s }) (allHeld c s.mem.nodes) (held c (union s) + 0) :=
    h1.cast h2 rfl
  have h0 : held c ((none : Option (List (Node V))).getD []) = 0 := by simp [held]
  unfold finish
  dsimp only
  generalize released c s { s.mem.world with err := status s } = w at h3 ⊢
  split_ifs
  · exact h3.trans ((freeNodes_bal c _ w 0).cast rfl h0.symm)
  · exact h3.trans ((alloc_bal c w _).trans ((freeNodes_bal c _ _ 0).cast rfl h0.symm))
  · exact h3.trans ((alloc_bal c w _).trans ((Bal.raise _ _ _).trans ((freeNodes_bal c _ _ 0).cast rfl h0.symm)))
  · exact h3.trans ((alloc_bal c w _).cast rfl (by simp))

end Cru.SpawnAcc
