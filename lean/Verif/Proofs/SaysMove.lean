import Verif.Proofs.SaysSplit
import Verif.Proofs.ComposeAcc
import Verif.Proofs.GatherEnd
import Verif.Model.MutateAcc

/-! # No error is lost: postponing, mutating and composing -/

namespace Cru.PostponeAcc

open Net Fold
open Request (Env alloc alloc_says edge edge_says)
open SpawnAcc (Verdict)
open SplitAcc (passed passed_says unsent)
open DedupAcc (Edge freeEdges freeEdges_says dedup dedup_says)

variable {n : Nat} {N V : Type} {c : Env} {o : Ops V} {res : Nat → Bool}

theorem scatter_says (es : List (Edge N V)) (w : World) : Says w (scatter c res es w).2 := by
  induction es generalizing w with
  | nil => exact .refl w
  | cons e es ih =>
    unfold scatter
    split_ifs
    · exact alloc_says c w
    · exact (alloc_says c w).trans (ih _)

theorem bipartition_says [DecidableEq N] (m : N) (es st mv : List (Edge N V)) (w : World) : Says w (bipartition o m es st mv w).world := by
  induction es generalizing st mv w with
  | nil => exact .refl w
  | cons e es ih =>
    unfold bipartition
    dsimp only
    split_ifs
    · exact .refl w
    · exact ih _ _ _
    · exact (passed_says _ _).trans (ih _ _ _)
    · exact (passed_says _ _).trans (ih _ _ _)

theorem postponed_says (l : Edge N V) (es : List (Edge N V)) (w : World) : Says w (postponed c o res l es w).2 := by
  induction es generalizing w with
  | nil => exact .refl w
  | cons e es ih =>
    unfold postponed
    dsimp only
    by_cases h : w.err ≠ 0
    · rw [if_pos h]; exact .refl w
    rw [if_neg h]
    have h1 := passed_says o.bpred w
    generalize passed o.bpred w = p at h1 ⊢
    by_cases h : p.1 = false
    · rw [if_pos h]; exact h1.trans (ih _)
    rw [if_neg h]
    have h2 := h1.trans (applied_says o.bop c.eFree p.2)
    generalize applied o.bop c.eFree p.2 = x at h2 ⊢
    have h3 := h2.trans (edge_says c x.1 none [] x.2)
    generalize edge c x.1 none [] x.2 = y at h3 ⊢
    split
    · exact h3.trans (ih _)
    · split_ifs
      · exact h3.trans ((alloc_says _ _).trans ((destroy_says _ _ _ _).trans (ih _)))
      · exact h3.trans ((alloc_says _ _).trans (ih _))

theorem move_says (st ls acc : List (Edge N V)) (w : World) : Says w (move c o res st ls acc w).world := by
  induction ls generalizing acc w with
  | nil => exact .refl w
  | cons l ls ih =>
    unfold move
    dsimp only
    split_ifs
    · exact (postponed_says _ _ _).trans (ih _ _)
    · exact (postponed_says _ _ _).trans ((destroy_says _ _ _ _).trans (ih _ _))

theorem postpone_says [DecidableEq N] (m : N) (es : List (Edge N V)) (w : World) : Says w (postpone c o res m es w).world := by
  unfold postpone
  dsimp only
  split_ifs
  · exact .refl w
  · exact .refl w
  · exact bipartition_says _ _ _ _ _
  · exact (bipartition_says _ _ _ _ _).trans (move_says _ _ _ _)

theorem put_told {i : Fin n} {s s' : Work n N V} {h : Heap n N V} (ht : Told s.err s.mem.world) (he : s'.err = s.err)
    (hw : Says { s.mem.world with err := s.err i } h.world) : Told (put i s' h).err (put i s' h).mem.world := by
  unfold put; dsimp only; rw [he]; exact ht.step hw

theorem postponeIt_told [DecidableEq N] (i : Fin n) {s : Work n N V} (p : Pkt N V) (h : Told s.err s.mem.world) :
    Told (postponeIt c o res i s p).1.err (postponeIt c o res i s p).1.mem.world := by
  unfold postponeIt
  obtain ⟨p1, p2⟩ := SpawnAcc.poll_same s i
  have h' : Told (Trav.poll s i).err (Trav.poll s i).mem.world := by rw [p1, p2]; exact h
  generalize Trav.poll s i = s at h' ⊢
  cases p with
  | attach m e => exact put_told (s := s) h' rfl (.refl _)
  | visit m =>
    dsimp only
    split_ifs
    · exact h'
    · exact put_told (s := s) h' rfl (alloc_says _ _)
    · exact put_told (s := s) h' rfl ((alloc_says _ _).trans ((scatter_says _ _).trans (postpone_says _ _ _)))

theorem absorb_says [DecidableEq N] (addr : N → Nat) (i : Fin n) (h : Heap n N V) (m : N) : Says h.world (absorb c o addr i h m).world := by
  unfold absorb
  split_ifs
  · exact .refl _
  · exact dedup_says _ _ _ _

theorem absorbIt_told [DecidableEq N] (addr : N → Nat) (i : Fin n) {s : Work n N V} (m : N) (h : Told s.err s.mem.world) :
    Told (absorbIt c o res addr i s m).1.err (absorbIt c o res addr i s m).1.mem.world := by
  unfold absorbIt
  obtain ⟨p1, p2⟩ := SpawnAcc.poll_same s i
  have h' : Told (Trav.poll s i).err (Trav.poll s i).mem.world := by rw [p1, p2]; exact h
  generalize Trav.poll s i = s at h' ⊢
  dsimp only
  by_cases e1 : m ∈ s.seen i
  · rw [if_pos e1]; exact h'
  rw [if_neg e1]
  by_cases e2 : c.mem (own i s).world.clock = false
  · rw [if_pos e2]; exact put_told (s := s) h' rfl (alloc_says _ _)
  rw [if_neg e2]
  have h1 : Says { s.mem.world with err := s.err i } (alloc c (own i s).world) := alloc_says _ _
  by_cases e3 : s.err i ≠ 0 ∨ s.stop i = true
  · rw [if_pos e3]; exact put_told (s := s) h' rfl (h1.trans (destroy_says _ _ _ _))
  rw [if_neg e3]
  have h2 := h1.trans (absorb_says (c := c) (o := o) addr i { own i s with world := alloc c (own i s).world } m)
  generalize absorb c o addr i { own i s with world := alloc c (own i s).world } m = a at h2 ⊢
  by_cases e4 : a.world.err ≠ 0
  · rw [if_pos e4]; exact put_told (s := s) h' rfl (h2.trans (destroy_says _ _ _ _))
  rw [if_neg e4]
  have h3 := h2.trans (scatter_says (c := c) (res := res) (a.out m) a.world)
  refine put_told (s := s) h' rfl ?_
  split_ifs
  · exact h3.trans (destroy_says _ _ _ _)
  · exact h3

theorem reach_told {P : Type} {T : Task n P (Work n N V) Unit} (hT : ∀ i s p, Told s.err s.mem.world → Told (T.handle i s p).1.err (T.handle i s p).1.mem.world)
    (hE : ∀ e s, (T.env e s).err = s.err ∧ (T.env e s).mem = s.mem) {p₀ : P} {g₀ : Work n N V} {x : Work n N V × Multiset P} (h : Bag.Reach T p₀ g₀ x)
    (h0 : g₀.mem.world.upset = false) : Told x.1.err x.1.mem.world := by
  induction h with
  | init => intro hu; rw [h0] at hu; cases hu
  | step _ hs ih =>
    cases hs with
    | handle g p b => exact hT _ _ _ ih
    | env e g b =>
      obtain ⟨e1, e2⟩ := hE e g
      dsimp only at ih ⊢
      rw [e1, e2]; exact ih

theorem pass_quiet {P : Type} {T : Task n P (Work n N V) Unit} (hn : 0 < n)
    (hT : ∀ i s p, Told s.err s.mem.world → Told (T.handle i s p).1.err (T.handle i s p).1.mem.world)
    (hE : ∀ e s, (T.env e s).err = s.err ∧ (T.env e s).mem = s.mem) {p : P} {h h' : Heap n N V} {k : Nat} (hp : Pass T p h h' k 0)
    (h0 : h.world.upset = false) : h'.world.upset = false := by
  rcases hp with ⟨-, -, he⟩ | ⟨x, late, hx, -, rfl, -, he⟩
  · exact absurd rfl he
  · have ht := reach_told hT hE (reach_bag hn hx) h0
    refine ht.quiet ?_
    have he' := he.symm
    unfold status at he'
    rw [first_zero] at he' ⊢
    exact ⟨rfl, fun e hm => he'.2 e (List.mem_append_left _ hm)⟩

theorem iter_quiet [DecidableEq N] {addr : N → Nat} {hn : 0 < n} {b : N} {h h' : Heap n N V} {k : Nat} (hi : Iter c o res addr hn b h h' k 0)
    (h0 : h.world.upset = false) : h'.world.upset = false := by
  obtain ⟨h₁, k₁, e₁, e₂, hp, ha, he⟩ := hi
  have h1 : e₁ = 0 := by by_contra hne; rw [if_pos hne] at he; exact hne he.symm
  subst h1
  rw [if_neg (by simp)] at he
  subst he
  exact pass_quiet hn (fun i s p => absorbIt_told addr i p) (fun _ _ => ⟨rfl, rfl⟩) ha
    (pass_quiet hn (fun i s p => postponeIt_told i p) (fun _ _ => ⟨rfl, rfl⟩) hp h0)

theorem loop_quiet [DecidableEq N] {addr : N → Nat} {hn : 0 < n} {b : N} {h h' : Heap n N V} {k : Nat} {e : Int} (hl : Loop c o res addr hn b h h' k e)
    (he : e = 0) (h0 : h.world.upset = false) : h'.world.upset = false := by
  induction hl with
  | last hi _ => subst he; exact iter_quiet hi h0
  | more hi _ _ ih => exact ih he (iter_quiet hi h0)

theorem freeNodes_says (h : Heap n N V) (ms : List N) (w : World) : Says w (freeNodes c h ms w) :=
  foldl_says _ (fun _ _ => (freeEdges_says _ _).trans (destroy_says _ _ _ _)) ms w

theorem finish_quiet (ms : List N) (h : Heap n N V) (k : Nat) (e : Int) (h0 : e = 0 → h.world.upset = false) (hf : (finish c ms h k e).2.err = 0) :
    (finish c ms h k e).2.upset = false := by
  have key : ∀ w, Says { h.world with err := e } w → w.err = 0 → w.upset = false := by
    intro w hw hz
    by_contra hn
    have := hw.upset hz (by simpa using hn)
    rw [show h.world.upset = false from h0 (hw.err hz)] at this
    cases this
  refine key _ ?_ hf
  unfold finish
  dsimp only
  split_ifs
  · exact freeNodes_says _ _ _
  · exact (Says.raise _ _).trans (freeNodes_says _ _ _)
  · exact .refl _

end Cru.PostponeAcc

namespace Cru.MutateAcc

open Net Fold
open Request (Env alloc alloc_says)
open SplitAcc (unsent)
open DedupAcc (Edge freeEdges freeEdges_says)
open PostponeAcc (scatter scatter_says)
open Mutate (Mark Packet Plan)

variable {n : Nat} {N V : Type} {c : Env} {k : Ops V} {res : Nat → Bool}

theorem freeLabels_says (d : Option Nat) (es : List (Edge N V)) (w : World) : Says w (freeLabels c d es w).2 :=
  foldl_says _ (fun _ _ => destroy_says _ _ _ _) es w

theorem relabel_says (o : Op V) (fwd blocked : Bool) (es : List (Edge N V)) (w : World) : Says w (relabel c o fwd blocked es w).2 := by
  induction es generalizing w with
  | nil => exact .refl w
  | cons e es ih =>
    unfold relabel
    dsimp only
    by_cases h : w.err ≠ 0
    · rw [if_pos h]; exact .refl w
    rw [if_neg h]
    have h1 : Says w (if blocked = true then ((none : Option (Obj V)), w) else applied o.map o.mFree w).2 := by
      split_ifs
      · exact .refl w
      · exact applied_says _ _ _
    generalize (if blocked = true then ((none : Option (Obj V)), w) else applied o.map o.mFree w) = x at h1 ⊢
    by_cases h : x.2.err ≠ 0
    · rw [if_pos h]; exact h1.trans (destroy_says _ _ _ _)
    rw [if_neg h]
    refine h1.trans (.trans ?_ (ih _))
    split_ifs
    · exact destroy_says _ _ _ _
    · exact .refl _

theorem permeate_says (o : Op V) (fwd blocked : Bool) (es : List (Edge N V)) (w : World) : Says w (permeate c o fwd blocked es w).2 := by
  unfold permeate
  dsimp only
  split_ifs
  · exact (relabel_says _ _ _ _ _).trans ((freeLabels_says _ _ _).trans (freeLabels_says _ _ _))
  · exact (relabel_says _ _ _ _ _).trans (freeLabels_says _ _ _)
  · exact relabel_says _ _ _ _ _

theorem reflect_says [DecidableEq N] (d : Option Nat) (m : N) (before : List N) (fs : List (Edge N V)) (es : N → List (Edge N V)) (w : World) :
    Says w (reflect c d m before fs es w).2 := by
  induction fs generalizing before es w with
  | nil => exact .refl w
  | cons e fs ih =>
    unfold reflect
    split
    · exact (Says.raise _ _).trans (ih _ _ _)
    · exact (destroy_says _ _ _ _).trans (ih _ _ _)

theorem undo_says [DecidableEq N] (d : Option Nat) (m : N) (fwd : Bool) (h : Heap n N V) : Says h.world (undo c d m fwd h).world := by
  unfold undo
  split_ifs
  · exact .refl _
  · generalize h.inn m = es
    induction es generalizing h with
    | nil => exact .refl _
    | cons e es ih =>
      rw [List.foldl_cons]
      refine Says.trans ?_ (ih _)
      exact foldl_says _ (fun _ _ => by split_ifs; exacts [destroy_says _ _ _ _, .refl _]) _ _

theorem mapped_says (o : Op V) (w : World) : Says w (mapped c o w).2 := by
  unfold mapped
  dsimp only
  split_ifs
  · exact (applied_says _ _ _).trans (destroy_says _ _ _ _)
  · exact applied_says _ _ _

theorem revised_says (blocked : Bool) (w : World) : Says w (revised c k blocked w).2 := by
  unfold revised
  split
  · exact .refl w
  · split_ifs
    · exact .refl w
    · exact mapped_says _ _

theorem relay_says [DecidableEq N] (fwd blocked : Bool) (h : Heap n N V) (m : N) : Says h.world (relay c k fwd blocked h m).world := by
  unfold relay
  split
  · exact .refl _
  · dsimp only
    by_cases hf : fwd = true
    · rw [if_pos hf]
      exact (permeate_says _ _ _ _ _).trans (reflect_says _ _ _ _ _ _)
    · rw [if_neg hf]
      split_ifs
      · refine Says.trans ?_ (undo_says (c := c) none m false _)
        exact (permeate_says _ _ _ _ _).trans (reflect_says _ _ _ _ _ _)
      · exact (permeate_says _ _ _ _ _).trans (reflect_says _ _ _ _ _ _)

theorem mutate_says [DecidableEq N] (fwd blocked : Bool) (h : Heap n N V) (m : N) : Says h.world (mutate c k fwd blocked h m).world := by
  unfold mutate
  dsimp only
  have h1 := (revised_says (c := c) (k := k) blocked h.world).trans
    (relay_says (c := c) (k := k) fwd blocked { h with world := (revised c k blocked h.world).2 } m)
  generalize relay c k fwd blocked { h with world := (revised c k blocked h.world).2 } m = a at h1 ⊢
  by_cases e1 : a.world.err ≠ 0
  · rw [if_pos e1]; exact h1.trans (destroy_says _ _ _ _)
  rw [if_neg e1]
  by_cases e2 : fwd = false ∧ blocked = true
  · rw [if_pos e2]; exact h1
  rw [if_neg e2]
  by_cases e3 : k.vop.isNone = true
  · simp only [if_pos e3]; exact h1
  · simp only [if_neg e3]; exact h1.trans (destroy_says _ _ _ _)

theorem discard_says [DecidableEq N] (h : Heap n N V) (m : N) : Says h.world (discard c k h m).world := freeLabels_says _ _ _

theorem begin1_says [DecidableEq N] (fwd : Bool) (h : Heap n N V) (ms : List N) : Says h.world (begin1 c k fwd res h ms).heap.world := by
  induction ms generalizing h with
  | nil => exact .refl _
  | cons m ms ih =>
    unfold begin1
    dsimp only
    have h1 := mutate_says (c := c) (k := k) fwd false h m
    generalize mutate c k fwd false h m = a at h1 ⊢
    by_cases e : a.world.err ≠ 0
    · rw [if_pos e]; exact h1.trans (discard_says _ _)
    · rw [if_neg e]
      exact (h1.trans (scatter_says _ _)).trans (ih { a with world := (scatter c res (if fwd then a.out m else a.inn m) a.world).2 })

theorem begin_says [DecidableEq N] (fwd : Bool) (i : Fin n) (h : Heap n N V) : Says h.world (begin c k fwd res i h).1.world := by
  unfold begin
  split_ifs
  · exact .refl _
  · exact begin1_says (c := c) (k := k) (res := res) fwd { h with started := Function.update h.started i true } _

theorem attempt_says [DecidableEq N] (p : Plan) (i : Fin n) (stop : Bool) (h : Heap n N V) (m : N) :
    Says h.world (attempt c k p res i stop h m).1.world := by
  unfold attempt
  dsimp only
  by_cases e : h.world.err = 0 ∧ stop = false ∧ quiescent h (prerequisites p h m) = true
  · rw [if_pos e]
    have h1 := mutate_says (c := c) (k := k) p.forward (blocked h (prerequisites p h m)) h m
    generalize mutate c k p.forward (blocked h (prerequisites p h m)) h m = a at h1 ⊢
    by_cases e1 : a.world.err ≠ 0
    · rw [if_pos e1]; exact h1.trans (discard_says _ _)
    · rw [if_neg e1]
      refine h1.trans (.trans ?_ (scatter_says _ _))
      split_ifs <;> exact .refl _
  · rw [if_neg e]; exact .refl _

theorem ping_says (i : Fin n) (w : World) : Says w (ping (N := N) c res i w).2 := by
  unfold ping
  split_ifs
  · exact alloc_says _ _
  · exact alloc_says _ _
  · exact .refl w

theorem store_told {i : Fin n} {s : Work n N V} {h : Heap n N V} (ht : Told s.err s.mem.world)
    (hw : Says { s.mem.world with err := s.err i } h.world) : Told (store i s h).err (store i s h).mem.world := ht.step hw

theorem handle_told [DecidableEq N] (p : Plan) (i : Fin n) {s : Work n N V} (q : Packet n N) (h : Told s.err s.mem.world) :
    Told (handle c k p res i s q).1.err (handle c k p res i s q).1.mem.world := by
  obtain ⟨p1, p2⟩ := SpawnAcc.poll_same s i
  have h' : Told (Trav.poll s i).err (Trav.poll s i).mem.world := by rw [p1, p2]; exact h
  cases q with
  | ping j =>
    simp only [handle]
    generalize Trav.poll s i = s at h' ⊢
    exact store_told h' ((ping_says (c := c) (res := res) (N := N) i (own i s).world).trans
      (begin_says (c := c) (k := k) (res := res) p.forward i { own i s with world := (ping (N := N) c res i (own i s).world).2 }))
  | node m =>
    simp only [handle]
    generalize Trav.poll s i = s at h' ⊢
    have h1 := begin_says (c := c) (k := k) (res := res) p.forward i (own i s)
    split_ifs
    · exact store_told h' h1
    · have h2 := store_told h' (h1.trans (attempt_says (c := c) (k := k) (res := res) p i (s.stop i) (begin c k p.forward res i (own i s)).1 m))
      unfold interrupt
      split_ifs
      · exact h2
      · exact h2

theorem reach_told [DecidableEq N] {p : Plan} {addr : N → Nat} {hn : 0 < n} {p₀ : Packet n N} {g₀ : Work n N V} {x : Work n N V × Multiset (Packet n N)}
    (h : Bag.Reach (task c k p res addr hn) p₀ g₀ x) (h0 : g₀.mem.world.upset = false) : Told x.1.err x.1.mem.world := by
  induction h with
  | init => intro hu; rw [h0] at hu; cases hu
  | step _ hs ih =>
    cases hs with
    | handle g q b => exact handle_told _ _ _ ih
    | env e g b => exact e.elim

theorem freeNodes_says {c : Env} (h : Heap n N V) (ms : List N) (w : World) : Says w (freeNodes c h ms w) :=
  foldl_says _ (fun _ _ => (freeEdges_says _ _).trans (destroy_says _ _ _ _)) ms w

theorem retract_says [DecidableEq N] (fwd : Bool) (h : Heap n N V) : Says h.world (retract c k fwd h).world := by
  have key : ∀ {A : Type} (f : Heap n N V → A → Heap n N V), (∀ h a, Says h.world (f h a).world) → ∀ (l : List A) (h : Heap n N V),
      Says h.world (l.foldl f h).world := by
    intro A f hf l
    induction l with
    | nil => exact fun _ => .refl _
    | cons a l ih => exact fun h => (hf h a).trans (ih _)
  unfold retract
  split_ifs
  · exact .refl _
  · refine key _ (fun h i => ?_) _ h
    split
    · exact .refl _
    · split_ifs
      · exact .refl _
      · exact key _ (fun h m => undo_says _ m false h) _ h

theorem unmutate_says (h : Heap n N V) (w : World) (i : Fin n) : Says w (unmutate c k h w i) :=
  (freeNodes_says _ _ _).trans (freeNodes_says _ _ _)

theorem recover_says [DecidableEq N] (fwd : Bool) (h : Heap n N V) : Says h.world (recover c k fwd h) :=
  (retract_says fwd h).trans (foldl_says _ (fun w i => unmutate_says _ w i) _ _)

end Cru.MutateAcc

namespace Cru.ComposeAcc

open Net Fold
open Request (Env alloc alloc_says edge edge_says)
open SplitAcc (passed passed_says)
open DedupAcc (Edge freeEdges freeEdges_says dedup dedup_says)

variable {n : Nat} {N V : Type} [DecidableEq N] {c : Env} {o : Ops V}

/-- What's asked of whatever a worker does in a turn. -/
def Fair (f : Heap n N V → Heap n N V) : Prop := ∀ h, (f h).err = h.err ∧ Says h.world (f h).world

theorem Fair.foldl {A : Type} {f : Heap n N V → A → Heap n N V} (hf : ∀ a, Fair fun h => f h a) (l : List A) : Fair fun h => l.foldl f h := by
  induction l with
  | nil => exact fun h => ⟨rfl, .refl _⟩
  | cons a l ih =>
    intro h
    obtain ⟨h1, h2⟩ := hf a h
    obtain ⟨h3, h4⟩ := ih (f h a)
    exact ⟨h3.trans h1, h2.trans h4⟩

omit [DecidableEq N] in
theorem turn_told {i : Fin n} {f : Heap n N V → Heap n N V} (hf : Fair f) {h : Heap n N V} (ht : Told h.err h.world) :
    Told (turn i f h).err (turn i f h).world := by
  obtain ⟨h1, h2⟩ := hf { h with world := { h.world with err := h.err i } }
  unfold turn
  dsimp only
  rw [h1]
  exact ht.step h2

omit [DecidableEq N] in
theorem runs_told {f : Fin n → N → Heap n N V → Heap n N V} (hf : ∀ i m, Fair (f i m)) {todo : Fin n → List N} {h h' : Heap n N V}
    (hr : Runs f todo h h') (ht : Told h.err h.world) : Told h'.err h'.world := by
  induction hr with
  | done _ => exact ht
  | next i m ms _ _ ih => exact ih (turn_told (hf i m) ht)
  | fail i e _ ih => exact ih (turn_told (f := fun h => { h with world := h.world.raise e }) (fun h => ⟨rfl, Says.raise _ _⟩) ht)
  | kill i _ ih => exact ih ht

theorem guardIt_fair (m : N) : Fair (n := n) (guardIt c o m) := by
  intro h
  unfold guardIt
  dsimp only
  have h1 := (alloc_says c h.world).trans (alloc_says c _)
  have h2 := h1.trans (applied_says o.locals o.lFree _)
  have h3 := h2.trans (applied_says o.adjacent o.aFree _)
  split_ifs
  · exact ⟨rfl, .refl _⟩
  · exact ⟨rfl, alloc_says _ _⟩
  · exact ⟨rfl, h1⟩
  · exact ⟨rfl, h2.trans (destroy_says _ _ _ _)⟩
  · exact ⟨rfl, h3.trans ((destroy_says _ _ _ _).trans (destroy_says _ _ _ _))⟩
  · exact ⟨rfl, h3⟩

theorem freeProps_fair (m : N) : Fair (n := n) (freeProps c o m) := by
  intro h
  unfold freeProps
  split
  · exact ⟨rfl, .refl _⟩
  · exact ⟨rfl, (destroy_says _ _ _ _).trans (destroy_says _ _ _ _)⟩

theorem settle_told (i : Fin n) {h : Heap n N V} (ht : Told h.err h.world) : Told (settle c o h i).err (settle c o h i).world := by
  unfold settle
  split_ifs
  · refine turn_told (fun h => ?_) ht
    exact Fair.foldl (f := fun h m => freeProps c o m h) (fun m => freeProps_fair m) (h.stock i) h
  · exact ht

omit [DecidableEq N] in
theorem foldl_told {A : Type} {f : Heap n N V → A → Heap n N V} (hf : ∀ h a, Told h.err h.world → Told (f h a).err (f h a).world) (l : List A)
    {h : Heap n N V} (ht : Told h.err h.world) : Told (l.foldl f h).err (l.foldl f h).world := by
  induction l generalizing h with
  | nil => exact ht
  | cons a l ih => exact ih (hf h a ht)

theorem guarded_told {addr : N → Nat} {hn : 0 < n} {b : N} {h h' : Heap n N V} (hg : Guarded c o addr hn b h h') (h0 : h.world.upset = false) :
    Told h'.err h'.world := by
  obtain ⟨heap, reserve, x, h₁, hx, -, hk, hr, he, rfl⟩ := hg
  refine foldl_told (fun h i => settle_told i) _ ?_
  have h1 := runs_told (fun _ m => guardIt_fair (c := c) (o := o) m) hr (fun hu => absurd (show h.world.upset = true from hu) (by rw [h0]; simp))
  by_cases hz : ∀ i, h₁.err i = 0
  · have hi := Gather.intact_bag (reach_bag hn hx) (fun i => ⟨by
      by_contra hne
      exact (he i).2 (by simpa using hne) (hz i), hk i⟩)
    have hl : x.g.labels = [] := hi.2
    dsimp only
    rw [hl]
    exact h1
  · push Not at hz
    exact fun _ => hz

theorem mark_says (l : Option (Obj V)) (a : Acc N V) : Says a.world (mark c o l a).world := by
  unfold mark
  split_ifs
  · exact .refl _
  · exact alloc_says _ _
  · exact alloc_says _ _

theorem composeOne_says (props : N → Option (Props V)) (l : Option (Obj V)) (a : Acc N V) (f : Edge N V) :
    Says a.world (composeOne c o props l a f).world := by
  unfold composeOne
  dsimp only
  have h1 := passed_says o.qpred a.world
  have h2 := h1.trans (mark_says (c := c) (o := o) l { a with world := (passed o.qpred a.world).2 })
  split_ifs
  · exact .refl _
  · exact h1
  · exact h2
  · exact h2.trans ((applied_says _ _ _).trans (edge_says _ _ _ _ _))

theorem acc_says {A : Type} {f : Acc N V → A → Acc N V} (hf : ∀ a x, Says a.world (f a x).world) (l : List A) (a : Acc N V) :
    Says a.world (l.foldl f a).world := by
  induction l generalizing a with
  | nil => exact .refl _
  | cons x l ih => exact (hf a x).trans (ih _)

theorem composeAll_says (h : Heap n N V) (m : N) (a : Acc N V) : Says a.world (composeAll c o h m a).world := by
  unfold composeAll
  refine acc_says (fun a e => ?_) (h.out m) a
  exact acc_says (f := composeOne c o h.props e.label) (fun a f => composeOne_says h.props e.label a f) (h.out e.dst) a

theorem composeIt_fair (addr : N → Nat) (i : Fin n) (m : N) : Fair (composeIt c o addr i m) := by
  intro h
  unfold composeIt
  split_ifs
  · exact ⟨rfl, .refl _⟩
  · exact ⟨rfl, Says.raise _ _⟩
  · split
    · exact ⟨rfl, .refl _⟩
    · refine ⟨rfl, .trans ?_ (dedup_says _ _ _ _)⟩
      exact composeAll_says (c := c) (o := o) h m ⟨[], _, h.world⟩

theorem bypassed_fair (addr : N → Nat) (i : Fin n) (m : N) : Fair (bypassed c o addr i m) := by
  intro h
  unfold bypassed
  split
  · exact ⟨rfl, .refl _⟩
  · refine ⟨rfl, .trans ?_ (freeEdges_says _ _)⟩
    split_ifs
    · exact .refl _
    · exact dedup_says _ _ _ _

theorem bypassIt_fair (addr : N → Nat) (i : Fin n) (m : N) : Fair (bypassIt c o addr i m) := by
  intro h
  obtain ⟨h1, h2⟩ := bypassed_fair (c := c) (o := o) addr i m h
  obtain ⟨h3, h4⟩ := freeProps_fair (c := c) (o := o) m (bypassed c o addr i m h)
  exact ⟨h3.trans h1, h2.trans h4⟩

omit [DecidableEq N] in
theorem freeNodes_says (h : Heap n N V) (ms : List N) (w : World) : Says w (freeNodes c h ms w) :=
  foldl_says _ (fun _ _ => (freeEdges_says _ _).trans (destroy_says _ _ _ _)) ms w

theorem unhook_fair (m : N) : Fair (n := n) (fun h => unhook c o h m) := by
  intro h
  obtain ⟨h1, h2⟩ := freeProps_fair (c := c) (o := o) m h
  exact ⟨h1, h2.trans (freeEdges_says _ _)⟩

theorem decompose_fair (i : Fin n) : Fair (fun h : Heap n N V => decompose c o h i) := by
  intro h
  obtain ⟨h1, h2⟩ := Fair.foldl (f := unhook c o) (fun m => unhook_fair m) (h.stock i) h
  exact ⟨h1, h2.trans (freeNodes_says _ _ _)⟩

theorem retire_told (i : Fin n) {h : Heap n N V} (ht : Told h.err h.world) : Told (retire c o h i).err (retire c o h i).world := by
  unfold retire
  split_ifs
  · exact turn_told (decompose_fair i) ht
  · exact ht

omit [DecidableEq N] in
theorem status_quiet {h : Heap n N V} {late : Int} (ht : Told h.err h.world) (hs : status h late = 0) : h.world.upset = false := by
  refine ht.quiet ?_
  unfold status at hs
  rw [Fold.first_zero] at hs ⊢
  exact ⟨rfl, fun e hm => hs.2 e (List.mem_append_left _ hm)⟩

omit [DecidableEq N] in
theorem fresh_told {h : Heap n N V} (h0 : h.world.upset = false) : Told (fresh h).err (fresh h).world := by
  intro hu
  rw [show (fresh h).world.upset = false from h0] at hu
  cases hu

theorem pass_quiet {addr : N → Nat} {hn : 0 < n} {b : N} {e₀ : Int} {h h' : Heap n N V} (hp : Pass c o addr hn b e₀ h h' 0) (h0 : h.world.upset = false) :
    h'.world.upset = false := by
  obtain ⟨h₁, h₂, late, e₂, e₃, hg, hc, hb, he⟩ := hp
  have hz : ∀ e ∈ [e₀, status h₁ late, e₂, e₃], e = 0 := ((Fold.first_zero _ 0).1 he.symm).2
  have q1 : h₁.world.upset = false := status_quiet (late := late) (guarded_told hg h0) (hz _ (by simp))
  have q2 : h₂.world.upset = false := by
    rcases hc with ⟨-, hne⟩ | ⟨late, hr, rfl⟩
    · exact absurd (hz _ (by simp)) hne
    · exact status_quiet (runs_told (fun i m => composeIt_fair addr i m) hr (fresh_told q1)) (hz (status h₂ late) (by simp))
  rcases hb with ⟨-, hne⟩ | ⟨late, h₃, hr, rfl, rfl⟩
  · exact absurd (hz _ (by simp)) hne
  · exact status_quiet (late := late) (foldl_told (fun h i => retire_told i) _ (runs_told (fun i m => bypassIt_fair addr i m) hr (fresh_told q2))) (hz _ (by simp))

omit [DecidableEq N] in
theorem prune_says (kept gone : List N) (e : Int) (h : Heap n N V) : Says { h.world with err := 0 } (prune c kept gone e h).2.world := by
  unfold prune
  dsimp only
  split_ifs
  · exact (Says.raise _ _).trans ((freeNodes_says _ _ _).trans (freeNodes_says _ _ _))
  · exact (Says.raise _ _).trans (freeNodes_says _ _ _)

end Cru.ComposeAcc
