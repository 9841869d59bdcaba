import Verif.Spec.MutateAcc
import Verif.Proofs.PostponeAcc

/-! # Accounting for mutation -/

namespace Cru.MutateAcc

open Net Fold
open MergeAcc (Bal)
open Request (Env alloc Exact destroy_frame alloc_bal)
open DedupAcc (Edge freeEdges destroy_sticky)
open PostponeAcc (scatter scatter_bal scatter_sticky sum_at bal_wf alloc_sticky)
open SpawnAcc (applied_bal)
open Mutate (Mark Packet Plan)

variable {n : Nat} {N V : Type} {c : Env} {k : Ops V}

@[simp] theorem lab_nil (d : Option Nat) : lab d ([] : List (Edge N V)) = 0 := rfl

@[simp] theorem lab_cons (d : Option Nat) (e : Edge N V) (es : List (Edge N V)) : lab d (e :: es) = owned d e.label + lab d es := by simp [lab]

@[simp] theorem lab_append (d : Option Nat) (es fs : List (Edge N V)) : lab d (es ++ fs) = lab d es + lab d fs := by simp [lab]

theorem labels_eq (c : Env) (es : List (Edge N V)) : DedupAcc.labels c es = lab c.eFree es := by
  simp [DedupAcc.labels, SpawnAcc.heldLabels, lab, Function.comp_def]

theorem owned_null (d : Option Nat) : owned d (none : Option (Obj V)) = 0 := by cases d <;> rfl

/-- No labels. -/
def Bare (es : List (Edge N V)) : Prop := ∀ e ∈ es, e.label = none

theorem Bare.lab {es : List (Edge N V)} (h : Bare es) (d : Option Nat) : lab d es = 0 := by
  induction es with
  | nil => rfl
  | cons e es ih =>
    rw [lab_cons, h e List.mem_cons_self, owned_null, ih fun e he => h e (List.mem_cons_of_mem _ he)]; rfl

theorem bare_bare (es : List (Edge N V)) : Bare (es.map bare) := by
  intro e he
  obtain ⟨f, -, rfl⟩ := List.mem_map.1 he
  rfl

theorem Bare.append {es fs : List (Edge N V)} (h : Bare es) (h' : Bare fs) : Bare (es ++ fs) := fun e he =>
  (List.mem_append.1 he).elim (h e) (h' e)

theorem freeLabels_bal (c : Env) (d : Option Nat) (es : List (Edge N V)) (w : World) (x : Multiset (Nat × Nat)) :
    Bal w (freeLabels c d es w).2 (lab d es + x) x := by
  unfold freeLabels
  dsimp only
  induction es generalizing w with
  | nil => exact (Bal.refl w x).cast (by simp) rfl
  | cons e es ih =>
    rw [List.foldl_cons]
    refine ((destroy_frame c d e.label w _).trans (ih _)).cast ?_ rfl
    rw [lab_cons, add_assoc]

theorem freeLabels_sticky (d : Option Nat) (es : List (Edge N V)) {w : World} (h : w.err ≠ 0) : (freeLabels c d es w).2.err = w.err := by
  unfold freeLabels
  dsimp only
  induction es generalizing w with
  | nil => rfl
  | cons e es ih =>
    rw [List.foldl_cons, ih (by rw [destroy_sticky _ _ h]; exact h), destroy_sticky _ _ h]

/-! ## Edges -/

/-- `relabel` while propagating forward. -/
theorem relabel_bal (c : Env) (o : Op V) (b : Bool) (es : List (Edge N V)) (w : World) (x : Multiset (Nat × Nat)) :
    Bal w (relabel c o true b es w).2 (lab c.eFree es + x)
      (lab o.mFree (relabel c o true b es w).1.1 + lab c.eFree (relabel c o true b es w).1.2 + x) := by
  induction es generalizing w x with
  | nil => exact (Bal.refl w x).cast (by simp) (by simp [relabel])
  | cons e es ih =>
    unfold relabel
    by_cases hw : w.err ≠ 0
    · rw [if_pos hw]
      exact (Bal.refl w _).cast rfl (by simp)
    · rw [if_neg hw]
      dsimp only
      have hx : ∀ y, Bal w (if b then (none, w) else applied o.map o.mFree w).2 y
          (owned o.mFree (if b then (none, w) else applied o.map o.mFree w).1 + y) := fun y => by
        cases b
        · exact applied_bal _ _ _ _
        · exact (Bal.refl w y).cast rfl (by simp [owned_null])
      generalize hX : (if b = true then (none, w) else applied o.map o.mFree w) = X at hx ⊢
      by_cases he : X.2.err ≠ 0
      · rw [if_pos he]
        refine (hx _).trans ((destroy_frame c o.mFree X.1 X.2 _).cast rfl ?_)
        simp
      · rw [if_neg he]
        dsimp only [if_true]
        rw [if_pos rfl]
        refine (hx _).trans (((destroy_frame c c.eFree e.label X.2 (lab c.eFree es + (owned o.mFree X.1 + x))).cast ?_ rfl).trans
          ((ih _ (owned o.mFree X.1 + x)).cast rfl ?_))
        · rw [lab_cons]; abel
        · rw [lab_cons]; abel

theorem relabel_rest (c : Env) (o : Op V) (fwd b : Bool) (es : List (Edge N V)) (w : World) (h : (relabel c o fwd b es w).2.err = 0) :
    (relabel c o fwd b es w).1.2 = [] := by
  induction es generalizing w with
  | nil => rfl
  | cons e es ih =>
    unfold relabel at h ⊢
    by_cases hw : w.err ≠ 0
    · rw [if_pos hw] at h; exact absurd h hw
    · rw [if_neg hw] at h ⊢
      dsimp only at h ⊢
      generalize (if b = true then (none, w) else applied o.map o.mFree w) = X at h ⊢
      by_cases he : X.2.err ≠ 0
      · rw [if_pos he] at h
        dsimp only at h
        rw [destroy_sticky _ _ he] at h
        exact absurd h he
      · rw [if_neg he] at h ⊢
        exact ih _ h

theorem relabel_blocked (c : Env) (o : Op V) (fwd : Bool) (es : List (Edge N V)) (w : World) : Bare (relabel c o fwd true es w).1.1 := by
  induction es generalizing w with
  | nil => intro e he; cases he
  | cons e es ih =>
    unfold relabel
    by_cases hw : w.err ≠ 0
    · rw [if_pos hw]; intro e he; cases he
    · rw [if_neg hw]
      dsimp only
      rw [if_pos rfl, if_neg hw]
      intro f hf
      rcases List.mem_cons.1 hf with rfl | hf
      · rfl
      · exact ih _ f hf

theorem relabel_dst (c : Env) (o : Op V) (fwd b : Bool) (es : List (Edge N V)) (w : World) :
    ((relabel c o fwd b es w).1.1 ++ (relabel c o fwd b es w).1.2).map Edge.dst = es.map Edge.dst := by
  induction es generalizing w with
  | nil => rfl
  | cons e es ih =>
    unfold relabel
    by_cases hw : w.err ≠ 0
    · rw [if_pos hw]; rfl
    · rw [if_neg hw]
      dsimp only
      generalize (if b = true then (none, w) else applied o.map o.mFree w) = X
      by_cases he : X.2.err ≠ 0
      · rw [if_pos he]; rfl
      · rw [if_neg he]
        dsimp only
        rw [List.cons_append, List.map_cons, ih]; rfl

/-- `permeate` while propagating forward. -/
theorem permeate_bal (c : Env) (o : Op V) (b : Bool) (es : List (Edge N V)) (w : World) (x : Multiset (Nat × Nat)) :
    Bal w (permeate c o true b es w).2 (lab c.eFree es + x) (lab o.mFree (permeate c o true b es w).1 + x) := by
  unfold permeate
  rw [if_pos rfl]
  dsimp only
  have h1 := relabel_bal c o b es w x
  have h3 := relabel_rest c o true b es w
  generalize relabel c o true b es w = r at h1 h3 ⊢
  have h2 := freeLabels_bal c c.eFree r.1.2 r.2
  have h4 : Bare (freeLabels c c.eFree r.1.2 r.2).1 := bare_bare _
  generalize freeLabels c c.eFree r.1.2 r.2 = f at h2 h4 ⊢
  have h5 : Bal w f.2 (lab c.eFree es + x) (lab o.mFree (r.1.1 ++ f.1) + x) :=
    h1.trans ((h2 (lab o.mFree r.1.1 + x)).cast (by abel) (by rw [lab_append, h4.lab]; abel))
  by_cases he : f.2.err ≠ 0
  · rw [if_pos he]
    refine h5.trans ((freeLabels_bal c o.mFree (r.1.1 ++ f.1) f.2 x).cast rfl ?_)
    have h6 : Bare (freeLabels c o.mFree (r.1.1 ++ f.1) f.2).1 := bare_bare _
    rw [h6.lab, zero_add]
  · rw [if_neg he]; exact h5

theorem permeate_blocked (c : Env) (o : Op V) (es : List (Edge N V)) (w : World) : Bare (permeate c o true true es w).1 := by
  unfold permeate
  rw [if_pos rfl]
  dsimp only
  split
  · exact bare_bare _
  · exact (relabel_blocked c o true es w).append (bare_bare _)

/-- `reflect` frees nothing while propagating forward. -/
theorem reflect_bal [DecidableEq N] (c : Env) (m : N) (before : List N) (fs : List (Edge N V)) (es : N → List (Edge N V)) (w : World)
    (x : Multiset (Nat × Nat)) : Bal w (reflect c none m before fs es w).2 x x := by
  induction fs generalizing before es w with
  | nil => exact Bal.refl w x
  | cons e fs ih =>
    unfold reflect
    split
    · exact (Bal.raise w _ x).trans (ih _ _ _)
    · exact ih _ _ _

theorem mapped_bal (c : Env) (o : Op V) (w : World) (x : Multiset (Nat × Nat)) : Bal w (mapped c o w).2 x (owned o.mFree (mapped c o w).1 + x) := by
  unfold mapped
  dsimp only
  have h := applied_bal o.map o.mFree w x
  generalize applied o.map o.mFree w = r at h ⊢
  split
  · exact h.trans ((destroy_frame c o.mFree r.1 r.2 x).cast rfl (by rw [owned_null, zero_add]))
  · exact h

theorem revised_bal (c : Env) (k : Ops V) (b : Bool) (w : World) (x : Multiset (Nat × Nat)) :
    Bal w (revised c k b w).2 x (owned (free k.vop) (revised c k b w).1 + x) := by
  unfold revised
  cases hv : k.vop with
  | none => exact (Bal.refl w x).cast rfl (by rw [owned_null, zero_add])
  | some o =>
    dsimp only
    split
    · exact (Bal.refl w x).cast rfl (by rw [owned_null, zero_add])
    · exact mapped_bal c o w x

/-! ## Nodes, propagating forward -/

/-- Everything but the fields of `m`, the incoming edges, what's forgotten, and the history is the same. -/
structure Same (m : N) (h h' : Heap n N V) : Prop where
  vertex : ∀ t, t ≠ m → h'.vertex t = h.vertex t
  out : ∀ t, t ≠ m → h'.out t = h.out t
  mark : ∀ t, t ≠ m → h'.mark t = h.mark t
  survivors : h'.survivors = h.survivors
  deletions : h'.deletions = h.deletions
  started : h'.started = h.started

theorem relay_spec [DecidableEq N] (c : Env) (k : Ops V) (b : Bool) (h : Heap n N V) (m : N) :
    Same m h (relay c k true b h m) ∧ (relay c k true b h m).vertex = h.vertex ∧ (relay c k true b h m).mark = h.mark ∧
    (relay c k true b h m).lost = h.lost ∧
    (∀ x, Bal h.world (relay c k true b h m).world (lab c.eFree (h.out m) + x)
      (lab (revisedEnv c k).eFree ((relay c k true b h m).out m) + x)) ∧
    (b = true → lab (revisedEnv c k).eFree ((relay c k true b h m).out m) = lab c.eFree ((relay c k true b h m).out m)) := by
  unfold relay
  cases hk : k.eop with
  | none =>
    dsimp only
    refine ⟨⟨fun _ _ => rfl, fun _ _ => rfl, fun _ _ => rfl, rfl, rfl, rfl⟩, rfl, rfl, rfl, fun x => ?_, fun _ => ?_⟩
    · simp only [revisedEnv, hk, Option.isNone_none, if_true]; exact Bal.refl _ _
    · simp [revisedEnv, hk]
  | some o =>
    dsimp only
    rw [if_pos rfl]
    refine ⟨⟨fun _ _ => rfl, fun t ht => by simp [Function.update_of_ne ht], fun _ _ => rfl, rfl, rfl, rfl⟩, rfl, rfl, rfl, fun x => ?_, fun hb => ?_⟩
    · simp only [revisedEnv, hk, Option.isNone_some, Bool.false_eq_true, if_false, Function.update_self, free, Option.bind_some]
      exact (permeate_bal c o b (h.out m) h.world x).trans (reflect_bal c m [] _ _ _ _)
    · subst hb
      simp only [Function.update_self]
      rw [(permeate_blocked c o _ _).lab, (permeate_blocked c o _ _).lab]

theorem destroy_err (hc : Safe c) (x : Option (Obj V)) {w : World} (hw : w.err = 0) : (destroy c.fails c.vFree x w).err = 0 := by
  unfold destroy
  split
  · rename_i d o hd
    simp [World.raise, hw, hc d hd]
  · exact hw

/-- What a node holds if its destructors are those of `e`. -/
def with_ (e : Env) (h : Heap n N V) (m : N) : Multiset (Nat × Nat) := owned e.vFree (h.vertex m) + lab e.eFree (h.out m)

theorem mutate_spec [DecidableEq N] (hc : Safe c) (k : Ops V) (b : Bool) (h : Heap n N V) (m : N) :
    Same m h (mutate c k true b h m) ∧ (mutate c k true b h m).lost = h.lost ∧
    (((mutate c k true b h m).world.err ≠ 0 ∧ (mutate c k true b h m).mark m = .blocked ∧ ∀ x, Bal h.world (mutate c k true b h m).world (with_ c h m + x)
        (owned c.vFree ((mutate c k true b h m).vertex m) + lab (revisedEnv c k).eFree ((mutate c k true b h m).out m) + x)) ∨
     ((mutate c k true b h m).world.err = 0 ∧ b = true ∧ (mutate c k true b h m).mark m = .blocked ∧
        ∀ x, Bal h.world (mutate c k true b h m).world (with_ c h m + x) (with_ c (mutate c k true b h m) m + x)) ∨
     ((mutate c k true b h m).world.err = 0 ∧ b = false ∧ (mutate c k true b h m).mark m = .mutated ∧
        ∀ x, Bal h.world (mutate c k true b h m).world (with_ c h m + x) (with_ (revisedEnv c k) (mutate c k true b h m) m + x))) := by
  unfold mutate
  dsimp only
  have hv := revised_bal c k b h.world
  have hvb : b = true → (revised c k b h.world).1 = none := by
    rintro rfl
    unfold revised
    split
    · rfl
    · rw [if_pos (.inl rfl)]
  generalize revised c k b h.world = v at hv hvb ⊢
  obtain ⟨s, r1, r2, r3, r4, r5⟩ := relay_spec c k b { h with world := v.2 } m
  generalize relay c k true b { h with world := v.2 } m = h₁ at s r1 r2 r3 r4 r5 ⊢
  have s' : Same m h h₁ := ⟨s.vertex, s.out, s.mark, s.survivors, s.deletions, s.started⟩
  have mk : ∀ (t : N) (q : Mark), t ≠ m → Function.update h₁.mark m q t = h.mark t := fun t q ht => by rw [Function.update_of_ne ht, s'.mark t ht]
  have vx : h₁.vertex = h.vertex := r1
  have base : ∀ x, Bal h.world h₁.world (with_ c h m + x) (owned (free k.vop) v.1 + (owned c.vFree (h.vertex m) + lab (revisedEnv c k).eFree (h₁.out m)) + x) := fun x =>
    (hv _).trans ((r4 (owned (free k.vop) v.1 + (owned c.vFree (h.vertex m) + x))).cast (by unfold with_; dsimp only; abel) (by abel))
  by_cases he : h₁.world.err ≠ 0
  · rw [if_pos he]
    refine ⟨⟨s'.vertex, s'.out, fun t ht => mk t _ ht, s'.survivors, s'.deletions, s'.started⟩, r3, .inl ⟨?_, Function.update_self .., fun x => ?_⟩⟩
    · dsimp only; rw [destroy_sticky _ _ he]; exact he
    · dsimp only
      refine (base x).trans ((destroy_frame c (free k.vop) v.1 h₁.world _).cast (add_assoc _ _ _).symm (by rw [vx]))
  · rw [if_neg he, if_neg (by simp)]
    rw [ne_eq, not_not] at he
    have hd := destroy_err hc (h₁.vertex m) he
    cases hk : k.vop with
    | none =>
      rw [Option.isNone_none, if_pos rfl]
      have hR : (revisedEnv c k).vFree = c.vFree := by simp [revisedEnv, hk]
      have hf : owned (free k.vop) v.1 = 0 := by rw [hk]; cases v.1 <;> rfl
      refine ⟨⟨s'.vertex, s'.out, fun t ht => mk t _ ht, s'.survivors, s'.deletions, s'.started⟩, r3, .inr ?_⟩
      cases b with
      | true =>
        refine .inl ⟨he, rfl, by simp, fun x => (base x).cast rfl ?_⟩
        rw [hf, r5 rfl]; unfold with_; dsimp only; rw [vx, zero_add]
      | false =>
        refine .inr ⟨he, rfl, by simp [he], fun x => (base x).cast rfl ?_⟩
        rw [hf]; unfold with_; dsimp only; rw [vx, hR, zero_add]
    | some o =>
      rw [Option.isNone_some, if_neg (by simp)]
      have hR : (revisedEnv c k).vFree = free k.vop := by simp [revisedEnv, hk]
      refine ⟨⟨fun t ht => ?_, s'.out, fun t ht => mk t _ ht, s'.survivors, s'.deletions, s'.started⟩, r3, .inr ?_⟩
      · dsimp only; rw [Function.update_of_ne ht, s'.vertex t ht]
      · have last : ∀ x, Bal h.world (destroy c.fails c.vFree (h₁.vertex m) h₁.world) (with_ c h m + x)
            (owned (free k.vop) v.1 + lab (revisedEnv c k).eFree (h₁.out m) + x) := fun x =>
          (base x).trans ((destroy_frame c c.vFree (h₁.vertex m) h₁.world _).cast (by rw [vx]; abel) rfl)
        cases b with
        | true =>
          refine .inl ⟨hd, rfl, by simp, fun x => (last x).cast rfl ?_⟩
          unfold with_
          dsimp only
          rw [Function.update_self, hvb rfl, owned_null, owned_null, r5 rfl]
        | false =>
          refine .inr ⟨hd, rfl, by simp [hd], fun x => (last x).cast rfl ?_⟩
          unfold with_
          dsimp only
          rw [Function.update_self, hR]

theorem held_with (c : Env) (k : Ops V) (h : Heap n N V) (m : N) : held c k true h m = with_ (envAt c k h m) h m := by
  simp [held, with_, lab]

theorem held_same [DecidableEq N] {m : N} {h h' : Heap n N V} (hs : Same m h h') {t : N} (ht : t ≠ m) : held c k true h t = held c k true h' t := by
  rw [held_with, held_with]
  simp only [with_, envAt, hs.vertex t ht, hs.out t ht, hs.mark t ht]

/-- A node that isn't mutated holds what `c` says. -/
theorem held_old {h : Heap n N V} {m : N} (hm : h.mark m ≠ .mutated) : held c k true h m = with_ c h m := by
  rw [held_with, envAt, if_neg hm]

theorem held_new {h : Heap n N V} {m : N} (hm : h.mark m = .mutated) : held c k true h m = with_ (revisedEnv c k) h m := by
  rw [held_with, envAt, if_pos hm]

/-- Everything held and forgotten. -/
def total [Fintype N] (c : Env) (k : Ops V) (h : Heap n N V) : Multiset (Nat × Nat) := h.lost + graphHeld c k true h

theorem Same.trans {m : N} {h h' h'' : Heap n N V} (s : Same m h h') (s' : Same m h' h'') : Same m h h'' :=
  ⟨fun t ht => (s'.vertex t ht).trans (s.vertex t ht), fun t ht => (s'.out t ht).trans (s.out t ht), fun t ht => (s'.mark t ht).trans (s.mark t ht),
    s'.survivors.trans s.survivors, s'.deletions.trans s.deletions, s'.started.trans s.started⟩

theorem lab_null (es : List (Edge N V)) : lab none es = 0 := by
  induction es with
  | nil => rfl
  | cons e es ih => rw [lab_cons, ih]; rfl

theorem discard_spec [DecidableEq N] (c : Env) (k : Ops V) (h : Heap n N V) (m : N) :
    Same m h (discard c k h m) ∧ (discard c k h m).mark = h.mark ∧ (discard c k h m).vertex = h.vertex ∧
    (Firm c k → (discard c k h m).lost = h.lost) ∧ Bare ((discard c k h m).out m) ∧
    ∀ x, Bal h.world (discard c k h m).world (h.lost + lab (revisedEnv c k).eFree (h.out m) + x) ((discard c k h m).lost + x) := by
  unfold discard
  dsimp only
  refine ⟨⟨fun _ _ => rfl, fun t ht => by simp [Function.update_of_ne ht], fun _ _ => rfl, rfl, rfl, rfl⟩, rfl, rfl, fun hf => ?_, ?_, fun x => ?_⟩
  · rcases hf with hf | hf
    · rw [if_neg (by cases he : k.eop <;> simp_all), add_zero]
    · rw [labels_eq, hf, lab_null]; simp
  · rw [Function.update_self]; exact bare_bare _
  · cases hk : k.eop with
    | none =>
      refine (freeLabels_bal c (free none) (h.out m) h.world (h.lost + lab c.eFree (h.out m) + x)).cast ?_ ?_
      · rw [show free (none : Option (Op V)) = none from rfl, lab_null]; simp [revisedEnv, hk]
      · simp [labels_eq]
    | some o =>
      refine (freeLabels_bal c (free (some o)) (h.out m) h.world (h.lost + x)).cast ?_ ?_
      · simp only [revisedEnv, hk, Option.isNone_some, Bool.false_eq_true, if_false]; abel
      · simp

/-- A node is mutated and there's an error. -/
theorem fail_spec [Fintype N] [DecidableEq N] (hc : Safe c) (k : Ops V) (b : Bool) (h : Heap n N V) (m : N) (hm : h.mark m ≠ .mutated)
    (he : (mutate c k true b h m).world.err ≠ 0) :
    Same m h (discard c k (mutate c k true b h m) m) ∧ (discard c k (mutate c k true b h m) m).mark m = .blocked ∧
    (Firm c k → (discard c k (mutate c k true b h m) m).lost = h.lost) ∧
    Bal h.world (discard c k (mutate c k true b h m) m).world (total c k h) (total c k (discard c k (mutate c k true b h m) m)) := by
  obtain ⟨s, hl, hcase⟩ := mutate_spec hc k b h m
  obtain ⟨-, hmk, hb⟩ := hcase.resolve_right (by rintro (⟨h, -⟩ | ⟨h, -⟩) <;> exact he h)
  obtain ⟨d1, d2, d3, d4, d5, d6⟩ := discard_spec c k (mutate c k true b h m) m
  generalize mutate c k true b h m = h₁ at s hl hmk hb d1 d2 d3 d4 d5 d6 he ⊢
  generalize discard c k h₁ m = h₂ at d1 d2 d3 d4 d5 d6 ⊢
  have s2 := s.trans d1
  have m2 : h₂.mark m = .blocked := by rw [d2, hmk]
  refine ⟨s2, m2, fun hf => (d4 hf).trans hl, ?_⟩
  obtain ⟨r, r1, r2⟩ := sum_at (fun t => held c k true h t) (fun t => held c k true h₂ t) m fun t ht => held_same s2 ht
  unfold total graphHeld
  rw [r1, r2, held_old hm, held_old (by rw [m2]; decide)]
  refine ((hb (h.lost + r)).cast (by abel) rfl).trans ((d6 (owned c.vFree (h₁.vertex m) + r)).cast (by rw [hl]; abel) ?_)
  unfold with_
  rw [d5.lab, d3, add_zero]

/-- A node is mutated and there's no error. -/
theorem good_spec [Fintype N] [DecidableEq N] (hc : Safe c) (k : Ops V) (b : Bool) (h : Heap n N V) (m : N) (hm : h.mark m ≠ .mutated)
    (he : (mutate c k true b h m).world.err = 0) :
    Same m h (mutate c k true b h m) ∧ (mutate c k true b h m).mark m = (if b then .blocked else .mutated) ∧
    (mutate c k true b h m).lost = h.lost ∧
    Bal h.world (mutate c k true b h m).world (total c k h) (total c k (mutate c k true b h m)) := by
  obtain ⟨s, hl, hcase⟩ := mutate_spec hc k b h m
  generalize mutate c k true b h m = h₁ at s hl hcase he ⊢
  obtain ⟨r, r1, r2⟩ := sum_at (fun t => held c k true h t) (fun t => held c k true h₁ t) m fun t ht => held_same s ht
  rcases hcase with ⟨h1, -⟩ | ⟨-, hb, hmk, hx⟩ | ⟨-, hb, hmk, hx⟩
  · exact absurd he h1
  · refine ⟨s, by rw [hmk, hb]; rfl, hl, ?_⟩
    unfold total graphHeld
    rw [r1, r2, held_old hm, held_old (by rw [hmk]; decide), hl]
    exact (hx (h.lost + r)).cast (by abel) (by abel)
  · refine ⟨s, by rw [hmk, hb]; rfl, hl, ?_⟩
    unfold total graphHeld
    rw [r1, r2, held_old hm, held_new hmk, hl]
    exact (hx (h.lost + r)).cast (by abel) (by abel)

/-! ## Invariant, propagating forward -/

/-- The storage is accounted for, each node is in the lists of its worker, and its mark is in keeping with its list. -/
structure FInv [Fintype N] (c : Env) (k : Ops V) (lane : N → Fin n) (h : Heap n N V) : Prop where
  wf : h.world.WF
  ledger : h.world.made = h.world.freed + total c k h
  nodup : ∀ i, (h.survivors i ++ h.deletions i).Nodup
  lanes : ∀ i m, m ∈ h.survivors i ∨ m ∈ h.deletions i → lane m = i
  all : ∀ m, m ∈ h.survivors (lane m) ∨ m ∈ h.deletions (lane m)
  surv : ∀ i, ∀ m ∈ h.survivors i, h.mark m = if h.started i then .mutated else .clear
  dels : ∀ i, ∀ m ∈ h.deletions i, h.mark m ≠ .mutated
  firm : Firm c k → h.lost = 0

theorem FInv.world [Fintype N] {lane : N → Fin n} {h : Heap n N V} (hi : FInv c k lane h) {w : World} (hb : ∀ x, Bal h.world w x x) :
    FInv c k lane { h with world := w } := by
  obtain ⟨h1, h2⟩ := bal_wf (hb (total c k h)) hi.wf hi.ledger
  exact ⟨h1, h2, hi.nodup, hi.lanes, hi.all, hi.surv, hi.dels, hi.firm⟩

theorem begin1_spec [Fintype N] [DecidableEq N] (hc : Safe c) (k : Ops V) (res : Nat → Bool) (ms : List N) (h : Heap n N V) (hn : ms.Nodup)
    (hm : ∀ m ∈ ms, h.mark m = .clear) :
    (begin1 c k true res h ms).done ++ (begin1 c k true res h ms).left = ms ∧
    (∀ t, t ∉ ms → (begin1 c k true res h ms).heap.mark t = h.mark t) ∧
    (∀ t ∈ (begin1 c k true res h ms).done, (begin1 c k true res h ms).heap.mark t = .mutated) ∧
    (∀ t ∈ (begin1 c k true res h ms).left, (begin1 c k true res h ms).heap.mark t ≠ .mutated) ∧
    (begin1 c k true res h ms).heap.survivors = h.survivors ∧ (begin1 c k true res h ms).heap.deletions = h.deletions ∧
    (begin1 c k true res h ms).heap.started = h.started ∧
    (Firm c k → (begin1 c k true res h ms).heap.lost = h.lost) ∧
    Bal h.world (begin1 c k true res h ms).heap.world (total c k h) (total c k (begin1 c k true res h ms).heap) := by
  induction ms generalizing h with
  | nil => exact ⟨rfl, fun _ _ => rfl, fun t ht => (by cases ht), fun t ht => (by cases ht), rfl, rfl, rfl, fun _ => rfl, Bal.refl _ _⟩
  | cons m ms ih =>
    have hm0 : h.mark m = .clear := hm m List.mem_cons_self
    have hm1 : h.mark m ≠ .mutated := by rw [hm0]; decide
    have hnm : m ∉ ms := (List.nodup_cons.1 hn).1
    have e : begin1 c k true res h (m :: ms) =
      (if (mutate c k true false h m).world.err ≠ 0 then ⟨discard c k (mutate c k true false h m) m, [], m :: ms, []⟩
      else
        let a := scatter c res ((mutate c k true false h m).out m) (mutate c k true false h m).world
        let r := begin1 c k true res { mutate c k true false h m with world := a.2 } ms
        { r with done := m :: r.done, sent := a.1 ++ r.sent } : Begun n N V) := rfl
    rw [e]
    by_cases he : (mutate c k true false h m).world.err ≠ 0
    · obtain ⟨f1, f2, f3, f4⟩ := fail_spec hc k false h m hm1 he
      rw [if_pos he]
      dsimp only
      refine ⟨rfl, fun t ht => f1.mark t fun h => ht (h ▸ List.mem_cons_self), fun t ht => (by cases ht), fun t ht => ?_, f1.survivors, f1.deletions,
        f1.started, f3, f4⟩
      rcases List.mem_cons.1 ht with rfl | ht
      · rw [f2]; decide
      · rw [f1.mark t fun h => hnm (h ▸ ht), hm t (List.mem_cons_of_mem _ ht)]; decide
    · rw [if_neg he]
      rw [ne_eq, not_not] at he
      obtain ⟨g1, g2, g3, g4⟩ := good_spec hc k false h m hm1 he
      dsimp only
      generalize mutate c k true false h m = h₁ at g1 g2 g3 g4
      have ih' := ih { h₁ with world := (scatter c res (h₁.out m) h₁.world).2 } (List.nodup_cons.1 hn).2 fun t ht => by
        dsimp only
        rw [g1.mark t fun h => hnm (h ▸ ht), hm t (List.mem_cons_of_mem _ ht)]
      have hb := scatter_bal c res (h₁.out m) h₁.world
      generalize (scatter c res (h₁.out m) h₁.world) = a at ih' hb ⊢
      dsimp only at ih'
      generalize begin1 c k true res { h₁ with world := a.2 } ms = r at ih' ⊢
      obtain ⟨i1, i2, i3, i4, i5, i6, i7, i8, i9⟩ := ih'
      refine ⟨by rw [List.cons_append, i1], fun t ht => ?_, fun t ht => ?_, i4, i5.trans g1.survivors, i6.trans g1.deletions, i7.trans g1.started,
        fun hf => (i8 hf).trans g3, g4.trans ((hb _).trans i9)⟩
      · rw [List.mem_cons, not_or] at ht
        rw [i2 t ht.2, g1.mark t ht.1]
      · rcases List.mem_cons.1 ht with rfl | ht
        · rw [i2 _ hnm, g2]; rfl
        · exact i3 t ht

theorem begin_inv [Fintype N] [DecidableEq N] (hc : Safe c) {res : Nat → Bool} {lane : N → Fin n} {h : Heap n N V} (hi : FInv c k lane h) (i : Fin n) :
    FInv c k lane (begin c k true res i h).1 ∧ (begin c k true res i h).1.started i = true := by
  unfold begin
  by_cases hs : h.started i = true
  · rw [if_pos hs]; exact ⟨hi, hs⟩
  · rw [if_neg hs]
    dsimp only
    have hnd := hi.nodup i
    rw [List.nodup_append] at hnd
    have hsp := begin1_spec hc k res (h.survivors i) { h with started := Function.update h.started i true } hnd.1 (fun m hm => by
      have := hi.surv i m hm
      rw [if_neg hs] at this
      exact this)
    generalize begin1 c k true res { h with started := Function.update h.started i true } (h.survivors i) = r at hsp ⊢
    obtain ⟨s1, s2, s3, s4, s5, s6, s7, s8, s9⟩ := hsp
    dsimp only at s2 s5 s6 s7 s8 s9
    obtain ⟨w1, w2⟩ := bal_wf s9 hi.wf hi.ledger
    have hperm : (r.done ++ (r.left ++ h.deletions i)).Perm (h.survivors i ++ h.deletions i) := by rw [← List.append_assoc, s1]
    have other : ∀ j, j ≠ i → ∀ t, (t ∈ h.survivors j ∨ t ∈ h.deletions j) → r.heap.mark t = h.mark t := fun j hj t ht =>
      s2 t fun hc => hj ((hi.lanes j t ht).symm.trans (hi.lanes i t (.inl hc)))
    refine ⟨⟨w1, w2, fun j => ?_, fun j m hm => ?_, fun m => ?_, fun j m hm => ?_, fun j m hm => ?_, fun hf => (s8 hf).trans (hi.firm hf)⟩, ?_⟩
    · dsimp only
      by_cases hj : j = i
      · subst hj; rw [Function.update_self, Function.update_self, s6]; exact hperm.nodup_iff.2 (hi.nodup j)
      · rw [Function.update_of_ne hj, Function.update_of_ne hj, s5, s6]; exact hi.nodup j
    · dsimp only at hm
      by_cases hj : j = i
      · subst hj
        rw [Function.update_self, Function.update_self, s6] at hm
        exact hi.lanes j m (List.mem_append.1 (hperm.mem_iff.1 (List.mem_append.2 hm)))
      · rw [Function.update_of_ne hj, Function.update_of_ne hj, s5, s6] at hm; exact hi.lanes j m hm
    · dsimp only
      by_cases hj : lane m = i
      · rw [hj, Function.update_self, Function.update_self, s6]
        have := hi.all m
        rw [hj] at this
        exact List.mem_append.1 (hperm.mem_iff.2 (List.mem_append.2 this))
      · rw [Function.update_of_ne hj, Function.update_of_ne hj, s5, s6]; exact hi.all m
    · dsimp only at hm ⊢
      rw [s7]
      by_cases hj : j = i
      · subst hj
        rw [Function.update_self] at hm
        rw [Function.update_self, if_pos rfl]
        exact s3 m hm
      · rw [Function.update_of_ne hj, s5] at hm
        rw [Function.update_of_ne hj, other j hj m (.inl hm)]
        exact hi.surv j m hm
    · dsimp only at hm ⊢
      by_cases hj : j = i
      · subst hj
        rw [Function.update_self, s6] at hm
        rcases List.mem_append.1 hm with hm | hm
        · exact s4 m hm
        · rw [s2 m fun hc => hnd.2.2 m hc m hm rfl]
          exact hi.dels j m hm
      · rw [Function.update_of_ne hj, s6] at hm
        rw [other j hj m (.inr hm)]
        exact hi.dels j m hm
    · rw [s7, Function.update_self]

/-- A node of a worker that has started is in the list of deletions if it isn't mutated. -/
theorem FInv.waiting [Fintype N] {lane : N → Fin n} {h : Heap n N V} (hi : FInv c k lane h) {i : Fin n} {m : N} (hl : lane m = i)
    (hs : h.started i = true) (hm : h.mark m = .clear) : m ∈ h.deletions i := by
  rcases hi.all m with h1 | h1
  · rw [hl] at h1
    have := hi.surv i m h1
    rw [if_pos hs, hm] at this
    cases this
  · rw [hl] at h1; exact h1

theorem FInv.marked [Fintype N] [DecidableEq N] {lane : N → Fin n} {h h' : Heap n N V} {m : N} {i : Fin n} (hi : FInv c k lane h) (hm : m ∈ h.deletions i)
    (hs : Same m h h') (hk : h'.mark m ≠ .mutated) (hf : Firm c k → h'.lost = h.lost) (hb : Bal h.world h'.world (total c k h) (total c k h')) :
    FInv c k lane h' := by
  obtain ⟨w1, w2⟩ := bal_wf hb hi.wf hi.ledger
  refine ⟨w1, w2, by rw [hs.survivors, hs.deletions]; exact hi.nodup, by rw [hs.survivors, hs.deletions]; exact hi.lanes,
    by rw [hs.survivors, hs.deletions]; exact hi.all, fun j t ht => ?_, fun j t ht => ?_, fun h => (hf h).trans (hi.firm h)⟩
  · rw [hs.survivors] at ht
    rw [hs.started, hs.mark t ?_]
    · exact hi.surv j t ht
    · rintro rfl
      have : i = j := (hi.lanes i t (.inr hm)).symm.trans (hi.lanes j t (.inl ht))
      subst this
      exact (List.nodup_append.1 (hi.nodup i)).2.2 t ht t hm rfl
  · rw [hs.deletions] at ht
    by_cases htm : t = m
    · rw [htm]; exact hk
    · rw [hs.mark t htm]; exact hi.dels j t ht

/-- A mutated node goes from one list to the other. -/
theorem FInv.moved [Fintype N] [DecidableEq N] {lane : N → Fin n} {h h' : Heap n N V} {m : N} {i : Fin n} (hi : FInv c k lane h) (hm : m ∈ h.deletions i)
    (hst : h.started i = true) (hs : Same m h h') (hk : h'.mark m = .mutated) (hf : h'.lost = h.lost)
    (hb : Bal h.world h'.world (total c k h) (total c k h')) :
    FInv c k lane { h' with
      survivors := Function.update h'.survivors i (m :: h'.survivors i)
      deletions := Function.update h'.deletions i ((h'.deletions i).erase m) } := by
  obtain ⟨w1, w2⟩ := bal_wf hb hi.wf hi.ledger
  have hperm : ((m :: h.survivors i) ++ (h.deletions i).erase m).Perm (h.survivors i ++ h.deletions i) :=
    (List.perm_middle.symm.trans ((List.perm_cons_erase hm).symm.append_left _))
  have hnot : ∀ j, ∀ t ∈ h.survivors j, t ≠ m := by
    rintro j t ht rfl
    have : i = j := (hi.lanes i t (.inr hm)).symm.trans (hi.lanes j t (.inl ht))
    subst this
    exact (List.nodup_append.1 (hi.nodup i)).2.2 t ht t hm rfl
  refine ⟨w1, w2, fun j => ?_, fun j t ht => ?_, fun t => ?_, fun j t ht => ?_, fun j t ht => ?_, fun h => hf.trans (hi.firm h)⟩
  · dsimp only
    rw [hs.survivors, hs.deletions]
    by_cases hj : j = i
    · subst hj; rw [Function.update_self, Function.update_self]; exact hperm.nodup_iff.2 (hi.nodup j)
    · rw [Function.update_of_ne hj, Function.update_of_ne hj]; exact hi.nodup j
  · dsimp only at ht
    rw [hs.survivors, hs.deletions] at ht
    by_cases hj : j = i
    · subst hj
      rw [Function.update_self, Function.update_self] at ht
      exact hi.lanes j t (List.mem_append.1 (hperm.mem_iff.1 (List.mem_append.2 ht)))
    · rw [Function.update_of_ne hj, Function.update_of_ne hj] at ht; exact hi.lanes j t ht
  · dsimp only
    rw [hs.survivors, hs.deletions]
    by_cases hj : lane t = i
    · rw [hj, Function.update_self, Function.update_self]
      have := hi.all t
      rw [hj] at this
      exact List.mem_append.1 (hperm.mem_iff.2 (List.mem_append.2 this))
    · rw [Function.update_of_ne hj, Function.update_of_ne hj]; exact hi.all t
  · dsimp only at ht ⊢
    rw [hs.survivors] at ht
    rw [hs.started]
    by_cases hj : j = i
    · subst hj
      rw [Function.update_self] at ht
      rcases List.mem_cons.1 ht with rfl | ht
      · rw [hk, if_pos hst]
      · rw [hs.mark t (hnot j t ht)]; exact hi.surv j t ht
    · rw [Function.update_of_ne hj] at ht
      rw [hs.mark t (hnot j t ht)]; exact hi.surv j t ht
  · dsimp only at ht ⊢
    rw [hs.deletions] at ht
    have hdm : t ∈ h.deletions j ∧ t ≠ m := by
      by_cases hj : j = i
      · subst hj
        rw [Function.update_self] at ht
        exact ⟨List.mem_of_mem_erase ht, ((List.nodup_append.1 (hi.nodup j)).2.1.mem_erase_iff.1 ht).1⟩
      · rw [Function.update_of_ne hj] at ht
        exact ⟨ht, by rintro rfl; exact hj ((hi.lanes j t (.inr ht)).symm.trans (hi.lanes i t (.inr hm)))⟩
    rw [hs.mark t hdm.2]; exact hi.dels j t hdm.1

theorem attempt_inv [Fintype N] [DecidableEq N] (hc : Safe c) {p : Plan} (hp : p.forward = true) {res : Nat → Bool} {lane : N → Fin n} {h : Heap n N V}
    (hi : FInv c k lane h) {i : Fin n} (stop : Bool) {m : N} (hl : lane m = i) (hs : h.started i = true) (hm : h.mark m = .clear) :
    FInv c k lane (attempt c k p res i stop h m).1 := by
  unfold attempt
  have hd := hi.waiting hl hs hm
  have hm1 : h.mark m ≠ .mutated := by rw [hm]; decide
  split
  · dsimp only
    rw [hp]
    generalize blocked h (prerequisites p h m) = b
    by_cases he : (mutate c k true b h m).world.err ≠ 0
    · rw [if_pos he]
      obtain ⟨f1, f2, f3, f4⟩ := fail_spec hc k b h m hm1 he
      exact hi.marked hd f1 (by rw [f2]; decide) f3 f4
    · rw [if_neg he]
      rw [ne_eq, not_not] at he
      obtain ⟨g1, g2, g3, g4⟩ := good_spec hc k b h m hm1 he
      generalize mutate c k true b h m = h₁ at g1 g2 g3 g4 ⊢
      dsimp only
      cases b with
      | true => exact (hi.marked hd g1 (by rw [g2]; decide) (fun _ => g3) g4).world fun x => scatter_bal _ _ _ _ x
      | false => exact (hi.moved hd hs g1 (by rw [g2]; rfl) g3 g4).world fun x => scatter_bal _ _ _ _ x
  · exact hi

theorem ping_bal (c : Env) (res : Nat → Bool) (i : Fin n) (w : World) (x : Multiset (Nat × Nat)) : Bal w (ping (N := N) c res i w).2 x x := by
  unfold ping
  split
  · split <;> exact alloc_bal c w x
  · exact Bal.refl w x

theorem interrupt_mem (i : Fin n) (s : Work n N V) : (interrupt i s).mem = s.mem := by unfold interrupt; split <;> rfl

theorem handle_inv [Fintype N] [DecidableEq N] (hc : Safe c) {p : Plan} (hp : p.forward = true) {res : Nat → Bool} {lane : N → Fin n} {s : Work n N V}
    (hi : FInv c k lane s.mem) {i : Fin n} (q : Packet n N) (hl : ∀ m, q = .node m → lane m = i) :
    FInv c k lane (handle c k p res i s q).1.mem ∧ (handle c k p res i s q).2.2 = false := by
  obtain ⟨sample, stop, e, -⟩ := Trav.poll_eq s i
  cases q with
  | ping j =>
    unfold handle
    dsimp only
    rw [e, hp]
    exact ⟨(begin_inv hc (hi.world fun x => (Bal.err s.mem.world (s.err i) x).trans (ping_bal c res i _ x)) i).1, rfl⟩
  | node m =>
    unfold handle
    dsimp only
    rw [e, hp]
    obtain ⟨b1, b2⟩ := begin_inv (res := res) hc (hi.world (w := { s.mem.world with err := s.err i }) fun x => Bal.err s.mem.world (s.err i) x) i
    have e2 : own i { s with sample := sample, stop := stop } = { s.mem with world := { s.mem.world with err := s.err i } } := rfl
    rw [e2]
    generalize begin c k true res i { s.mem with world := { s.mem.world with err := s.err i } } = r at b1 b2 ⊢
    by_cases hm : r.1.mark m ≠ .clear
    · rw [if_pos hm]; exact ⟨b1, rfl⟩
    · rw [if_neg hm]
      rw [ne_eq, not_not] at hm
      refine ⟨?_, rfl⟩
      dsimp only
      rw [interrupt_mem]
      exact attempt_inv hc hp b1 _ (hl m rfl) b2 hm

theorem task_inv [Fintype N] [DecidableEq N] (hc : Safe c) {p : Plan} (hp : p.forward = true) {res : Nat → Bool} {addr : N → Nat} {hn : 0 < n}
    {h : Heap n N V} (hi : FInv c k (fun m => Build.lane hn (addr m)) h) :
    ∀ x, Bag.Reach (task c k p res addr hn) (.ping ⟨0, hn⟩) (Trav.start h) x → FInv c k (fun m => Build.lane hn (addr m)) x.1.mem := by
  intro x hx
  induction hx with
  | init => exact hi
  | step hr hs ih =>
    cases hs with
    | env e s m => exact e.elim
    | handle s q rest =>
      exact (handle_inv hc hp (i := (task c k p res addr hn).dest q) ih q (by rintro m rfl; rfl)).1

theorem ready_inv [Fintype N] {lane : N → Fin n} {h : Heap n N V} (hr : Ready c lane h) : FInv c k lane h := by
  have hm : ∀ m, h.mark m ≠ .mutated := fun m => by rcases hr.marks m with e | e <;> rw [e] <;> decide
  refine ⟨⟨hr.past, hr.exact.1⟩, ?_, hr.once, hr.lanes, hr.all, fun i m hi => ?_, fun i m _ => hm m, fun _ => hr.kept⟩
  · rw [hr.exact.2, total, hr.kept, zero_add, graphHeld]
    congr 1
    exact Finset.sum_congr rfl fun m _ => (held_old (hm m)).symm
  · rw [hr.fresh i, if_neg (by decide)]; exact hr.zone i m hi

/-! ## The end -/

theorem freeNodes_bal (c : Env) (h : Heap n N V) (ms : List N) (w : World) (x : Multiset (Nat × Nat)) :
    Bal w (freeNodes c h ms w) ((ms.map (with_ c h)).sum + x) x := by
  induction ms generalizing w with
  | nil => exact (Bal.refl w x).cast (by simp) rfl
  | cons m ms ih =>
    unfold freeNodes
    rw [List.foldl_cons]
    refine ((DedupAcc.freeEdges_bal c (h.out m) w (owned c.vFree (h.vertex m) + ((ms.map (with_ c h)).sum + x))).cast ?_ rfl).trans
      ((destroy_frame c c.vFree (h.vertex m) _ _).trans (ih _))
    simp only [List.map_cons, List.sum_cons, with_, labels_eq]
    abel

theorem freeNodes_sticky (h : Heap n N V) (ms : List N) {w : World} (hw : w.err ≠ 0) : (freeNodes c h ms w).err = w.err := by
  induction ms generalizing w with
  | nil => rfl
  | cons m ms ih =>
    have h1 : (destroy c.fails c.vFree (h.vertex m) (freeEdges c (h.out m) w)).err = w.err := by
      rw [DedupAcc.destroy_sticky _ _ (by rw [DedupAcc.freeEdges_sticky _ hw]; exact hw), DedupAcc.freeEdges_sticky _ hw]
    unfold freeNodes
    rw [List.foldl_cons]
    exact (ih (by rw [h1]; exact hw)).trans h1

/-- The lists of all workers. -/
def lists (h : Heap n N V) : List N := (List.finRange n).flatMap fun i => h.survivors i ++ h.deletions i

theorem FInv.lists [Fintype N] {lane : N → Fin n} {h : Heap n N V} (hi : FInv c k lane h) : PostponeAcc.Lists (lists h) := by
  refine ⟨List.nodup_flatMap.2 ⟨fun i _ => hi.nodup i, ?_⟩, fun m => List.mem_flatMap.2 ⟨lane m, List.mem_finRange _, List.mem_append.2 (hi.all m)⟩⟩
  refine (List.nodup_finRange n).imp ?_
  intro a b hab x hx hy
  exact hab ((hi.lanes a x (List.mem_append.1 hx)).symm.trans (hi.lanes b x (List.mem_append.1 hy)))

theorem FInv.graph [Fintype N] [DecidableEq N] {lane : N → Fin n} {h : Heap n N V} (hi : FInv c k lane h) (f : N → Multiset (Nat × Nat)) :
    ((List.finRange n).map fun i => ((h.survivors i).map f).sum + ((h.deletions i).map f).sum).sum = ∑ m, f m := by
  rw [← PostponeAcc.sum_lists hi.lists f, MutateAcc.lists]
  induction List.finRange n with
  | nil => rfl
  | cons i l ih => rw [List.map_cons, List.sum_cons, ih, List.flatMap_cons]; simp [add_assoc]

theorem foldl_bal {α : Type} (f : World → α → World) (g : α → Multiset (Nat × Nat)) (l : List α) (w : World) (x : Multiset (Nat × Nat))
    (hf : ∀ a w x, Bal w (f w a) (g a + x) x) : Bal w (l.foldl f w) ((l.map g).sum + x) x := by
  induction l generalizing w with
  | nil => exact (Bal.refl w x).cast (by simp) rfl
  | cons a l ih =>
    rw [List.foldl_cons]
    exact ((hf a w _).trans (ih _)).cast (by rw [List.map_cons, List.sum_cons, add_assoc]) rfl

theorem unmutate_bal [Fintype N] {lane : N → Fin n} {h : Heap n N V} (hi : FInv c k lane h) (i : Fin n) (w : World) (x : Multiset (Nat × Nat)) :
    Bal w (unmutate c k h w i) (((h.survivors i).map (held c k true h)).sum + ((h.deletions i).map (held c k true h)).sum + x) x := by
  have hdel : (h.deletions i).map (held c k true h) = (h.deletions i).map (with_ c h) := List.map_congr_left fun m hm => held_old (hi.dels i m hm)
  have key : ∀ z : Env, (∀ m ∈ h.survivors i, held c k true h m = with_ z h m) →
      Bal w (freeNodes z h (h.survivors i) (freeNodes c h (h.deletions i) w))
        (((h.survivors i).map (held c k true h)).sum + ((h.deletions i).map (held c k true h)).sum + x) x := by
    intro z hz
    rw [hdel, List.map_congr_left hz]
    exact ((freeNodes_bal c h _ w _).trans (freeNodes_bal z h _ _ _)).cast (by abel) rfl
  unfold unmutate
  dsimp only
  apply key
  intro m hm
  cases hs : h.survivors i with
  | nil => rw [hs] at hm; cases hm
  | cons a l =>
    dsimp only
    have ha := hi.surv i a (by rw [hs]; exact List.mem_cons_self)
    have hm' := hi.surv i m hm
    by_cases hst : h.started i = true
    · rw [if_pos hst] at ha hm'
      rw [if_neg (by rw [ha]; decide)]
      exact held_new hm'
    · rw [if_neg hst] at ha hm'
      rw [if_pos ha]
      exact held_old (by rw [hm']; decide)

theorem unmutate_sticky (h : Heap n N V) (i : Fin n) {w : World} (hw : w.err ≠ 0) : (unmutate c k h w i).err = w.err := by
  unfold unmutate
  dsimp only
  rw [freeNodes_sticky _ _ (by rw [freeNodes_sticky _ _ hw]; exact hw), freeNodes_sticky _ _ hw]

theorem foldl_sticky {α : Type} (f : World → α → World) (hf : ∀ w a, w.err ≠ 0 → (f w a).err = w.err) (l : List α) {w : World} (hw : w.err ≠ 0) :
    (l.foldl f w).err = w.err := by
  induction l generalizing w with
  | nil => rfl
  | cons a l ih => rw [List.foldl_cons, ih (by rw [hf w a hw]; exact hw), hf w a hw]

theorem recover_bal [Fintype N] [DecidableEq N] {lane : N → Fin n} {h : Heap n N V} (hi : FInv c k lane h) (x : Multiset (Nat × Nat)) :
    Bal h.world (recover c k true h) (graphHeld c k true h + x) x := by
  unfold recover retract
  rw [if_pos (.inl rfl)]
  refine (foldl_bal (unmutate c k h) _ (List.finRange n) h.world x fun i w x => unmutate_bal hi i w x).cast ?_ rfl
  rw [hi.graph, graphHeld]

end Cru.MutateAcc
