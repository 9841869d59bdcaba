import Verif.Proofs.MutateAcc

/-! # Accounting for mutation in the other direction, without errors -/

namespace Cru.MutateAcc

open Net Fold
open MergeAcc (Bal)
open Request (Env alloc Exact destroy_frame alloc_bal)
open DedupAcc (Edge freeEdges destroy_sticky)
open PostponeAcc (scatter scatter_bal scatter_sticky sum_at bal_wf alloc_sticky)
open SpawnAcc (applied_bal)
open Mutate (Mark Packet Plan)

variable {n : Nat} {N V : Type} {c : Env} {k : Ops V}

/-! ## Edges -/

theorem relabel_back (c : Env) (o : Op V) (es : List (Edge N V)) (w : World) (x : Multiset (Nat × Nat)) :
    Bal w (relabel c o false false es w).2 x (lab o.mFree (relabel c o false false es w).1.1 + x) := by
  induction es generalizing w x with
  | nil => exact (Bal.refl w x).cast rfl (by simp [relabel])
  | cons e es ih =>
    unfold relabel
    by_cases hw : w.err ≠ 0
    · rw [if_pos hw]; exact (Bal.refl w _).cast rfl (by simp)
    · rw [if_neg hw]
      simp only [Bool.false_eq_true, if_false]
      have hx := applied_bal o.map o.mFree w
      generalize applied o.map o.mFree w = X at hx ⊢
      by_cases he : X.2.err ≠ 0
      · rw [if_pos he]
        exact (hx x).trans ((destroy_frame c o.mFree X.1 X.2 _).cast rfl (by simp))
      · rw [if_neg he]
        dsimp only
        exact (hx x).trans ((ih _ (owned o.mFree X.1 + x)).cast rfl (by rw [lab_cons]; abel))

/-- What the edges to `m` hold if the destructor of the first `i` is `d'`, and that of the rest is `d`. -/
def two [DecidableEq N] (d d' : Option Nat) (m : N) : Nat → List (Edge N V) → Multiset (Nat × Nat)
  | _, [] => 0
  | i, f :: fs =>
    if f.dst = m then
      match i with
      | 0 => owned d f.label + two d d' m 0 fs
      | i + 1 => owned d' f.label + two d d' m i fs
    else two d d' m i fs

/-- The edges to other nodes. -/
def others [DecidableEq N] (m : N) (es : List (Edge N V)) : List (Edge N V) := es.filter fun e => decide (e.dst ≠ m)

theorem two_zero [DecidableEq N] (d d' : Option Nat) (m : N) (es : List (Edge N V)) :
    two d d' m 0 es = (es.map fun e => if e.dst = m then owned d e.label else 0).sum := by
  induction es with
  | nil => rfl
  | cons e es ih =>
    unfold two
    by_cases h : e.dst = m
    · simp [h, ih]
    · simp [h, ih]

theorem two_all [DecidableEq N] (d d' : Option Nat) (m : N) (es : List (Edge N V)) (i : Nat) (hi : (es.map Edge.dst).count m ≤ i) :
    two d d' m i es = (es.map fun e => if e.dst = m then owned d' e.label else 0).sum := by
  induction es generalizing i with
  | nil => rfl
  | cons e es ih =>
    unfold two
    by_cases h : e.dst = m
    · rw [if_pos h]
      cases i with
      | zero => simp [h] at hi
      | succ i =>
        dsimp only
        rw [ih i (by simp [h] at hi; omega)]
        simp [h]
    · rw [if_neg h, ih i (by simpa [h] using hi)]
      simp [h]

theorem put_spec [DecidableEq N] (d d' : Option Nat) (m : N) (l : Option (Obj V)) (i : Nat) (es : List (Edge N V))
    {r : Option (Obj V) × List (Edge N V)} (h : put m l i es = some r) :
    two d d' m (i + 1) r.2 + owned d r.1 = two d d' m i es + owned d' l ∧ others m r.2 = others m es ∧ r.2.map Edge.dst = es.map Edge.dst := by
  induction es generalizing i r with
  | nil => simp [put] at h
  | cons f fs ih =>
    by_cases hf : f.dst = m
    · cases i with
      | zero =>
        simp only [put, if_pos hf, Option.some.injEq] at h
        subst h
        refine ⟨?_, ?_, rfl⟩
        · simp only [two, if_pos hf]; abel
        · simp [others, hf]
      | succ i =>
        simp only [put, if_pos hf, Option.map_eq_some_iff] at h
        obtain ⟨q, hq, rfl⟩ := h
        obtain ⟨h1, h2, h3⟩ := ih i hq
        refine ⟨?_, ?_, by simp [h3]⟩
        · simp only [two, if_pos hf]
          rw [add_assoc, h1, add_assoc]
        · simpa [others, hf] using h2
    · have hp : put m l i (f :: fs) = (put m l i fs).map fun r => (r.1, f :: r.2) := by cases i <;> simp [put, hf]
      rw [hp, Option.map_eq_some_iff] at h
      obtain ⟨q, hq, rfl⟩ := h
      obtain ⟨h1, h2, h3⟩ := ih i hq
      refine ⟨?_, ?_, by simp [h3]⟩
      · simp only [two, if_neg hf]; exact h1
      · simpa [others, hf] using h2

theorem reflect_sticky [DecidableEq N] (d : Option Nat) (m : N) (before : List N) (fs : List (Edge N V)) (es : N → List (Edge N V)) {w : World}
    (hw : w.err ≠ 0) : (reflect c d m before fs es w).2.err = w.err := by
  induction fs generalizing before es w with
  | nil => rfl
  | cons e fs ih =>
    have hr : (w.raise (-1214)).err = w.err := by simp [World.raise, hw]
    unfold reflect
    split
    · rw [ih _ _ (by rw [hr]; exact hw), hr]
    · rw [ih _ _ (by rw [destroy_sticky _ _ hw]; exact hw), destroy_sticky _ _ hw]

theorem reflect_back [Fintype N] [DecidableEq N] (c : Env) (d d' : Option Nat) (m : N) (before : List N) (fs : List (Edge N V)) (es : N → List (Edge N V))
    (w : World) (h : (reflect c d m before fs es w).2.err = 0) :
    (∀ s, others m ((reflect c d m before fs es w).1 s) = others m (es s)) ∧
    (∀ s, ((reflect c d m before fs es w).1 s).map Edge.dst = (es s).map Edge.dst) ∧
    ∀ x, Bal w (reflect c d m before fs es w).2 (lab d' fs + (∑ s, two d d' m (before.count s) (es s)) + x)
      ((∑ s, two d d' m (before.count s + (fs.map Edge.dst).count s) ((reflect c d m before fs es w).1 s)) + x) := by
  induction fs generalizing before es w with
  | nil => exact ⟨fun _ => rfl, fun _ => rfl, fun x => (Bal.refl w _).cast rfl (by simp [reflect])⟩
  | cons e fs ih =>
    cases hp : put m e.label (before.count e.dst) (es e.dst) with
    | none =>
      exfalso
      simp only [reflect, hp] at h
      by_cases hw : w.err = 0
      · have hr : (w.raise (-1214)).err = -1214 := by simp [World.raise, hw]
        rw [reflect_sticky _ _ _ _ _ (by rw [hr]; decide), hr] at h
        exact absurd h (by decide)
      · have hr : (w.raise (-1214)).err = w.err := by simp [World.raise, hw]
        rw [reflect_sticky _ _ _ _ _ (by rw [hr]; exact hw), hr] at h
        exact hw h
    | some r =>
      have e0 : reflect c d m before (e :: fs) es w = reflect c d m (e.dst :: before) fs (Function.update es e.dst r.2) (destroy c.fails d r.1 w) := by
        simp only [reflect, hp]
      rw [e0] at h ⊢
      obtain ⟨p1, p2, p3⟩ := put_spec d d' m e.label _ _ hp
      obtain ⟨i1, i2, i3⟩ := ih _ _ _ h
      refine ⟨fun s => ?_, fun s => ?_, fun x => ?_⟩
      · rw [i1 s]
        by_cases hs : s = e.dst
        · subst hs; rw [Function.update_self, p2]
        · rw [Function.update_of_ne hs]
      · rw [i2 s]
        by_cases hs : s = e.dst
        · subst hs; rw [Function.update_self, p3]
        · rw [Function.update_of_ne hs]
      · obtain ⟨q, q1, q2⟩ := sum_at (fun s => two d d' m (before.count s) (es s))
          (fun s => two d d' m ((e.dst :: before).count s) (Function.update es e.dst r.2 s)) e.dst (fun t ht => by
            rw [Function.update_of_ne ht, List.count_cons_of_ne (Ne.symm ht)])
        refine ((destroy_frame c d r.1 w (lab d' fs + (∑ s, two d d' m ((e.dst :: before).count s) (Function.update es e.dst r.2 s)) + x)).cast ?_ rfl).trans
          ((i3 x).cast rfl ?_)
        · rw [q1, q2, lab_cons]

          rw [Function.update_self, List.count_cons_self]
          calc _ = lab d' fs + (two d d' m (before.count e.dst + 1) r.2 + owned d r.1) + q + x := by abel
            _ = _ := by rw [p1]; abel
        · congr 1
          refine Finset.sum_congr rfl fun s _ => ?_
          congr 1
          rw [List.map_cons, List.count_cons, List.count_cons]
          omega

/-! ## Errors are kept -/

theorem freeLabels_err (d : Option Nat) (es : List (Edge N V)) {w : World} (h : (freeLabels c d es w).2.err = 0) : w.err = 0 := by
  by_contra hw
  rw [freeLabels_sticky _ _ hw] at h
  exact hw h

theorem applied_sticky (o : Op V) {w : World} (hw : w.err ≠ 0) : (applied o.map o.mFree w).2.err ≠ 0 := by
  unfold applied
  simp [World.raise, hw]

theorem relabel_err (o : Op V) (fwd b : Bool) (es : List (Edge N V)) {w : World} (h : (relabel c o fwd b es w).2.err = 0) : w.err = 0 := by
  cases es with
  | nil => exact h
  | cons e es =>
    by_contra hw
    unfold relabel at h
    rw [if_pos hw] at h
    exact hw h

theorem reflect_err [DecidableEq N] {d : Option Nat} {m : N} {before : List N} {fs : List (Edge N V)} {es : N → List (Edge N V)} {w : World}
    (h : (reflect c d m before fs es w).2.err = 0) : w.err = 0 := by
  by_contra hw
  rw [reflect_sticky _ _ _ _ _ hw] at h
  exact hw h

theorem destroy_errs {d : Option Nat} {x : Option (Obj V)} {w : World} (h : (destroy c.fails d x w).err = 0) : w.err = 0 := by
  by_contra hw
  rw [destroy_sticky _ _ hw] at h
  exact hw h

theorem scatter_err {res : Nat → Bool} {es : List (Edge N V)} {w : World} (h : (scatter c res es w).2.err = 0) : w.err = 0 := by
  by_contra hw
  rw [scatter_sticky _ _ hw] at h
  exact hw h

theorem revised_err {b : Bool} {w : World} (h : (revised c k b w).2.err = 0) : w.err = 0 := by
  by_contra hw
  unfold revised at h
  cases hk : k.vop with
  | none => rw [hk] at h; exact hw h
  | some o =>
    rw [hk] at h
    dsimp only at h
    rw [if_pos (.inr hw)] at h
    exact hw h

theorem clear_err [DecidableEq N] {d : Option Nat} {m : N} {es : List (Edge N V)} {w : World} (h : (clear c d m es w).2.err = 0) : w.err = 0 := by
  unfold clear at h
  dsimp only at h
  induction es generalizing w with
  | nil => exact h
  | cons e es ih =>
    rw [List.foldl_cons] at h
    have := ih h
    split at this
    · exact destroy_errs this
    · exact this

theorem undo_err [DecidableEq N] {d : Option Nat} {m : N} {fwd : Bool} {h : Heap n N V} (he : (undo c d m fwd h).world.err = 0) : h.world.err = 0 := by
  unfold undo at he
  cases fwd with
  | true => exact he
  | false =>
    rw [if_neg (by decide)] at he
    generalize h.inn m = es at he
    induction es generalizing h with
    | nil => exact he
    | cons e es ih =>
      rw [List.foldl_cons] at he
      exact clear_err (ih he)

/-! ## Nodes -/

/-- What the edges hold. -/
def edges [Fintype N] (c : Env) (k : Ops V) (h : Heap n N V) : Multiset (Nat × Nat) :=
  ∑ s, ((h.out s).map fun e => owned (envAt c k h e.dst).eFree e.label).sum

/-- What the vertices hold. -/
def vertices [Fintype N] (c : Env) (k : Ops V) (h : Heap n N V) : Multiset (Nat × Nat) := ∑ s, owned (envAt c k h s).vFree (h.vertex s)

theorem graph_split [Fintype N] (c : Env) (k : Ops V) (h : Heap n N V) : graphHeld c k false h = vertices c k h + edges c k h := by
  unfold graphHeld vertices edges
  rw [← Finset.sum_add_distrib]
  exact Finset.sum_congr rfl fun m _ => by simp [held]

theorem sum_split [DecidableEq N] (f : N → Option Nat) (m : N) (es : List (Edge N V)) :
    (es.map fun e => owned (f e.dst) e.label).sum =
      (es.map fun e => if e.dst = m then owned (f m) e.label else 0).sum + ((others m es).map fun e => owned (f e.dst) e.label).sum := by
  induction es with
  | nil => rfl
  | cons e es ih =>
    by_cases h : e.dst = m
    · simp [others, h] at ih ⊢
      rw [ih]; abel
    · simp [others, h] at ih ⊢
      rw [ih]; abel

/-- The heap once `m` is mutated without errors. -/
structure Changed [Fintype N] [DecidableEq N] (c : Env) (k : Ops V) (m : N) (h h' : Heap n N V) : Prop where
  mark : h'.mark = Function.update h.mark m .mutated
  survivors : h'.survivors = h.survivors
  deletions : h'.deletions = h.deletions
  started : h'.started = h.started
  lost : h'.lost = h.lost
  duplex : Duplex h → Duplex h'
  bal : Duplex h → Bal h.world h'.world (graphHeld c k false h) (graphHeld c k false h')

theorem others_sum [DecidableEq N] {m : N} {f g : N → Option Nat} (hfg : ∀ t, t ≠ m → f t = g t) {es fs : List (Edge N V)} (h : others m es = others m fs) :
    ((others m es).map fun e => owned (f e.dst) e.label).sum = ((others m fs).map fun e => owned (g e.dst) e.label).sum := by
  rw [h]
  congr 1
  refine List.map_congr_left fun e he => ?_
  rw [hfg e.dst (by simpa using (List.mem_filter.1 he).2)]

theorem relay_back [Fintype N] [DecidableEq N] (c : Env) (k : Ops V) (h : Heap n N V) (m : N) (hm : h.mark m ≠ .mutated)
    (he : (relay c k false false h m).world.err = 0) :
    (relay c k false false h m).mark = h.mark ∧ (relay c k false false h m).vertex = h.vertex ∧
    (relay c k false false h m).survivors = h.survivors ∧ (relay c k false false h m).deletions = h.deletions ∧
    (relay c k false false h m).started = h.started ∧ (relay c k false false h m).lost = h.lost ∧
    h.world.err = 0 ∧ (Duplex h → Duplex (relay c k false false h m)) ∧
    (Duplex h → ∀ h' : Heap n N V, h'.out = (relay c k false false h m).out → h'.mark = Function.update h.mark m .mutated → ∀ x,
      Bal h.world (relay c k false false h m).world (edges c k h + x) (edges c k h' + x)) := by
  unfold relay at he ⊢
  have henv : ∀ h' : Heap n N V, h'.mark = Function.update h.mark m .mutated → ∀ t, t ≠ m → (envAt c k h t).eFree = (envAt c k h' t).eFree := by
    intro h' hk t ht
    simp only [envAt, hk, Function.update_of_ne ht]
  have hold : (envAt c k h m).eFree = c.eFree := by simp [envAt, hm]
  have hnew : ∀ h' : Heap n N V, h'.mark = Function.update h.mark m .mutated → (envAt c k h' m).eFree = (revisedEnv c k).eFree := by
    intro h' hk; simp [envAt, hk]
  cases hk : k.eop with
  | none =>
    rw [hk] at he
    dsimp only at he ⊢
    refine ⟨rfl, rfl, rfl, rfl, rfl, rfl, he, id, fun _ h' h1 h2 x => (Bal.refl _ _).cast rfl ?_⟩
    unfold edges
    congr 1
    rw [h1]
    refine Finset.sum_congr rfl fun s _ => ?_
    congr 1
    refine List.map_congr_left fun e _ => ?_
    by_cases hd : e.dst = m
    · rw [hd, hold, hnew h' h2]; simp [revisedEnv, hk]
    · rw [henv h' h2 _ hd]
  | some o =>
    rw [hk] at he
    dsimp only at he ⊢
    rw [if_neg (by decide)] at he ⊢
    have hR : (revisedEnv c k).eFree = o.mFree := by simp [revisedEnv, hk, free]
    have hp : permeate c o false false (h.inn m) h.world =
      ((relabel c o false false (h.inn m) h.world).1.1 ++ (relabel c o false false (h.inn m) h.world).1.2, (relabel c o false false (h.inn m) h.world).2) := by
      unfold permeate; rw [if_neg (by decide)]
    have b1 := relabel_back c o (h.inn m) h.world
    have b2 := relabel_rest c o false false (h.inn m) h.world
    have b3 := relabel_dst c o false false (h.inn m) h.world
    have b4 := relabel_err (c := c) o false false (h.inn m) (w := h.world)
    generalize relabel c o false false (h.inn m) h.world = R at hp b1 b2 b3 b4
    rw [hp] at he ⊢
    dsimp only at he ⊢
    have f1 := reflect_back c c.eFree o.mFree m [] (R.1.1 ++ R.1.2) h.out R.2
    have f2 := @reflect_err N V c _ c.eFree m [] (R.1.1 ++ R.1.2) h.out R.2
    generalize hF : reflect c c.eFree m [] (R.1.1 ++ R.1.2) h.out R.2 = F at he f1 f2 ⊢
    have he0 : F.2.err = 0 := by
      by_contra hc
      rw [if_pos hc] at he
      exact hc (undo_err he)
    rw [if_neg (not_not.2 he0)]
    obtain ⟨g1, g2, g3⟩ := f1 he0
    have hr0 := f2 he0
    have hrest := b2 hr0
    rw [hrest, List.append_nil] at g3
    refine ⟨rfl, rfl, rfl, rfl, rfl, rfl, b4 hr0, fun hd => ?_, fun hd h' h1 h2 x => ?_⟩
    · intro s t
      dsimp only
      rw [g2 s, hd s t]
      by_cases ht : t = m
      · rw [ht, Function.update_self, b3]
      · rw [Function.update_of_ne ht]
    · rw [hrest, List.append_nil] at b3
      refine ((b1 (edges c k h + x)).cast rfl ?_).trans ((g3 ((∑ s, ((others m (h.out s)).map fun e => owned (envAt c k h e.dst).eFree e.label).sum) + x)).cast rfl ?_)
      · have : edges c k h = (∑ s, two c.eFree o.mFree m (([] : List N).count s) (h.out s)) +
            ∑ s, ((others m (h.out s)).map fun e => owned (envAt c k h e.dst).eFree e.label).sum := by
          unfold edges
          rw [← Finset.sum_add_distrib]
          refine Finset.sum_congr rfl fun s _ => ?_
          rw [sum_split (fun t => (envAt c k h t).eFree) m, List.count_nil, two_zero]
          simp only [hold]
        rw [this]; abel
      · have : edges c k h' = (∑ s, two c.eFree o.mFree m (([] : List N).count s + (R.1.1.map Edge.dst).count s) (F.1 s)) +
            ∑ s, ((others m (h.out s)).map fun e => owned (envAt c k h e.dst).eFree e.label).sum := by
          unfold edges
          rw [← Finset.sum_add_distrib]
          refine Finset.sum_congr rfl fun s _ => ?_
          rw [h1, sum_split (fun t => (envAt c k h' t).eFree) m]
          dsimp only
          rw [two_all c.eFree o.mFree m (F.1 s) _ (by rw [g2 s, hd s m, b3]; simp)]
          congr 1
          · simp only [hnew h' h2, hR]
          · exact others_sum (fun t ht => (henv h' h2 t ht).symm) (g1 s)
        rw [this]; abel

theorem vertices_at [Fintype N] [DecidableEq N] (c : Env) (k : Ops V) (h h' : Heap n N V) (m : N) (hm : h.mark m ≠ .mutated)
    (h1 : h'.mark = Function.update h.mark m .mutated) (h2 : ∀ t, t ≠ m → h'.vertex t = h.vertex t) :
    ∃ r, vertices c k h = owned c.vFree (h.vertex m) + r ∧ vertices c k h' = owned (revisedEnv c k).vFree (h'.vertex m) + r := by
  obtain ⟨r, r1, r2⟩ := sum_at (fun t => owned (envAt c k h t).vFree (h.vertex t)) (fun t => owned (envAt c k h' t).vFree (h'.vertex t)) m
    (fun t ht => by simp only [envAt, h1, Function.update_of_ne ht, h2 t ht])
  refine ⟨r, ?_, ?_⟩
  · unfold vertices; rw [r1]; simp [envAt, hm]
  · unfold vertices; rw [r2]; simp [envAt, h1]

theorem mutate_back [Fintype N] [DecidableEq N] (c : Env) (k : Ops V) (h : Heap n N V) (m : N) (hm : h.mark m ≠ .mutated)
    (he : (mutate c k false false h m).world.err = 0) : h.world.err = 0 ∧ Changed c k m h (mutate c k false false h m) := by
  unfold mutate at he ⊢
  dsimp only at he ⊢
  have hv := revised_bal c k false h.world
  have hv0 : k.vop = none → revised c k false h.world = (none, h.world) := by intro hk; simp [revised, hk]
  have hve := @revised_err V c k false h.world
  generalize revised c k false h.world = v at hv hv0 hve he ⊢
  have hr := relay_back c k { h with world := v.2 } m hm
  generalize relay c k false false { h with world := v.2 } m = h₁ at he hr ⊢
  by_cases hc : h₁.world.err ≠ 0
  · rw [if_pos hc] at he
    exact absurd (destroy_errs he) hc
  · rw [if_neg hc, if_neg (by simp)] at he ⊢
    rw [ne_eq, not_not] at hc
    obtain ⟨r1, r2, r3, r4, r5, r6, r7, r8, r9⟩ := hr hc
    refine ⟨hve r7, ?_⟩
    cases hk : k.vop with
    | none =>
      rw [hk, Option.isNone_none, if_pos rfl] at he
      dsimp only at he
      rw [Option.isNone_none, if_pos rfl]
      have hm' : Function.update h₁.mark m (if h₁.world.err ≠ 0 ∨ false = true then Mark.blocked else .mutated) = Function.update h.mark m .mutated := by
        rw [if_neg (by simp [hc]), r1]
      refine ⟨hm', r3, r4, r5, r6, r8, fun hd => ?_⟩
      rw [graph_split, graph_split]
      obtain ⟨r, q1, q2⟩ := vertices_at c k h { h₁ with mark := Function.update h₁.mark m (if h₁.world.err ≠ 0 ∨ false = true then Mark.blocked else .mutated) } m hm hm'
        (fun t _ => by show h₁.vertex t = _; rw [r2])
      have hR : (revisedEnv c k).vFree = c.vFree := by simp [revisedEnv, hk]
      have hV : vertices c k { h₁ with mark := Function.update h₁.mark m (if h₁.world.err ≠ 0 ∨ false = true then Mark.blocked else .mutated) } =
          vertices c k h := by
        rw [q1, q2, hR]; show owned c.vFree (h₁.vertex m) + r = _; rw [r2]
      rw [hV]
      have hw : v.2 = h.world := by rw [hv0 hk]
      have := r9 hd { h₁ with mark := Function.update h₁.mark m (if h₁.world.err ≠ 0 ∨ false = true then Mark.blocked else .mutated) } rfl hm' (vertices c k h)
      dsimp only at this
      rw [hw] at this
      exact this.cast (add_comm _ _) (add_comm _ _)
    | some o =>
      rw [hk, Option.isNone_some, if_neg (by simp)] at he
      dsimp only at he
      rw [Option.isNone_some, if_neg (by simp)]
      dsimp only
      have hm' : Function.update h₁.mark m (if (destroy c.fails c.vFree (h₁.vertex m) h₁.world).err ≠ 0 ∨ false = true then Mark.blocked else .mutated) =
          Function.update h.mark m .mutated := by
        rw [if_neg (by simp [he]), r1]
      generalize Function.update h₁.mark m (if (destroy c.fails c.vFree (h₁.vertex m) h₁.world).err ≠ 0 ∨ false = true then Mark.blocked else .mutated) = M at hm' ⊢
      refine ⟨hm', r3, r4, r5, r6, r8, fun hd => ?_⟩
      rw [graph_split, graph_split]
      obtain ⟨r, q1, q2⟩ := vertices_at c k h { h₁ with vertex := Function.update h₁.vertex m v.1, mark := M, world := destroy c.fails c.vFree (h₁.vertex m) h₁.world } m hm hm'
        (fun t ht => by show Function.update h₁.vertex m v.1 t = _; rw [Function.update_of_ne ht, r2])
      have hR : (revisedEnv c k).vFree = free k.vop := by simp [revisedEnv, hk]
      rw [q1, q2, hR]
      dsimp only
      rw [Function.update_self]
      have hE := r9 hd { h₁ with vertex := Function.update h₁.vertex m v.1, mark := M, world := destroy c.fails c.vFree (h₁.vertex m) h₁.world } rfl hm'
      refine (hv _).trans (((hE (owned (free k.vop) v.1 + (owned c.vFree (h.vertex m) + r))).cast ?_ rfl).trans
        ((destroy_frame c c.vFree (h₁.vertex m) h₁.world (owned (free k.vop) v.1 + r +
          edges c k { h₁ with vertex := Function.update h₁.vertex m v.1, mark := M, world := destroy c.fails c.vFree (h₁.vertex m) h₁.world })).cast ?_ rfl))
      · show edges c k h + _ = _; abel
      · rw [r2]; dsimp only; abel

/-! ## Invariant -/

/-- The storage is accounted for, and nodes of workers that haven't started aren't mutated. -/
structure BInv [Fintype N] [DecidableEq N] (c : Env) (k : Ops V) (lane : N → Fin n) (h : Heap n N V) : Prop where
  wf : h.world.WF
  ledger : h.world.made = h.world.freed + graphHeld c k false h
  duplex : Duplex h
  open_ : ∀ m, h.mark m ≠ .blocked
  lost : h.lost = 0
  fresh : ∀ i, h.started i = false → (h.survivors i).Nodup ∧ ∀ m ∈ h.survivors i, h.mark m = .clear ∧ lane m = i

theorem BInv.world [Fintype N] [DecidableEq N] {lane : N → Fin n} {h : Heap n N V} (hi : BInv c k lane h) {w : World} (hb : ∀ x, Bal h.world w x x) :
    BInv c k lane { h with world := w } := by
  obtain ⟨h1, h2⟩ := bal_wf (hb (graphHeld c k false h)) hi.wf hi.ledger
  exact ⟨h1, h2, hi.duplex, hi.open_, hi.lost, hi.fresh⟩

/-- The part of the invariant other than the nodes of workers that haven't started. -/
structure Part [Fintype N] [DecidableEq N] (c : Env) (k : Ops V) (h : Heap n N V) : Prop where
  wf : h.world.WF
  ledger : h.world.made = h.world.freed + graphHeld c k false h
  duplex : Duplex h
  open_ : ∀ m, h.mark m ≠ .blocked
  lost : h.lost = 0

theorem Part.changed [Fintype N] [DecidableEq N] {h h' : Heap n N V} {m : N} (hi : Part c k h) (hc : Changed c k m h h') : Part c k h' := by
  obtain ⟨h1, h2⟩ := bal_wf (hc.bal hi.duplex) hi.wf hi.ledger
  refine ⟨h1, h2, hc.duplex hi.duplex, fun t => ?_, hc.lost.trans hi.lost⟩
  rw [hc.mark]
  by_cases ht : t = m
  · rw [ht, Function.update_self]; decide
  · rw [Function.update_of_ne ht]; exact hi.open_ t

theorem Part.world [Fintype N] [DecidableEq N] {h : Heap n N V} (hi : Part c k h) {w : World} (hb : ∀ x, Bal h.world w x x) :
    Part c k { h with world := w } := by
  obtain ⟨h1, h2⟩ := bal_wf (hb (graphHeld c k false h)) hi.wf hi.ledger
  exact ⟨h1, h2, hi.duplex, hi.open_, hi.lost⟩

theorem begin1_back [Fintype N] [DecidableEq N] (k : Ops V) (res : Nat → Bool) (ms : List N) (h : Heap n N V) (hn : ms.Nodup)
    (hm : ∀ m ∈ ms, h.mark m = .clear) (hi : Part c k h) (he : (begin1 c k false res h ms).heap.world.err = 0) :
    h.world.err = 0 ∧ Part c k (begin1 c k false res h ms).heap ∧ (∀ t, t ∉ ms → (begin1 c k false res h ms).heap.mark t = h.mark t) ∧
    (begin1 c k false res h ms).heap.survivors = h.survivors ∧ (begin1 c k false res h ms).heap.started = h.started := by
  induction ms generalizing h with
  | nil => exact ⟨he, hi, fun _ _ => rfl, rfl, rfl⟩
  | cons m ms ih =>
    have hm1 : h.mark m ≠ .mutated := by rw [hm m List.mem_cons_self]; decide
    have hnm : m ∉ ms := (List.nodup_cons.1 hn).1
    have e : begin1 c k false res h (m :: ms) =
      (if (mutate c k false false h m).world.err ≠ 0 then ⟨discard c k (mutate c k false false h m) m, [], m :: ms, []⟩
      else
        let a := scatter c res ((mutate c k false false h m).inn m) (mutate c k false false h m).world
        let r := begin1 c k false res { mutate c k false false h m with world := a.2 } ms
        { r with done := m :: r.done, sent := a.1 ++ r.sent } : Begun n N V) := rfl
    rw [e] at he ⊢
    by_cases hx : (mutate c k false false h m).world.err ≠ 0
    · rw [if_pos hx] at he
      exact absurd (freeLabels_err _ _ he) hx
    · rw [if_neg hx] at he ⊢
      rw [ne_eq, not_not] at hx
      obtain ⟨m1, m2⟩ := mutate_back c k h m hm1 hx
      dsimp only at he ⊢
      generalize mutate c k false false h m = h₁ at m2 he ⊢
      have hp := (hi.changed m2).world (w := (scatter c res (h₁.inn m) h₁.world).2) fun x => scatter_bal _ _ _ _ x
      obtain ⟨-, i2, i3, i4, i5⟩ := ih _ (List.nodup_cons.1 hn).2 (fun t ht => by
        show h₁.mark t = _
        rw [m2.mark, Function.update_of_ne (by rintro rfl; exact hnm ht), hm t (List.mem_cons_of_mem _ ht)]) hp he
      refine ⟨m1, i2, fun t ht => ?_, i4.trans m2.survivors, i5.trans m2.started⟩
      rw [List.mem_cons, not_or] at ht
      rw [i3 t ht.2]
      show h₁.mark t = _
      rw [m2.mark, Function.update_of_ne ht.1]

theorem begin_back [Fintype N] [DecidableEq N] {res : Nat → Bool} {lane : N → Fin n} {h : Heap n N V} (hi : BInv c k lane h) (i : Fin n)
    (he : (begin c k false res i h).1.world.err = 0) :
    h.world.err = 0 ∧ BInv c k lane (begin c k false res i h).1 ∧ (begin c k false res i h).1.started i = true := by
  unfold begin at he ⊢
  by_cases hs : h.started i = true
  · rw [if_pos hs] at he ⊢; exact ⟨he, hi, hs⟩
  · rw [if_neg hs] at he ⊢
    obtain ⟨f1, f2⟩ := hi.fresh i (by simpa using hs)
    dsimp only at he ⊢
    have hsp := begin1_back k res (h.survivors i) { h with started := Function.update h.started i true } f1 (fun m hm => (f2 m hm).1)
      ⟨hi.wf, hi.ledger, hi.duplex, hi.open_, hi.lost⟩ he
    generalize begin1 c k false res { h with started := Function.update h.started i true } (h.survivors i) = r at hsp he ⊢
    obtain ⟨s1, s2, s3, s4, s5⟩ := hsp
    dsimp only at s1 s3 s4 s5
    refine ⟨s1, ⟨s2.wf, s2.ledger, s2.duplex, s2.open_, s2.lost, fun j hj => ?_⟩, by rw [s5, Function.update_self]⟩
    dsimp only at hj ⊢
    rw [s5] at hj
    have hji : j ≠ i := by rintro rfl; rw [Function.update_self] at hj; cases hj
    rw [Function.update_of_ne hji] at hj
    rw [Function.update_of_ne hji, s4]
    obtain ⟨g1, g2⟩ := hi.fresh j hj
    refine ⟨g1, fun m hm => ⟨?_, (g2 m hm).2⟩⟩
    rw [s3 m fun h' => hji ((g2 m hm).2.symm.trans (f2 m h').2)]
    exact (g2 m hm).1

theorem attempt_back [Fintype N] [DecidableEq N] {p : Plan} (hp : p.forward = false) {res : Nat → Bool} {lane : N → Fin n} {h : Heap n N V}
    (hi : BInv c k lane h) {i : Fin n} (stop : Bool) {m : N} (hl : lane m = i) (hs : h.started i = true) (hm : h.mark m = .clear)
    (he : (attempt c k p res i stop h m).1.world.err = 0) :
    h.world.err = 0 ∧ BInv c k lane (attempt c k p res i stop h m).1 := by
  unfold attempt at he ⊢
  have hb : blocked h (prerequisites p h m) = false := by
    unfold blocked
    rw [List.any_eq_false]
    intro e _
    simpa using hi.open_ e.dst
  split
  · rename_i hcond
    rw [if_pos hcond] at he
    dsimp only at he ⊢
    rw [hb, hp] at he ⊢
    by_cases hx : (mutate c k false false h m).world.err ≠ 0
    · rw [if_pos hx] at he
      exact absurd (freeLabels_err _ _ he) hx
    · rw [if_neg hx] at he ⊢
      rw [ne_eq, not_not] at hx
      obtain ⟨m1, m2⟩ := mutate_back c k h m (by rw [hm]; decide) hx
      generalize mutate c k false false h m = h₁ at m2 he ⊢
      have hpt := (Part.changed ⟨hi.wf, hi.ledger, hi.duplex, hi.open_, hi.lost⟩ m2)
      rw [if_neg (by decide)]
      dsimp only
      have hpw := hpt.world (w := (scatter c res (if false = true then h₁.out m else h₁.inn m) h₁.world).2) fun x => scatter_bal _ _ _ _ x
      refine ⟨m1, ⟨hpw.wf, hpw.ledger, hpw.duplex, hpw.open_, hpw.lost, fun j hj => ?_⟩⟩
      dsimp only at hj ⊢
      rw [m2.started] at hj
      have hji : j ≠ i := by rintro rfl; rw [hs] at hj; cases hj
      rw [Function.update_of_ne hji, m2.survivors, m2.mark]
      obtain ⟨g1, g2⟩ := hi.fresh j hj
      refine ⟨g1, fun t ht => ⟨?_, (g2 t ht).2⟩⟩
      rw [Function.update_of_ne (by rintro rfl; exact hji ((g2 t ht).2.symm.trans hl))]
      exact (g2 t ht).1
  · rename_i hcond
    rw [if_neg hcond] at he
    exact ⟨he, hi⟩

theorem ping_err {res : Nat → Bool} {i : Fin n} {w : World} (h : (ping (N := N) c res i w).2.err = 0) : w.err = 0 := by
  by_contra hw
  unfold ping at h
  split at h
  · split at h <;> exact hw (by rw [← alloc_sticky hw]; exact h)
  · exact hw h

theorem interrupt_err (i : Fin n) (s : Work n N V) : (interrupt i s).err = s.err := by unfold interrupt; split <;> rfl

theorem handle_back [Fintype N] [DecidableEq N] {p : Plan} (hp : p.forward = false) {res : Nat → Bool} {lane : N → Fin n} {s : Work n N V} {i : Fin n}
    (q : Packet n N) (hl : ∀ m, q = .node m → lane m = i) (hi : BInv c k lane s.mem) (he : (handle c k p res i s q).1.err i = 0) :
    s.err i = 0 ∧ BInv c k lane (handle c k p res i s q).1.mem := by
  obtain ⟨sample, stop, e, -⟩ := Trav.poll_eq s i
  have e2 : own i { s with sample := sample, stop := stop } = { s.mem with world := { s.mem.world with err := s.err i } } := rfl
  cases q with
  | ping j =>
    unfold handle at he ⊢
    dsimp only at he ⊢
    rw [e, hp, e2] at he ⊢
    have he' : (begin c k false res i { s.mem with world := (ping (N := N) c res i { s.mem.world with err := s.err i }).2 }).1.world.err = 0 := by
      have : ∀ (s : Work n N V) (h : Heap n N V), (store i s h).err i = h.world.err := fun s h => Function.update_self ..
      rw [this] at he; exact he
    obtain ⟨b1, b2, -⟩ := begin_back (hi.world fun x => (Bal.err s.mem.world (s.err i) x).trans (ping_bal c res i _ x)) i he'
    exact ⟨ping_err b1, b2⟩
  | node m =>
    unfold handle at he ⊢
    dsimp only at he ⊢
    rw [e, hp, e2] at he ⊢
    have hi' := hi.world (w := { s.mem.world with err := s.err i }) fun x => Bal.err s.mem.world (s.err i) x
    have hb := begin_back (res := res) hi' i
    generalize begin c k false res i { s.mem with world := { s.mem.world with err := s.err i } } = r at hb he ⊢
    by_cases hm : r.1.mark m ≠ .clear
    · rw [if_pos hm] at he ⊢
      have he' : r.1.world.err = 0 := by
        have : ∀ (s : Work n N V) (h : Heap n N V), (store i s h).err i = h.world.err := fun s h => Function.update_self ..
        rw [this] at he; exact he
      obtain ⟨b1, b2, -⟩ := hb he'
      exact ⟨b1, b2⟩
    · rw [if_neg hm] at he ⊢
      rw [ne_eq, not_not] at hm
      dsimp only at he ⊢
      rw [interrupt_err] at he
      rw [interrupt_mem]
      have he' : (attempt c k p res i (stop i) r.1 m).1.world.err = 0 := by
        have : ∀ (s : Work n N V) (h : Heap n N V), (store i s h).err i = h.world.err := fun s h => Function.update_self ..
        rw [this] at he; exact he
      have hr0 : r.1.world.err = 0 := by
        by_contra hc
        unfold attempt at he'
        rw [if_neg (fun h => hc h.1)] at he'
        exact hc he'
      obtain ⟨b1, b2, b3⟩ := hb hr0
      exact ⟨b1, (attempt_back hp b2 (stop i) (hl m rfl) b3 hm he').2⟩

theorem relay_err [DecidableEq N] {b : Bool} {h : Heap n N V} {m : N} (he : (relay c k false b h m).world.err = 0) : h.world.err = 0 := by
  unfold relay at he
  cases hk : k.eop with
  | none => rw [hk] at he; exact he
  | some o =>
    rw [hk] at he
    dsimp only at he
    rw [if_neg (by decide)] at he
    have hp : (permeate c o false b (h.inn m) h.world).2 = (relabel c o false b (h.inn m) h.world).2 := by
      unfold permeate; rw [if_neg (by decide)]
    have key : (reflect c c.eFree m [] (permeate c o false b (h.inn m) h.world).1 h.out (permeate c o false b (h.inn m) h.world).2).2.err = 0 := by
      by_contra hc
      rw [if_pos hc] at he
      exact hc (undo_err he)
    have := reflect_err key
    rw [hp] at this
    exact relabel_err o false b _ this

theorem mutate_err [DecidableEq N] {b : Bool} {h : Heap n N V} {m : N} (he : (mutate c k false b h m).world.err = 0) : h.world.err = 0 := by
  unfold mutate at he
  dsimp only at he
  have hr := @relay_err n N V c k _ b { h with world := (revised c k b h.world).2 } m
  generalize relay c k false b { h with world := (revised c k b h.world).2 } m = h₁ at he hr
  refine revised_err (hr ?_)
  by_contra hc
  rw [if_pos hc] at he
  exact hc (destroy_errs he)

theorem begin1_err [DecidableEq N] {res : Nat → Bool} {ms : List N} {h : Heap n N V} (he : (begin1 c k false res h ms).heap.world.err = 0) :
    h.world.err = 0 := by
  induction ms generalizing h with
  | nil => exact he
  | cons m ms ih =>
    unfold begin1 at he
    dsimp only at he
    by_cases hx : (mutate c k false false h m).world.err ≠ 0
    · rw [if_pos hx] at he
      exact absurd (freeLabels_err _ _ he) hx
    · exact mutate_err (not_not.1 hx)

theorem begin_err [DecidableEq N] {res : Nat → Bool} {i : Fin n} {h : Heap n N V} (he : (begin c k false res i h).1.world.err = 0) :
    h.world.err = 0 := by
  unfold begin at he
  split at he
  · exact he
  · exact begin1_err (h := { h with started := Function.update h.started i true }) he

theorem handle_err [DecidableEq N] {p : Plan} (hp : p.forward = false) {res : Nat → Bool} {s : Work n N V} {i : Fin n} (q : Packet n N)
    (he : (handle c k p res i s q).1.err i = 0) : s.err i = 0 := by
  obtain ⟨sample, stop, e, -⟩ := Trav.poll_eq s i
  have hst : ∀ (s : Work n N V) (h : Heap n N V), (store i s h).err i = h.world.err := fun s h => Function.update_self ..
  cases q with
  | ping j =>
    unfold handle at he
    dsimp only at he
    rw [e, hst, hp] at he
    exact ping_err (begin_err he)
  | node m =>
    unfold handle at he
    dsimp only at he
    rw [e, hp] at he
    split at he
    · rw [hst] at he; exact begin_err he
    · dsimp only at he
      rw [interrupt_err, hst] at he
      by_contra hc
      unfold attempt at he
      rw [if_neg (fun h => hc (begin_err h.1))] at he
      exact hc (begin_err he)

theorem handle_errs [DecidableEq N] {p : Plan} {res : Nat → Bool} {s : Work n N V} {i j : Fin n} (q : Packet n N) (hj : j ≠ i) :
    (handle c k p res i s q).1.err j = s.err j := by
  obtain ⟨sample, stop, e, -⟩ := Trav.poll_eq s i
  have hst : ∀ (s : Work n N V) (h : Heap n N V), (store i s h).err j = s.err j := fun s h => Function.update_of_ne hj ..
  cases q with
  | ping t => unfold handle; dsimp only; rw [hst, e]
  | node m =>
    unfold handle
    dsimp only
    rw [e]
    split
    · rw [hst]
    · dsimp only; rw [interrupt_err, hst]

theorem task_back [Fintype N] [DecidableEq N] {p : Plan} (hp : p.forward = false) {res : Nat → Bool} {addr : N → Nat} {hn : 0 < n}
    {h : Heap n N V} (hi : BInv c k (fun m => Build.lane hn (addr m)) h) :
    ∀ x, Bag.Reach (task c k p res addr hn) (.ping ⟨0, hn⟩) (Trav.start h) x → (∀ i, x.1.err i = 0) →
      BInv c k (fun m => Build.lane hn (addr m)) x.1.mem := by
  intro x hx
  induction hx with
  | init => exact fun _ => hi
  | step hr hs ih =>
    cases hs with
    | env e s m => exact e.elim
    | handle s q rest =>
      intro he
      have h1 : ∀ j, j ≠ (task c k p res addr hn).dest q → s.err j = 0 := fun j hj => by
        rw [← handle_errs (c := c) (k := k) (p := p) (res := res) q hj]; exact he j
      by_cases h2 : s.err ((task c k p res addr hn).dest q) = 0
      · exact (handle_back (i := (task c k p res addr hn).dest q) (res := res) hp q (by rintro m rfl; rfl)
          (ih fun j => by by_cases hj : j = (task c k p res addr hn).dest q; · rw [hj]; exact h2
                          · exact h1 j hj) (he _)).2
      · exact absurd (handle_err hp q (he _)) h2

end Cru.MutateAcc
