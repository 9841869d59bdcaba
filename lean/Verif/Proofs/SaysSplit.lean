import Verif.Proofs.Says

/-! # No error is lost: fabrication, crossing and splitting -/

namespace Cru.Fold

/-- If any user function or allocation has failed, there's a worker with an error. -/
def Told {n : Nat} (err : Fin n → Int) (w : World) : Prop := w.upset = true → ∃ i, err i ≠ 0

theorem Told.step {n : Nat} {err : Fin n → Int} {w w' : World} {i : Fin n} (h : Told err w) (hw : Says { w with err := err i } w') :
    Told (Function.update err i w'.err) w' := by
  intro hu
  by_cases hz : w'.err = 0
  · obtain ⟨j, hj⟩ := h (hw.upset hz hu)
    refine ⟨j, ?_⟩
    have : j ≠ i := by rintro rfl; exact hj (hw.err hz)
    simpa [this] using hj
  · exact ⟨i, by simpa using hz⟩

/-- The first non-zero error is zero only if all are. -/
theorem first_zero (l : List Int) (r : Int) : l.foldl (fun r e => if r = 0 then e else r) r = 0 ↔ r = 0 ∧ ∀ e ∈ l, e = 0 := by
  induction l generalizing r with
  | nil => simp
  | cons a l ih =>
    rw [List.foldl_cons, ih]
    by_cases h : r = 0 <;> simp [h]

theorem Told.quiet {n : Nat} {err : Fin n → Int} {w : World} (h : Told err w)
    (hs : ((List.finRange n).map err).foldl (fun r e => if r = 0 then e else r) 0 = 0) : w.upset = false := by
  rw [first_zero] at hs
  by_contra hn
  obtain ⟨i, hi⟩ := h (by simpa using hn)
  exact hi (hs.2 _ (List.mem_map.2 ⟨i, List.mem_finRange i, rfl⟩))

end Cru.Fold

namespace Cru.Request

open Fold

theorem edge_says {V : Type} (c : Env) (l v : Option (Obj V)) (es : List (Edge V)) (w : World) : Says w (edge c l v es w).2 := by
  unfold edge
  dsimp only
  split_ifs
  · exact alloc_says c w
  · exact (alloc_says c w).trans ((freeEdges_says _ _ _).trans ((destroy_says _ _ _ _).trans (destroy_says _ _ _ _)))
  · exact (freeEdges_says _ _ _).trans ((destroy_says _ _ _ _).trans (destroy_says _ _ _ _))

end Cru.Request

namespace Cru.SpawnAcc

open Fold Net
open Request (Env Edge alloc alloc_says edge edge_says)

variable {n : Nat} {K C V : Type} {c : Env}

theorem freeNode_says (a : Node V) (w : World) : Says w (freeNode c a w) := (freeLabels_says _ _ _).trans (destroy_says _ _ _ _)

theorem newEdges_says (ef : Nat → C → Outcome V) (es : List (C × K)) (ls : List (Option (Obj V) × K)) (w : World) :
    Says w (newEdges c ef es ls w).2 := by
  induction es generalizing ls w with
  | nil => exact .refl w
  | cons e es ih =>
    unfold newEdges
    by_cases h : w.err ≠ 0
    · rw [if_pos h]; exact .refl w
    · rw [if_neg h]; exact (applied_says _ _ _).trans ((edge_says _ _ _ _ _).trans (ih _ _))

theorem scatterOut_says (res : Nat → Bool) (es : List (Option (Obj V) × K)) (w : World) : Says w (scatterOut c res es w).2 := by
  induction es generalizing w with
  | nil => exact .refl w
  | cons e es ih =>
    unfold scatterOut
    split_ifs
    · exact (alloc_says c w).trans (freeLabels_says _ _ _)
    · exact (alloc_says c w).trans (ih _)

theorem newNode_says (res : Nat → Bool) (vf : Nat → K → Outcome V) (ef : Nat → C → Outcome V) (out : K → List (C × K)) (k : K) (w : World) :
    Says w (newNode c res vf ef out k w).2 := by
  unfold newNode
  dsimp only
  have h1 := applied_says (fun t => vf t k) c.vFree w
  generalize applied (fun t => vf t k) c.vFree w = v at h1 ⊢
  have h2 := h1.trans (alloc_says c v.2)
  have h3 := h2.trans (newEdges_says (c := c) ef (out k) [] (alloc c v.2))
  generalize newEdges c ef (out k) [] (alloc c v.2) = x at h3 ⊢
  have h4 : Says w (if x.2.err ≠ 0 then x.2 else alloc c x.2) := by
    split_ifs
    · exact h3
    · exact h3.trans (alloc_says _ _)
  generalize (if x.2.err ≠ 0 then x.2 else alloc c x.2) = w2 at h4 ⊢
  split_ifs
  · exact h1
  · exact h2.trans (destroy_says _ _ _ _)
  · exact h4.trans (freeNode_says _ _)
  · exact h4.trans (scatterOut_says _ _ _)

theorem packets_says (pred : Nat → C → Verdict) (bop : Nat → C → Outcome V) (es : List (C × K)) (ps : List (Option (Obj V) × K)) (w : World) :
    Says w (packets c pred bop es ps w).2 := by
  induction es generalizing ps w with
  | nil => exact .refl w
  | cons e es ih =>
    unfold packets
    by_cases h : w.err ≠ 0
    · rw [if_pos h]; exact .refl w
    rw [if_neg h]
    dsimp only
    have h1 : Says w ({ w with clock := w.clock + 1, upset := w.upset || decide ((pred w.clock e.1).ux ≠ 0) }.raise (pred w.clock e.1).ux) :=
      Says.called rfl (by simp)
    generalize World.raise { w with clock := w.clock + 1, upset := w.upset || decide ((pred w.clock e.1).ux ≠ 0) } (pred w.clock e.1).ux = w1 at h1 ⊢
    by_cases e1 : w1.err ≠ 0 ∨ (pred w.clock e.1).val = false
    · rw [if_pos e1]; exact h1.trans (ih _ _)
    rw [if_neg e1]
    have h2 := h1.trans (alloc_says c w1)
    by_cases e2 : (alloc c w1).err ≠ 0
    · rw [if_pos e2]; exact h2.trans (ih _ _)
    rw [if_neg e2]
    have h3 := h2.trans (applied_says (fun t => bop t e.1) c.eFree (alloc c w1))
    generalize applied (fun t => bop t e.1) c.eFree (alloc c w1) = x at h3 ⊢
    by_cases e3 : x.2.err ≠ 0
    · rw [if_pos e3]; exact h3.trans ((destroy_says _ _ _ _).trans (ih _ _))
    rw [if_neg e3]
    have h4 : Says w (if (alloc c x.2).err ≠ 0 then alloc c x.2 else alloc c (alloc c x.2)) := by
      split_ifs
      · exact h3.trans (alloc_says _ _)
      · exact h3.trans ((alloc_says _ _).trans (alloc_says _ _))
    generalize (if (alloc c x.2).err ≠ 0 then alloc c x.2 else alloc c (alloc c x.2)) = w3 at h4 ⊢
    by_cases e4 : w3.err ≠ 0
    · rw [if_pos e4]; exact h4.trans ((destroy_says _ _ _ _).trans (ih _ _))
    · rw [if_neg e4]; exact h4.trans (ih _ _)

theorem reachedNewNode_says (vp : Nat → K → Outcome V) (pred : Nat → C → Verdict) (bop : Nat → C → Outcome V) (out : K → List (C × K)) (k : K)
    (w : World) : Says w (reachedNewNode c vp pred bop out k w).2 := by
  unfold reachedNewNode
  dsimp only
  have h1 := packets_says (c := c) pred bop (out k) [] w
  generalize packets c pred bop (out k) [] w = p at h1 ⊢
  have h2 := h1.trans (alloc_says c p.2)
  have h3 := h2.trans (applied_says (fun t => vp t k) c.vFree (alloc c p.2))
  generalize applied (fun t => vp t k) c.vFree (alloc c p.2) = v at h3 ⊢
  have h4 : Says w (if v.2.err ≠ 0 then v.2 else alloc c v.2) := by
    split_ifs
    · exact h3
    · exact h3.trans (alloc_says _ _)
  generalize (if v.2.err ≠ 0 then v.2 else alloc c v.2) = w2 at h4 ⊢
  split_ifs
  · exact h1.trans (freeLabels_says _ _ _)
  · exact h2.trans (freeLabels_says _ _ _)
  · exact h4.trans ((freeNode_says _ _).trans (freeLabels_says _ _ _))
  · exact h4

/-! ## Workers -/

theorem poll_same {G : Type} (s : Trav.Job n K G) (i : Fin n) : (Trav.poll s i).err = s.err ∧ (Trav.poll s i).mem = s.mem := by
  unfold Trav.poll; split_ifs <;> exact ⟨rfl, rfl⟩

theorem discard_told (clears : Bool) (i : Fin n) {s : Work n K V} (p : Pkt n K) (h : Told s.err s.mem.world) :
    Told (discard c clears i s p).err (discard c clears i s p).mem.world := by
  unfold discard
  split
  · exact h
  · split_ifs
    · exact h.step (destroy_says _ _ _ _)
    · exact h

theorem handle_told [DecidableEq K] {make : K → World → Reply K V × World} (hm : ∀ k w, Says w (make k w).2) (clears : Bool) (limit : Nat) (i : Fin n)
    {s : Work n K V} (p : Pkt n K) (h : Told s.err s.mem.world) :
    Told (handle c make clears limit i s p).1.err (handle c make clears limit i s p).1.mem.world := by
  unfold handle
  obtain ⟨p1, p2⟩ := poll_same s i
  have h' : Told (Trav.poll s i).err (Trav.poll s i).mem.world := by rw [p1, p2]; exact h
  generalize Trav.poll s i = s at h' ⊢
  dsimp only
  by_cases e1 : s.err i ≠ 0 ∨ s.stop i = true
  · rw [if_pos e1]; exact discard_told _ _ _ h'
  rw [if_neg e1]
  have e0 : s.err i = 0 := by by_contra hn; exact e1 (.inl hn)
  have h1 : Says { s.mem.world with err := s.err i } (alloc c { s.mem.world with err := 0 }) := by rw [e0]; exact alloc_says _ _
  generalize alloc c { s.mem.world with err := 0 } = w at h1 ⊢
  have h2 := h'.step h1
  by_cases e2 : w.err ≠ 0
  · rw [if_pos e2]; exact discard_told _ _ _ h2
  rw [if_neg e2]
  split_ifs
  · exact h2
  · intro _
    refine ⟨i, ?_⟩
    simp only [Function.update_self]; decide
  · have := h'.step (h1.trans (hm p.key w))
    unfold store
    rw [Function.update_idem]; exact this

theorem reach_told [DecidableEq K] {make : K → World → Reply K V × World} (hm : ∀ k w, Says w (make k w).2) {clears : Bool} {limit : Nat} {hash : K → Nat}
    {hn : 0 < n} {p₀ : Pkt n K} {x : Work n K V × Multiset (Pkt n K)} (h : Bag.Reach (task c make clears limit hash hn) p₀ start x) :
    Told x.1.err x.1.mem.world := by
  induction h with
  | init => intro hu; exact absurd hu (by simp [start, Trav.start])
  | step _ hs ih =>
    cases hs with
    | handle g p b => exact handle_told hm _ _ _ _ ih
    | env e g b => exact ih

theorem released_says (s : Work n K V) (w : World) : Says w (released c s w) :=
  foldl_says _ (fun _ _ => by split_ifs; exacts [freeNodes_says _ _ _, .refl _]) _ w

theorem finish_quiet {s : Work n K V} (h : Told s.err s.mem.world) (hf : (finish c s).2.err = 0) : (finish c s).2.upset = false := by
  have key : ∀ w, Says { s.mem.world with err := status s } w → w.err = 0 → w.upset = false := by
    intro w hw hz
    by_contra hn
    have := hw.upset hz (by simpa using hn)
    rw [show s.mem.world.upset = false from h.quiet (hw.err hz)] at this
    cases this
  have h1 := released_says (c := c) s { s.mem.world with err := status s }
  refine key _ ?_ hf
  unfold finish
  dsimp only
  split_ifs
  · exact h1.trans (freeNodes_says _ _ _)
  · exact h1.trans ((alloc_says _ _).trans (freeNodes_says _ _ _))
  · exact h1.trans ((alloc_says _ _).trans ((Says.raise _ _).trans (freeNodes_says _ _ _)))
  · exact h1.trans (alloc_says _ _)

end Cru.SpawnAcc

namespace Cru.SplitAcc

open Fold Net
open Request (Env alloc alloc_says edge edge_says)
open SpawnAcc (Verdict)
open Split (Twin)

variable {n : Nat} {N V : Type} {c : Env} {o : Ops V} {res : Nat → Bool}

theorem relabel_says (anaP : Nat → Verdict) (ana : Nat → Outcome V) (cataP : Nat → Verdict) (cata : Nat → Outcome V) (l : Option (Obj V)) (w : World) :
    Says w (relabel c anaP ana cataP cata l w).world := by
  unfold relabel
  dsimp only
  have h : ∀ (f : Nat → Outcome V) (a : Bool × World), Says a.2 (if a.1 then applied f c.eFree a.2 else (none, a.2)).2 := by
    intro f a
    split_ifs
    · exact applied_says _ _ _
    · exact .refl _
  exact (passed_says _ _).trans ((h _ _).trans ((passed_says _ _).trans ((h _ _).trans (destroy_says _ _ _ _))))

theorem fan_says (es mv : List (Edge N V)) (k : Nat) (w : World) : Says w (fan c o es mv k w).world := by
  induction es generalizing mv k w with
  | nil => exact .refl w
  | cons e es ih =>
    unfold fan
    by_cases h : w.err ≠ 0
    · rw [if_pos h]; exact .refl w
    rw [if_neg h]
    dsimp only
    have h1 := relabel_says (c := c) o.outAnaP o.outAna o.outCataP o.outCata e.label w
    generalize relabel c o.outAnaP o.outAna o.outCataP o.outCata e.label w = f at h1 ⊢
    split
    · split
      · exact h1.trans ((edge_says _ _ _ _ _).trans (ih _ _ _))
      · exact h1.trans (ih _ _ _)
    · split
      · exact h1.trans (ih _ _ _)
      · exact h1.trans ((destroy_says _ _ _ _).trans (ih _ _ _))

theorem scatter_says (s : Twin N) (es : List (Edge N V)) (w : World) : Says w (scatter c res s es w).2 := by
  induction es generalizing w with
  | nil => exact .refl w
  | cons e es ih =>
    unfold scatter
    split_ifs
    · exact alloc_says c w
    · exact (alloc_says c w).trans (ih _)

theorem notify_says (s : Twin N) (h : Heap n N V) : Says h.world (notify c res s h).1.world := by
  unfold notify
  split_ifs
  · exact .refl _
  · exact scatter_says _ _ _

theorem notify_says' (s t : Twin N) (h : Heap n N V) {w : World} (hw : Says w h.world) :
    Says w (notify c res t (notify c res s h).1).1.world := hw.trans ((notify_says _ _).trans (notify_says _ _))

theorem divide_says [DecidableEq N] (i : Fin n) (h : Heap n N V) (m : N) : Says h.world (divide c o res i h m).1.world := by
  unfold divide
  dsimp only
  have h0 : Says h.world (if c.vFree.isSome ∧ h.world.err = 0 then alloc c h.world else h.world) := by
    split_ifs
    · exact alloc_says _ _
    · exact .refl _
  generalize (if c.vFree.isSome ∧ h.world.err = 0 then alloc c h.world else h.world) = w at h0 ⊢
  have h1 := h0.trans (applied_says o.ana c.vFree w)
  generalize applied o.ana c.vFree w = u at h1 ⊢
  by_cases e : u.2.err ≠ 0
  · rw [if_pos e]; exact h1
  rw [if_neg e]
  have h2 := h1.trans (fan_says (c := c) (o := o) (h.out (m, false)) (h.out (m, true)) h.next u.2)
  generalize fan c o (h.out (m, false)) (h.out (m, true)) h.next u.2 = x at h2 ⊢
  refine notify_says' _ _ _ ?_
  exact h2

theorem fanOut_says [DecidableEq N] (i : Fin n) (h : Heap n N V) (m : N) : Says h.world (fanOut c o res i h m).1.world := by
  unfold fanOut
  dsimp only
  have h1 := passed_says o.fissile h.world
  generalize passed o.fissile h.world = f at h1 ⊢
  by_cases e1 : f.1 = false
  · rw [if_pos e1]; exact h1.trans (notify_says (c := c) (res := res) (m, false) { h with world := f.2 })
  rw [if_neg e1]
  have h2 := h1.trans (applied_says o.cata c.vFree f.2)
  generalize applied o.cata c.vFree f.2 = t at h2 ⊢
  by_cases e2 : t.2.err ≠ 0
  · rw [if_pos e2]; exact h2
  rw [if_neg e2]
  have h3 := h2.trans (alloc_says c t.2)
  by_cases e3 : (alloc c t.2).err ≠ 0
  · rw [if_pos e3]; exact h3.trans (destroy_says _ _ _ _)
  rw [if_neg e3]
  have h4 := h3.trans (applied_says o.probe o.pFree (alloc c t.2))
  generalize applied o.probe o.pFree (alloc c t.2) = p at h4 ⊢
  by_cases e4 : p.2.err ≠ 0
  · rw [if_pos e4]; exact h4.trans ((destroy_says _ _ _ _).trans (destroy_says _ _ _ _))
  rw [if_neg e4]
  by_cases e5 : unsent c res p.2
  · rw [if_pos e5]; exact h4.trans ((alloc_says _ _).trans ((destroy_says _ _ _ _).trans (destroy_says _ _ _ _)))
  rw [if_neg e5]
  exact h4.trans ((alloc_says _ _).trans (divide_says (c := c) (o := o) (res := res) i { h with
          vertex := Function.update h.vertex (m, true) t.1
          prop := Function.update h.prop (m, true) p.1
          world := alloc c p.2 } m))

theorem connectIn_says [DecidableEq N] (h : Heap n N V) (m : N) (s : Twin N) (e : Edge N V) :
    Says h.world (connectIn c o res h m s e).1.world := by
  unfold connectIn
  dsimp only
  have h1 := relabel_says (c := c) o.inAnaP o.inAna o.inCataP o.inCata e.label h.world
  generalize relabel c o.inAnaP o.inAna o.inCataP o.inCata e.label h.world = f at h1 ⊢
  by_cases e1 : f.ana = true
  · rw [if_pos e1]
    by_cases e2 : f.cata = true
    · rw [if_pos e2]
      have h2 := h1.trans (edge_says c f.cataLabel none [] f.world)
      generalize edge c f.cataLabel none [] f.world = g at h2 ⊢
      split
      · exact h2
      · split
        · exact h2.trans ((alloc_says _ _).trans (destroy_says _ _ _ _))
        · exact h2.trans (alloc_says _ _)
    · rw [if_neg e2]; exact h1
  · rw [if_neg e1]
    split
    · exact h1
    · split
      · exact h1.trans (alloc_says _ _)
      · exact h1.trans (alloc_says _ _)

theorem fanIn_says [DecidableEq N] (h : Heap n N V) (m : N) (d : Option (Twin N × Nat)) :
    Says h.world (fanIn c o res h m d).1.world := by
  cases d with
  | none => exact .refl _
  | some d =>
    obtain ⟨s, id⟩ := d
    unfold fanIn
    dsimp only
    by_cases e : h.world.err ≠ 0 ∨ h.split m = false
    · rw [if_pos e]; exact .refl _
    rw [if_neg e]
    split
    · exact .refl _
    · exact connectIn_says (c := c) (o := o) (res := res) h m _ _

theorem put_told {i : Fin n} {s s' : Work n N V} {h : Heap n N V} (ht : Told s.err s.mem.world) (he : s'.err = s.err)
    (hw : Says { s.mem.world with err := s.err i } h.world) : Told (put i s' h).err (put i s' h).mem.world := by
  unfold put; dsimp only; rw [he]; exact ht.step hw

theorem act_told [DecidableEq N] (limit : Nat) {i : Fin n} {s : Work n N V} {h : Heap n N V} (p : Pkt N V) (ht : Told s.err s.mem.world)
    (hw : Says { s.mem.world with err := s.err i } h.world) :
    Told (act c o res limit i s h p).1.err (act c o res limit i s h p).1.mem.world := by
  cases p with
  | create m =>
    refine put_told (s := s) ht rfl (hw.trans ?_)
    unfold keep
    dsimp only
    split_ifs
    · exact Says.raise _ _
    · exact .refl _
  | connect t e => exact put_told ht rfl hw
  | disconnect t id =>
    simp only [act]
    split
    · exact put_told ht rfl hw
    · exact put_told (s := s) ht rfl (hw.trans (destroy_says _ _ _ _))
  | visit m d =>
    simp only [act]
    by_cases e1 : m ∈ s.seen i
    · rw [if_pos e1]
      exact put_told (s := s) ht rfl (hw.trans (fanIn_says h m d))
    rw [if_neg e1]
    have h2 := hw.trans (alloc_says c h.world)
    by_cases e2 : (alloc c h.world).err ≠ 0
    · rw [if_pos e2]
      exact put_told (s := s) ht rfl h2
    rw [if_neg e2]
    have h3 := h2.trans (fanOut_says (c := c) (o := o) (res := res) i { h with world := alloc c h.world } m)
    exact put_told (s := s) ht rfl (h3.trans (fanIn_says _ m d))

theorem handle_told [DecidableEq N] (limit : Nat) (i : Fin n) {s : Work n N V} (p : Pkt N V) (h : Told s.err s.mem.world) :
    Told (handle c o res limit i s p).1.err (handle c o res limit i s p).1.mem.world := by
  unfold handle
  obtain ⟨p1, p2⟩ := SpawnAcc.poll_same s i
  have h' : Told (Trav.poll s i).err (Trav.poll s i).mem.world := by rw [p1, p2]; exact h
  generalize Trav.poll s i = s at h' ⊢
  dsimp only
  by_cases e1 : s.err i ≠ 0 ∨ s.stop i = true
  · rw [if_pos e1]
    cases p with
    | create m => exact put_told (s := s) h' rfl (.refl _)
    | connect t e => exact put_told (s := s) h' rfl (destroy_says _ _ _ _)
    | disconnect t id => exact h'
    | visit m d => exact h'
  · rw [if_neg e1]
    exact act_told _ _ h' (.refl _)

theorem reach_told [DecidableEq N] {limit : Nat} {addr : Twin N → Nat} {hn : 0 < n} {p₀ : Pkt N V} {g₀ : Work n N V} {x : Work n N V × Multiset (Pkt N V)}
    (h : Bag.Reach (task c o res limit addr hn) p₀ g₀ x) (h0 : g₀.mem.world.upset = false) : Told x.1.err x.1.mem.world := by
  induction h with
  | init => intro hu; rw [h0] at hu; cases hu
  | step _ hs ih =>
    cases hs with
    | handle g p b => exact handle_told _ _ _ ih
    | env e g b => exact ih

theorem freeNodes_says (h : Heap n N V) (ts : List (Twin N)) (w : World) : Says w (freeNodes c h ts w) :=
  foldl_says _ (fun _ _ => (SpawnAcc.freeLabels_says _ _ _).trans (destroy_says _ _ _ _)) ts w

theorem finish_quiet (e : Int) (reachable : Twin N → Bool) {s : Work n N V} (h : Told s.err s.mem.world)
    (hf : (finish c o e reachable s).2.err = 0) : (finish c o e reachable s).2.upset = false := by
  have key : ∀ w, Says { s.mem.world with err := status s } w → w.err = 0 → w.upset = false := by
    intro w hw hz
    by_contra hn
    have := hw.upset hz (by simpa using hn)
    rw [show s.mem.world.upset = false from h.quiet (hw.err hz)] at this
    cases this
  refine key _ ?_ hf
  have h1 : Says { s.mem.world with err := status s } ((clear c o s.mem { s.mem.world with err := status s }).raise e) :=
    (foldl_says _ (fun _ _ => destroy_says _ _ _ _) _ _).trans (Says.raise _ _)
  unfold finish
  dsimp only
  generalize (clear c o s.mem { s.mem.world with err := status s }).raise e = w at h1 ⊢
  have h2 : ∀ gone, Says { s.mem.world with err := status s }
      ((dummies s.mem).foldl (fun w x => destroy c.fails c.vFree x w) (freeNodes c s.mem gone w)) := fun gone =>
    h1.trans ((freeNodes_says _ _ _).trans (foldl_says _ (fun _ _ => destroy_says _ _ _ _) _ _))
  by_cases e0 : w.err ≠ 0
  · simp only [if_pos e0]
    split
    · exact (h2 _).trans (freeNodes_says _ _ _)
    · exact h2 _
  · simp only [if_neg e0]
    split
    · exact (h2 _).trans (freeNodes_says _ _ _)
    · exact h2 _

end Cru.SplitAcc
