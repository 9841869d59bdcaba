import Verif.Proofs.SpawnAcc
import Verif.Proofs.NetExec

/-! # C119, C120: storage for new graphs -/

namespace Cru.SpawnAcc

open Net Fold
open MergeAcc (Bal)
open Request (Env alloc edge Exact)

variable {n : Nat} {K C V : Type} [DecidableEq K] {c : Env} {hash : K → Nat} {hn : 0 < n}

theorem good_reach {make : K → World → Reply K V × World} (hm : Fair c make) {b : Bool} {limit : Nat} {p₀ : Pkt n K}
    {x : State n (Pkt n K) (Work n K V)} (h : Reach (task c make b limit hash hn) p₀ start x) : Good c x.g :=
  good_inv hm _ (reach_bag hn h)

theorem exact_end {make : K → World → Reply K V × World} (hm : Fair c make) {b : Bool} {limit : Nat} {p₀ : Pkt n K}
    {x : State n (Pkt n K) (Work n K V)} (h : Reach (task c make b limit hash hn) p₀ start x) :
    Exact (finish c x.g).2 (held c ((finish c x.g).1.getD [])) :=
  Request.Exact.bal (finish_bal c x.g) (good_reach hm h).1 (good_reach hm h).2

theorem exact_now {make : K → World → Reply K V × World} (hm : Fair c make) {b : Bool} {limit : Nat} {p₀ : Pkt n K}
    {x : State n (Pkt n K) (Work n K V)} (h : Reach (task c make b limit hash hn) p₀ start x) :
    Exact x.g.mem.world (allHeld c x.g.mem.nodes) :=
  ⟨(good_reach hm h).1.nodup, (good_reach hm h).2⟩

/-! ## The status -/

theorem destroy_sticky (c : Env) (d : Option Nat) (y : Option (Obj V)) (w : World) (h : w.err ≠ 0) : (destroy c.fails d y w).err = w.err := by
  unfold destroy
  split
  · simp [World.raise, h]
  · rfl

theorem freeLabels_sticky (c : Env) (ls : List (Option (Obj V))) (w : World) (h : w.err ≠ 0) : (freeLabels c ls w).err = w.err := by
  induction ls generalizing w with
  | nil => rfl
  | cons l ls ih =>
    have h1 := destroy_sticky c c.eFree l w h
    exact (ih _ (by rw [h1]; exact h)).trans h1

theorem freeNode_sticky (c : Env) (a : Node V) (w : World) (h : w.err ≠ 0) : (freeNode c a w).err = w.err := by
  have h1 := freeLabels_sticky c a.out w h
  exact (destroy_sticky c c.vFree a.vertex _ (by rw [h1]; exact h)).trans h1

theorem freeNodes_sticky (c : Env) (as : List (Node V)) (w : World) (h : w.err ≠ 0) : (freeNodes c as w).err = w.err := by
  induction as generalizing w with
  | nil => rfl
  | cons a as ih =>
    have h1 := freeNode_sticky c a w h
    exact (ih _ (by rw [h1]; exact h)).trans h1

theorem released_sticky (c : Env) (s : Work n K V) (w : World) (h : w.err ≠ 0) : (released c s w).err = w.err := by
  unfold released
  generalize List.finRange n = l
  induction l generalizing w with
  | nil => rfl
  | cons i l ih =>
    rw [List.foldl_cons]
    split_ifs
    · have h1 := freeNodes_sticky c (s.mem.nodes i) w h
      exact (ih _ (by rw [h1]; exact h)).trans h1
    · exact ih _ h

theorem firstErr {l : List Int} {r : Int} : l.foldl (fun r e => if r = 0 then e else r) r = 0 ↔ r = 0 ∧ ∀ e ∈ l, e = 0 := by
  induction l generalizing r with
  | nil => simp
  | cons e l ih =>
    rw [List.foldl_cons, ih]
    by_cases h : r = 0 <;> simp [h]

theorem status_zero (s : Work n K V) : status s = 0 ↔ ∀ i, s.err i = 0 := by
  rw [status, firstErr]
  simp

theorem released_quiet (c : Env) (s : Work n K V) (w : World) (h : ∀ i, s.err i = 0) : released c s w = w := by
  unfold released
  generalize List.finRange n = l
  induction l with
  | nil => rfl
  | cons i l ih => rw [List.foldl_cons, if_neg (by simp [h i])]; exact ih

/-- The graph is returned if no worker has had an error, there has been no kill and it could be allocated; otherwise there's an error. -/
theorem finish_iff (c : Env) (s : Work n K V) :
    ((finish c s).1.isSome ↔ (∀ i, s.err i = 0) ∧ s.killed = 0 ∧ c.mem s.mem.world.clock = true) ∧
    ((finish c s).1.isSome ↔ (finish c s).2.err = 0) := by
  by_cases h : ∀ i, s.err i = 0
  · have h0 := (status_zero s).2 h
    have h1 : released c s { s.mem.world with err := status s } = { s.mem.world with err := 0 } := by rw [released_quiet c s _ h, h0]
    unfold finish
    rw [h1]
    dsimp only
    rw [if_neg (by simp)]
    by_cases hm : c.mem s.mem.world.clock = true
    · have h2 : (alloc c { s.mem.world with err := 0 }).err = 0 := by simp [alloc, World.raise, hm]
      rw [if_neg (by simp [h2])]
      by_cases hk : s.killed = 0
      · simp [hk, h, hm, h2]
      · have h3 : (World.raise (alloc c { s.mem.world with err := 0 }) Build.intKil).err = Build.intKil := by simp [World.raise, h2]
        rw [if_pos hk, freeNodes_sticky _ _ _ (by rw [h3]; decide), h3]
        simp [hk]; decide
    · have h2 : (alloc c { s.mem.world with err := 0 }).err = 12 := by simp [alloc, World.raise, hm]
      rw [if_pos (by simp [h2]), freeNodes_sticky _ _ _ (by simp [h2]), h2]
      simp [hm]
  · have h1 : status s ≠ 0 := fun e => h ((status_zero s).1 e)
    have h2 : (released c s { s.mem.world with err := status s }).err = status s := released_sticky c s _ h1
    unfold finish
    dsimp only
    rw [if_pos (by rw [h2]; exact h1), freeNodes_sticky _ _ _ (by rw [h2]; exact h1), h2]
    simp [h, h1]

/-! ## C119: `cru_fabricated` -/

/-- As long as the vertex operator never returns anything along with an error, then at any time in any execution, whatever else fails
and whether there's a kill, everything made has been freed once or is held by one node; at the end, it has been freed once or is held by
one node of the graph returned. -/
theorem C119_account (res : Nat → Bool) (vf : Nat → K → Outcome V) (ef : Nat → C → Outcome V) (out : K → List (C × K))
    (hv : ∀ t k, (vf t k).ux ≠ 0 → (vf t k).val = none) (k₀ : K) (x : State n (Pkt n K) (Work n K V))
    (h : Reach (task c (newNode c res vf ef out) true 0 hash hn) ⟨k₀, none⟩ start x) :
    Exact x.g.mem.world (allHeld c x.g.mem.nodes) ∧ Exact (finish c x.g).2 (held c ((finish c x.g).1.getD [])) :=
  ⟨exact_now (newNode_bal c res vf ef out hv) h, exact_end (newNode_bal c res vf ef out hv) h⟩

/-- A graph is returned if no worker has had an error, there was no kill, and the graph could be allocated, and otherwise there's an
error. -/
theorem C119_status (res : Nat → Bool) (vf : Nat → K → Outcome V) (ef : Nat → C → Outcome V) (out : K → List (C × K)) (k₀ : K) (x : State n (Pkt n K) (Work n K V))
    (_ : Reach (task c (newNode c res vf ef out) true 0 hash hn) ⟨k₀, none⟩ start x) :
    ((finish c x.g).1.isSome ↔ (∀ i, x.g.err i = 0) ∧ x.g.killed = 0 ∧ c.mem x.g.mem.world.clock = true) ∧
    ((finish c x.g).1.isSome ↔ (finish c x.g).2.err = 0) := finish_iff c x.g

/-- Either nothing has been done yet, or the vertex made first is lost. -/
def Lost (d : Nat) (p₀ : Pkt n K) (x : Work n K V × Multiset (Pkt n K)) : Prop :=
  (x.2 = {p₀} ∧ x.1.mem = ⟨fun _ => [], ⟨0, 0, 0, 0, false⟩⟩ ∧ (∀ i, x.1.err i = 0 ∧ x.1.stop i = false ∧ x.1.sample i = 0 ∧ x.1.seen i = [])) ∨
  (x.2 = 0 ∧ (∃ i, x.1.err i ≠ 0) ∧ (∀ i, x.1.mem.nodes i = []) ∧ x.1.mem.world.made = {(1, d)} ∧ x.1.mem.world.freed = 0)

theorem lost_first {res : Nat → Bool} {vf : Nat → K → Outcome V} {ef : Nat → C → Outcome V} {out : K → List (C × K)} {k₀ : K} {d : Nat} (hd : c.vFree = some d)
    (hm : ∀ t, c.mem t = true) (hv : ∀ t, (vf t k₀).ux ≠ 0 ∧ (vf t k₀).val.isSome = true) (i : Fin n) {s : Work n K V}
    (h2 : s.mem = ⟨fun _ => [], ⟨0, 0, 0, 0, false⟩⟩) (h3 : ∀ i, s.err i = 0 ∧ s.stop i = false ∧ s.sample i = 0 ∧ s.seen i = []) :
    ∃ s', handle c (newNode c res vf ef out) true 0 i s ⟨k₀, none⟩ = (s', [], false) ∧ (∃ i, s'.err i ≠ 0) ∧ (∀ i, s'.mem.nodes i = []) ∧
      s'.mem.world.made = {(1, d)} ∧ s'.mem.world.freed = 0 := by
  have hv' := hv 1
  obtain ⟨v, hv''⟩ := Option.isSome_iff_exists.1 hv'.2
  unfold handle
  have hp : (Trav.poll s i).stop i = false ∧ (Trav.poll s i).err = s.err ∧ (Trav.poll s i).mem = s.mem ∧ (Trav.poll s i).seen = s.seen := by
    unfold Trav.poll
    have h4 := (h3 i).2.1
    have h5 := (h3 i).2.2.1
    simp [h4, h5]
  generalize Trav.poll s i = s' at hp ⊢
  obtain ⟨p1, p2, p3, p4⟩ := hp
  have ha : alloc c { s'.mem.world with err := 0 } = ⟨1, 0, 0, 0, false⟩ := by
    rw [p3, h2]; simp [alloc, World.raise, hm]
  dsimp only
  rw [ha]
  have hN : newNode c res vf ef out k₀ ⟨1, 0, 0, 0, false⟩ = (⟨none, []⟩, ⟨2, (vf 1 k₀).ux, {(1, d)}, 0, decide ((vf 1 k₀).ux ≠ 0)⟩) := by
    simp [newNode, applied, World.raise, hv', hv'', hd]
  have h6 := (h3 i).1
  have h7 := (h3 i).2.2.2
  rw [if_neg (by simp [p1, p2, h6]), if_neg (by simp), if_neg (by simp [p4, h7]), if_neg (by simp)]
  simp only [hN, store, outgoing]
  refine ⟨_, rfl, ⟨i, by simpa using hv'.1⟩, fun j => ?_, rfl, rfl⟩
  by_cases hj : j = i
  · subst hj; simp [p3, h2]
  · simp [p3, h2, hj]

theorem lost_inv {res : Nat → Bool} {vf : Nat → K → Outcome V} {ef : Nat → C → Outcome V} {out : K → List (C × K)} {k₀ : K} {d : Nat} (hd : c.vFree = some d)
    (hm : ∀ t, c.mem t = true) (hv : ∀ t, (vf t k₀).ux ≠ 0 ∧ (vf t k₀).val.isSome = true) :
    ∀ x, Bag.Reach (task c (newNode c res vf ef out) true 0 hash hn) ⟨k₀, none⟩ start x → Lost d ⟨k₀, none⟩ x := by
  intro x hx
  induction hx with
  | init => exact .inl ⟨rfl, rfl, fun i => ⟨rfl, rfl, rfl, rfl⟩⟩
  | step hr hs ih =>
    cases hs with
    | env e s m =>
      rcases ih with ⟨h1, h2, h3⟩ | h
      · exact .inl ⟨h1, h2, h3⟩
      · exact .inr h
    | handle s p rest =>
      rcases ih with ⟨h1, h2, h3⟩ | ⟨h1, -⟩
      · dsimp only at h1 h2 h3
        rw [← Multiset.cons_zero] at h1
        obtain ⟨rfl, rfl⟩ : p = ⟨k₀, none⟩ ∧ rest = 0 := by
          have h4 : p ∈ (⟨k₀, none⟩ ::ₘ (0 : Multiset (Pkt n K))) := by
            rw [← h1]; exact Multiset.mem_cons_self _ _
          have h5 : p = ⟨k₀, none⟩ := by simpa using h4
          subst h5
          exact ⟨rfl, (Multiset.cons_inj_right _).1 h1⟩
        obtain ⟨s', he, hs'⟩ := lost_first (c := c) (res := res) (ef := ef) (out := out) hd hm hv (Build.lane hn (hash k₀)) h2 h3
        refine .inr ⟨?_, ?_⟩
        · show (_ : Multiset (Pkt n K)) + 0 = 0
          simp [Bag.produced, task, he]
        · show (∃ i, ((task c (newNode c res vf ef out) true 0 hash hn).handle _ s ⟨k₀, none⟩).1.err i ≠ 0) ∧ _
          simp only [task, he]
          exact hs'
      · simp at h1

/-- This is the defect: a vertex returned for the base vertex along with an error is never freed, in any finished execution, although
there's no graph returned. -/
theorem C119_lost (res : Nat → Bool) (vf : Nat → K → Outcome V) (ef : Nat → C → Outcome V) (out : K → List (C × K)) (k₀ : K) (d : Nat) (hd : c.vFree = some d)
    (hm : ∀ t, c.mem t = true) (hv : ∀ t, (vf t k₀).ux ≠ 0 ∧ (vf t k₀).val.isSome = true) (x : State n (Pkt n K) (Work n K V))
    (h : Reach (task c (newNode c res vf ef out) true 0 hash hn) ⟨k₀, none⟩ start x) (hx : x.main = .done) :
    (finish c x.g).1 = none ∧ (finish c x.g).2.made = {(1, d)} ∧ (finish c x.g).2.freed = 0 := by
  have hb := lost_inv hd hm hv _ (reach_bag hn h)
  have hp := (inv_finished (i₀ := (⟨k₀, none⟩ : Pkt n K)) (reach_inv hn h) (by rw [hx]; trivial)).1
  rcases hb with ⟨h1, -⟩ | ⟨-, h2, h3, h4, h5⟩
  · dsimp only at h1
    rw [hp] at h1
    exact absurd h1.symm (Multiset.singleton_ne_zero _)
  · have hst : status x.g ≠ 0 := fun e => by
      obtain ⟨i, hi⟩ := h2
      exact hi ((status_zero x.g).1 e i)
    have hr : ∀ w : World, released c x.g w = w := by
      intro w
      unfold released
      generalize List.finRange n = l
      induction l with
      | nil => rfl
      | cons i l ih => rw [List.foldl_cons, h3 i]; simpa [freeNodes] using ih
    have hu : union x.g = [] := by
      unfold union
      rw [List.flatMap_eq_nil_iff]
      intro i _
      rw [h3 i]; simp
    unfold finish
    rw [hr, hu]
    dsimp only
    rw [if_pos hst]
    exact ⟨rfl, h4, h5⟩

/-! ## C120: `cru_crossed` -/

/-- At any time in any execution, whatever fails and whether there's a kill, everything made has been freed once or is held by one node;
at the end, it has been freed once or is held by one node of the graph returned. -/
theorem C120_account (vp : Nat → K → Outcome V) (pred : Nat → C → Verdict) (bop : Nat → C → Outcome V) (out : K → List (C × K)) (limit : Nat)
    (k₀ : K) (x : State n (Pkt n K) (Work n K V))
    (h : Reach (task c (reachedNewNode c vp pred bop out) false limit hash hn) ⟨k₀, none⟩ start x) :
    Exact x.g.mem.world (allHeld c x.g.mem.nodes) ∧ Exact (finish c x.g).2 (held c ((finish c x.g).1.getD [])) :=
  ⟨exact_now (reachedNewNode_bal c vp pred bop out) h, exact_end (reachedNewNode_bal c vp pred bop out) h⟩

/-- A graph is returned if no worker has had an error, there was no kill, and the graph could be allocated, and otherwise there's an
error. -/
theorem C120_status (vp : Nat → K → Outcome V) (pred : Nat → C → Verdict) (bop : Nat → C → Outcome V) (out : K → List (C × K)) (limit : Nat)
    (k₀ : K) (x : State n (Pkt n K) (Work n K V))
    (_ : Reach (task c (reachedNewNode c vp pred bop out) false limit hash hn) ⟨k₀, none⟩ start x) :
    ((finish c x.g).1.isSome ↔ (∀ i, x.g.err i = 0) ∧ x.g.killed = 0 ∧ c.mem x.g.mem.world.clock = true) ∧
    ((finish c x.g).1.isSome ↔ (finish c x.g).2.err = 0) := finish_iff c x.g

/-! ## Examples

Nodes `0` to `3` have edges to the next and the second next; destructors 0 and 1 for vertices and labels. -/

def demoEnv (bad : Nat) : Env := ⟨some 0, some 1, fun _ _ => 0, fun t => t != bad⟩

def demoOut (k : Nat) : List (Nat × Nat) := if k < 3 then [(k, k + 1), (k + 10, (k + 2) % 4)] else []

/-- The operator fails with the given error at node 2, having returned something or not. -/
def demoOp (some' : Bool) (e : Int) (_ k : Nat) : Outcome Nat := if k = 2 ∧ e ≠ 0 then ⟨if some' then some k else none, e⟩ else ⟨some k, 0⟩

abbrev demoFab (bad : Nat) (some' : Bool) (e : Int) := task (n := 2) (demoEnv bad) (newNode (demoEnv bad) (fun t => t % 2 = 0) (demoOp some' e) (demoOp true 0) demoOut) true 0 id (by decide)

def demoFabRun (bad : Nat) (some' : Bool) (e : Int) : State 2 (Pkt 2 Nat) (Work 2 Nat Nat) := greedy (demoFab bad some' e) ⟨0, none⟩ 400 (init start)

/-- A run without errors, one with an error of the vertex operator and one with a failing allocation; the hypotheses are met, and
everything made is freed unless there's a graph. -/
example : (Reach (demoFab 1000 false 0) ⟨0, none⟩ start (demoFabRun 1000 false 0) ∧ (∀ t k, (demoOp false 0 t k).ux ≠ 0 → (demoOp false 0 t k).val = none) ∧
      (demoFabRun 1000 false 0).main = .done ∧ ((finish (demoEnv 1000) (demoFabRun 1000 false 0).g).1.getD []).length = 4 ∧
      (finish (demoEnv 1000) (demoFabRun 1000 false 0).g).2.made.card = 10 ∧ (finish (demoEnv 1000) (demoFabRun 1000 false 0).g).2.freed = 0) ∧
    (Reach (demoFab 1000 false 7) ⟨0, none⟩ start (demoFabRun 1000 false 7) ∧ (∀ t k, (demoOp false 7 t k).ux ≠ 0 → (demoOp false 7 t k).val = none) ∧
      (demoFabRun 1000 false 7).main = .done ∧ (finish (demoEnv 1000) (demoFabRun 1000 false 7).g).2.err = 7 ∧
      (finish (demoEnv 1000) (demoFabRun 1000 false 7).g).2.freed.card ≠ 0 ∧
      (finish (demoEnv 1000) (demoFabRun 1000 false 7).g).2.made = (finish (demoEnv 1000) (demoFabRun 1000 false 7).g).2.freed) ∧
    ((demoFabRun 12 false 0).main = .done ∧ (finish (demoEnv 12) (demoFabRun 12 false 0).g).2.err = 12 ∧
      (finish (demoEnv 12) (demoFabRun 12 false 0).g).2.freed.card ≠ 0) := by
  have hv : ∀ e t k, (demoOp false e t k).ux ≠ 0 → (demoOp false e t k).val = none := by
    intro e t k; unfold demoOp; split_ifs <;> simp_all
  exact ⟨⟨greedy_reach _ _ .init, hv 0, by decide +kernel, by decide +kernel, by decide +kernel, by decide +kernel⟩,
    ⟨greedy_reach _ _ .init, hv 7, by decide +kernel, by decide +kernel, by decide +kernel, by decide +kernel⟩,
    by decide +kernel, by decide +kernel, by decide +kernel⟩

/-- An operator as in `C119_lost`, and a finished execution. -/
example : (∀ _ : Nat, ((⟨some 5, 7⟩ : Outcome Nat)).ux ≠ 0 ∧ ((⟨some 5, 7⟩ : Outcome Nat)).val.isSome = true) ∧
    (greedy (task (n := 2) ⟨some 0, some 1, fun _ _ => 0, fun _ => true⟩
      (newNode ⟨some 0, some 1, fun _ _ => 0, fun _ => true⟩ (fun _ => false) (fun _ (_ : Nat) => (⟨some 5, 7⟩ : Outcome Nat)) (demoOp true 0) demoOut) true 0 id (by decide))
      ⟨0, none⟩ 400 (init start)).main = .done := ⟨fun _ => ⟨by decide, by decide⟩, by decide +kernel⟩

abbrev demoCross (bad limit : Nat) (e : Int) := task (n := 2) (demoEnv bad)
  (reachedNewNode (demoEnv bad) (demoOp true e) (fun _ x => ⟨x != 11, 0⟩) (demoOp true 0) demoOut) false limit id (by decide)

def demoCrossRun (bad limit : Nat) (e : Int) : State 2 (Pkt 2 Nat) (Work 2 Nat Nat) := greedy (demoCross bad limit e) ⟨0, none⟩ 400 (init start)

/-- A run without errors, one with an error of the vertex operator, one with a failing allocation and one with too low a limit. -/
example : Reach (demoCross 1000 0 0) ⟨0, none⟩ start (demoCrossRun 1000 0 0) ∧ (demoCrossRun 1000 0 0).main = .done ∧
    ((finish (demoEnv 1000) (demoCrossRun 1000 0 0).g).1.getD []).length = 4 ∧ (finish (demoEnv 1000) (demoCrossRun 1000 0 0).g).2.made.card = 9 ∧
    (finish (demoEnv 1000) (demoCrossRun 1000 0 7).g).2.err = 7 ∧ (finish (demoEnv 1000) (demoCrossRun 1000 0 7).g).2.freed.card ≠ 0 ∧
    (finish (demoEnv 14) (demoCrossRun 14 0 0).g).2.err = 12 ∧ (finish (demoEnv 14) (demoCrossRun 14 0 0).g).2.freed.card ≠ 0 ∧
    (finish (demoEnv 1000) (demoCrossRun 1000 1 0).g).2.err = Build.intOvf ∧ (finish (demoEnv 1000) (demoCrossRun 1000 1 0).g).2.freed.card ≠ 0 :=
  ⟨greedy_reach _ _ .init, by decide +kernel, by decide +kernel, by decide +kernel, by decide +kernel, by decide +kernel, by decide +kernel,
    by decide +kernel, by decide +kernel, by decide +kernel⟩

end Cru.SpawnAcc
