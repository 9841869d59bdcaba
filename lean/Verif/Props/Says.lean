import Verif.Proofs.SaysMove
import Verif.Proofs.ComposeAccPass
import Verif.Props.SpawnAcc
import Verif.Props.SplitAcc
import Verif.Props.BuildAcc
import Verif.Props.PostponeAcc
import Verif.Props.MutateAcc
import Verif.Props.ComposeAcc

/-!
# C143: no error is lost

`World.upset` says whether any user function, destructor or allocation has failed so far, irrespective of what has become of its error
code.  If it's so when an operation is over, the operation has reported an error and hasn't returned a graph.
-/

namespace Cru.BuildAcc

open Net Fold
open Request (Env alloc alloc_says)
open SpawnAcc (Node freeNodes freeNodes_says)

variable {n : Nat} {V : Type} {c : Env} {o : Ops V} {hn : 0 < n}

theorem quiet_of {s : Job n V} (h : Told s) {pre post : Int} {w : World} (hw : Says { s.world with err := status s pre post } w) (hz : w.err = 0) :
    w.upset = false := by
  by_contra hne
  obtain ⟨i, hi⟩ := h (hw.upset hz (by simpa using hne))
  exact hi (((status_zero _ _ _).1 (hw.err hz)).2.1 i)

/-- **C143.** Building: an error of the connector or subconnector, of a destructor or of an allocation anywhere in the course of it, or in
the disposal of the graph, is reported, and no graph is returned. -/
theorem C143_built (ends : Fin n → List (Nat × Nat)) (v : Option V) (x : State n (Pkt V) (Job n V))
    (h : Reach (task c o ends hn) (.fresh (origin c v).1 true) (blank (origin c v).2) x)
    (remote : Fin n → Nat → Nat → Nat) (pre post : Int) (hu : (finish c (leaveAll c o remote x.g) pre post).2.upset = true) :
    (finish c (leaveAll c o remote x.g) pre post).1 = none ∧ (finish c (leaveAll c o remote x.g) pre post).2.err ≠ 0 := by
  have h0 : (origin c v).2.upset = false := rfl
  have h1 : Told (leaveAll c o remote x.g) :=
    leaveAll_told remote (reach_told (reach_bag hn h) fun hu => absurd (show (origin c v).2.upset = true from hu) (by rw [h0]; simp))
  have h2 : (finish c (leaveAll c o remote x.g) pre post).2.err ≠ 0 := by
    intro hz
    have := quiet_of (pre := pre) (post := post) (w := (finish c (leaveAll c o remote x.g) pre post).2) h1 (by
      unfold finish
      dsimp only
      split_ifs
      · exact freeNodes_says _ _ _
      · exact (alloc_says _ _).trans (freeNodes_says _ _ _)
      · exact (alloc_says _ _).trans ((Says.raise _ _).trans (freeNodes_says _ _ _))
      · exact alloc_says _ _) hz
    rw [this] at hu; cases hu
  refine ⟨?_, h2⟩
  rw [← Option.not_isSome_iff_eq_none]
  exact fun hs => h2 ((finish_iff _ _ _).2.1 hs)

/-- **C143.** Spreading: likewise, if nothing had failed when it began. -/
theorem C143_spread (ends : Fin n → List (Nat × Nat)) (given : Fin n → List (Node V)) (tab : Fin n → Nat → List Nat) (w : World) (h0 : w.upset = false)
    (h₀ k₀ : Nat) (x : State n (Pkt V) (Job n V)) (h : Reach (task c o ends hn) (.known h₀ k₀ true) (start given tab w) x)
    (remote : Fin n → Nat → Nat → Nat) (f : Bool) (pre post : Int) (hu : (finishSpread c (leaveAll c o remote x.g) f pre post).2.upset = true) :
    (finishSpread c (leaveAll c o remote x.g) f pre post).1 = none ∧ (finishSpread c (leaveAll c o remote x.g) f pre post).2.err ≠ 0 := by
  have h1 : Told (leaveAll c o remote x.g) :=
    leaveAll_told remote (reach_told (reach_bag hn h) fun hu => absurd (show w.upset = true from hu) (by rw [h0]; simp))
  have h2 : (finishSpread c (leaveAll c o remote x.g) f pre post).2.err ≠ 0 := by
    intro hz
    have := quiet_of (pre := pre) (post := post) (w := (finishSpread c (leaveAll c o remote x.g) f pre post).2) h1 (by
      generalize leaveAll c o remote x.g = s
      unfold finishSpread
      dsimp only
      by_cases e1 : status s pre post ≠ 0
      · rw [if_pos e1]; exact (freeNodes_says _ _ _).trans (freeNodes_says _ _ _)
      rw [if_neg e1]
      have h3 := (freeNodes_says c (unspent s) { s.world with err := status s pre post }).trans
        (Says.raise _ (if s.killed ≠ 0 ∧ f = false then Build.intKil else 0))
      dsimp only at h3
      generalize (freeNodes c (unspent s) _).raise (if s.killed ≠ 0 ∧ f = false then Build.intKil else 0) = w' at h3 ⊢
      split_ifs
      · exact h3.trans (freeNodes_says _ _ _)
      · exact h3) hz
    rw [this] at hu; cases hu
  refine ⟨?_, h2⟩
  rw [← Option.not_isSome_iff_eq_none]
  exact fun hs => h2 ((finishSpread_iff _ _ _ _).1.1 hs)

/-- Builds and spreads without errors, with an error of the connector, with a failing allocation, and with a failing destructor. -/
example : demoWorld.upset = false ∧
    (demoEnd 1000 0 false 0).1.isSome = true ∧ (demoEnd 1000 0 false 0).2.upset = false ∧
    (demoEnd 1000 0 false 7).2.upset = true ∧ (demoEnd 1000 0 false 7).2.err = 7 ∧
    (demoEnd 26 0 true 0).2.upset = true ∧ (demoEnd 26 0 true 0).2.err = 12 ∧
    (demoSpreadEnd 1000 true 0).1.isSome = true ∧ (demoSpreadEnd 1000 true 0).2.upset = false ∧
    (demoSpreadEnd 1000 true 7).2.upset = true ∧ (demoSpreadEnd 1000 true 7).2.err = 7 :=
  ⟨by decide +kernel, by decide +kernel, by decide +kernel, by decide +kernel, by decide +kernel, by decide +kernel, by decide +kernel,
    by decide +kernel, by decide +kernel, by decide +kernel, by decide +kernel⟩

end Cru.BuildAcc

namespace Cru.SpawnAcc

open Net Fold
open Request (Env)

variable {n : Nat} {K C V : Type} [DecidableEq K] {c : Env} {hash : K → Nat} {hn : 0 < n}

theorem told_end {make : K → World → Reply K V × World} (hm : ∀ k w, Says w (make k w).2) {clears : Bool} {limit : Nat} {k₀ : K} {x : State n (Pkt n K) (Work n K V)}
    (h : Reach (task c make clears limit hash hn) ⟨k₀, none⟩ start x) (hu : (finish c x.g).2.upset = true) :
    (finish c x.g).1 = none ∧ (finish c x.g).2.err ≠ 0 := by
  have h2 : (finish c x.g).2.err ≠ 0 := by
    intro hz
    rw [finish_quiet (reach_told hm (reach_bag hn h)) hz] at hu
    cases hu
  refine ⟨?_, h2⟩
  rw [← Option.not_isSome_iff_eq_none]
  exact fun hs => h2 ((finish_iff c x.g).2.1 hs)

/-- **C143.** Fabrication. -/
theorem C143_fabricated (res : Nat → Bool) (vf : Nat → K → Outcome V) (ef : Nat → C → Outcome V) (out : K → List (C × K)) (k₀ : K)
    (x : State n (Pkt n K) (Work n K V)) (h : Reach (task c (newNode c res vf ef out) true 0 hash hn) ⟨k₀, none⟩ start x)
    (hu : (finish c x.g).2.upset = true) : (finish c x.g).1 = none ∧ (finish c x.g).2.err ≠ 0 :=
  told_end (fun k w => newNode_says res vf ef out k w) h hu

/-- **C143.** Crossing. -/
theorem C143_crossed (vp : Nat → K → Outcome V) (pred : Nat → C → Verdict) (bop : Nat → C → Outcome V) (out : K → List (C × K)) (limit : Nat) (k₀ : K)
    (x : State n (Pkt n K) (Work n K V)) (h : Reach (task c (reachedNewNode c vp pred bop out) false limit hash hn) ⟨k₀, none⟩ start x)
    (hu : (finish c x.g).2.upset = true) : (finish c x.g).1 = none ∧ (finish c x.g).2.err ≠ 0 :=
  told_end (fun k w => reachedNewNode_says vp pred bop out k w) h hu

/-- Runs without errors, with an error of the vertex operator, and with a failing allocation. -/
example : (finish (demoEnv 1000) (demoFabRun 1000 false 0).g).1.isSome = true ∧ (finish (demoEnv 1000) (demoFabRun 1000 false 0).g).2.upset = false ∧
    (finish (demoEnv 1000) (demoFabRun 1000 false 7).g).2.upset = true ∧ (finish (demoEnv 1000) (demoFabRun 1000 false 7).g).2.err = 7 ∧
    (finish (demoEnv 1000) (demoCrossRun 1000 0 0).g).1.isSome = true ∧ (finish (demoEnv 1000) (demoCrossRun 1000 0 0).g).2.upset = false ∧
    (finish (demoEnv 14) (demoCrossRun 14 0 0).g).2.upset = true ∧ (finish (demoEnv 14) (demoCrossRun 14 0 0).g).2.err = 12 :=
  ⟨by decide +kernel, by decide +kernel, by decide +kernel, by decide +kernel, by decide +kernel, by decide +kernel, by decide +kernel, by decide +kernel⟩

end Cru.SpawnAcc

namespace Cru.SplitAcc

open Net Fold
open Request (Env)
open Split (Twin)

variable {n : Nat} {N V : Type} [DecidableEq N] [Fintype N] {c : Env} {o : Ops V} {res : Nat → Bool} {limit : Nat} {addr : Twin N → Nat} {hn : 0 < n}

/-- **C143.** Splitting, where `e` is any error raised elsewhere. -/
theorem C143_split (h₀ : Heap n N V) (h0 : h₀.world.upset = false) (b : N) (x : State n (Pkt N V) (Work n N V))
    (h : Reach (task c o res limit addr hn) (.visit b none) (start h₀) x) (e : Int) (reachable : Twin N → Bool)
    (hu : (finish c o e reachable x.g).2.upset = true) : (finish c o e reachable x.g).1 = none ∧ (finish c o e reachable x.g).2.err ≠ 0 := by
  have h2 : (finish c o e reachable x.g).2.err ≠ 0 := by
    intro hz
    rw [finish_quiet e reachable (reach_told (reach_bag hn h) h0) hz] at hu
    cases hu
  refine ⟨?_, h2⟩
  rw [← Option.not_isSome_iff_eq_none]
  exact fun hs => h2 ((C121_status e reachable x.g).1.1 hs)

/-- Runs without errors, with an error of the user's, and with a failing allocation. -/
example : demoHeap.world.upset = false ∧ (demoEnd 1000 false 1000 7 0).1.isSome = true ∧ (demoEnd 1000 false 1000 7 0).2.upset = false ∧
    (demoEnd 1000 false 45 7 0).2.upset = true ∧ (demoEnd 1000 false 45 7 0).2.err = 7 ∧
    (demoEnd 30 false 1000 7 0).2.upset = true ∧ (demoEnd 30 false 1000 7 0).2.err = 12 :=
  ⟨by decide +kernel, by decide +kernel, by decide +kernel, by decide +kernel, by decide +kernel, by decide +kernel, by decide +kernel⟩

end Cru.SplitAcc

namespace Cru.PostponeAcc

open Net Fold
open Request (Env)

variable {n : Nat} {N V : Type} [DecidableEq N] {c : Env} {o : Ops V} {res : Nat → Bool} {addr : N → Nat} {hn : 0 < n}

/-- **C143.** Postponing, in however many passes, where `k` is the kill flag. -/
theorem C143_postponed {b : N} {h₀ h : Heap n N V} {k : Nat} {e : Int} (h0 : h₀.world.upset = false) (hl : Loop c o res addr hn b h₀ h k e) (ms : List N)
    (hu : (finish c ms h k e).2.upset = true) : (finish c ms h k e).1 = false ∧ (finish c ms h k e).2.err ≠ 0 := by
  have h2 : (finish c ms h k e).2.err ≠ 0 := by
    intro hz
    rw [finish_quiet ms h k e (fun he => loop_quiet hl he h0) hz] at hu
    cases hu
  refine ⟨?_, h2⟩
  unfold finish at h2 ⊢
  dsimp only at h2 ⊢
  split_ifs at h2 ⊢
  · rfl
  · rfl
  · exact absurd (not_not.1 ‹_›) h2

/-- Runs without errors, with an error of the predicate, and with a failing allocation. -/
example : demoHeap.world.upset = false ∧
    Loop (demoEnv 1000) (demoOps 1000) (fun _ => false) Fin.val Nat.one_pos 0 demoHeap (demoY 1000 1000 0).g.mem (demoY 1000 1000 0).g.killed
      (demoError 1000 1000 0) ∧
    (demoEnd 1000 1000 0).1 = true ∧ (demoEnd 1000 1000 0).2.upset = false ∧
    (demoEnd 1000 79 0).2.upset = true ∧ (demoEnd 1000 79 0).2.err = 7 ∧ (demoEnd 120 1000 0).2.upset = true ∧ (demoEnd 120 1000 0).2.err = 12 :=
  ⟨rfl, demo_loop 1000 1000 0 (.inl rfl) (by decide +kernel) (by decide +kernel), by decide +kernel, by decide +kernel, by decide +kernel,
    by decide +kernel, by decide +kernel, by decide +kernel⟩

end Cru.PostponeAcc

namespace Cru.MutateAcc

open Net Fold
open Request (Env)
open Mutate (Packet Plan)

variable {n : Nat} {N V : Type} [DecidableEq N] {c : Env} {k : Ops V} {p : Plan} {res : Nat → Bool} {addr : N → Nat} {hn : 0 < n}

/-- **C143.** Mutation. -/
theorem C143_mutated {ms : List N} {h : Heap n N V} {f : Fate n N V} {lost : Multiset (Nat × Nat)} {w : World} (h0 : h.world.upset = false)
    (he : Ends c k p res addr hn ms h f lost w) (hu : w.upset = true) : (∀ h', f ≠ .returned h') ∧ w.err ≠ 0 := by
  cases he with
  | unstarted e hne =>
    exact ⟨fun _ => by simp, fun hz => hne ((foldl_says _ (fun _ i => (freeNodes_says _ _ _).trans (freeNodes_says _ _ _)) _ _ : Says _ _).err hz)⟩
  | failed e _ _ hne => exact ⟨fun _ => by simp, fun hz => hne ((recover_says p.forward _).err hz)⟩
  | killed e _ _ _ hne => exact ⟨fun _ => by simp, fun hz => hne ((freeNodes_says _ _ _).err hz)⟩
  | interrupted => exact ⟨fun _ => by simp, show Build.intKil ≠ 0 by decide⟩
  | @returned x hx hd hz =>
    obtain ⟨i, hi⟩ := reach_told (reach_bag hn hx) h0 hu
    exact absurd (hz i) hi

/-- A graph is returned from one run, and in others an operator or a destructor fails. -/
example : demoFwd.world.upset = false ∧
    (∃ h' lost w, Ends (demoEnv 0) (demoBoth 0 0) fwd (fun _ => false) (fun m => m.val + 1) Nat.two_pos (List.finRange 3) demoFwd (.returned h') lost w ∧
      w.upset = false) ∧
    (∃ lost w, Ends (demoEnv 0) (demoBoth 0 30) fwd (fun _ => false) (fun m => m.val + 1) Nat.two_pos (List.finRange 3) demoFwd .freed lost w ∧
      w.upset = true) ∧
    (∃ lost w, Ends (demoEnv 1) (demoBoth 0 0) fwd (fun _ => false) (fun m => m.val + 1) Nat.two_pos (List.finRange 3) demoFwd .freed lost w ∧
      w.upset = true) :=
  ⟨by decide +kernel, ⟨_, _, _, .returned (demoX_reach 0 (demoBoth 0 0) fwd demoFwd) (by decide +kernel) (by decide +kernel), by decide +kernel⟩,
    ⟨_, demoEnd 0 (demoBoth 0 30) fwd demoFwd, .failed 7 (demoX_reach ..) (by decide +kernel) (by decide), by decide +kernel⟩,
    ⟨_, demoEnd 1 (demoBoth 0 0) fwd demoFwd, .failed 7 (demoX_reach ..) (by decide +kernel) (by decide), by decide +kernel⟩⟩

end Cru.MutateAcc

namespace Cru.ComposeAcc

open Net Fold
open Request (Env)

variable {n : Nat} {N V : Type} [DecidableEq N] {c : Env} {o : Ops V} {addr : N → Nat} {hn : 0 < n}

/-- **C143.** Composing, with however many passes. -/
theorem C143_composed {b : N} {e₀ : Int} {h h' : Heap n N V} {r : Bool} (h0 : h.world.upset = false) (hc : Composes c o addr hn b e₀ h r h')
    (hu : h'.world.upset = true) : r = false ∧ h'.world.err ≠ 0 := by
  have key : ∀ {e₀ e : Int} {h h₁ : Heap n N V} {kept gone : List N}, h.world.upset = false → Pass c o addr hn b e₀ h h₁ 0 →
      (prune c kept gone e h₁).2.world.err = 0 → (prune c kept gone e h₁).2.world.upset = false := by
    intro e₀ e h h₁ kept gone h0 hp hz
    by_contra hne
    have := (prune_says kept gone e h₁).upset hz (by simpa using hne)
    rw [show h₁.world.upset = false from pass_quiet hp h0] at this
    cases this
  induction hc with
  | @unstarted e₀ e h he =>
    refine ⟨rfl, fun hz => ?_⟩
    exact he ((Fold.first_zero [e₀, e] 0).1 ((freeNodes_says _ _ _).err hz) |>.2 e (by simp))
  | @failed e₀ e h h₁ _ he =>
    refine ⟨rfl, fun hz => he ?_⟩
    exact (Fair.foldl (f := decompose c o) (fun i => decompose_fair i) (List.finRange n) { h₁ with world := { h₁.world with err := e } }).2.err hz
  | @last e₀ e h h₁ kept gone hp _ _ =>
    have hz : (prune c kept gone e h₁).2.world.err ≠ 0 := fun hz => by rw [key h0 hp hz] at hu; cases hu
    refine ⟨?_, hz⟩
    by_contra hne
    exact hz ((prune_err _ _).1 (by simpa using hne)).1
  | @more e₀ e h h₁ h' kept gone r hp _ ht _ _ ih => exact ih (key h0 hp ((prune_err _ _).1 ht).1) hu

/-- An error of a user's function, and a failing allocation; nothing has failed at the end of a pass otherwise. -/
example : demoPath.world.upset = false ∧
    (Pass (demoEnv 1000) (demoOps 1000) id Nat.one_pos 0 0 demoPath (demo3 (demoEnv 1000) (demoOps 1000) demoPath) 0 ∧
      (prune (demoEnv 1000) [0, 2, 3] [1] 0 (demo3 (demoEnv 1000) (demoOps 1000) demoPath)).1 = true ∧
      (prune (demoEnv 1000) [0, 2, 3] [1] 0 (demo3 (demoEnv 1000) (demoOps 1000) demoPath)).2.world.upset = false) ∧
    (∃ h', Composes (demoEnv 1000) (demoOps 44) id Nat.one_pos 0 0 demoPath false h' ∧ h'.world.upset = true ∧ h'.world.err = 7) ∧
    (∃ h', Composes (demoEnv 55) (demoOps 1000) id Nat.one_pos 0 0 demoPath false h' ∧ h'.world.upset = true ∧ h'.world.err = 12) := by
  have hp := demo_pass (demoEnv 1000) (demoOps 1000) 0 demoPath (by decide +kernel) (by decide +kernel) (by decide +kernel)
  rw [show demoE (demoEnv 1000) (demoOps 1000) 0 demoPath = 0 by decide +kernel] at hp
  exact ⟨rfl, ⟨hp, by decide +kernel, by decide +kernel⟩,
    ⟨_, .failed (demo_pass (demoEnv 1000) (demoOps 44) 0 demoPath (by decide +kernel) (by decide +kernel) (by decide +kernel)) (by decide +kernel),
      by decide +kernel, by decide +kernel⟩,
    ⟨_, .failed (demo_pass (demoEnv 55) (demoOps 1000) 0 demoPath (by decide +kernel) (by decide +kernel) (by decide +kernel)) (by decide +kernel),
      by decide +kernel, by decide +kernel⟩⟩

end Cru.ComposeAcc
