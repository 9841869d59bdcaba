import Verif.Proofs.Request

/-! # C117: what's passed to `cru_connect` and `cru_stretch` -/

namespace Cru.Request

open Fold

variable {V : Type} {c : Env}

/-- Connectors: whatever is passed to `cru_connect`, whatever error codes it's called with, whichever allocations fail and whatever
destructors do, everything is destroyed once or belongs to one edge in the end. -/
theorem C117_connect (c : Env) (xs : List (Link V)) (w : World) (o : Multiset (Nat × Nat)) (hp : ∀ x ∈ w.made, x.1 < w.clock) (he : Exact w o) :
    Exact (connectCalls c xs [] w).2 (((connectCalls c xs [] w).1.map (Edge.held c)).sum + o) :=
  Exact.bal (connectCalls_bal c xs [] w o) ⟨hp, he.1⟩ (by simpa using he.2)

/-- A call to `cru_connect` that reports no error adds one edge and frees nothing; one that does reports an error and leaves none of
the edges requested before. -/
theorem C117_connect_call (c : Env) (x : Link V) (es : List (Edge V)) (w : World) :
    (∃ l v, l.map Obj.val = x.label ∧ v.map Obj.val = x.vertex ∧ (connectCall c es x w).1 = ⟨l, v⟩ :: es ∧
      (connectCall c es x w).2.err = 0 ∧ (connectCall c es x w).2.freed = w.freed) ∨
    ((connectCall c es x w).1 = [] ∧ (connectCall c es x w).2.err ≠ 0) := by
  unfold connectCall; dsimp only
  simp only [connect, if_true]
  unfold edge
  have hstick : ∀ (w : World) d (y : Option (Obj V)), w.err ≠ 0 → (destroy c.fails d y w).err ≠ 0 := by
    intro w d y h
    unfold destroy
    split
    · simpa [World.raise, h] using h
    · exact h
  have hfree : ∀ (es : List (Edge V)) (w : World), w.err ≠ 0 → (freeEdges c es w).err ≠ 0 := by
    intro es
    induction es with
    | nil => exact fun w h => h
    | cons e es ih => exact fun w h => ih _ (hstick _ _ _ (hstick _ _ _ h))
  split_ifs with h h'
  · refine .inl ⟨_, _, ?_, ?_, rfl, h.2, rfl⟩
    · simp only [create, Option.map_map]; cases x.label <;> rfl
    · simp only [create, Option.map_map]; cases x.vertex <;> rfl
  · exact .inr ⟨rfl, hstick _ _ _ (hstick _ _ _ (hfree _ _ fun h2 => h ⟨h', h2⟩))⟩
  · exact .inr ⟨rfl, hstick _ _ _ (hstick _ _ _ (hfree _ _ h'))⟩

/-- Stretching: starting from the edges of a vertex, whatever the expander does, everything is destroyed once, or is still the label of
an edge, or has been inserted once, or is among the requests lost. -/
theorem C117_stretch (c : Env) (ask : Nat → Option (Obj V) → Answer V) (xs : List (Option (Obj V))) (w : World) (o : Multiset (Nat × Nat))
    (hp : ∀ x ∈ w.made, x.1 < w.clock) (he : Exact w ((xs.map (owned c.eFree)).sum + o)) :
    Exact (scattered c ask xs [] w).2
      (((scattered c ask xs [] w).1.kept.map (owned c.eFree)).sum +
        (((scattered c ask xs [] w).1.inserted.map (Insert.held c)).sum + (((scattered c ask xs [] w).1.lost.map (Map.held c)).sum + o))) :=
  Exact.bal (scattered_bal c ask xs [] w o) ⟨hp, he.1⟩ (by simpa using he.2)

/-- No request is lost if the expander doesn't call `cru_stretch` whenever it assigns an error. -/
theorem C117_stretch_once (c : Env) (ask : Nat → Option (Obj V) → Answer V) (hask : ∀ t x, (ask t x).err ≠ 0 → (ask t x).calls = [])
    (xs : List (Option (Obj V))) (l : List (Insert V)) (w : World) : (scattered c ask xs l w).1.lost = [] := by
  induction xs generalizing l w with
  | nil => rfl
  | cons x xs ih =>
    unfold scattered
    by_cases hw : w.err ≠ 0
    · rw [if_pos hw]
    · rw [if_neg hw]; dsimp only
      by_cases he : (ask w.clock x).err ≠ 0
      · rw [if_pos he, hask _ _ he]; rfl
      · rw [if_neg he]
        split_ifs
        · exact ih _ _
        · exact ih _ _

theorem stretchCalls_length (hm : ∀ t, c.mem t = true) (xs : List (Call V)) (hx : ∀ x ∈ xs, x.err = 0) (ms : List (Map V)) (w : World) :
    (stretchCalls c xs ms w).1.length = ms.length + xs.length := by
  induction xs generalizing ms w with
  | nil => rfl
  | cons x xs ih =>
    unfold stretchCalls
    rw [ih fun y hy => hx y (by simp [hy])]
    have : (stretchCall c ms x w).1.length = ms.length + 1 := by
      unfold stretchCall
      simp [stretch, edge, edgeMap, alloc, World.raise, hm, hx x (by simp)]
    rw [this, List.length_cons]; omega

/-- This is the defect: if the expander calls `cru_stretch` and then assigns an error, all of its requests are lost, even if nothing else
goes wrong. -/
theorem C117_stretch_lost (c : Env) (hm : ∀ t, c.mem t = true) (ask : Nat → Option (Obj V) → Answer V) (x : Option (Obj V)) (xs : List (Option (Obj V)))
    (w : World) (hw : w.err = 0) (he : (ask w.clock x).err ≠ 0) (hc : ∀ y ∈ (ask w.clock x).calls, y.err = 0) :
    (scattered c ask (x :: xs) [] w).1.lost.length = (ask w.clock x).calls.length ∧ (scattered c ask (x :: xs) [] w).2.err = (ask w.clock x).err := by
  unfold scattered
  rw [if_neg (by simp [hw])]; dsimp only
  rw [if_pos he]
  exact ⟨by rw [stretchCalls_length hm _ hc]; simp, rfl⟩

/-- Out of context, `cru_connect` leaves its arguments to the caller, but `cru_stretch` destroys them.  Both report an error and change
no requests. -/
theorem C117_context (c : Env) (l v p : Option (Obj V)) (es : List (Edge V)) (ms : List (Map V)) (w : World) (hw : w.err = 0) :
    connect c false l v es w = (es, { w with err := -530 }) ∧
    (stretch c false l v p ms w).1 = ms ∧ (stretch c false l v p ms w).2.err = -530 ∧
    (stretch c false l v p ms w).2.freed = w.freed + (owned c.eFree l + owned c.vFree v + owned c.eFree p) := by
  have hstick : ∀ (w : World) d (y : Option (Obj V)), w.err = -530 → (destroy c.fails d y w).err = -530 := by
    intro w d y h
    unfold destroy
    split
    · simp [World.raise, h]
    · exact h
  have hfreed : ∀ (w : World) d (y : Option (Obj V)), (destroy c.fails d y w).freed = w.freed + owned d y := by
    intro w d y
    unfold destroy owned
    split
    · simp only [World.raise, ← Multiset.singleton_add]; abel
    · simp
  refine ⟨by simp [connect, World.raise, hw], rfl, ?_, ?_⟩
  · simp only [stretch, Bool.false_eq_true, if_false]
    exact hstick _ _ _ (hstick _ _ _ (hstick _ _ _ (by simp [World.raise, hw])))
  · simp only [stretch, Bool.false_eq_true, if_false, hfreed, World.raise]; abel

/-! ## An example: destructors 0 and 1; the edge has the label made at time 0 -/

/-- An allocation fails at the time given only. -/
def demoEnv (bad : Nat) : Env := ⟨some 0, some 1, fun _ _ => 0, fun t => t != bad⟩

def demoAsk (e : Int) (_ : Nat) (_ : Option (Obj Nat)) : Answer Nat := ⟨[⟨0, some 10, some 20, some 30⟩, ⟨0, some 11, some 21, none⟩], e, true⟩

def demoWorld : World := ⟨1, 0, {(0, 1)}, 0, false⟩

/-- The hypotheses are met; without errors two vertices are inserted and the label is destroyed; with an error of the expander two
requests are lost and nothing is destroyed; if an allocation fails everything is either inserted or destroyed and there's an error. -/
example : Exact demoWorld ((([some ⟨0, 5⟩] : List (Option (Obj Nat))).map (owned (demoEnv 0).eFree)).sum + 0) ∧
    (scattered (demoEnv 0) (demoAsk 0) [some ⟨0, 5⟩] [] demoWorld).1.inserted.length = 2 ∧
    (scattered (demoEnv 0) (demoAsk 0) [some ⟨0, 5⟩] [] demoWorld).2.freed = {(0, 1)} ∧
    (scattered (demoEnv 0) (demoAsk 7) [some ⟨0, 5⟩] [] demoWorld).1.lost.length = 2 ∧
    (scattered (demoEnv 0) (demoAsk 7) [some ⟨0, 5⟩] [] demoWorld).2.freed = 0 ∧
    (scattered (demoEnv 17) (demoAsk 0) [some ⟨0, 5⟩] [] demoWorld).1.inserted.length = 1 ∧
    (scattered (demoEnv 17) (demoAsk 0) [some ⟨0, 5⟩] [] demoWorld).2.err = 12 ∧
    (scattered (demoEnv 17) (demoAsk 0) [some ⟨0, 5⟩] [] demoWorld).2.freed = {(2, 1), (3, 0), (4, 1)} := by
  refine ⟨⟨by decide +kernel, by decide +kernel⟩, by decide +kernel, by decide +kernel, by decide +kernel, by decide +kernel, by decide +kernel, by decide +kernel, by decide +kernel⟩

/-- A connector whose second call fails and whose third doesn't: only the last edge is left, and the rest is destroyed. -/
example : (connectCalls (demoEnv 6) [⟨0, some 1, some 2⟩, ⟨0, some 3, some 4⟩, ⟨0, none, some 6⟩] [] (⟨1, 0, 0, 0, false⟩ : World)).1.map (fun e => e.vertex.map Obj.val) = [some 6] ∧
    (connectCalls (demoEnv 6) [⟨0, some 1, some 2⟩, ⟨0, some 3, some 4⟩, ⟨0, none, some 6⟩] [] (⟨1, 0, 0, 0, false⟩ : World)).2.freed = {(1, 1), (2, 0), (4, 1), (5, 0)} := by
  exact ⟨by decide +kernel, by decide +kernel⟩

end Cru.Request
