import Verif.Spec.Request
import Verif.Proofs.MergeAcc

/-! # Accounting for what's passed to `cru_connect` and `cru_stretch` -/

namespace Cru.Request

open Fold
open MergeAcc (Bal)

variable {V : Type} {c : Env}

theorem Exact.bal {w w' : World} {i o : Multiset (Nat × Nat)} (h : Bal w w' i o) (hw : w.WF) (he : w.made = w.freed + i) : Exact w' o := by
  refine ⟨(h.wf hw).nodup, ?_⟩
  have := h.ledger
  rw [he] at this
  have h2 : w.freed + i + w'.made = w.freed + i + (w'.freed + o) := by
    calc w.freed + i + w'.made = w'.made + w.freed + i := by abel
      _ = _ := by rw [this]; abel
  exact add_left_cancel h2

theorem destroy_bal (c : Env) (d : Option Nat) (x : Option (Obj V)) (w : World) : Bal w (destroy c.fails d x w) (owned d x) 0 := by
  cases d with
  | none => exact Bal.refl w _
  | some n =>
    cases x with
    | none => exact Bal.refl w _
    | some o =>
      refine ⟨?_, fun hw => ⟨fun x hx => Nat.lt_succ_of_lt (hw.past x hx), hw.nodup⟩⟩
      simp only [destroy, World.raise, owned, ← Multiset.singleton_add]
      abel

/-- Something is destroyed while other things are held. -/
theorem destroy_frame (c : Env) (d : Option Nat) (x : Option (Obj V)) (w : World) (o : Multiset (Nat × Nat)) :
    Bal w (destroy c.fails d x w) (owned d x + o) o := ((destroy_bal c d x w).frame o).cast rfl (by simp)

theorem alloc_bal (c : Env) (w : World) (o : Multiset (Nat × Nat)) : Bal w (alloc c w) o o := Bal.tick w _ o

theorem create_bal (d : Option Nat) (x : Option V) (w : World) (o : Multiset (Nat × Nat)) :
    Bal w (create d x w).2 o (owned d (create d x w).1 + o) := by
  cases d with
  | none => exact (Bal.tick w 0 o (u := w.upset)).cast rfl (by simp [owned]) |> fun h => ⟨h.ledger, fun hw => ⟨fun x hx => Nat.lt_succ_of_lt (hw.past x hx), hw.nodup⟩⟩
  | some n =>
    cases x with
    | none => exact ⟨by simp [create, owned], fun hw => ⟨fun x hx => Nat.lt_succ_of_lt (hw.past x hx), hw.nodup⟩⟩
    | some a =>
      refine ⟨?_, fun hw => ⟨?_, ?_⟩⟩
      · simp only [create, owned, Option.map_some, ← Multiset.singleton_add]; abel
      · intro x hx
        rcases Multiset.mem_cons.1 hx with rfl | hx
        · exact Nat.lt_succ_self _
        · exact Nat.lt_succ_of_lt (hw.past x hx)
      · simp only [create, Multiset.map_cons]
        refine Multiset.nodup_cons.2 ⟨fun h => ?_, hw.nodup⟩
        obtain ⟨x, hx, hx'⟩ := Multiset.mem_map.1 h
        exact absurd (hw.past x hx) (by rw [hx']; exact lt_irrefl _)

theorem freeEdges_bal (c : Env) (es : List (Edge V)) (w : World) (o : Multiset (Nat × Nat)) :
    Bal w (freeEdges c es w) ((es.map (Edge.held c)).sum + o) o := by
  induction es generalizing w with
  | nil => exact (Bal.refl w o).cast (by simp) rfl
  | cons e es ih =>
    have h1 := destroy_frame c c.eFree e.label w (owned c.vFree e.vertex + ((es.map (Edge.held c)).sum + o))
    have h2 := destroy_frame c c.vFree e.vertex (destroy c.fails c.eFree e.label w) ((es.map (Edge.held c)).sum + o)
    refine ((h1.trans h2).trans (ih _)).cast ?_ rfl
    simp only [List.map_cons, List.sum_cons, Edge.held]; abel

theorem freeLabels_bal (c : Env) (es : List (Edge V)) (w : World) (o : Multiset (Nat × Nat)) :
    Bal w (freeLabels c es w) ((es.map fun p => owned c.eFree p.label).sum + o) o := by
  induction es generalizing w with
  | nil => exact (Bal.refl w o).cast (by simp) rfl
  | cons e es ih =>
    refine ((destroy_frame c c.eFree e.label w _).trans (ih _)).cast ?_ rfl
    simp only [List.map_cons, List.sum_cons]; abel

theorem freeMaps_bal (c : Env) (ms : List (Map V)) (w : World) (o : Multiset (Nat × Nat)) :
    Bal w (freeMaps c ms w) ((ms.map (Map.held c)).sum + o) o := by
  induction ms generalizing w with
  | nil => exact (Bal.refl w o).cast (by simp) rfl
  | cons m ms ih =>
    have h1 := freeEdges_bal c [m.ante] w ((m.post.toList.map fun p => owned c.eFree p.label).sum + ((ms.map (Map.held c)).sum + o))
    have h2 := freeLabels_bal c m.post.toList (freeEdges c [m.ante] w) ((ms.map (Map.held c)).sum + o)
    refine ((h1.trans h2).trans (ih _)).cast ?_ rfl
    simp only [List.map_cons, List.map_nil, List.sum_nil, List.sum_cons, Map.held]; abel

theorem edge_bal (c : Env) (label vertex : Option (Obj V)) (next : List (Edge V)) (w : World) (o : Multiset (Nat × Nat)) :
    Bal w (edge c label vertex next w).2 (owned c.eFree label + owned c.vFree vertex + (next.map (Edge.held c)).sum + o)
      (((edge c label vertex next w).1.map (Edge.held c)).sum + o) := by
  unfold edge
  split_ifs with h h'
  · refine (alloc_bal c w _).cast rfl ?_
    simp only [List.map_cons, List.sum_cons, Edge.held]
  · have h1 := (alloc_bal c w _).trans ((freeEdges_bal c next (alloc c w) (owned c.vFree vertex + (owned c.eFree label + o))).trans
      ((destroy_frame c c.vFree vertex _ _).trans (destroy_frame c c.eFree label _ o)))
    exact h1.cast (by abel) (by simp)
  · have h1 := (freeEdges_bal c next w (owned c.vFree vertex + (owned c.eFree label + o))).trans
      ((destroy_frame c c.vFree vertex _ _).trans (destroy_frame c c.eFree label _ o))
    exact h1.cast (by abel) (by simp)

/-- What `_cru_edge` returns. -/
theorem edge_cases (c : Env) (label vertex : Option (Obj V)) (next : List (Edge V)) (w : World) :
    (edge c label vertex next w).1 = [] ∨ (edge c label vertex next w).1 = ⟨label, vertex⟩ :: next := by
  unfold edge; split_ifs <;> simp

theorem edgeMap_bal (c : Env) (a p : Edge V) (hp : p.vertex = none) (ms : List (Map V)) (w : World) (o : Multiset (Nat × Nat)) :
    Bal w (edgeMap c a p ms w).2 (a.held c + p.held c + (ms.map (Map.held c)).sum + o)
      (((edgeMap c a p ms w).1.map (Map.held c)).sum + o) := by
  have hh : p.held c = owned c.eFree p.label := by
    unfold Edge.held; rw [hp]; cases c.vFree <;> simp [owned]
  unfold edgeMap
  split_ifs with h
  · refine (alloc_bal c w _).cast rfl ?_
    simp only [List.map_cons, List.sum_cons, Map.held, Option.toList_some, List.map_nil, List.sum_nil, hh]; abel
  · have h1 := (alloc_bal c w _).trans ((freeMaps_bal c ms (alloc c w) ((([a].map (Edge.held c)).sum) + ((([p].map fun p => owned c.eFree p.label).sum) + o))).trans
      ((freeEdges_bal c [a] _ _).trans (freeLabels_bal c [p] _ o)))
    refine h1.cast ?_ (by simp)
    simp only [List.map_cons, List.map_nil, List.sum_cons, List.sum_nil, hh]; abel

theorem stretch_bal (c : Env) (s : Bool) (ante vertex post : Option (Obj V)) (ms : List (Map V)) (w : World) (o : Multiset (Nat × Nat)) :
    Bal w (stretch c s ante vertex post ms w).2 (owned c.eFree ante + owned c.vFree vertex + owned c.eFree post + (ms.map (Map.held c)).sum + o)
      (((stretch c s ante vertex post ms w).1.map (Map.held c)).sum + o) := by
  unfold stretch
  split
  · have h1 := edge_bal c ante vertex [] w (owned c.eFree post + (ms.map (Map.held c)).sum + o)
    rcases hx : edge c ante vertex [] w with ⟨_ | ⟨a, as⟩, w1⟩ <;> rw [hx] at h1 <;> dsimp only
    · refine (h1.trans ((destroy_frame c c.eFree post w1 ((ms.map (Map.held c)).sum + o)).cast ?_ rfl)).cast ?_ rfl
      · simp; abel
      · simp; abel
    · have has : as = [] := by
        rcases edge_cases c ante vertex [] w with h | h <;> rw [hx] at h <;> simp at h; exact h.2
      subst has
      have h2 := edge_bal c post none [] w1 (a.held c + ((ms.map (Map.held c)).sum + o))
      rcases hy : edge c post none [] w1 with ⟨_ | ⟨p, ps⟩, w2⟩ <;> rw [hy] at h2 <;> dsimp only
      · refine (h1.trans ((h2.trans ((freeEdges_bal c [a] w2 ((ms.map (Map.held c)).sum + o)).cast ?_ rfl)).cast ?_ rfl)).cast ?_ rfl
        · simp
        · cases c.vFree <;> simp [owned] <;> abel
        · simp; abel
      · have hp : p = ⟨post, none⟩ ∧ ps = [] := by
          rcases edge_cases c post none [] w1 with h | h <;> rw [hy] at h <;> simp at h; exact h
        obtain ⟨hp, rfl⟩ := hp
        have h3 := edgeMap_bal c a p (by rw [hp]) ms w2 o
        refine (h1.trans ((h2.trans (h3.cast ?_ rfl)).cast ?_ rfl)).cast ?_ rfl
        · simp; abel
        · cases c.vFree <;> simp [owned] <;> abel
        · simp; abel
  · have h1 := (Bal.raise w (-530) _).trans ((destroy_frame c c.eFree ante (w.raise (-530)) (owned c.vFree vertex + (owned c.eFree post + ((ms.map (Map.held c)).sum + o)))).trans
      ((destroy_frame c c.vFree vertex _ _).trans (destroy_frame c c.eFree post _ _)))
    exact h1.cast (by abel) rfl

theorem connectCall_bal (c : Env) (x : Link V) (es : List (Edge V)) (w : World) (o : Multiset (Nat × Nat)) :
    Bal w (connectCall c es x w).2 ((es.map (Edge.held c)).sum + o) (((connectCall c es x w).1.map (Edge.held c)).sum + o) := by
  have h1 := (create_bal c.eFree x.label w _).trans (create_bal c.vFree x.vertex (create c.eFree x.label w).2 (owned c.eFree (create c.eFree x.label w).1 + ((es.map (Edge.held c)).sum + o)))
  have h2 := h1.trans (Bal.err _ x.err _)
  refine h2.trans ((edge_bal c (create c.eFree x.label w).1 (create c.vFree x.vertex (create c.eFree x.label w).2).1 es _ o).cast ?_ ?_)
  · abel
  · simp [connectCall, connect]

theorem connectCalls_bal (c : Env) (xs : List (Link V)) (es : List (Edge V)) (w : World) (o : Multiset (Nat × Nat)) :
    Bal w (connectCalls c xs es w).2 ((es.map (Edge.held c)).sum + o) (((connectCalls c xs es w).1.map (Edge.held c)).sum + o) := by
  induction xs generalizing es w with
  | nil => exact Bal.refl w _
  | cons x xs ih => exact (connectCall_bal c x es w o).trans (ih _ _)

theorem stretchCall_bal (c : Env) (x : Call V) (ms : List (Map V)) (w : World) (o : Multiset (Nat × Nat)) :
    Bal w (stretchCall c ms x w).2 ((ms.map (Map.held c)).sum + o) (((stretchCall c ms x w).1.map (Map.held c)).sum + o) := by
  unfold stretchCall; dsimp only
  set a := create c.eFree x.ante w
  set b := create c.vFree x.vertex a.2
  set p := create c.eFree x.post b.2
  have h1 := (create_bal c.eFree x.ante w ((ms.map (Map.held c)).sum + o)).trans ((create_bal c.vFree x.vertex a.2 _).trans ((create_bal c.eFree x.post b.2 _).trans (Bal.err p.2 x.err _)))
  exact h1.trans ((stretch_bal c true a.1 b.1 p.1 ms { p.2 with err := x.err } o).cast (by abel) rfl)

theorem stretchCalls_bal (c : Env) (xs : List (Call V)) (ms : List (Map V)) (w : World) (o : Multiset (Nat × Nat)) :
    Bal w (stretchCalls c xs ms w).2 ((ms.map (Map.held c)).sum + o) (((stretchCalls c xs ms w).1.map (Map.held c)).sum + o) := by
  induction xs generalizing ms w with
  | nil => exact Bal.refl w _
  | cons x xs ih => exact (stretchCall_bal c x ms w o).trans (ih _ _)

theorem scatter_bal (c : Env) (ms : List (Map V)) (l : List (Insert V)) (w : World) (o : Multiset (Nat × Nat)) :
    Bal w (scatter c ms l w).2 ((ms.map (Map.held c)).sum + ((l.map (Insert.held c)).sum + o)) (((scatter c ms l w).1.map (Insert.held c)).sum + o) := by
  induction ms generalizing l w with
  | nil => exact (Bal.refl w _).cast (by simp [scatter]) rfl
  | cons m ms ih =>
    unfold scatter
    split_ifs with h h' h''
    · exact freeMaps_bal c (m :: ms) w _
    · exact (alloc_bal c w _).trans (freeMaps_bal c (m :: ms) (alloc c w) _)
    · have h1 := (alloc_bal c w _).trans ((alloc_bal c (alloc c w) _).trans ((freeLabels_bal c m.post.toList (alloc c (alloc c w)) _).trans
        (freeMaps_bal c ({ m with post := none } :: ms) _ ((l.map (Insert.held c)).sum + o))))
      refine h1.cast ?_ rfl
      simp only [List.map_cons, List.sum_cons, Map.held, Option.toList_none, List.map_nil, List.sum_nil]; abel
    · refine ((alloc_bal c w _).trans ((alloc_bal c (alloc c w) _).trans (ih _ _))).cast ?_ rfl
      simp only [List.map_cons, List.sum_cons, Map.held, Insert.held, Edge.held]
      cases m.post with
      | none => cases c.eFree <;> simp [owned] <;> abel
      | some p => simp; abel

theorem scattered_bal (c : Env) (ask : Nat → Option (Obj V) → Answer V) (xs : List (Option (Obj V))) (l : List (Insert V)) (w : World)
    (o : Multiset (Nat × Nat)) :
    Bal w (scattered c ask xs l w).2 ((xs.map (owned c.eFree)).sum + ((l.map (Insert.held c)).sum + o))
      (((scattered c ask xs l w).1.kept.map (owned c.eFree)).sum +
        (((scattered c ask xs l w).1.inserted.map (Insert.held c)).sum + (((scattered c ask xs l w).1.lost.map (Map.held c)).sum + o))) := by
  induction xs generalizing l w o with
  | nil => exact (Bal.refl w _).cast rfl (by simp [scattered])
  | cons x xs ih =>
    unfold scattered
    by_cases hw : w.err ≠ 0
    · rw [if_pos hw]; exact (Bal.refl w _).cast rfl (by simp)
    · rw [if_neg hw]; dsimp only
      set a := ask w.clock x
      set ms := stretchCalls c a.calls [] { w with clock := w.clock + 1 } with hms
      have ht : ∀ o, Bal w ({ w with clock := w.clock + 1 }) o o := fun o => ⟨rfl, fun hw => ⟨fun x hx => Nat.lt_succ_of_lt (hw.past x hx), hw.nodup⟩⟩
      have h1 : ∀ o, Bal w ms.2 o ((ms.1.map (Map.held c)).sum + o) := fun o =>
        (ht o).trans ((stretchCalls_bal c a.calls [] { w with clock := w.clock + 1 } o).cast (by simp) rfl)
      by_cases he : a.err ≠ 0
      · rw [if_pos he]
        refine ((h1 _).trans (Bal.reset ms.2 a.err true _)).cast rfl ?_
        abel
      · rw [if_neg he]
        set s := scatter c ms.1 [] { ms.2 with err := 0, upset := w.upset } with hs
        have h2 : ∀ o, Bal w s.2 o ((s.1.map (Insert.held c)).sum + o) := fun o =>
          ((h1 o).trans (Bal.reset ms.2 0 w.upset _)).trans ((scatter_bal c ms.1 [] { ms.2 with err := 0, upset := w.upset } o).cast (by simp) rfl)
        split_ifs with hd
        · refine (h2 _).trans (((destroy_frame c c.eFree x s.2 ((xs.map (owned c.eFree)).sum + (((s.1 ++ l).map (Insert.held c)).sum + o))).trans (ih _ _ _)).cast ?_ rfl)
          simp; abel
        · refine ((h2 _).trans ((ih (s.1 ++ l) s.2 (owned c.eFree x + o)).cast ?_ rfl)).cast rfl ?_
          · simp; abel
          · simp; abel

end Cru.Request
