import Verif.Proofs.PostponeAcc
import Verif.Proofs.NetExec
import Verif.Proofs.Duplex

/-! # C124, C125: storage in `cru_postponed` -/

namespace Cru.PostponeAcc

open Net Fold
open MergeAcc (Bal)
open Request (Env alloc Exact)
open DedupAcc (Edge labels freeEdges)

variable {n : Nat} {N V : Type} [Fintype N] [DecidableEq N] {c : Env} {o : Ops V} {res : Nat → Bool} {addr : N → Nat} {hn : 0 < n} {b : N}
  {h₀ h : Heap n N V} {ms : List N} {k : Nat} {e : Int}

/-- **C124.** If a graph is returned, no edges are left waiting to be attached, all vertices are reachable from the base node, and everything
made and not freed is held by the graph, once.  -/
theorem C124_graph (hr : Ready c b h₀) (ha : Function.Injective addr) (hl : Loop c o res addr hn b h₀ h k e)
    (hs : (finish c ms h k e).1 = true) : (finish c ms h k e).2.err = 0 ∧ (∀ m, h.post m = []) ∧
      (∀ m, Reaches (fun m => (h.out m).map Edge.dst) b m) ∧ Exact (finish c ms h k e).2 (graphHeld c h) := by
  obtain ⟨s1, s2, s3⟩ := loop_spec ha hl (ready_inv hr)
  have he : e = 0 := by
    by_contra he
    unfold finish at hs
    rw [if_pos he] at hs
    cases hs
  have hk : k = 0 := by
    by_contra hk
    unfold finish at hs
    rw [if_neg (not_not.2 he), if_pos hk] at hs
    cases hs
  have hp := s3 he hk
  have hf : finish c ms h k e = (true, { h.world with err := 0 }) := by simp [finish, he, hk]
  rw [hf]
  refine ⟨rfl, hp, fun m => ?_, s1.1.nodup, ?_⟩
  · refine Relation.ReflTransGen.mono ?_ _ _ ((s2 he).reach m)
    rintro x y (⟨f, h1, rfl⟩ | ⟨f, h1, -⟩ | ⟨f, h1, -⟩)
    · exact List.mem_map_of_mem h1
    · rw [hp] at h1; simp at h1
    · simp at h1
  · have hw : waiting c h = 0 := by unfold waiting; simp [hp]
    show h.world.made = h.world.freed + graphHeld c h
    rw [s1.2, hw, add_zero]

/-- **C124.** After an error in any pass, no graph is returned, the error is kept, and everything has been freed once. -/
theorem C124_failed (hr : Ready c b h₀) (ha : Function.Injective addr) (hms : Lists ms) (hl : Loop c o res addr hn b h₀ h k e) (he : e ≠ 0) :
    (finish c ms h k e).1 = false ∧ (finish c ms h k e).2.err = e ∧ Exact (finish c ms h k e).2 0 := by
  obtain ⟨s1, -, -⟩ := loop_spec ha hl (ready_inv hr)
  have hf : finish c ms h k e = (false, freeNow c h ms { h.world with err := e }) := by simp [finish, he]
  rw [hf]
  refine ⟨rfl, ?_, Exact.bal (freeNow_bal c h hms _) (Bal.wf (Bal.err h.world e 0) s1.1) s1.2⟩
  exact freeNodes_sticky _ _ he

/-- **C124.** If the operation is killed during the last pass, no graph is returned, and everything has been freed once except the labels of
edges waiting to be attached. -/
theorem C124_killed (hr : Ready c b h₀) (ha : Function.Injective addr) (hms : Lists ms) (hl : Loop c o res addr hn b h₀ h k 0) (hk : k ≠ 0) :
    (finish c ms h k 0).1 = false ∧ (finish c ms h k 0).2.err = Build.intKil ∧ Exact (finish c ms h k 0).2 (waiting c h) := by
  obtain ⟨s1, -, -⟩ := loop_spec ha hl (ready_inv hr)
  have hf : finish c ms h k 0 = (false, freeNodes c h ms ({ h.world with err := 0 }.raise Build.intKil)) := by simp [finish, hk]
  rw [hf]
  refine ⟨rfl, freeNodes_sticky _ _ (show Build.intKil ≠ 0 by decide), ?_⟩
  refine Exact.bal (i := graphHeld c h + waiting c h) ((freeNodes_bal c h ms _ (waiting c h)).cast ?_ rfl) (Bal.wf (Bal.err h.world Build.intKil 0) s1.1)
    s1.2
  rw [sum_lists hms, graphHeld]

/-! ## Full duplex graphs -/

/-- **C125.** If the incoming edges have been removed without an error, the graph is as it should be for C124. -/
theorem C125_converted (hf : Full c b h₀) (hc : Converted addr hn b h₀ h 0) : Ready c b h := by
  rcases hc with ⟨-, h0⟩ | ⟨x, hx, hd, rfl, hk⟩
  · exact absurd rfl h0
  · have hk' : x.g.killed = 0 := by
      by_contra hne
      rw [if_neg hne] at hk
      exact absurd hk (by decide)
    refine ⟨hf.reach, fun m => ?_, hf.past, hf.exact⟩
    have hz : x.g.mem m = [] := half_done hx hd hk' m (by
      have := hf.reach m
      simp only [List.map_map]
      exact this)
    simp [hz]

/-- **C125.** This is the defect: after an error in the removal of incoming edges, the label of every edge whose terminus still has its
incoming edges is freed twice. -/
theorem C125_twice (hf : Full c b h₀) (hms : Lists ms) (hc : Converted addr hn b h₀ h e) (he : e ≠ 0) {d : Nat} (hd : c.eFree = some d)
    {x : N} {a : Edge N V} {l : Obj V} (ha : a ∈ h₀.out x) (hl : a.label = some l) (hleft : h.post a.dst = h₀.post a.dst) :
    2 ≤ (finish c ms h 0 e).2.freed.count (l.id, d) := by
  have hfin : finish c ms h 0 e = (false, freeNow c h ms { h.world with err := e }) := by simp [finish, he]
  have hout : h.out = h₀.out := by
    rcases hc with ⟨rfl, -⟩ | ⟨x, -, -, rfl, -⟩ <;> rfl
  rw [hfin, freeNow_freed c h hms]
  have h1 : (l.id, d) ∈ labels c (h.out x) := mem_labels hd (by rw [hout]; exact ha) hl
  have h2 : (l.id, d) ∈ labels c (h.post a.dst) := mem_labels (e := ⟨a.label, x⟩) hd (by rw [hleft]; exact hf.both x a ha) hl
  have h3 : (l.id, d) ∈ graphHeld c h := by
    rw [graphHeld, ← Finset.add_sum_erase _ _ (Finset.mem_univ x)]
    exact Multiset.mem_add.2 (.inl (Multiset.mem_add.2 (.inr h1)))
  have h4 : (l.id, d) ∈ waiting c h := by
    rw [waiting, ← Finset.add_sum_erase _ _ (Finset.mem_univ a.dst)]
    exact Multiset.mem_add.2 (.inl h2)
  rw [Multiset.count_add, Multiset.count_add]
  have := Multiset.one_le_count_iff_mem.2 h3
  have := Multiset.one_le_count_iff_mem.2 h4
  omega

/-- It happens whenever the removal can't be started for lack of memory. -/
theorem C125_unstarted (hf : Full c b h₀) (hms : Lists ms) {d : Nat} (hd : c.eFree = some d) {x : N} {a : Edge N V} {l : Obj V}
    (ha : a ∈ h₀.out x) (hl : a.label = some l) : Converted addr hn b h₀ h₀ 12 ∧ 2 ≤ (finish c ms h₀ 0 12).2.freed.count (l.id, d) :=
  have hc : Converted addr hn b h₀ h₀ 12 := .inl ⟨rfl, by decide⟩
  ⟨hc, C125_twice hf hms hc (by decide) hd ha hl rfl⟩

/-! ## Demonstrations -/

def demoEnv (bad : Nat) : Env := { vFree := some 1, eFree := some 2, fails := fun _ _ => 0, mem := fun t => t != bad }

/-- The edge examined at the time 45 is movable, and is moved past the one examined at the time 79. -/
def demoOps (fail : Nat) : Ops Nat :=
  { postponable := fun t => ⟨t == 45, 0⟩, bpred := fun t => ⟨t == 79, if t = fail then 7 else 0⟩, bop := fun _ => ⟨some 7, 0⟩, same := fun _ => ⟨true, 0⟩, fix := false }

/-- The vertex 0 has an edge to each of the vertices 1 and 2, and 32 edges to the vertex 3. -/
def demoHeap : Heap 1 (Fin 4) Nat where
  vertex m := if m = 0 then some ⟨0, 5⟩ else none
  out m := if m = 0 then ⟨some ⟨2, 6⟩, 2⟩ :: List.replicate 32 ⟨none, 3⟩ ++ [⟨some ⟨1, 5⟩, 1⟩] else []
  post _ := []
  changed _ := false
  world := { clock := 10, err := 0, made := {(0, 1), (1, 2), (2, 2)}, freed := 0 }

abbrev demoFirst (bad fail : Nat) := postponing (demoEnv bad) (demoOps fail) (fun _ => false) Fin.val Nat.one_pos (n := 1) (N := Fin 4)
abbrev demoSecond (bad fail : Nat) := absorbing (demoEnv bad) (demoOps fail) (fun _ => false) Fin.val Nat.one_pos (n := 1) (N := Fin 4)

def demoX (bad fail : Nat) : State 1 (Pkt (Fin 4) Nat) (Work 1 (Fin 4) Nat) :=
  greedy (demoFirst bad fail) (.visit 0) 400 (init (Trav.start demoHeap))

/-- The start of the second pass, or thereafter if there has been a kill. -/
def demoStart (bad fail : Nat) (k : Nat) : Work 1 (Fin 4) Nat :=
  { (Trav.start { (demoX bad fail).g.mem with changed := fun _ => false } : Work 1 (Fin 4) Nat) with killed := k }

def demoY (bad fail k : Nat) : State 1 (Fin 4) (Work 1 (Fin 4) Nat) := greedy (demoSecond bad fail) 0 400 (init (demoStart bad fail k))

def demoError (bad fail k : Nat) : Int :=
  if status (demoX bad fail).g 0 ≠ 0 then status (demoX bad fail).g 0 else status (demoY bad fail k).g 0

def demoEnd (bad fail k : Nat) : Bool × World :=
  finish (demoEnv bad) [0, 1, 2, 3] (demoY bad fail k).g.mem (demoY bad fail k).g.killed (demoError bad fail k)

theorem demo_ready (bad : Nat) : Ready (demoEnv bad) 0 demoHeap := by
  refine ⟨?_, fun _ => rfl, by decide +kernel, ?_⟩
  · intro m
    match m with
    | 0 => exact .refl
    | 1 => exact .single (by decide +kernel)
    | 2 => exact .single (by decide +kernel)
    | 3 => exact .single (by decide +kernel)
  · have : graphHeld (demoEnv bad) demoHeap = graphHeld (demoEnv 0) demoHeap := rfl
    rw [this]
    exact ⟨by decide +kernel, by decide +kernel⟩

theorem demo_lists : Lists [(0 : Fin 4), 1, 2, 3] := ⟨by decide, by decide⟩

theorem demo_loop (bad fail k : Nat) (hk : k = 0 ∨ k = 1) (hx : (demoX bad fail).main = .done) (hy : (demoY bad fail k).main = .done) :
    Loop (demoEnv bad) (demoOps fail) (fun _ => false) Fin.val Nat.one_pos 0 demoHeap (demoY bad fail k).g.mem (demoY bad fail k).g.killed
      (demoError bad fail k) := by
  refine .last ⟨_, _, _, _, .inr ⟨_, 0, ?_, hx, rfl, rfl, rfl⟩, .inr ⟨_, 0, ?_, hy, rfl, rfl, rfl⟩, rfl⟩ fun _ => rfl
  · exact greedy_reach _ _ .init
  · refine greedy_reach _ _ ?_
    rcases hk with rfl | rfl
    · exact .init
    · exact .step (.env ()) trivial .init rfl

/-- The hypotheses are met by these runs: one without errors, one with an error of a predicate, and one with a failing allocation in the second
pass while an edge waits to be attached. -/
example : Ready (demoEnv 120) 0 demoHeap ∧ Function.Injective (Fin.val : Fin 4 → Nat) ∧ Lists [(0 : Fin 4), 1, 2, 3] ∧
    Loop (demoEnv 1000) (demoOps 1000) (fun _ => false) Fin.val Nat.one_pos 0 demoHeap (demoY 1000 1000 0).g.mem (demoY 1000 1000 0).g.killed
      (demoError 1000 1000 0) ∧
    (demoEnd 1000 1000 0).1 = true ∧ (demoEnd 1000 1000 0).2.made.card = 4 ∧ (demoEnd 1000 1000 0).2.freed.card = 1 ∧
    ((demoY 1000 1000 0).g.mem.out 1).length = 1 ∧
    Loop (demoEnv 1000) (demoOps 79) (fun _ => false) Fin.val Nat.one_pos 0 demoHeap (demoY 1000 79 0).g.mem (demoY 1000 79 0).g.killed
      (demoError 1000 79 0) ∧ (demoEnd 1000 79 0).2.err = 7 ∧ (demoEnd 1000 79 0).2.freed.card = 3 ∧
    Loop (demoEnv 120) (demoOps 1000) (fun _ => false) Fin.val Nat.one_pos 0 demoHeap (demoY 120 1000 0).g.mem (demoY 120 1000 0).g.killed
      (demoError 120 1000 0) ∧ (demoEnd 120 1000 0).2.err = 12 ∧ (demoEnd 120 1000 0).2.freed.card = 4 ∧
      ((demoY 120 1000 0).g.mem.post 1).length = 1 :=
  ⟨demo_ready 120, Fin.val_injective, demo_lists, demo_loop 1000 1000 0 (.inl rfl) (by decide +kernel) (by decide +kernel),
    by decide +kernel, by decide +kernel, by decide +kernel, by decide +kernel,
    demo_loop 1000 79 0 (.inl rfl) (by decide +kernel) (by decide +kernel), by decide +kernel, by decide +kernel,
    demo_loop 120 1000 0 (.inl rfl) (by decide +kernel) (by decide +kernel), by decide +kernel, by decide +kernel, by decide +kernel⟩

/-- **C124.** This is the defect: the label of an edge waiting to be attached may be lost when the operation is killed. -/
theorem C124_lost : ∃ (c : Env) (o : Ops Nat) (h₀ h : Heap 1 (Fin 4) Nat) (k : Nat), Ready c 0 h₀ ∧ (∀ t, c.mem t = true ∨ t = 1000) ∧
    Loop c o (fun _ => false) Fin.val Nat.one_pos 0 h₀ h k 0 ∧
    (finish c [0, 1, 2, 3] h k 0).1 = false ∧ (finish c [0, 1, 2, 3] h k 0).2.clock < 1000 ∧
    (finish c [0, 1, 2, 3] h k 0).2.made = (finish c [0, 1, 2, 3] h k 0).2.freed + {(80, 2)} := by
  have hl := demo_loop 1000 1000 1 (.inr rfl) (by decide +kernel) (by decide +kernel)
  have he : demoError 1000 1000 1 = 0 := by decide +kernel
  rw [he] at hl
  refine ⟨demoEnv 1000, demoOps 1000, demoHeap, _, _, demo_ready 1000, fun t => ?_, hl, by decide +kernel, by decide +kernel, by decide +kernel⟩
  by_cases ht : t = 1000
  · exact .inr ht
  · exact .inl (by simp [demoEnv, ht])

/-- A full duplex graph with labels. -/
def demoFull : Heap 1 (Fin 4) Nat where
  vertex m := some ⟨m, 5⟩
  out m := if m = 0 then [⟨some ⟨10, 6⟩, 1⟩, ⟨some ⟨11, 6⟩, 2⟩] else if m = 1 then [⟨some ⟨12, 6⟩, 3⟩, ⟨none, 0⟩] else []
  post m := if m = 0 then [⟨none, 1⟩] else if m = 1 then [⟨some ⟨10, 6⟩, 0⟩] else if m = 2 then [⟨some ⟨11, 6⟩, 0⟩] else [⟨some ⟨12, 6⟩, 1⟩]
  changed _ := false
  world := { clock := 20, err := 0, made := {(0, 1), (1, 1), (2, 1), (3, 1), (10, 2), (11, 2), (12, 2)}, freed := 0 }

theorem demo_full : Full (demoEnv 1000) 0 demoFull := by
  have h1 : Reaches (fun m => (demoFull.out m).map Edge.dst) 0 1 := .single (by decide +kernel)
  refine ⟨fun m => ?_, fun x e he => ?_, by decide +kernel, by decide +kernel, by decide +kernel⟩
  · match m with
    | 0 => exact .refl
    | 1 => exact h1
    | 2 => exact .single (by decide +kernel)
    | 3 => exact h1.tail (by decide +kernel)
  · match x with
    | 0 =>
      rcases List.mem_cons.1 he with rfl | he
      · exact List.mem_singleton.2 rfl
      · rw [List.mem_singleton.1 he]; exact List.mem_singleton.2 rfl
    | 1 =>
      rcases List.mem_cons.1 he with rfl | he
      · exact List.mem_singleton.2 rfl
      · rw [List.mem_singleton.1 he]; exact List.mem_singleton.2 rfl
    | 2 => exact absurd he List.not_mem_nil
    | 3 => exact absurd he List.not_mem_nil

def demoHalf : State 1 (Duplex.Pkt (Fin 4) (Option (Obj Nat))) (Trav.Job 1 (Fin 4) (Fin 4 → List (Option (Obj Nat) × Fin 4))) :=
  greedy (Duplex.half (fun m => (demoFull.out m).map fun e => (e.label, e.dst)) Fin.val Nat.one_pos) (0, none) 100
    (init (Trav.start fun m => (demoFull.post m).map fun e => (e.label, e.dst)))

/-- The hypotheses are met by this graph, whose incoming edges can be removed.  If that can't be started, the label of the edge from 0 to 1 is
freed twice. -/
example : (∃ h, Converted Fin.val Nat.one_pos 0 demoFull h 0 ∧ Ready (demoEnv 1000) 0 h) ∧
    2 ≤ (finish (demoEnv 1000) [0, 1, 2, 3] demoFull 0 12).2.freed.count (10, 2) := by
  refine ⟨?_, ?_⟩
  · have hc : Converted Fin.val Nat.one_pos 0 demoFull { demoFull with post := fun m => (demoHalf.g.mem m).map fun e => ⟨e.1, e.2⟩ } 0 :=
      .inr ⟨demoHalf, greedy_reach _ _ .init, by decide +kernel, rfl, by decide +kernel⟩
    exact ⟨_, hc, C125_converted demo_full hc⟩
  · exact (C125_unstarted (addr := Fin.val) (hn := Nat.one_pos) demo_full demo_lists rfl (x := 0) (a := ⟨some ⟨10, 6⟩, 1⟩) (l := ⟨10, 6⟩) List.mem_cons_self rfl).2

end Cru.PostponeAcc
