import Verif.Proofs.BuildAcc
import Verif.Proofs.Rover
import Verif.Proofs.NetExec
import Verif.Props.SpawnAcc

/-! # C138, C139: storage in `cru_built` and `cru_spread` -/

namespace Cru.BuildAcc

open Net Fold
open MergeAcc (Bal)
open Request (Env Edge Link alloc create Exact)
open SpawnAcc (Node Verdict freeNodes held allHeld)

variable {n : Nat} {V : Type} {c : Env} {o : Ops V} {hn : 0 < n}

theorem Even.exact {w : World} {x : Multiset (Nat × Nat)} (h : Even w x) : Exact w x := ⟨h.1.nodup, h.2⟩

theorem Even.of_exact {w : World} {x : Multiset (Nat × Nat)} (hw : w.WF) (h : Exact w x) : Even w x := ⟨hw, h.2⟩

/-- The user allocates the vertex passed to `cru_built`. -/
def origin (c : Env) (v : Option V) : Option (Obj V) × World := create c.vFree v ⟨0, 0, 0, 0, false⟩

theorem origin_even (c : Env) (v : Option V) : Even (origin c v).2 (owned c.vFree (origin c v).1) := by
  have h : Even ⟨0, 0, 0, 0, false⟩ 0 := ⟨⟨fun x hx => absurd hx (Multiset.notMem_zero x), Multiset.nodup_zero⟩, rfl⟩
  exact (h.bal (Request.create_bal c.vFree v ⟨0, 0, 0, 0, false⟩ 0)).cast (by simp [origin])

theorem allHeld_nil (c : Env) : allHeld c (fun _ : Fin n => ([] : List (Node V))) = 0 := by simp [allHeld, held]

theorem blank_good (hb : o.spread = false) (v : Option V) : Good c o ((blank (origin c v).2 : Job n V), {.fresh (origin c v).1 true}) := by
  refine ⟨⟨fun i h => (by rw [hb] at h; cases h), fun _ _ => rfl, fun _ _ _ => rfl, fun i h k hk => absurd hk (by simp [blank, start])⟩, ?_⟩
  refine (origin_even c v).cast ?_
  simp only [outstanding, blank, start]
  rw [allHeld_nil]
  simp [inFlight, leaked, Pkt.held]

theorem blank_careful (v : Option V) : Careful o ((blank (origin c v).2 : Job n V), {.fresh (origin c v).1 true}) :=
  ⟨fun h => absurd rfl h, fun _ => rfl, fun _ => ⟨rfl, fun p hp => ⟨_, _, Multiset.mem_singleton.1 hp⟩⟩⟩

/-! ## The status -/

theorem status_zero (s : Job n V) (pre post : Int) : status s pre post = 0 ↔ pre = 0 ∧ (∀ i, s.err i = 0) ∧ post = 0 := by
  rw [status, SpawnAcc.firstErr]
  simp only [true_and, List.cons_append, List.mem_cons, List.mem_append, List.mem_map, List.mem_finRange, true_and, List.not_mem_nil, or_false,
    forall_eq_or_imp]
  constructor
  · rintro ⟨h1, h2⟩
    exact ⟨h1, fun i => h2 _ (.inl ⟨i, rfl⟩), h2 _ (.inr rfl)⟩
  · rintro ⟨h1, h2, h3⟩
    refine ⟨h1, ?_⟩
    rintro e (⟨i, rfl⟩ | rfl)
    · exact h2 i
    · exact h3

theorem finish_iff (s : Job n V) (pre post : Int) :
    ((finish c s pre post).1.isSome ↔ (pre = 0 ∧ (∀ i, s.err i = 0) ∧ post = 0) ∧ s.killed = 0 ∧ c.mem s.world.clock = true) ∧
    ((finish c s pre post).1.isSome ↔ (finish c s pre post).2.err = 0) := by
  rw [← status_zero]
  unfold finish
  dsimp only
  by_cases h : status s pre post = 0
  · rw [if_neg (by simpa using h)]
    by_cases hm : c.mem s.world.clock = true
    · have h2 : (alloc c { s.world with err := status s pre post }).err = 0 := by simp [alloc, World.raise, hm, h]
      rw [if_neg (by simp [h2])]
      by_cases hk : s.killed = 0
      · simp only [hk, h, hm, ne_eq, not_true, if_false, Option.isSome_some, and_self, true_iff, iff_true]
        rw [h] at h2; exact ⟨trivial, h2⟩
      · have h3 : (World.raise (alloc c { s.world with err := status s pre post }) Build.intKil).err = Build.intKil := by simp [World.raise, h2]
        rw [if_pos hk, SpawnAcc.freeNodes_sticky _ _ _ (by rw [h3]; decide), h3]
        simp [hk]; decide
    · have h2 : (alloc c { s.world with err := status s pre post }).err = 12 := by simp [alloc, World.raise, hm, h]
      rw [if_pos (by simp [h2]), SpawnAcc.freeNodes_sticky _ _ _ (by simp [h2]), h2]
      simp [hm]
  · rw [if_pos h, SpawnAcc.freeNodes_sticky _ _ _ h]
    simp [h]

/-! ## C138: `cru_built` -/

/-- At any time in any execution, whatever fails and whether there's a kill, everything made has been freed once, is held by one node, or
is a vertex in one packet. -/
theorem C138_account (hb : o.spread = false) (ends : Fin n → List (Nat × Nat)) (v : Option V) (x : State n (Pkt V) (Job n V))
    (h : Reach (task c o ends hn) (.fresh (origin c v).1 true) (blank (origin c v).2) x) :
    Exact x.g.world (allHeld c x.g.nodes + inFlight c (pending (.fresh (origin c v).1 true) x)) := by
  have h1 := good_inv (blank_good hb v) _ (reach_bag hn h)
  have h2 := (careful_inv (blank_careful v) _ (reach_bag hn h)).build hb
  refine (h1.2.cast ?_).exact
  have h3 : x.g.given = fun _ => [] := funext (h1.1.built hb)
  have h4 : x.g.lost = [] := h2.1
  simp only [outstanding]
  rw [h3, allHeld_nil, h4]
  simp [leaked]

/-- At the end, it has been freed once or is held by one node of the graph returned.  That's so whatever errors there are besides those of workers,
and whatever nodes are at the ends of the edges. -/
theorem C138_end (hb : o.spread = false) (ends : Fin n → List (Nat × Nat)) (v : Option V) (x : State n (Pkt V) (Job n V))
    (h : Reach (task c o ends hn) (.fresh (origin c v).1 true) (blank (origin c v).2) x) (hx : x.main = .done)
    (remote : Fin n → Nat → Nat → Nat) (pre post : Int) :
    Exact (finish c (leaveAll c o remote x.g) pre post).2 (held c ((finish c (leaveAll c o remote x.g) pre post).1.getD [])) := by
  have h1 := good_inv (blank_good hb v) _ (Rover.done_bag hn h hx)
  have h2 := (careful_inv (blank_careful v) _ (Rover.done_bag hn h hx)).build hb
  obtain ⟨e1, e2, -⟩ := leaveAll_same (c := c) (o := o) remote x.g
  have h3 : x.g.given = fun _ => [] := funext (h1.1.built hb)
  have h4 : Even x.g.world (total c x.g + 0) := h1.2.cast (by rw [outstanding_eq]; rfl)
  have h5 := h4.bal (leaveAll_bal (o := o) remote x.g 0)
  refine ((h5.cast ?_).bal (finish_bal _ pre post 0)).cast (by simp) |>.exact
  rw [total, e1, e2, h3, allHeld_nil, h2.1]
  simp [leaked]

/-- A graph is returned if there has been no error and no kill, and the graph could be allocated, and otherwise there's an error. -/
theorem C138_status (ends : Fin n → List (Nat × Nat)) (v : Option V) (x : State n (Pkt V) (Job n V))
    (_ : Reach (task c o ends hn) (.fresh (origin c v).1 true) (blank (origin c v).2) x) (remote : Fin n → Nat → Nat → Nat) (pre post : Int) :
    ((finish c (leaveAll c o remote x.g) pre post).1.isSome ↔
      (pre = 0 ∧ (∀ i, (leaveAll c o remote x.g).err i = 0) ∧ post = 0) ∧ x.g.killed = 0 ∧ c.mem (leaveAll c o remote x.g).world.clock = true) ∧
    ((finish c (leaveAll c o remote x.g) pre post).1.isSome ↔ (finish c (leaveAll c o remote x.g) pre post).2.err = 0) := by
  have := finish_iff (c := c) (leaveAll c o remote x.g) pre post
  rw [(leaveAll_same (c := c) (o := o) remote x.g).2.2] at this
  exact this

/-- If no worker is started, everything made has been freed. -/
theorem C138_unstarted (v : Option V) (e : Int) : Exact (unbuilt c (origin c v).1 e (origin c v).2) 0 :=
  ((origin_even c v).bal ((Bal.err _ e _).trans (Request.destroy_bal c c.vFree _ _))).exact

/-! ## C139: `cru_spread` -/

theorem start_good {given : Fin n → List (Node V)} {tab : Fin n → Nat → List Nat} {w : World} (hs : o.spread = true) (hw : w.WF) (hx : Exact w (allHeld c given))
    (ht : ∀ i h, ∀ k ∈ tab i h, k < (given i).length) (h k : Nat) : Good c o ((start given tab w : Job n V), {.known h k true}) := by
  refine ⟨⟨fun _ _ _ => rfl, fun h => (by rw [hs] at h; cases h), fun i h => (by cases h), fun i h k hk => ?_⟩, ?_⟩
  · simpa [start] using ht i h k hk
  · refine (Even.of_exact hw hx).cast ?_
    simp only [outstanding, start]
    rw [allHeld_nil]
    simp [inFlight, leaked, Pkt.held]

theorem start_careful {given : Fin n → List (Node V)} {tab : Fin n → Nat → List Nat} {w : World} (hs : o.spread = true) (h k : Nat) :
    Careful o ((start given tab w : Job n V), {.known h k true}) :=
  ⟨fun h => absurd rfl h, fun _ => rfl, fun h => (by rw [hs] at h; cases h)⟩

/-- At any time in any execution of a spread, whatever fails and whether there's a kill, everything in the graph and everything made since has
been freed once, is held by one node, is a vertex in one packet, or is one of the vertices `x.g.lost`. -/
theorem C139_account (hs : o.spread = true) (ends : Fin n → List (Nat × Nat)) (given : Fin n → List (Node V)) (tab : Fin n → Nat → List Nat) (w : World)
    (hw : w.WF) (hx : Exact w (allHeld c given)) (ht : ∀ i h, ∀ k ∈ tab i h, k < (given i).length) (h₀ k₀ : Nat) (x : State n (Pkt V) (Job n V))
    (h : Reach (task c o ends hn) (.known h₀ k₀ true) (start given tab w) x) :
    Exact x.g.world (allHeld c x.g.nodes + allHeld c x.g.given + inFlight c (pending (.known h₀ k₀ true) x) + leaked c x.g.lost) :=
  (good_inv (start_good hs hw hx ht h₀ k₀) _ (reach_bag hn h)).2.exact

/-- At the end, it has been freed once, is held by one node of the graph returned, or is one of the vertices `x.g.lost`. -/
theorem C139_end (hs : o.spread = true) (ends : Fin n → List (Nat × Nat)) (given : Fin n → List (Node V)) (tab : Fin n → Nat → List Nat) (w : World)
    (hw : w.WF) (hx : Exact w (allHeld c given)) (ht : ∀ i h, ∀ k ∈ tab i h, k < (given i).length) (h₀ k₀ : Nat) (x : State n (Pkt V) (Job n V))
    (h : Reach (task c o ends hn) (.known h₀ k₀ true) (start given tab w) x) (hd : x.main = .done)
    (remote : Fin n → Nat → Nat → Nat) (f : Bool) (pre post : Int) :
    Exact (finishSpread c (leaveAll c o remote x.g) f pre post).2
      (held c ((finishSpread c (leaveAll c o remote x.g) f pre post).1.getD []) + leaked c x.g.lost) := by
  have h1 := good_inv (start_good hs hw hx ht h₀ k₀) _ (Rover.done_bag hn h hd)
  obtain ⟨e1, e2, -⟩ := leaveAll_same (c := c) (o := o) remote x.g
  have h4 : Even x.g.world (total c x.g + 0) := h1.2.cast (by rw [outstanding_eq]; rfl)
  have h5 := h4.bal (leaveAll_bal (o := o) remote x.g 0)
  refine ((h5.cast ?_).bal (finishSpread_bal _ f pre post (leaked c x.g.lost))).exact
  rw [total, e1, e2, add_zero]

/-- If no worker is started, everything has been freed or is held by one node of the graph returned. -/
theorem C139_unstarted (given : Fin n → List (Node V)) (tab : Fin n → Nat → List Nat) (w : World) (hw : w.WF) (hx : Exact w (allHeld c given)) (f : Bool)
    (pre post : Int) :
    Exact (finishSpread c (start given tab w : Job n V) f pre post).2 (held c ((finishSpread c (start given tab w : Job n V) f pre post).1.getD [])) := by
  have h1 : Even (start given tab w : Job n V).world (allHeld c (start given tab w : Job n V).nodes + allHeld c (start given tab w : Job n V).given + 0) :=
    (Even.of_exact hw hx).cast (by simp only [start]; rw [allHeld_nil]; simp)
  exact ((h1.bal (finishSpread_bal _ f pre post 0)).cast (by simp)).exact

/-- A graph is returned only if there's no error, and no graph otherwise. -/
theorem finishSpread_iff (s : Job n V) (f : Bool) (pre post : Int) :
    ((finishSpread c s f pre post).1.isSome ↔ (finishSpread c s f pre post).2.err = 0) ∧
    ((finishSpread c s f pre post).1.isSome → pre = 0 ∧ (∀ i, s.err i = 0) ∧ post = 0) := by
  rw [← status_zero]
  unfold finishSpread
  dsimp only
  by_cases h : status s pre post = 0
  · rw [if_neg (by simpa using h)]
    generalize (freeNodes c (unspent s) { s.world with err := status s pre post }).raise (if s.killed ≠ 0 ∧ f = false then Build.intKil else 0) = w2
    by_cases hw : w2.err ≠ 0
    · rw [if_pos hw, SpawnAcc.freeNodes_sticky _ _ _ hw]
      simpa using hw
    · rw [if_neg hw]
      simpa [h] using hw
  · rw [if_pos h]
    have h1 : (freeNodes c (union s) { s.world with err := status s pre post }).err = status s pre post := SpawnAcc.freeNodes_sticky _ _ _ h
    rw [SpawnAcc.freeNodes_sticky _ _ _ (by rw [h1]; exact h), h1]
    simp [h]

/-- Nothing is lost if there's a connector rather than a subconnector, or if a graph is returned; and a graph is returned if there's no error. -/
theorem C139_kept (hs : o.spread = true) (ends : Fin n → List (Nat × Nat)) (given : Fin n → List (Node V)) (tab : Fin n → Nat → List Nat) (w : World)
    (h₀ k₀ : Nat) (x : State n (Pkt V) (Job n V)) (h : Reach (task c o ends hn) (.known h₀ k₀ true) (start given tab w) x)
    (remote : Fin n → Nat → Nat → Nat) (f : Bool) (pre post : Int) :
    (o.sub = false → x.g.lost = []) ∧
    ((finishSpread c (leaveAll c o remote x.g) f pre post).1.isSome → x.g.lost = []) ∧
    ((finishSpread c (leaveAll c o remote x.g) f pre post).1.isSome ↔ (finishSpread c (leaveAll c o remote x.g) f pre post).2.err = 0) := by
  have h1 := careful_inv (c := c) (start_careful hs h₀ k₀) _ (reach_bag hn h)
  have h2 := finishSpread_iff (c := c) (leaveAll c o remote x.g) f pre post
  refine ⟨h1.connector, fun h3 => ?_, h2.1⟩
  by_contra hc
  obtain ⟨i, hi⟩ := h1.failed hc
  exact leaveAll_sticky remote x.g i hi ((h2.2 h3).2.1 i)

/-- This is the defect: whenever a subconnector raises an error when applied to a vertex without outgoing edges, the termini it passed to `cru_connect`
before that are the ones lost. -/
theorem C139_leak (hsub : o.sub = true) (w : World) (he : (o.connect (record c o w).clock).2 ≠ 0) :
    (breakOut c o false w).1.2 = (call c o (record c o w)).1.map Edge.vertex := by
  have h1 : (call c o (record c o w)).2.err ≠ 0 := by
    unfold call
    dsimp only [World.raise]
    split_ifs with h
    · exact h
    · exact he
  unfold breakOut
  rw [if_neg (by simp [hsub]), if_neg (by simp)]
  dsimp only
  generalize call c o (record c o w) = k at h1 ⊢
  have h2 : (if k.1.any (fun e => e.vertex.isNone) = true then k.2.raise (-1714) else k.2).err ≠ 0 := by
    split_ifs
    · rw [DedupAcc.raise_sticky _ h1]; exact h1
    · exact h1
  rw [if_pos]
  rw [dedup_sticky _ _ _ h2]; exact h2

/-! ## Examples

A connector that makes two edges on the first two calls, where vertices may be equal to others, and destructors 0 and 1 for vertices and labels. -/

def demoEnv (bad : Nat) : Env := ⟨some 0, some 1, fun _ _ => 0, fun t => t != bad⟩

def demoOps (sub spread : Bool) (limit until' : Nat) (e : Int) : Ops Nat where
  sub := sub
  connect t := if t < until' then ([⟨0, some t, some t⟩, ⟨0, some (t + 1), some (t + 1)⟩, ⟨0, none, some (t + 1)⟩], if 5 < t then e else 0) else ([], 0)
  vSame t := ⟨t % 3 = 0, 0⟩
  eSame t := ⟨t % 2 = 0, 0⟩
  recorded t := ⟨t % 4 = 0, 0⟩
  vHash v := (v.map Obj.val).getD 0
  eHash v := (v.map Obj.val).getD 0
  limit := limit
  spread := spread
  res t := t % 2 = 0

abbrev demoTask (bad : Nat) (o : Ops Nat) (ends : Fin 2 → List (Nat × Nat)) := task (n := 2) (demoEnv bad) o ends (by decide)

def demoBuild (bad limit : Nat) (sub : Bool) (e : Int) : State 2 (Pkt Nat) (Job 2 Nat) :=
  greedy (demoTask bad (demoOps sub false limit 30 e) fun _ => []) (.fresh (origin (demoEnv bad) (some 4)).1 true) 900 (init (blank (origin (demoEnv bad) (some 4)).2))

def demoEnd (bad limit : Nat) (sub : Bool) (e : Int) := finish (demoEnv bad) (leaveAll (demoEnv bad) (demoOps sub false limit 30 e) (fun _ _ k => k) (demoBuild bad limit sub e).g) 0 0

/-- Two nodes with an edge from the one to the other. -/
def demoGiven (i : Fin 2) : List (Node Nat) := if i = 0 then [⟨some ⟨0, 0⟩, [some ⟨1, 7⟩]⟩] else [⟨some ⟨2, 1⟩, []⟩]

def demoTab (i : Fin 2) (h : Nat) : List Nat := if h = i.val then [0] else []

def demoWorld : World := ⟨3, 0, {(0, 0), (1, 1), (2, 0)}, 0, false⟩

def demoSpread (bad : Nat) (sub : Bool) (e : Int) : State 2 (Pkt Nat) (Job 2 Nat) :=
  greedy (demoTask bad (demoOps sub true 0 15 e) fun i => if i = 0 then [(1, 0)] else []) (.known 0 0 true) 900 (init (start demoGiven demoTab demoWorld))

def demoSpreadEnd (bad : Nat) (sub : Bool) (e : Int) :=
  finishSpread (demoEnv bad) (leaveAll (demoEnv bad) (demoOps sub true 0 15 e) (fun _ _ k => k) (demoSpread bad sub e).g) true 0 0

/-- Builds without errors, with an error of the connector, with too low a limit and with a failing allocation. -/
example : (demoOps false false 0 30 0).spread = false ∧
    Reach (demoTask 1000 (demoOps false false 0 30 0) fun _ => []) (.fresh (origin (demoEnv 1000) (some 4)).1 true) (blank (origin (demoEnv 1000) (some 4)).2)
      (demoBuild 1000 0 false 0) ∧ (demoBuild 1000 0 false 0).main = .done ∧
    ((demoEnd 1000 0 false 0).1.getD []).length = 7 ∧ (demoEnd 1000 0 false 0).2.made.card = 11 ∧ (demoEnd 1000 0 false 0).2.freed = 0 ∧
    (demoBuild 1000 0 false 7).main = .done ∧ (demoEnd 1000 0 false 7).2.err = 7 ∧ (demoEnd 1000 0 false 7).2.freed.card = 11 ∧
    (demoBuild 1000 2 false 0).main = .done ∧ (demoEnd 1000 2 false 0).2.err = Build.intOvf ∧ (demoEnd 1000 2 false 0).2.freed.card = 11 ∧
    (demoBuild 14 0 false 0).main = .done ∧ (demoEnd 14 0 false 0).2.err = 12 ∧ (demoEnd 14 0 false 0).2.freed.card = 6 :=
  ⟨rfl, greedy_reach _ _ .init, by decide +kernel, by decide +kernel, by decide +kernel, by decide +kernel, by decide +kernel, by decide +kernel,
    by decide +kernel, by decide +kernel, by decide +kernel, by decide +kernel, by decide +kernel, by decide +kernel, by decide +kernel⟩

/-- The same with a subconnector, where an edge is removed. -/
example : ((demoEnd 1000 0 true 0).1.getD []).length = 6 ∧ (demoEnd 1000 0 true 0).2.made.card = 11 ∧ (demoEnd 1000 0 true 0).2.freed.card = 1 ∧
    (demoEnd 1000 0 true 7).2.err = 7 ∧ (demoEnd 1000 0 true 7).2.freed.card = 11 ∧ (demoEnd 26 0 true 0).2.err = 12 ∧ (demoEnd 26 0 true 0).2.freed.card = 11 :=
  ⟨by decide +kernel, by decide +kernel, by decide +kernel, by decide +kernel, by decide +kernel, by decide +kernel, by decide +kernel⟩

theorem demoWorld_wf : demoWorld.WF := ⟨by decide, by decide⟩

/-- A graph to be spread meets the hypotheses, and is spread with a connector or a subconnector, or has everything freed after an error of a
connector. -/
example : demoWorld.WF ∧ Exact demoWorld (allHeld (demoEnv 1000) demoGiven) ∧ (∀ i h, ∀ k ∈ demoTab i h, k < (demoGiven i).length) ∧
    Reach (demoTask 1000 (demoOps true true 0 15 0) fun i => if i = 0 then [(1, 0)] else []) (.known 0 0 true) (start demoGiven demoTab demoWorld) (demoSpread 1000 true 0) ∧
    (demoSpread 1000 true 0).main = .done ∧ ((demoSpreadEnd 1000 true 0).1.getD []).length = 5 ∧ (demoSpreadEnd 1000 true 0).2.made.card = 8 ∧
    (demoSpreadEnd 1000 true 0).2.freed = 0 ∧
    (demoSpread 1000 false 0).main = .done ∧ ((demoSpreadEnd 1000 false 0).1.getD []).length = 5 ∧ (demoSpreadEnd 1000 false 0).2.freed = 0 ∧
    (demoSpread 1000 false 7).main = .done ∧ (demoSpreadEnd 1000 false 7).2.err = 7 ∧ (demoSpreadEnd 1000 false 7).2.freed.card = 8 ∧
    (demoSpread 25 true 0).main = .done ∧ (demoSpreadEnd 25 true 0).2.err = 12 ∧ (demoSpreadEnd 25 true 0).2.freed.card = 8 := by
  refine ⟨demoWorld_wf, ⟨by decide, by decide +kernel⟩, ?_, greedy_reach _ _ .init, by decide +kernel, by decide +kernel, by decide +kernel, by decide +kernel,
    by decide +kernel, by decide +kernel, by decide +kernel, by decide +kernel, by decide +kernel, by decide +kernel, by decide +kernel, by decide +kernel,
    by decide +kernel⟩
  intro i h k hk
  unfold demoTab at hk
  split_ifs at hk
  · simp only [List.mem_singleton] at hk; subst hk
    unfold demoGiven; split_ifs <;> decide
  · simp at hk

/-- This is the defect in a run: a subconnector that makes three edges and raises an error leaves three vertices that are never freed, although there's
no graph; and so does a failing allocation after it without an error. -/
theorem C139_lost :
    (Reach (demoTask 1000 (demoOps true true 0 15 7) fun i => if i = 0 then [(1, 0)] else []) (.known 0 0 true) (start demoGiven demoTab demoWorld) (demoSpread 1000 true 7) ∧
      (demoSpread 1000 true 7).main = .done ∧ (demoSpreadEnd 1000 true 7).1 = none ∧ (demoSpreadEnd 1000 true 7).2.err = 7 ∧
      (demoSpreadEnd 1000 true 7).2.made.card = 8 ∧ (demoSpreadEnd 1000 true 7).2.freed.card = 5) ∧
    (Reach (demoTask 22 (demoOps true true 0 15 0) fun i => if i = 0 then [(1, 0)] else []) (.known 0 0 true) (start demoGiven demoTab demoWorld) (demoSpread 22 true 0) ∧
      (demoSpread 22 true 0).main = .done ∧ (demoSpreadEnd 22 true 0).1 = none ∧ (demoSpreadEnd 22 true 0).2.err = 12 ∧
      (demoSpreadEnd 22 true 0).2.made.card = 8 ∧ (demoSpreadEnd 22 true 0).2.freed.card = 5) := by
  have hn : ∀ {α : Type} (x : Option α), x.isSome = false → x = none := fun x h => by cases x <;> simp_all
  exact ⟨⟨greedy_reach _ _ .init, by decide +kernel, hn _ (by decide +kernel), by decide +kernel, by decide +kernel, by decide +kernel⟩,
    greedy_reach _ _ .init, by decide +kernel, hn _ (by decide +kernel), by decide +kernel, by decide +kernel, by decide +kernel⟩

/-- A subconnector as in `C139_leak`, with termini. -/
example : (demoOps true true 0 15 7).sub = true ∧ ((demoOps true true 0 15 7).connect (record (demoEnv 1000) (demoOps true true 0 15 7) { demoWorld with clock := 6 }).clock).2 ≠ 0 ∧
    (breakOut (demoEnv 1000) (demoOps true true 0 15 7) false { demoWorld with clock := 6 }).1.2.length = 3 :=
  ⟨rfl, by decide +kernel, by decide +kernel⟩

end Cru.BuildAcc
