import Verif.Proofs.ComposeAccPass
import Verif.Proofs.NetExec
import Verif.Proofs.Demo
import Mathlib.Tactic.IntervalCases

/-! # C131, C132: storage in `cru_composed` -/

namespace Cru.ComposeAcc

open Net Fold
open MergeAcc (Bal)
open Request (Env alloc Exact)
open DedupAcc (Edge labels)
open PostponeAcc (half_done mem_labels)

variable {n : Nat} {N V : Type} [DecidableEq N] {c : Env} {o : Ops V} {addr : N → Nat} {hn : 0 < n} {b : N} {h₀ h h' : Heap n N V} {e₀ e : Int}

/-- **C131.** If a graph is returned, there's no error, its nodes are those reachable from the base node, all properties are gone, and everything
made and not freed is held by the graph, once. -/
theorem C131_returned (hr : Ready c b h) (hc : Composes c o addr hn b e₀ h true h') : h'.world.err = 0 ∧ Ready c b h' := by
  generalize ht : true = r at hc
  induction hc with
  | unstarted => cases ht
  | failed => cases ht
  | last hp hd _ =>
    obtain ⟨p, k⟩ := pass_spec hr.wf hr.bare hp
    exact ⟨((prune_err _ _).1 ht.symm).1, prune_ready hr p (k hr.half rfl) hd ht.symm⟩
  | more hp hd hk _ _ ih =>
    obtain ⟨p, k⟩ := pass_spec hr.wf hr.bare hp
    exact ih (prune_ready hr p (k hr.half rfl) hd hk) ht

/-- **C131.** If not, there's an error, and everything has been freed once, whatever failed and whenever, and however often edges had been
composed before. -/
theorem C131_failed (hr : Ready c b h) (hc : Composes c o addr hn b e₀ h false h') : h'.world.err ≠ 0 ∧ Exact h'.world 0 := by
  generalize ht : false = r at hc
  induction hc with
  | @unstarted e₀ e h he =>
    have h1 : first [e₀, e] ≠ 0 := first_ne (e := e) (by simp) he
    refine ⟨by rw [freeNodes_sticky _ _ h1]; exact h1, ?_⟩
    have hb := (Bal.err h.world (first [e₀, e]) (graphHeld c h)).trans ((freeNodes_bal c h h.nodes _ 0).cast (by simp [graphHeld]) rfl)
    exact Exact.bal hb ⟨hr.past, hr.exact.1⟩ hr.exact.2
  | @failed e₀ e h h₁ hp he =>
    obtain ⟨p, -⟩ := pass_spec hr.wf hr.bare hp
    have hs := foldl_sticky (f := decompose c o) (fun h i hw => decompose_sticky i hw) (List.finRange n)
      (h := { h₁ with world := { h₁.world with err := e } }) he
    refine ⟨by rw [hs]; exact he, ?_⟩
    have hside : sideHeld c h = 0 := by simp [sideHeld, hr.half]
    have hb := ((p.bal 0).trans (Bal.err h₁.world e _)).trans
      ((decomposes_bal (c := c) (o := o) { h₁ with world := { h₁.world with err := e } } p.nodup).cast (by simp [total, full]; rfl) rfl)
    exact Exact.bal (hb.cast (by rw [hside]; simp) rfl) ⟨hr.past, hr.exact.1⟩ hr.exact.2
  | @last e₀ e h h₁ kept gone hp hd _ =>
    obtain ⟨p, k⟩ := pass_spec hr.wf hr.bare hp
    obtain ⟨h1, h2⟩ := (prune_err (c := c) (kept := kept) (gone := gone) e h₁).2.1 ht.symm
    refine ⟨h1, ?_⟩
    have hside : sideHeld c h = 0 := by simp [sideHeld, hr.half]
    have hb := (p.bal 0).trans (prune_bal (c := c) (o := o) e hd (k hr.half rfl) 0)
    have h3 : graphHeld c (prune c kept gone e h₁).2 = 0 := by simp [graphHeld, h2]
    exact Exact.bal (hb.cast (by rw [hside]; simp) (by rw [h3]; rfl)) ⟨hr.past, hr.exact.1⟩ hr.exact.2
  | more hp hd hk _ _ ih =>
    obtain ⟨p, k⟩ := pass_spec hr.wf hr.bare hp
    exact ih (prune_ready hr p (k hr.half rfl) hd hk) ht

/-- **C131.** If there was an error to begin with, no graph is returned. -/
theorem C131_before (h0 : e₀ ≠ 0) {r : Bool} (hc : Composes c o addr hn b e₀ h r h') : r = false := by
  have key : ∀ {h₁ : Heap n N V}, ¬ Pass c o addr hn b e₀ h h₁ 0 := by
    rintro h₁ ⟨_, _, _, _, _, -, -, -, he⟩
    exact h0 (first_zero he.symm e₀ (by simp))
  cases hc with
  | unstarted => rfl
  | failed => rfl
  | last hp => exact absurd hp key
  | more hp => exact absurd hp key

/-- **C131.** After a pass without errors, all nodes are on one list each, and those reachable from the base node are among them. -/
theorem C131_divided (hr : Ready c b h) (ha : Function.Injective addr) (hp : Pass c o addr hn b e₀ h h' 0) :
    (survivors h').Perm h.nodes ∧ ∃ kept gone, Divides b h' kept gone := by
  classical
  obtain ⟨h1, h2⟩ := pass_closed ha hr.wf hr.half hr.bare hp
  have h3 : (survivors h').Perm h.nodes := by rw [← Multiset.coe_eq_coe, bag_survivors, h1]
  refine ⟨h3, (survivors h').filter (fun m => decide (Reaches (fun m => (h'.out m).map Edge.dst) b m)),
    (survivors h').filter (fun m => !decide (Reaches (fun m => (h'.out m).map Edge.dst) b m)), List.filter_append_perm _ _, fun m => ?_⟩
  rw [List.mem_filter, decide_eq_true_iff, and_iff_right_iff_imp]
  intro hm
  rw [← Multiset.mem_coe, bag_survivors]
  induction hm with
  | refl => rw [h1, Multiset.mem_coe]; exact (hr.wf.reach b).2 .refl
  | @tail x y _ hs ih =>
    obtain ⟨f, h4, rfl⟩ := List.mem_map.1 hs
    exact h2 x ih f (List.mem_append_left _ h4)

/-! ## Full duplex graphs -/

/-- **C132.** If the incoming edges have been removed without a kill, the graph is as it should be for C131. -/
theorem C132_converted (hf : Full c b h₀) (hc : Converted addr hn b h₀ h 0) : Ready c b h := by
  obtain ⟨x, hx, hd, rfl, hk⟩ := hc
  have hk' : x.g.killed = 0 := by
    by_contra hne
    rw [if_neg hne] at hk
    exact absurd hk (by decide)
  refine ⟨hf.wf, fun m => ?_, hf.bare, hf.past, hf.exact⟩
  show (x.g.mem m).map _ = []
  rw [List.map_eq_nil_iff]
  by_cases hm : m ∈ h₀.nodes
  · refine half_done hx hd hk' m ?_
    have h1 : (graph b h₀).next false = fun m => ((h₀.out m).map fun e => (e.label, e.dst)).map (·.2) := by
      funext m; simp [Gr.next, graph]
    rw [← h1]
    exact (hf.wf.reach m).1 hm
  · exact half_empty hx hd m (by rw [hf.within m hm]; rfl)

/-- **C132.** This is the defect: if it was killed and a pass is made nonetheless, the labels of incoming edges that haven't been removed are freed
in addition to everything that was made. -/
theorem C132_twice (hf : Full c b h₀) (hc : Converted addr hn b h₀ h e₀) {h₁ : Heap n N V} (hp : Pass c o addr hn b e₀ h h₁ e) (he : e ≠ 0) {w : World}
    (hw : w = ((List.finRange n).foldl (decompose c o) { h₁ with world := { h₁.world with err := e } }).world) :
    w.err ≠ 0 ∧ w.freed = w.made + sideHeld c h := by
  subst hw
  obtain ⟨x, -, -, rfl, -⟩ := hc
  obtain ⟨p, -⟩ := pass_spec (h := { h₀ with bypass := fun m => (x.g.mem m).map fun e => ⟨e.1, e.2⟩ }) hf.wf hf.bare hp
  have hs := foldl_sticky (f := decompose c o) (fun h i hw => decompose_sticky i hw) (List.finRange n)
    (h := { h₁ with world := { h₁.world with err := e } }) he
  refine ⟨by rw [hs]; exact he, ?_⟩
  have hb := ((p.bal 0).trans (Bal.err h₁.world e _)).trans
    ((decomposes_bal (c := c) (o := o) { h₁ with world := { h₁.world with err := e } } p.nodup).cast (by simp [total, full]; rfl) rfl)
  have hl := hb.ledger
  have hx : h₀.world.made = h₀.world.freed + graphHeld c h₀ := hf.exact.2
  have hg : graphHeld c { h₀ with bypass := fun m => (x.g.mem m).map fun e => ⟨e.1, e.2⟩ } = graphHeld c h₀ := rfl
  simp only [hg, add_zero, hx] at hl
  generalize sideHeld c { h₀ with bypass := fun m => (x.g.mem m).map fun e => ⟨e.1, e.2⟩ } = z at hl ⊢
  generalize ((List.finRange n).foldl (decompose c o) { h₁ with world := { h₁.world with err := e } }).world = w at hl ⊢
  have h2 : (h₀.world.freed + graphHeld c h₀) + w.freed = (h₀.world.freed + graphHeld c h₀) + (w.made + z) := by
    rw [← hl]; abel
  exact add_left_cancel h2

/-- **C132.** Among them is the label of every edge whose terminus still has its incoming edges. -/
theorem C132_which (hf : Full c b h₀) {d : Nat} (hd : c.eFree = some d) {x : N} {a : Edge N V} {l : Obj V} (hx : x ∈ h₀.nodes) (ha : a ∈ h₀.out x)
    (hl : a.label = some l) (hn : h.nodes = h₀.nodes) (hleft : h.bypass a.dst = h₀.bypass a.dst) : (l.id, d) ∈ sideHeld c h := by
  have h1 : (l.id, d) ∈ labels c (h.bypass a.dst) := mem_labels (e := ⟨a.label, x⟩) hd (by rw [hleft]; exact hf.both x a ha) hl
  have h2 : a.dst ∈ h.nodes := by
    rw [hn]
    refine (hf.wf.reach a.dst).2 (((hf.wf.reach x).1 hx).tail ?_)
    simp only [Gr.next, graph, Bool.false_eq_true, if_false, List.map_map]
    exact List.mem_map.2 ⟨a, ha, rfl⟩
  unfold sideHeld
  obtain ⟨p, q, hpq⟩ := List.append_of_mem h2
  rw [hpq, List.map_append, List.map_cons, List.sum_append, List.sum_cons]
  exact Multiset.mem_add.2 (.inr (Multiset.mem_add.2 (.inl h1)))

/-- **C132.** If the pass can't be started, everything is freed once. -/
theorem C132_unstarted (hf : Full c b h₀) (hc : Converted addr hn b h₀ h e₀) (he : e ≠ 0) {w : World}
    (hw : w = freeNodes c h h.nodes { h.world with err := first [e₀, e] }) : w.err ≠ 0 ∧ Exact w 0 := by
  subst hw
  obtain ⟨x, -, -, rfl, -⟩ := hc
  have h1 : first [e₀, e] ≠ 0 := first_ne (e := e) (by simp) he
  refine ⟨by rw [freeNodes_sticky _ _ h1]; exact h1, ?_⟩
  have hb := (Bal.err h₀.world (first [e₀, e]) (graphHeld c h₀)).trans
    ((freeNodes_bal c { h₀ with bypass := fun m => (x.g.mem m).map fun e => ⟨e.1, e.2⟩ } h₀.nodes _ 0).cast (by simp [graphHeld]; rfl) rfl)
  exact Exact.bal hb ⟨hf.past, hf.exact.1⟩ hf.exact.2

/-! ## Demonstrations -/

def demoEnv (bad : Nat) : Env := { vFree := some 1, eFree := some 2, fails := fun _ _ => 0, mem := fun t => t != bad }

/-- Every two edges are composed, with an error at a given time. -/
def demoOps (fail : Nat) : Ops Nat where
  locals t := ⟨some 3, if t = fail then 7 else 0⟩
  adjacent _ := ⟨some 4, 0⟩
  lFree := some 3
  aFree := some 4
  qpred _ := ⟨true, 0⟩
  qop t := ⟨some 6, if t = fail then 7 else 0⟩
  same _ := ⟨false, 0⟩
  destructive := true
  fix := false

/-- A path of four vertices. -/
def demoPath : Heap 1 Nat Nat where
  vertex m := some ⟨m, 5⟩
  out m := if m < 3 then [⟨some ⟨10 + m, 6⟩, m + 1⟩] else []
  bypass _ := []
  props _ := none
  nodes := List.range 4
  stock _ := []
  err _ := 0
  stop _ := false
  changed _ := false
  world := { clock := 20, err := 0, made := {(0, 1), (1, 1), (2, 1), (3, 1), (10, 2), (11, 2), (12, 2)}, freed := 0 }

theorem demo_runs {f : Fin 1 → Nat → Heap 1 Nat Nat → Heap 1 Nat Nat} (l : List Nat) (td : Fin 1 → List Nat) (ht : td 0 = l) (h : Heap 1 Nat Nat) :
    Runs f td h (l.foldl (fun h m => turn 0 (f 0 m) h) h) := by
  induction l generalizing td h with
  | nil => exact .done fun i => by rw [Subsingleton.elim i 0, ht]
  | cons m l ih =>
    rw [List.foldl_cons]
    exact .next 0 m l ht (ih _ (by simp) _)

def demoX (h : Heap 1 Nat Nat) : State 1 (Free.Packet Nat) (Gather.Job 1 Nat (Option (Obj Nat)) (Option (Obj Nat))) :=
  greedy (Gather.task true id Nat.one_pos) (Free.first (graph 0 h)) 400 (init (Gather.start (graph 0 h) (fun _ => true) 0))

def demoG (c : Env) (o : Ops Nat) (h : Heap 1 Nat Nat) : Heap 1 Nat Nat :=
  ((demoX h).g.deletions 0).reverse.foldl (fun h m => turn 0 (guardIt c o m) h)
    (fresh { h with nodes := [], stock := (demoX h).g.deletions, out := fun m => ((demoX h).g.out m).map fun e => ⟨e.1, e.2⟩ })

def demo1 (c : Env) (o : Ops Nat) (h : Heap 1 Nat Nat) : Heap 1 Nat Nat :=
  (List.finRange 1).foldl (settle c o) { demoG c o h with world := SpawnAcc.freeLabels c (demoX h).g.labels (demoG c o h).world }

def demo2 (c : Env) (o : Ops Nat) (h : Heap 1 Nat Nat) : Heap 1 Nat Nat :=
  ((demo1 c o h).stock 0).foldl (fun h m => turn 0 (composeIt c o id 0 m) h) (fresh (demo1 c o h))

def demo3 (c : Env) (o : Ops Nat) (h : Heap 1 Nat Nat) : Heap 1 Nat Nat :=
  (List.finRange 1).foldl (retire c o) (((demo2 c o h).stock 0).foldl (fun h m => turn 0 (bypassIt c o id 0 m) h) (fresh (demo2 c o h)))

def demoE (c : Env) (o : Ops Nat) (e₀ : Int) (h : Heap 1 Nat Nat) : Int :=
  first [e₀, status (demo1 c o h) 0, status (demo2 c o h) 0, status (demo3 c o h) 0]

theorem demo_guarded (c : Env) (o : Ops Nat) (h : Heap 1 Nat Nat) (hd : (demoX h).main = .done) (hk : ∀ i, (demoX h).g.killed i = false)
    (he : ∀ i, (demoG c o h).err i ≠ 0 ↔ (demoX h).g.err i = true) : Guarded c o id Nat.one_pos 0 h (demo1 c o h) := by
  have hx : Net.Reach (Gather.task true id Nat.one_pos) (Free.first (graph 0 h)) (Gather.start (graph 0 h) (fun _ => true) 0) (demoX h) :=
    greedy_reach _ _ .init
  have hr := demo_runs (f := fun _ m => guardIt c o m) ((demoX h).g.deletions 0).reverse (fun i => ((demoX h).g.deletions i).reverse) rfl
    (fresh { h with nodes := [], stock := (demoX h).g.deletions, out := fun m => ((demoX h).g.out m).map fun e => ⟨e.1, e.2⟩ })
  have h1 : demo1 c o h = (List.finRange 1).foldl (settle c o) { demoG c o h with world := SpawnAcc.freeLabels c (demoX h).g.labels (demoG c o h).world } := by
    rw [demo1]
  have hg : ((demoX h).g.deletions 0).reverse.foldl (fun h m => turn 0 (guardIt c o m) h)
    (fresh { h with nodes := [], stock := (demoX h).g.deletions, out := fun m => ((demoX h).g.out m).map fun e => ⟨e.1, e.2⟩ }) = demoG c o h := by
    rw [demoG]
  rw [hg] at hr
  generalize demoX h = x at *
  exact ⟨_, _, x, demoG c o h, hx, hd, hk, hr, he, h1⟩

theorem demo_pass (c : Env) (o : Ops Nat) (e₀ : Int) (h : Heap 1 Nat Nat) (hd : (demoX h).main = .done) (hk : ∀ i, (demoX h).g.killed i = false)
    (he : ∀ i, (demoG c o h).err i ≠ 0 ↔ (demoX h).g.err i = true) : Pass c o id Nat.one_pos 0 e₀ h (demo3 c o h) (demoE c o e₀ h) := by
  have g := demo_guarded c o h hd hk he
  have r2 := demo_runs (f := composeIt c o id) _ (demo1 c o h).stock rfl (fresh (demo1 c o h))
  have r3 := demo_runs (f := bypassIt c o id) _ (demo2 c o h).stock rfl (fresh (demo2 c o h))
  rw [← demo2] at r2
  refine ⟨demo1 c o h, demo2 c o h, 0, status (demo2 c o h) 0, status (demo3 c o h) 0, g, .inr ⟨0, r2, rfl⟩, .inr ⟨0, _, r3, ?_, rfl⟩, ?_⟩
  · rw [demo3]
  · rw [demoE]

theorem demo_ready (bad : Nat) : Ready (demoEnv bad) 0 demoPath := by
  refine ⟨wf_range (k := 4) rfl rfl (by decide) (by decide +kernel) ?_, fun _ => rfl, fun _ => rfl, by decide +kernel, ?_⟩
  · intro m hm h0
    interval_cases m
    · exact absurd rfl h0
    · exact ⟨0, by decide, (some ⟨10, 6⟩, 1), List.mem_singleton.2 rfl, rfl⟩
    · exact ⟨1, by decide, (some ⟨11, 6⟩, 2), List.mem_singleton.2 rfl, rfl⟩
    · exact ⟨2, by decide, (some ⟨12, 6⟩, 3), List.mem_singleton.2 rfl, rfl⟩
  · have : graphHeld (demoEnv bad) demoPath = graphHeld (demoEnv 0) demoPath := rfl
    rw [this]
    exact ⟨by decide +kernel, by decide +kernel⟩

/-- A full duplex graph with 32 parallel edges. -/
def demoFull : Heap 1 Nat Nat where
  vertex m := if m = 0 then some ⟨0, 5⟩ else none
  out m := if m = 0 then ⟨some ⟨10, 6⟩, 2⟩ :: List.replicate 32 ⟨none, 1⟩ else if m = 2 then [⟨some ⟨11, 6⟩, 3⟩] else []
  bypass m := if m = 1 then List.replicate 32 ⟨none, 0⟩ else if m = 2 then [⟨some ⟨10, 6⟩, 0⟩] else if m = 3 then [⟨some ⟨11, 6⟩, 2⟩] else []
  props _ := none
  nodes := List.range 4
  stock _ := []
  err _ := 0
  stop _ := false
  changed _ := false
  world := { clock := 20, err := 0, made := {(0, 1), (10, 2), (11, 2)}, freed := 0 }

abbrev demoTask := Duplex.half (n := 1) (fun m => (demoFull.out m).map fun e => (e.label, e.dst)) id Nat.one_pos

def demoStart (k : Nat) : Trav.Job 1 Nat (Nat → List (Option (Obj Nat) × Nat)) :=
  { Trav.start fun m => (demoFull.bypass m).map fun e => (e.label, e.dst) with killed := k }

def demoHalf (k : Nat) : State 1 (Duplex.Pkt Nat (Option (Obj Nat))) (Trav.Job 1 Nat (Nat → List (Option (Obj Nat) × Nat))) :=
  greedy demoTask (0, none) 400 (init (demoStart k))

def demoLeft (k : Nat) : Heap 1 Nat Nat := { demoFull with bypass := fun m => ((demoHalf k).g.mem m).map fun e => ⟨e.1, e.2⟩ }

theorem demo_full : Full (demoEnv 1000) 0 demoFull := by
  refine ⟨wf_range (k := 4) rfl rfl (by decide) (by decide +kernel) ?_, fun x e he => ?_, fun m hm => ?_, fun _ => rfl, by decide +kernel, by decide +kernel, by decide +kernel⟩
  · intro m hm h0
    interval_cases m
    · exact absurd rfl h0
    · exact ⟨0, by decide, (none, 1), List.mem_map.2 ⟨⟨none, 1⟩, List.mem_cons_of_mem _ (List.mem_replicate.2 ⟨by decide, rfl⟩), rfl⟩, rfl⟩
    · exact ⟨0, by decide, (some ⟨10, 6⟩, 2), List.mem_cons_self, rfl⟩
    · exact ⟨2, by decide, (some ⟨11, 6⟩, 3), List.mem_singleton.2 rfl, rfl⟩
  · match x with
    | 0 =>
      rcases List.mem_cons.1 he with rfl | he
      · exact List.mem_singleton.2 rfl
      · rw [(List.mem_replicate.1 he).2]; exact List.mem_replicate.2 ⟨by decide, rfl⟩
    | 1 => exact absurd he List.not_mem_nil
    | 2 => rw [List.mem_singleton.1 he]; exact List.mem_singleton.2 rfl
    | x + 3 =>
      have : demoFull.out (x + 3) = [] := rfl
      rw [this] at he; exact absurd he List.not_mem_nil
  · match m with
    | 0 => rfl
    | 1 | 2 | 3 => exact absurd (by decide) hm
    | m + 4 => rfl

theorem demo_converted (k : Nat) (hk : k = 0 ∨ k = 1) (hd : (demoHalf k).main = .done) {e : Int}
    (he : (if (demoHalf k).g.killed = 0 then 0 else Build.intKil) = e) : Converted id Nat.one_pos 0 demoFull (demoLeft k) e := by
  refine ⟨demoHalf k, ?_, hd, rfl, he.symm⟩
  refine greedy_reach _ _ ?_
  rcases hk with rfl | rfl
  · exact .init
  · exact .step (.env ()) trivial .init rfl

/-- The hypotheses are met when edges on a path are composed, whereupon the second vertex isn't reachable any more. -/
example : Ready (demoEnv 1000) 0 demoPath ∧ Function.Injective (id : Nat → Nat) ∧
    Pass (demoEnv 1000) (demoOps 1000) id Nat.one_pos 0 0 demoPath (demo3 (demoEnv 1000) (demoOps 1000) demoPath) 0 ∧
    Divides 0 (demo3 (demoEnv 1000) (demoOps 1000) demoPath) [0, 2, 3] [1] ∧
    (∃ h', Composes (demoEnv 1000) (demoOps 1000) id Nat.one_pos 0 0 demoPath true h' ∧ h'.world.freed.card = 12 ∧ h'.world.made.card = 17) := by
  have hp := demo_pass (demoEnv 1000) (demoOps 1000) 0 demoPath (by decide +kernel) (by decide +kernel) (by decide +kernel)
  rw [show demoE (demoEnv 1000) (demoOps 1000) 0 demoPath = 0 by decide +kernel] at hp
  have hd : Divides 0 (demo3 (demoEnv 1000) (demoOps 1000) demoPath) [0, 2, 3] [1] := by
    have h0 : ((demo3 (demoEnv 1000) (demoOps 1000) demoPath).out 0).map Edge.dst = [2] := by decide +kernel
    have h2 : ((demo3 (demoEnv 1000) (demoOps 1000) demoPath).out 2).map Edge.dst = [3] := by decide +kernel
    have h3 : ((demo3 (demoEnv 1000) (demoOps 1000) demoPath).out 3).map Edge.dst = [] := by decide +kernel
    have hs : survivors (demo3 (demoEnv 1000) (demoOps 1000) demoPath) = [3, 2, 1, 0] := by decide +kernel
    generalize demo3 (demoEnv 1000) (demoOps 1000) demoPath = g at *
    refine ⟨by rw [hs]; decide, fun m => ⟨fun hm => ?_, fun hm => ?_⟩⟩
    · have r2 : Reaches (fun m => (g.out m).map Edge.dst) 0 2 := .single (by dsimp only; rw [h0]; simp)
      simp only [List.mem_cons, List.not_mem_nil, or_false] at hm
      rcases hm with rfl | rfl | rfl
      · exact .refl
      · exact r2
      · exact r2.tail (by dsimp only; rw [h2]; simp)
    · induction hm with
      | refl => simp
      | tail _ hs ih =>
        dsimp only at hs
        simp only [List.mem_cons, List.not_mem_nil, or_false] at ih
        rcases ih with rfl | rfl | rfl
        · rw [h0] at hs; rw [List.mem_singleton.1 hs]; simp
        · rw [h2] at hs; rw [List.mem_singleton.1 hs]; simp
        · rw [h3] at hs; simp at hs
  refine ⟨demo_ready 1000, Function.injective_id, hp, hd, ?_⟩
  have ht : (prune (demoEnv 1000) [0, 2, 3] [1] 0 (demo3 (demoEnv 1000) (demoOps 1000) demoPath)).1 = true := by decide +kernel
  have hc := Composes.last (e := 0) hp hd (.inr rfl)
  rw [ht] at hc
  exact ⟨_, hc, by decide +kernel, by decide +kernel⟩

/-- So they are with an error of a user's function, or with a failing allocation while edges are bypassed. -/
example : (∃ h', Composes (demoEnv 1000) (demoOps 44) id Nat.one_pos 0 0 demoPath false h' ∧ h'.world.err = 7 ∧ h'.world.freed.card = 17) ∧
    (∃ h', Composes (demoEnv 55) (demoOps 1000) id Nat.one_pos 0 0 demoPath false h' ∧ h'.world.err = 12 ∧ h'.world.freed.card = 17) :=
  ⟨⟨_, .failed (demo_pass (demoEnv 1000) (demoOps 44) 0 demoPath (by decide +kernel) (by decide +kernel) (by decide +kernel)) (by decide +kernel),
    by decide +kernel, by decide +kernel⟩,
   ⟨_, .failed (demo_pass (demoEnv 55) (demoOps 1000) 0 demoPath (by decide +kernel) (by decide +kernel) (by decide +kernel)) (by decide +kernel),
    by decide +kernel, by decide +kernel⟩⟩

/-- The hypotheses of C132 are met, with or without a kill request. -/
example : Full (demoEnv 1000) 0 demoFull ∧ Converted id Nat.one_pos 0 demoFull (demoLeft 0) 0 ∧
    Converted id Nat.one_pos 0 demoFull (demoLeft 1) Build.intKil ∧ (demoLeft 1).bypass 3 ≠ [] :=
  ⟨demo_full, demo_converted 0 (.inl rfl) (by decide +kernel) (by decide +kernel),
    demo_converted 1 (.inr rfl) (by decide +kernel) (by decide +kernel), by decide +kernel⟩

/-- **C132.** The label of an edge can be freed twice although nothing fails except that a kill is requested. -/
theorem C132_doubled : ∃ (c : Env) (o : Ops Nat) (h₀ h h' : Heap 1 Nat Nat), Full c 0 h₀ ∧ (∀ t, c.mem t = true ∨ t = 1000) ∧
    Converted id Nat.one_pos 0 h₀ h Build.intKil ∧ Composes c o id Nat.one_pos 0 Build.intKil h false h' ∧ h'.world.clock < 1000 ∧
    h'.world.made.count (11, 2) = 1 ∧ h'.world.freed.count (11, 2) = 2 := by
  refine ⟨demoEnv 1000, demoOps 1000, demoFull, demoLeft 1, _, demo_full, fun t => ?_, demo_converted 1 (.inr rfl) (by decide +kernel) (by decide +kernel),
    .failed (demo_pass (demoEnv 1000) (demoOps 1000) Build.intKil (demoLeft 1) (by decide +kernel) (by decide +kernel) (by decide +kernel)) (by decide +kernel),
    by decide +kernel, by decide +kernel, by decide +kernel⟩
  by_cases ht : t = 1000
  · exact .inr ht
  · exact .inl (by simp [demoEnv, ht])

end Cru.ComposeAcc
