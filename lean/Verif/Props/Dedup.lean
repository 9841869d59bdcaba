import Verif.Proofs.DedupEnd
import Verif.Props.Filter

/-!
# C30 and C96-C98: deduplication

`Dedups o g addr hn k r` says that some execution of `cru_deduplicated` on the graph `g` in half duplex form by `n` workers returns `r`, where `k` is
the kill flag at the end.  `Fuses`, `Complete`, and `Regular` are in `Spec/Dedup.lean`.
-/

namespace Cru.Dedup

open Net

variable {n : Nat} {N V L : Type} [DecidableEq N] [DecidableEq V] [DecidableEq L]
variable {o : Orders V L} {g : Gr N V L} {addr : N → Nat} {hn : 0 < n} {k : Nat}

theorem outcome (ho : o.Lawful) {r : Gr N V L} (h : Dedups o g addr hn 0 (.ok r)) :
    ∃ M : Mem n N L, ∃ z, Final o g addr hn M ∧ Covers (fun m => (ends M m).map Prod.snd) g.base (kept z) ∧ r = result g M z := by
  obtain ⟨y, hy, hd, h⟩ := h
  by_cases hs : status y.g = 0
  · rw [if_neg (not_not.2 hs)] at h
    obtain ⟨z, hz, hdz, hk, h⟩ := h
    rcases h with ⟨h, -⟩ | ⟨-, h⟩
    · exact absurd rfl h
    · cases h
      exact ⟨_, _, final ho hy hd hs, pruned hz hdz hk, rfl⟩
  · rw [if_pos hs] at h
    cases h.2

/-- **C30.** The graph returned has no two equal vertices, and each of its edges stands for an edge of the given graph. -/
theorem C30_fused (ho : o.Lawful) (hw : g.WF) {r : Gr N V L} (h : Dedups o g addr hn 0 (.ok r)) : Fuses o g r := by
  obtain ⟨M, z, hF, hz, rfl⟩ := outcome ho h
  exact hF.fuses ho hw hz

/-- **C30.** Each vertex of the given graph has an equal one in the graph returned, and each edge is represented exactly once, if and only if
the graph is regular. -/
theorem C30_complete_iff (ho : o.Lawful) (ha : Function.Injective addr) (hw : g.WF) {r : Gr N V L} (h : Dedups o g addr hn 0 (.ok r)) :
    Complete o g r ↔ Regular o g := by
  obtain ⟨M, z, hF, hz, rfl⟩ := outcome ho h
  exact ⟨hF.regular ho ha hw hz, fun hr => hF.complete ho ha hw hr hz⟩

/-- Errors are raised by the user's equality predicate on two vertices of the graph, or the job is killed. -/
theorem C30_error (ho : o.Lawful) (hw : g.WF) {e : Int} (h : Dedups o g addr hn k (.error e)) :
    (k = 0 ∧ e ≠ 0 ∧ ∃ a ∈ g.nodes, ∃ b ∈ g.nodes, (o.equal (g.vertex a) (g.vertex b)).2 = e) ∨ (k ≠ 0 ∧ e = Build.intKil) := by
  obtain ⟨y, hy, hd, h⟩ := h
  by_cases hs : status y.g = 0
  · rw [if_neg (not_not.2 hs)] at h
    obtain ⟨z, hz, hdz, hk, h⟩ := h
    rcases h with ⟨h1, -, h2⟩ | ⟨-, h⟩
    · cases h2; exact .inr ⟨h1, rfl⟩
    · cases h
  · rw [if_pos hs] at h
    obtain ⟨h1, h2⟩ := h
    cases h2
    left
    obtain ⟨i, hi⟩ := status_mem hs
    obtain ⟨a, b, h3, h4, h5⟩ := (full_reach ho _ (reach_bag hn hy)).errs i (by rw [hi]; exact hs)
    exact ⟨h1, hs, a, (hw.reach a).2 h3, b, (hw.reach b).2 h4, by rw [← hi]; exact h5⟩

/-- If there are equal vertices and no error is reported, some comparison of two equal vertices raised none, or they were the same. -/
theorem C30_error_reported (ho : o.Lawful) (ha : Function.Injective addr) (hw : g.WF) {r : Gr N V L} (h : Dedups o g addr hn 0 (.ok r)) {a b : N}
    (haN : a ∈ g.nodes) (hbN : b ∈ g.nodes) (hne : a ≠ b) (hs : o.Same (g.vertex a) (g.vertex b)) :
    ∃ c ∈ g.nodes, ∃ d ∈ g.nodes, c ≠ d ∧ o.Same (g.vertex c) (g.vertex a) ∧ o.Same (g.vertex c) (g.vertex d) ∧
      (g.vertex c = g.vertex d ∨ (o.equal (g.vertex c) (g.vertex d)).2 = 0) := by
  obtain ⟨M, z, hF, hz, rfl⟩ := outcome ho h
  have key : ∀ m ∈ g.nodes, o.Same (g.vertex m) (g.vertex a) → Mt o g hn M m false → ∃ c ∈ g.nodes, ∃ d ∈ g.nodes, c ≠ d ∧ o.Same (g.vertex c) (g.vertex a) ∧
      o.Same (g.vertex c) (g.vertex d) ∧ (g.vertex c = g.vertex d ∨ (o.equal (g.vertex c) (g.vertex d)).2 = 0) := by
    intro m hm hma hf
    obtain ⟨-, c, h1, h2, h3⟩ := hF.inv.gone m hf
    exact ⟨m, hm, c, (hw.reach _).2 (hF.inv.reach _ _ h1), fun h => hF.inv.once _ (h ▸ h1) hf, hma, h2, h3⟩
  obtain ⟨x, hx⟩ := hF.all ho ha ((hw.reach _).1 haN)
  obtain ⟨y, hy⟩ := hF.all ho ha ((hw.reach _).1 hbN)
  cases x with
  | false => exact key a haN (ho.vertex.refl _) hx
  | true =>
    cases y with
    | false => exact key b hbN (ho.vertex.symm _ _ hs) hy
    | true => exact absurd (hF.inv.reps a b hx hy hs) hne

/-- If the predicate raises no errors and the job isn't killed, regular graphs are deduplicated as they should. -/
theorem C30_correct (ho : o.Lawful) (ha : Function.Injective addr) (hw : g.WF) (hr : Regular o g)
    (he : ∀ a ∈ g.nodes, ∀ b ∈ g.nodes, (o.equal (g.vertex a) (g.vertex b)).2 = 0) {r : Except Int (Gr N V L)} (h : Dedups o g addr hn 0 r) :
    ∃ R, r = .ok R ∧ Fuses o g R ∧ Complete o g R := by
  rcases r with e | R
  · rcases C30_error ho hw h with ⟨-, h0, a, ha, b, hb, h'⟩ | ⟨h', -⟩
    · exact absurd (h'.symm.trans (he a ha b hb)) h0
    · exact absurd rfl h'
  · exact ⟨R, rfl, C30_fused ho hw h, (C30_complete_iff ho ha hw h).2 hr⟩

theorem closed (hF : Final o g addr hn M) (hw : g.WF) (m : N) (h : Reaches (fun m => (ends M m).map fun e : L × N => e.2) g.base m) : m ∈ g.nodes :=
  (hw.reach m).2 (hF.inv.reach _ _ (hF.kept h))

/-- Both phases end. -/
theorem C30_terminates (ho : o.Lawful) (hw : g.WF) (addr : N → Nat) (hn : 0 < n) :
    Merge.Ends (task o g addr hn) ⟨g.base, none⟩ (start g) ∧
    ∀ y, Net.Reach (task o g addr hn) ⟨g.base, none⟩ (start g) y → y.main = .done → status y.g = 0 →
      Merge.Ends (Filter.pruning (ends y.g.mem) (fun m => o.hash (g.vertex m)) hn) g.base (Trav.start ()) := by
  refine ⟨fun f h0 hf => no_infinite_run hn (acc ho hw) f h0 hf, fun y hy hd hs f h0 hf => ?_⟩
  exact (Trav.ends _ _ hn _ (ms := g.nodes) fun m h => closed (final ho hy hd hs) hw m h).1 f h0 hf

/-- There's an execution that ends without being killed. -/
theorem C30_exists (ho : o.Lawful) (hw : g.WF) (addr : N → Nat) (hn : 0 < n) : ∃ r, Dedups o g addr hn 0 r := by
  obtain ⟨y, hy, hd⟩ := exists_done hn (acc (addr := addr) ho hw) _ .init
  by_cases hs : status y.g = 0
  · obtain ⟨z, hz, hdz, hk⟩ := (Trav.ends (fun _ _ _ => ((), 0)) (fun m => o.hash (g.vertex m)) hn () (ms := g.nodes) fun m h =>
      closed (final ho hy hd hs) hw m h).2
    exact ⟨_, y, hy, hd, by rw [if_neg (not_not.2 hs)]; exact ⟨z, hz, hdz, hk, .inr ⟨.inl rfl, rfl⟩⟩⟩
  · exact ⟨_, y, hy, hd, by rw [if_pos hs]; exact ⟨rfl, rfl⟩⟩

/-! ## C96 -/

/-- **C96.** If two different vertices are equal, and there are edges with equal labels from vertices equal to them to vertices that aren't equal, then
some vertex or edge isn't represented in the graph returned. -/
theorem C96_lossy (ho : o.Lawful) (ha : Function.Injective addr) (hw : g.WF) {a a' b : N} (haN : a ∈ g.nodes) (haN' : a' ∈ g.nodes) (hne : a' ≠ a)
    (hs' : o.Same (g.vertex a') (g.vertex a)) (hbN : b ∈ g.nodes) (hs : o.Same (g.vertex a) (g.vertex b)) {e f : L × N} (he : e ∈ g.out a)
    (hf : f ∈ g.out b) (hl : o.leq e.1 f.1 = true) (hd : ¬ o.Same (g.vertex e.2) (g.vertex f.2)) {r : Gr N V L}
    (h : Dedups o g addr hn 0 (.ok r)) :
    (∃ m ∈ g.nodes, ∀ c ∈ r.nodes, ¬ o.Same (g.vertex m) (g.vertex c)) ∨
    ∃ m ∈ g.nodes, ∃ f ∈ g.out m, ∃ c ∈ r.nodes, o.Same (g.vertex m) (g.vertex c) ∧
      ∀ e ∈ r.out c, ¬ (o.leq e.1 f.1 = true ∧ o.Same (g.vertex f.2) (g.vertex e.2)) := by
  obtain ⟨M, z, hF, hz, rfl⟩ := outcome ho h
  by_contra hno
  push Not at hno
  obtain ⟨h1, h2⟩ := hno
  refine hd (hF.fused ho ha hw hz h1 ?_ haN haN' hne hs' hbN hs he hf hl)
  intro m hm f hf c hc hmc
  obtain ⟨e, he, h3, h4⟩ := h2 m hm f hf c hc hmc
  exact ⟨e, he, h3, h4⟩

/-- **C96.** If no other vertex is equal to `a`, and edges with equal labels from `a` lead to different vertices that are equal, there are two edges with
equal labels from `a` to one vertex in the graph returned, if `a` is in it. -/
theorem C96_redundant (ho : o.Lawful) (ha : Function.Injective addr) (hw : g.WF) {a : N}
    (hsing : ∀ b ∈ g.nodes, o.Same (g.vertex a) (g.vertex b) → b = a) {e f : L × N} (he : e ∈ g.out a) (hf : f ∈ g.out a)
    (hl : o.leq e.1 f.1 = true) (hs : o.Same (g.vertex e.2) (g.vertex f.2)) (hne : e.2 ≠ f.2) {r : Gr N V L}
    (h : Dedups o g addr hn 0 (.ok r)) (har : a ∈ r.nodes) :
    ∃ x y c, [(x, c), (y, c)].Sublist (r.out a) ∧ o.leq x e.1 = true ∧ o.leq y e.1 = true := by
  obtain ⟨M, z, hF, hz, rfl⟩ := outcome ho h
  exact hF.twice ho ha hw hz har hsing he hf hl hs hne

/-! ## C97 -/

/-- On the way from a node with a property to one without it, there's an arc from a node with it to one without it. -/
theorem crossing {next : N → List N} {a b : N} (h : Reaches next a b) {P : N → Prop} (ha : P a) (hb : ¬ P b) : ∃ c, P c ∧ ∃ d ∈ next c, ¬ P d := by
  classical
  induction h with
  | refl => exact absurd ha hb
  | @tail c d _ hcd ih =>
    by_cases hc : P c
    · exact ⟨c, hc, d, hcd, hb⟩
    · exact ih hc

/-- **C97.** With more than one lane, a kill request can be lost, and then it does harm: if there are enough vertices, none equal to another, there is an
execution that's killed and returns a graph without an error, where some edge leads to a vertex that has been freed. -/
theorem C97_dangling (ho : o.Lawful) (ha : Function.Injective addr) (hw : g.WF) (hr : Regular o g)
    (he : ∀ a ∈ g.nodes, ∀ b ∈ g.nodes, (o.equal (g.vertex a) (g.vertex b)).2 = 0) (hn1 : 1 < n) {ms : List N} (hms : ∀ m ∈ ms, m ∈ g.nodes)
    (hpw : ms.Pairwise fun a b => ¬ o.Same (g.vertex a) (g.vertex b)) (hmany : 31 * n + 1 ≤ ms.length) :
    ∃ R k, k ≠ 0 ∧ Dedups o g addr hn k (.ok R) ∧ R.base ∈ R.nodes ∧ ∃ c ∈ R.nodes, ∃ e ∈ R.out c, e.2 ∉ R.nodes := by
  classical
  obtain ⟨y, hy, hd⟩ := exists_done hn (acc (addr := addr) (hn := hn) ho hw) _ .init
  have hs : status y.g = 0 := by
    rw [status_zero]
    intro i
    by_contra h
    obtain ⟨a, b, h1, h2, h3⟩ := (full_reach ho _ (reach_bag hn hy)).errs i h
    exact h (h3.symm.trans (he a ((hw.reach a).2 h1) b ((hw.reach b).2 h2)))
  have hF := final ho hy hd hs
  have hcl := closed hF hw
  -- all classes are represented if the second phase isn't killed
  obtain ⟨z₀, hz₀, hdz₀, hk₀⟩ := (Trav.ends (fun _ _ _ => ((), 0)) (fun m => o.hash (g.vertex m)) hn () (ms := g.nodes) hcl).2
  have hc₀ := pruned hz₀ hdz₀ hk₀
  have hcom := hF.complete ho ha hw hr hc₀
  choose! rep hrep hsame using hcom.nodes
  -- it's killed at once
  obtain ⟨z, hz, hdz, hfew, hkz⟩ := Trav.killed_few (fun (_ : Fin n) (_ : Unit) _ => ((), 0)) (fun m => o.hash (g.vertex m)) hn () (ms := g.nodes) hcl
    (fun s => s.killed = 1) rfl (by
      intro i s m hs
      unfold Trav.handle
      obtain ⟨sample, stop, e, -⟩ := Trav.poll_eq s i
      rw [e]
      dsimp only
      split_ifs <;> exact hs)
  have hlen : (kept z.g).length ≤ 31 * n := by
    unfold kept
    rw [List.length_flatMap]
    refine le_trans (List.sum_le_card_nsmul _ 31 (by simpa using hfew)) (by simp [Nat.mul_comm])
  have hinj : Set.InjOn rep {m | m ∈ ms} := by
    intro a haM b hbM hab
    by_contra hne
    haveI : Std.Symm fun a b : N => ¬ o.Same (g.vertex a) (g.vertex b) := ⟨fun x y h h' => h (ho.vertex.symm _ _ h')⟩
    refine hpw.forall haM hbM hne (ho.vertex.trans _ _ _ (hsame a (hms a haM)) ?_)
    rw [hab]
    exact ho.vertex.symm _ _ (hsame b (hms b hbM))
  have hnd : ms.Nodup := hpw.imp fun h hab => h (by rw [hab]; exact ho.vertex.refl _)
  have hex : ∃ m ∈ ms, rep m ∉ kept z.g := by
    by_contra hno
    push Not at hno
    have h1 : (ms.toFinset.image rep).card = ms.length := by
      rw [Finset.card_image_of_injOn (by simpa using hinj), List.toFinset_card_of_nodup hnd]
    have h2 : (ms.toFinset.image rep).card ≤ (kept z.g).length := by
      refine le_trans (Finset.card_le_card fun x hx => ?_) (List.toFinset_card_le (kept z.g))
      obtain ⟨m, hm, rfl⟩ := Finset.mem_image.1 hx
      exact List.mem_toFinset.2 (hno m (List.mem_toFinset.1 hm))
    omega
  obtain ⟨m, hm, hmk⟩ := hex
  have hbase : g.base ∈ kept z.g := by
    rcases Trav.first _ (Rover.done_bag hn hz hdz) with ⟨h, -⟩ | h
    · exact absurd h (by simp)
    · exact List.mem_flatMap.2 ⟨_, List.mem_finRange _, h⟩
  obtain ⟨c, hc, d, hd', hdk⟩ := crossing ((hc₀.mem _).1 (hrep m (hms m hm))) hbase hmk
  obtain ⟨e, hee, rfl⟩ := List.mem_map.1 hd'
  have hcr : Reaches (fun m => (ends y.g.mem m).map fun e : L × N => e.2) g.base c := by
    obtain ⟨i, -, hi⟩ := List.mem_flatMap.1 hc
    exact (Walker.inv_reach (W := Trav.walker (fun s => (ends y.g.mem s).map fun e : L × N => e.2) (fun (_ : Fin n) (_ : Unit) _ => ((), 0))
      (fun m => o.hash (g.vertex m)) hn) (fun i => rfl) _ (reach_bag hn hz)).reach i c hi
  have hdn : e.2 ∈ g.nodes := hcl _ (hcr.tail hd')
  have hsw : sweepable o g hn y.g.mem z.g :=
    .inr (.inr ⟨e.2, hdn, fun h => hdk (List.mem_flatMap.2 ⟨_, List.mem_finRange _, h⟩)⟩)
  refine ⟨result g y.g.mem z.g, z.g.killed, by rw [hkz]; exact Nat.one_ne_zero, ⟨y, hy, hd, ?_⟩, hbase, c, hc, e, hee, hdk⟩
  rw [if_neg (not_not.2 hs)]
  exact ⟨z, hz, hdz, rfl, .inr ⟨.inr ⟨hn1, hsw⟩, rfl⟩⟩

/-- With one lane, jobs that are killed fail. -/
theorem C97_single (hn1 : n = 1) (hk : k ≠ 0) {r : Except Int (Gr N V L)} (h : Dedups o g addr hn k r) : r = .error Build.intKil := by
  obtain ⟨y, -, -, h⟩ := h
  split_ifs at h
  · exact absurd h.1 hk
  · obtain ⟨z, -, -, -, ⟨-, -, h⟩ | ⟨h | ⟨h, -⟩, -⟩⟩ := h
    · exact h
    · exact absurd h hk
    · omega

/-! ## C98 -/

/-- **C98.** Whenever the task ends, also with errors, each edge that there was at first is attached to exactly one vertex or is among those to be
freed or already freed, once. -/
theorem C98_conserved (ho : o.Lawful) (hw : g.WF) {y : State n (Pkt N L) (Job n N L)}
    (hy : Net.Reach (task o g addr hn) ⟨g.base, none⟩ (start g) y) :
    (g.nodes.flatMap y.g.mem.out ++ y.g.mem.cut ++ y.g.mem.freed).Perm (g.nodes.flatMap (edges g)) ∧
    (g.nodes.flatMap (edges g)).Nodup := by
  have h := conserved ho hw _ (reach_bag hn hy)
  have key : ∀ f : N → List (Edge N L), ∑ m ∈ g.nodes.toFinset, (f m : Multiset (Edge N L)) = (g.nodes.flatMap f : Multiset (Edge N L)) := by
    intro f
    rw [List.sum_toFinset _ hw.nodup]
    induction g.nodes with
    | nil => rfl
    | cons m ms ih => rw [List.map_cons, List.sum_cons, ih, List.flatMap_cons, ← Multiset.coe_add]
  rw [key, key, Multiset.coe_add, Multiset.coe_add, Multiset.coe_eq_coe] at h
  refine ⟨h, List.nodup_flatMap.2 ⟨fun m _ => ?_, hw.nodup.imp fun {a b} hab => ?_⟩⟩
  · have : ((edges g m).map Edge.pos).Nodup := by
      unfold edges
      rw [List.map_map]
      have : (Edge.pos ∘ fun e : (L × N) × Nat => (⟨m, e.2, e.1.1, e.1.2⟩ : Edge N L)) = Prod.snd := rfl
      rw [this, List.zipIdx_map_snd]
      exact List.nodup_range'
    exact this.of_map
  · intro e h1 h2
    exact hab ((mem_edges h1).1.symm.trans (mem_edges h2).1)

/-! ## Non-vacuity -/

/-- Numbers are equal if they're equal by halves. -/
def halves : Orders Nat Bool := ⟨fun a b => (a / 2 == b / 2, 0), fun a => a / 2, fun a b => a == b⟩

theorem halves_lawful : halves.Lawful :=
  ⟨⟨fun a => by simp [halves], fun a b h => by simp [halves] at h ⊢; omega, fun a b c h h' => by simp [halves] at h h' ⊢; omega⟩,
    fun a b h => by simp [halves] at h ⊢; omega, ⟨fun a => by simp [halves], fun a b h => by simp [halves] at h ⊢; exact h.symm,
    fun a b c h h' => by simp [halves] at h h' ⊢; exact h.trans h'⟩⟩

instance (o : Orders V L) (a b : V) : Decidable (o.Same a b) := inferInstanceAs (Decidable (_ = true))

/-- Nodes 1 and 2 have equal vertices; `out` gives their edges. -/
def net (out₀ out₂ : List (Bool × Nat)) : Gr Nat Nat Bool where
  nodes := List.range 4
  base := 0
  vertex m := m + 1
  out m := match m with
    | 0 => out₀
    | 1 => [(true, 3)]
    | 2 => out₂
    | _ => [(true, 0)]
  inn _ := []

/-- A regular graph. -/
def fork := net [(true, 1), (false, 2), (true, 1)] [(false, 3), (true, 3)]

theorem fork_wf : fork.WF := wf_range (k := 4) rfl rfl (by decide) (by decide) (by decide)

theorem fork_regular : Regular halves fork := ⟨by decide, by decide⟩

/-- It's deduplicated as it should be by any number of workers, with either of the nodes 1 and 2 left. -/
example (hn : 0 < n) : ∃ R, Dedups halves fork id hn 0 (.ok R) ∧ Fuses halves fork R ∧ Complete halves fork R ∧ R.nodes.length = 3 ∧
    (1 ∈ R.nodes ↔ 2 ∉ R.nodes) ∧ (∃ e ∈ R.out 0, e.1 = true) ∧ ∃ e ∈ R.out 0, e.1 = false := by
  obtain ⟨r, hr⟩ := C30_exists (addr := id) halves_lawful fork_wf hn
  obtain ⟨R, rfl, hF, hC⟩ := C30_correct halves_lawful Function.injective_id fork_wf fork_regular (fun _ _ _ _ => rfl) hr
  have hsub : ∀ m ∈ R.nodes, m < 4 := fun m hm => List.mem_range.1 (hF.nodes m hm)
  have h0 : 0 ∈ R.nodes := by
    have := (hF.reach.mem R.base).2 .refl
    rwa [hF.base] at this
  have h3 : 3 ∈ R.nodes := by
    obtain ⟨c, hc, hs⟩ := hC.nodes 3 (by decide)
    have := hsub c hc
    have : c = 3 := by simp [Orders.Same, halves, fork, net] at hs; omega
    exact this ▸ hc
  have h12 : 1 ∈ R.nodes ∨ 2 ∈ R.nodes := by
    obtain ⟨c, hc, hs⟩ := hC.nodes 1 (by decide)
    have := hsub c hc
    have : c = 1 ∨ c = 2 := by simp [Orders.Same, halves, fork, net] at hs; omega
    rcases this with rfl | rfl
    · exact .inl hc
    · exact .inr hc
  have hne : ¬ (1 ∈ R.nodes ∧ 2 ∈ R.nodes) := by
    rintro ⟨h1, h2⟩
    haveI : Std.Symm fun a b : Nat => ¬ halves.Same (fork.vertex a) (fork.vertex b) := ⟨fun x y h h' => h (halves_lawful.vertex.symm _ _ h')⟩
    exact hF.unique.forall h1 h2 (by decide) (by decide)
  have hlen : R.nodes.Perm (if 1 ∈ R.nodes then [0, 1, 3] else [0, 2, 3]) := by
    refine (List.perm_ext_iff_of_nodup hF.reach.nodup (by split_ifs <;> decide)).2 fun m => ⟨fun hm => ?_, fun hm => ?_⟩
    · have := hsub m hm
      split_ifs with h1
      · have : m ≠ 2 := by rintro rfl; exact hne ⟨h1, hm⟩
        simp; omega
      · have : m ≠ 1 := by rintro rfl; exact h1 hm
        simp; omega
    · split_ifs at hm with h1
      · simp only [List.mem_cons, List.not_mem_nil, or_false] at hm
        rcases hm with rfl | rfl | rfl <;> assumption
      · have h2 := h12.resolve_left h1
        simp only [List.mem_cons, List.not_mem_nil, or_false] at hm
        rcases hm with rfl | rfl | rfl <;> assumption
  refine ⟨R, hr, hF, hC, ?_, ?_, ?_, ?_⟩
  · rw [hlen.length_eq]; split_ifs <;> rfl
  · tauto
  · obtain ⟨e, he, h1, -⟩ := hC.edges 0 (by decide) (true, 1) (by decide) 0 h0 (by decide)
    exact ⟨e, he, by simpa [halves] using h1⟩
  · obtain ⟨e, he, h1, -⟩ := hC.edges 0 (by decide) (false, 2) (by decide) 0 h0 (by decide)
    exact ⟨e, he, by simpa [halves] using h1⟩

/-- Errors of the predicate are possible outcomes. -/
example (hn : 0 < n) : ∃ e, e ≠ 0 ∧ Dedups { halves with equal := fun a b => (a / 2 == b / 2, 7) } fork id hn 0 (.error e) := by
  have ho : Orders.Lawful { halves with equal := fun a b => (a / 2 == b / 2, 7) } := ⟨halves_lawful.vertex, halves_lawful.hash, halves_lawful.label⟩
  obtain ⟨r, hr⟩ := C30_exists (addr := id) ho fork_wf hn
  rcases r with e | R
  · rcases C30_error ho fork_wf hr with ⟨-, h, -⟩ | ⟨h, -⟩
    · exact ⟨e, h, hr⟩
    · exact absurd rfl h
  · obtain ⟨c, -, d, -, h1, -, -, h2 | h2⟩ := C30_error_reported (a := 1) (b := 2) ho Function.injective_id fork_wf hr (by decide) (by decide) (by decide) (by decide)
    · exact absurd (Nat.succ_injective h2) h1
    · cases h2

/-- The vertices 1 and 2 have edges with equal labels to different vertices. -/
def clash := net [(true, 1), (false, 2)] [(true, 0)]

theorem clash_wf : clash.WF := wf_range (k := 4) rfl rfl (by decide) (by decide) (by decide)

/-- One of them is lost. -/
example (hn : 0 < n) : ∃ R, Dedups halves clash id hn 0 (.ok R) ∧ ¬ Complete halves clash R := by
  obtain ⟨r, hr⟩ := C30_exists (addr := id) halves_lawful clash_wf hn
  rcases r with e | R
  · rcases C30_error halves_lawful clash_wf hr with ⟨-, h, a, -, b, -, h'⟩ | ⟨h, -⟩
    · exact absurd h'.symm h
    · exact absurd rfl h
  · refine ⟨R, hr, fun hc => ?_⟩
    rcases C96_lossy (a := 1) (a' := 2) (b := 2) (e := (true, 3)) (f := (true, 0)) halves_lawful Function.injective_id clash_wf (by decide) (by decide)
      (by decide) (by decide) (by decide) (by decide) (by decide) (by decide) (by decide) (by decide) hr with ⟨m, hm, h⟩ | ⟨m, hm, f, hf, c, hc', hs, h⟩
    · obtain ⟨c, hc, hs⟩ := hc.nodes m hm
      exact h c hc hs
    · obtain ⟨e, he, h'⟩ := hc.edges m hm f hf c hc' hs
      exact h e he h'

/-- The base vertex has edges with equal labels to vertices that are equal. -/
def double := net [(true, 1), (true, 2)] [(true, 3)]

theorem double_wf : double.WF := wf_range (k := 4) rfl rfl (by decide) (by decide) (by decide)

/-- It has the same edge twice. -/
example (hn : 0 < n) : ∃ R, Dedups halves double id hn 0 (.ok R) ∧ ∃ c, [(true, c), (true, c)].Sublist (R.out 0) := by
  obtain ⟨r, hr⟩ := C30_exists (addr := id) halves_lawful double_wf hn
  rcases r with e | R
  · rcases C30_error halves_lawful double_wf hr with ⟨-, h, a, -, b, -, h'⟩ | ⟨h, -⟩
    · exact absurd h'.symm h
    · exact absurd rfl h
  · have hF := C30_fused halves_lawful double_wf hr
    have h0 := (hF.reach.mem R.base).2 .refl
    rw [hF.base] at h0
    obtain ⟨x, y, c, h, h1, h2⟩ := C96_redundant (a := 0) (e := (true, 1)) (f := (true, 2)) halves_lawful Function.injective_id double_wf (by decide) (by decide)
      (by decide) (by decide) (by decide) (by decide) hr h0
    have h1 : x = true := by simpa [halves] using h1
    have h2 : y = true := by simpa [halves] using h2
    subst h1 h2
    exact ⟨R, hr, c, h⟩

/-- Ordinary equality. -/
def plain : Orders Nat Bool := ⟨fun a b => (a == b, 0), id, fun a b => a == b⟩

theorem plain_lawful : plain.Lawful :=
  ⟨⟨fun a => by simp [plain], fun a b h => by simp [plain] at h ⊢; exact h.symm, fun a b c h h' => by simp [plain] at h h' ⊢; exact h.trans h'⟩,
    fun a b h => by simp [plain] at h ⊢; exact h, ⟨fun a => by simp [plain], fun a b h => by simp [plain] at h ⊢; exact h.symm,
    fun a b c h h' => by simp [plain] at h h' ⊢; exact h.trans h'⟩⟩

/-- With any number of lanes more than one, a kill request can leave an edge to a vertex that's been freed. -/
example (hn : 0 < n) (hn1 : 1 < n) : ∃ R k, k ≠ 0 ∧ Dedups plain (Filter.star (31 * n + 1)) id hn k (.ok R) ∧ ∃ c ∈ R.nodes, ∃ e ∈ R.out c, e.2 ∉ R.nodes := by
  obtain ⟨R, k, h0, h1, -, h2⟩ := C97_dangling (g := Filter.star (31 * n + 1)) (hn := hn) (ms := (Filter.star (31 * n + 1)).nodes) plain_lawful Function.injective_id (Filter.star_wf _)
    ⟨fun a _ ⟨a', _, h, h'⟩ => by simp [Orders.Same, plain, Filter.star] at h'; exact absurd h' h, fun a _ _ e _ f _ _ h => by
      simpa [Orders.Same, plain, Filter.star] using h⟩ (fun _ _ _ _ => rfl) hn1 (fun m h => h)
    (List.Pairwise.imp (fun h h' => h (by simpa [Orders.Same, plain, Filter.star] using h')) (Filter.star_wf _).nodup) (by simp [Filter.star])
  exact ⟨R, k, h0, h1, h2⟩

end Cru.Dedup
