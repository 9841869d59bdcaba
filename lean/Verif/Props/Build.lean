import Verif.Proofs.BuildTerm

/-!
# C06–C13, C56: `cru_built`

`Returns b hn v₀ r`: some interleaving of the calling thread, the `n` workers and `cru_kill` requests makes
`cru_built` return `r`.  `Ends b hn v₀ g`: the same, with `g` the record of callbacks and destructor calls.
-/

set_option linter.unusedVariables false

namespace Cru.Build

open Cru.Net

variable {n : Nat} {V L : Type} {b : Builder V L} {hn : 0 < n} {v₀ : V}

/-! ### Demonstration builders -/

/-- Integers modulo 4 as vertices, represented redundantly: `v` has edges labelled 0 to `v+1` and, as another
copy of the same vertex, to `v+5`, and an edge labelled 1 to `2v`. -/
def demoB : Builder Nat Nat where
  vEq v w := v % 4 == w % 4
  vHash v := v % 4
  eEq l m := l == m
  eHash l := l
  sub := false
  connect _ v := (0, [(0, v + 1), (1, 2 * v), (0, v + 5)])

theorem demoB_sane : demoB.Sane := by
  refine ⟨⟨?_, ?_, ?_⟩, ?_, ⟨?_, ?_, ?_⟩, ?_⟩ <;> simp +contextual [demoB, HashRespects]

theorem demoB_respects : demoB.Respects := by
  intro inc inc' v v' _ h2 x hx
  simp only [demoB, beq_iff_eq, List.mem_cons, List.not_mem_nil, or_false] at h2 hx ⊢
  rcases hx with rfl | rfl | rfl
  · exact ⟨(0, v' + 1), .inl rfl, rfl, by simp; omega⟩
  · exact ⟨(1, 2 * v'), .inr (.inl rfl), rfl, by simp; omega⟩
  · exact ⟨(0, v' + 5), .inr (.inr rfl), rfl, by simp; omega⟩

theorem demoB_finite (inc : Incident Nat) (v : Nat) (h : Reaches demoB 0 inc v) :
    ∃ r ∈ [(Incident.whole, 0), (.whole, 1), (.whole, 2), (.whole, 3)], callEq demoB (inc, v) r = true := by
  have hi : inc = .whole := by cases h <;> simp [Builder.first, Builder.along, demoB]
  subst hi
  have : v % 4 = 0 ∨ v % 4 = 1 ∨ v % 4 = 2 ∨ v % 4 = 3 := by omega
  simp [callEq, demoB, Builder.incEq]
  omega

/-! ### C56: building terminates -/

theorem limit_eq (n : Nat) (h : b.limit n ≠ 0) : b.limit n = max 1 (b.vertexLimit / n) := by
  unfold Builder.limit at h ⊢
  generalize b.vertexLimit / n = q at h ⊢
  rcases q with _ | q
  · rw [if_neg (by simp)] at h ⊢
    split at h
    · rename_i h'; rw [if_pos h']; simp
    · exact absurd rfl h
  · rw [if_pos (by omega)]; omega

theorem limit_ne_zero (n : Nat) (h : b.vertexLimit ≠ 0) : b.limit n ≠ 0 := by
  unfold Builder.limit
  split
  · assumption
  · simp [h]

/-- **C56.** If finitely many vertices are reachable up to equality (with finitely many incident labels, for a
subconnector), no schedule of the threads is infinite, and the call can always complete, without interference
even with no kill request. -/
theorem C56_finite_builds_terminate (hn : 0 < n) (hb : b.Sane) (hr : b.Respects) (reps : List (Incident L × V))
    (hf : ∀ inc v, Reaches b v₀ inc v → ∃ r ∈ reps, b.incEq inc r.1 = true ∧ b.vEq v r.2 = true) :
    (∀ f : Nat → State n (Packet n V L) (Job n V L), Net.Reach (task b hn) (firstPacket b v₀) (start v₀) (f 0) →
      ¬ ∀ k, step (task b hn) (firstPacket b v₀) .main (f k) = some (f (k + 1)) ∨
        ∃ i, step (task b hn) (firstPacket b v₀) (.worker i) (f k) = some (f (k + 1))) ∧
    ∃ g, Ends b hn v₀ g ∧ g.asked = false := by
  have ha := acc_of_finite (hn := hn) hb hr reps (fun inc v h => by
    obtain ⟨r, h1, h2⟩ := hf inc v h; exact ⟨r, h1, callEq_iff.2 h2⟩)
  refine ⟨fun f h0 hs => no_infinite_run hn ha f h0 hs, ?_⟩
  obtain ⟨s, h1, h2, h3⟩ := exists_done_inv hn ha (fun g => g.asked = false) rfl (fun i g p hg => handle_asked b i g p hg)
  exact ⟨s.g, ⟨s, h1, h2, rfl⟩, h3⟩

/-- **C56.** With a connector and a vertex limit, building terminates even if infinitely many vertices are
reachable. -/
theorem C56_limited_builds_terminate (hn : 0 < n) (hb : b.Sane) (hsub : b.sub = false) (hl : b.vertexLimit ≠ 0) :
    (∀ f : Nat → State n (Packet n V L) (Job n V L), Net.Reach (task b hn) (firstPacket b v₀) (start v₀) (f 0) →
      ¬ ∀ k, step (task b hn) (firstPacket b v₀) .main (f k) = some (f (k + 1)) ∨
        ∃ i, step (task b hn) (firstPacket b v₀) (.worker i) (f k) = some (f (k + 1))) ∧
    ∃ g, Ends b hn v₀ g ∧ g.asked = false := by
  have ha := acc_of_limit (hn := hn) (v₀ := v₀) hb hsub (limit_ne_zero n hl)
  refine ⟨fun f h0 hs => no_infinite_run hn ha f h0 hs, ?_⟩
  obtain ⟨s, h1, h2, h3⟩ := exists_done_inv hn ha (fun g => g.asked = false) rfl (fun i g p hg => handle_asked b i g p hg)
  exact ⟨s.g, ⟨s, h1, h2, rfl⟩, h3⟩

/-- Non-vacuity: the demonstration builder ends on 3 lanes. -/
theorem demoB_ends (hn : 0 < n) : ∃ g, Ends demoB hn 0 g ∧ g.asked = false :=
  (C56_finite_builds_terminate hn demoB_sane demoB_respects
    [(.whole, 0), (.whole, 1), (.whole, 2), (.whole, 3)] (fun inc v h => by
      obtain ⟨r, h1, h2⟩ := demoB_finite inc v h; exact ⟨r, h1, callEq_iff.1 h2⟩)).2

/-- An endless chain `v → v+1`, limited to 5 vertices. -/
def chainB : Builder Nat Nat where
  vEq v w := v == w
  vHash v := v
  eEq l m := l == m
  eHash l := l
  sub := false
  connect _ v := (0, [(0, v + 1)])
  vertexLimit := 5

theorem chainB_sane : chainB.Sane := by
  refine ⟨⟨?_, ?_, ?_⟩, ?_, ⟨?_, ?_, ?_⟩, ?_⟩ <;> simp +contextual [chainB, HashRespects]

theorem chainB_respects : chainB.Respects := by
  intro inc inc' v v' _ h2 x hx
  simp only [chainB, beq_iff_eq, List.mem_cons, List.not_mem_nil, or_false] at h2 hx ⊢
  subst hx h2
  exact ⟨_, rfl, rfl, rfl⟩

theorem chainB_ends (hn : 0 < n) : ∃ g, Ends chainB hn 0 g ∧ g.asked = false :=
  (C56_limited_builds_terminate hn chainB_sane rfl (by decide)).2

/-! ### C12: errors -/

/-- **C12.** If `cru_built` returns an error, the code is non-zero, and it is a code returned by some invocation of
the callback, or the vertex limit code with a limit set, or the kill code after a kill request. -/
theorem C12_error_has_a_cause (hb : b.Sane) {g : Job n V L} (h : Ends b hn v₀ g) {e : Int}
    (hr : result b hn v₀ g = .error e) :
    e ≠ 0 ∧ ((∃ c ∈ allCalls g, (b.connect c.1 c.2).1 = e) ∨ (e = intOvf ∧ b.vertexLimit ≠ 0) ∨
      (e = intKil ∧ g.asked = true)) := by
  have hx := ends_breach h
  unfold result at hr
  split at hr
  · rename_i hs
    cases hr
    refine ⟨hs, ?_⟩
    obtain ⟨i, hi⟩ := status_some hs
    rw [hi] at hs ⊢
    rcases (cinv_reach hb _ hx i).cause hs with ⟨c, h1, h2⟩ | ⟨h1, h2, _⟩
    · exact .inl ⟨c, mem_allCalls.2 ⟨i, h1⟩, h2⟩
    · refine .inr (.inl ⟨h1, ?_⟩)
      intro h3
      apply h2
      simp [Builder.limit, h3]
  · rename_i hs
    have hs : ∀ i, g.err i = 0 := status_zero.1 (by simpa using hs)
    split at hr
    · rename_i hk
      cases hr
      refine ⟨by decide, .inr (.inr ⟨rfl, ?_⟩)⟩
      rcases (kinv_reach _ hx).2.1 hk with h1 | ⟨i, h1⟩
      · exact h1
      · exact absurd (hs i) h1
    · cases hr

/-- **C12.** If any invocation of the callback returned a non-zero code, `cru_built` fails; it also fails if
killed. -/
theorem C12_callback_error_fails (hb : b.Sane) {g : Job n V L} (h : Ends b hn v₀ g)
    (hc : (∃ c ∈ allCalls g, (b.connect c.1 c.2).1 ≠ 0) ∨ g.asked = true) : ∃ e, result b hn v₀ g = .error e := by
  have hx := ends_breach h
  cases hr : result b hn v₀ g with
  | error e => exact ⟨e, rfl⟩
  | ok G =>
    obtain ⟨h1, h2, _⟩ := result_ok hr
    rcases hc with ⟨c, h3, h4⟩ | h3
    · obtain ⟨i, h5⟩ := mem_allCalls.1 h3
      exact absurd (h1 i) (by rw [(cinv_reach hb _ hx i).failed c h5 h4]; exact h4)
    · exact absurd h2 ((kinv_reach _ hx).2.2 h3)

/-- **C12.** Without callback errors, vertex limit and kill requests, `cru_built` succeeds. -/
theorem C12_no_error_succeeds (hb : b.Sane) {g : Job n V L} (h : Ends b hn v₀ g)
    (hc : ∀ c ∈ allCalls g, (b.connect c.1 c.2).1 = 0) (hl : b.vertexLimit = 0) (ha : g.asked = false) :
    ∃ G, result b hn v₀ g = .ok G := by
  cases hr : result b hn v₀ g with
  | ok G => exact ⟨G, rfl⟩
  | error e =>
    obtain ⟨h1, ⟨c, h2, h3⟩ | ⟨_, h2⟩ | ⟨_, h2⟩⟩ := C12_error_has_a_cause hb h hr
    · exact absurd (h3 ▸ hc c h2) h1
    · exact absurd hl h2
    · rw [ha] at h2; cases h2

/-- Non-vacuity: the demonstration builder succeeds, on any number of lanes. -/
theorem demoB_returns (hn : 0 < n) : ∃ G, Returns demoB hn 0 (.ok G) := by
  obtain ⟨g, h1, h2⟩ := demoB_ends hn
  obtain ⟨G, hG⟩ := C12_no_error_succeeds demoB_sane h1 (fun _ _ => rfl) rfl h2
  exact ⟨G, g, h1, hG⟩

/-! ### C06: vertices -/

/-- **C06.** The vertices of a built graph are the reachable ones, one of each class, starting with the initial one. -/
theorem C06_vertices (hb : b.Sane) (hr : b.Respects) {G : Graph n V L} (h : Returns b hn v₀ (.ok G)) :
    VerticesOf b v₀ G := by
  obtain ⟨g, hg, hres⟩ := h
  have hs := success_of hb hg hres
  obtain ⟨_, _, rfl⟩ := result_ok hres
  refine ⟨?_, ?_, ?_, ?_⟩
  · obtain ⟨nd, h1, h2, _⟩ := hs.first hb
    exact ⟨_, graph_at.2 ⟨nd, h1, rfl⟩, h2⟩
  · intro t x hx
    obtain ⟨nd, h1, rfl⟩ := graph_at.1 hx
    have hnd := List.mem_of_getElem? h1
    have hne : nd.seen ≠ [] := seen_ne_nil hb _ (ends_breach hg) _ nd hnd
    obtain ⟨inc, hi⟩ := List.exists_mem_of_ne_nil _ hne
    obtain ⟨inc', v', h2, _, h3⟩ := sound_reach hb hr _ (ends_breach hg) _ nd hnd inc hi
    exact ⟨inc', v', h2, h3⟩
  · intro inc v hv
    obtain ⟨t, nd, h1, h2, _⟩ := hs.settled hb hr hv
    exact ⟨t, _, graph_at.2 ⟨nd, h1, rfl⟩, h2⟩
  · intro t x t' x' hx hx' he
    obtain ⟨nd, h1, rfl⟩ := graph_at.1 hx
    obtain ⟨nd', h2, rfl⟩ := graph_at.1 hx'
    exact hs.inv.same hb h1 h2 he

/-- **C06 (connectors).** With a connector, every vertex of the graph is literally a reachable one: the initial
vertex or one that the connector created, called with such a vertex. -/
theorem C06_connector_vertices (hb : b.Sane) (hsub : b.sub = false) {G : Graph n V L} (h : Returns b hn v₀ (.ok G))
    {t : NodeId n} {nd : GNode n V L} (ht : G.at t = some nd) : Reaches b v₀ .whole nd.vertex := by
  obtain ⟨g, hg, hres⟩ := h
  obtain ⟨_, _, rfl⟩ := result_ok hres
  obtain ⟨nd, h1, rfl⟩ := graph_at.1 ht
  exact (sound_connector hb hsub _ (ends_breach hg) _ nd (List.mem_of_getElem? h1)).1

/-- Non-vacuity: a graph built by `demoB` on 3 lanes exists and has a node for the vertex 3. -/
example : ∃ G : Graph 3 Nat Nat, VerticesOf demoB 0 G ∧ ∃ t nd, G.at t = some nd ∧ nd.vertex % 4 = 3 := by
  obtain ⟨G, hG⟩ := demoB_returns (n := 3) (by decide)
  have h := C06_vertices demoB_sane demoB_respects hG
  refine ⟨G, h, ?_⟩
  have h1 : Reaches demoB 0 .whole 3 :=
    .step (l := 0) (.step (l := 0) (.step (l := 0) .base (w := 1) (by decide)) (w := 2) (by decide)) (by decide)
  obtain ⟨t, nd, h2, h3⟩ := h.complete _ _ h1
  exact ⟨t, nd, h2, by have : 3 % 4 = nd.vertex % 4 := by simpa only [demoB, beq_iff_eq] using h3
                       omega⟩

/-! ### C07: edges -/

/-- **C07.** The edges of a built graph are those the callback asked for, once each. -/
theorem C07_edges (hb : b.Sane) (hr : b.Respects) {G : Graph n V L} (h : Returns b hn v₀ (.ok G)) :
    EdgesOf b v₀ G := by
  obtain ⟨g, hg, hres⟩ := h
  have hs := success_of hb hg hres
  have hx := ends_breach hg
  obtain ⟨_, _, rfl⟩ := result_ok hres
  refine ⟨?_, ?_, ?_⟩
  · intro t x l d hx' he
    obtain ⟨nd, h1, rfl⟩ := graph_at.1 hx'
    obtain ⟨j, w, h2, h3⟩ := finish_sound hb he
    have hnd := List.mem_of_getElem? h1
    obtain ⟨t', h4, nd', h5, h6, _⟩ := hs.linked (e := (t.1, t.2, j)) (x := (l, w)) ⟨nd, h1, h2⟩
    have hmem := List.mem_of_getElem? h2
    rw [hs.edges hnd, List.mem_flatMap] at hmem
    obtain ⟨inc, h7, h8⟩ := hmem
    obtain ⟨inc', v', h9, h10, h11⟩ := sound_reach hb hr _ hx _ nd hnd inc h7
    obtain ⟨y, h12, h13, h14⟩ := hr inc inc' nd.vertex v' ((incEq_equality hb).symm _ _ h10) (hb.v.symm _ _ h11) _ (mem_uniq hb h8)
    refine ⟨t', _, v', y.1, y.2, by rw [← h3, h4], graph_at.2 ⟨nd', h5, rfl⟩, ⟨inc', h9, h12⟩, h11, hb.e.symm _ _ h13, ?_⟩
    exact hb.v.trans _ _ _ (hb.v.symm _ _ h14) h6
  · rintro v l w t x ⟨inc, h1, h2⟩ hx' he
    obtain ⟨nd, h3, rfl⟩ := graph_at.1 hx'
    obtain ⟨t₁, h4⟩ := hs.settled hb hr h1
    obtain ⟨nd₁, j, y, h5, h6, h7, h8, h9⟩ := hs.edge hb hr h4 h2
    have : t₁ = t := hs.inv.same hb h5 h3 (hb.v.trans _ _ _ (hb.v.symm _ _ h6) he)
    subst this
    rw [h3] at h5; cases h5
    obtain ⟨l', h10, h11⟩ := finish_complete (g := g) (i := t₁.1) (k := t₁.2) hb h7
    obtain ⟨t', h12, nd', h13, h14, _⟩ := hs.linked (e := (t₁.1, t₁.2, j)) (x := y) ⟨nd, h3, h7⟩
    rw [h12] at h10
    exact ⟨l', t', _, h10, hb.e.trans _ _ _ h8 h11, graph_at.2 ⟨nd', h13, rfl⟩, hb.v.trans _ _ _ h9 h14⟩
  · intro t x hx'
    obtain ⟨nd, h1, rfl⟩ := graph_at.1 hx'
    exact finish_distinct hb hs h1 (fun hsub => (sound_connector hb hsub _ hx _ nd (List.mem_of_getElem? h1)).2)

/-- **C07 (connectors).** With a connector, the edges of a node are exactly the pairs of label and vertex that the
connector made when called with the node's vertex, duplicates removed, and each leads to the node whose vertex
equals the requested terminus.  No assumption on how the connector treats equal vertices is needed. -/
theorem C07_connector_edges (hb : b.Sane) (hsub : b.sub = false) {G : Graph n V L} (h : Returns b hn v₀ (.ok G))
    {t : NodeId n} {nd : GNode n V L} (ht : G.at t = some nd) :
    (∀ l d, (l, d) ∈ nd.edges → ∃ w t' nd', (l, w) ∈ (b.connect .whole nd.vertex).2 ∧ d = some t' ∧
      G.at t' = some nd' ∧ b.vEq w nd'.vertex = true) ∧
    (∀ l w, (l, w) ∈ (b.connect .whole nd.vertex).2 → ∃ l' t' nd', (l', some t') ∈ nd.edges ∧ b.eEq l l' = true ∧
      G.at t' = some nd' ∧ b.vEq w nd'.vertex = true) ∧
    nd.edges.Pairwise fun x y => ¬ (b.eEq x.1 y.1 = true ∧ x.2 = y.2) := by
  obtain ⟨g, hg, hres⟩ := h
  have hs := success_of hb hg hres
  have hx := ends_breach hg
  obtain ⟨_, _, rfl⟩ := result_ok hres
  obtain ⟨nd, h1, rfl⟩ := graph_at.1 ht
  have hnd := List.mem_of_getElem? h1
  have hw := (sound_connector hb hsub _ hx _ nd hnd).2
  have hseen : nd.seen = [.whole] := by
    rcases hs.inv.single hsub hnd hw with h | h
    · exact absurd h (seen_ne_nil hb _ hx _ nd hnd)
    · exact h
  have hedges : nd.edges = b.uniq (b.connect .whole nd.vertex).2 := by rw [hs.edges hnd, hseen]; simp
  refine ⟨?_, ?_, finish_distinct hb hs h1 (fun _ => hw)⟩
  · intro l d he
    obtain ⟨j, w, h2, h3⟩ := finish_sound hb he
    obtain ⟨t', h4, nd', h5, h6, _⟩ := hs.linked (e := (t.1, t.2, j)) (x := (l, w)) ⟨nd, h1, h2⟩
    have := List.mem_of_getElem? h2
    rw [hedges] at this
    exact ⟨w, t', _, mem_uniq hb this, by rw [← h3, h4], graph_at.2 ⟨nd', h5, rfl⟩, h6⟩
  · intro l w he
    obtain ⟨o, h2, h3, h4⟩ := (uniq_transversal hb _).covers _ he
    rw [show (finishNode b g t.1 t.2 nd).vertex = nd.vertex from rfl, ← hedges] at h2
    obtain ⟨j, h5⟩ := List.mem_iff_getElem?.1 h2
    obtain ⟨l', h6, h7⟩ := finish_complete (g := g) (i := t.1) (k := t.2) hb h5
    obtain ⟨t', h8, nd', h9, h10, _⟩ := hs.linked (e := (t.1, t.2, j)) (x := o) ⟨nd, h1, h5⟩
    rw [h8] at h6
    exact ⟨l', t', _, h6, hb.e.trans _ _ _ (hb.e.symm _ _ h3) h7, graph_at.2 ⟨nd', h9, rfl⟩,
      hb.v.trans _ _ _ (hb.v.symm _ _ h4) h10⟩

/-- Non-vacuity: in a graph built by `demoB` on 2 lanes, the initial node has an edge labelled 1 to itself. -/
example : ∃ (G : Graph 2 Nat Nat) (nd : _) (l : Nat), G.at G.base = some nd ∧ (l, some G.base) ∈ nd.edges ∧ l = 1 := by
  obtain ⟨G, hG⟩ := demoB_returns (n := 2) (by decide)
  have hv := C06_vertices demoB_sane demoB_respects hG
  obtain ⟨nd, h1, h2⟩ := hv.base
  obtain ⟨l, t', nd', h3, h4, h5, h6⟩ := (C07_connector_edges demoB_sane rfl hG h1).2.1 1 0 (by rw [h2]; decide)
  refine ⟨G, nd, l, h1, ?_, by have : 1 = l := by simpa only [demoB, beq_iff_eq] using h4
                               omega⟩
  rwa [hv.distinct _ _ _ _ h1 h5 (by rw [h2]; exact h6)]

/-! ### C08: independence from lanes and schedules -/

theorem length_le_of_cover {α β : Type} {R : α → α → Prop} {S : α → β → Prop} {l : List α} {l' : List β}
    (hl : l.Pairwise fun x y => ¬ R x y) (hc : ∀ x ∈ l, ∃ y ∈ l', S x y)
    (hS : ∀ x x' y, S x y → S x' y → R x x') : l.length ≤ l'.length := by
  have h : ∀ i : Fin l.length, ∃ j : Fin l'.length, S l[i] l'[j] := by
    intro i
    obtain ⟨y, h1, h2⟩ := hc l[i] (List.getElem_mem _)
    obtain ⟨j, hj, rfl⟩ := List.mem_iff_getElem.1 h1
    exact ⟨⟨j, hj⟩, h2⟩
  choose f hf using h
  have hinj : Function.Injective f := by
    intro i i' he
    rw [List.pairwise_iff_getElem] at hl
    rcases Nat.lt_trichotomy i.val i'.val with h1 | h1 | h1
    · exact absurd (hS _ _ _ (hf i) (he ▸ hf i')) (hl i i' i.isLt i'.isLt h1)
    · exact Fin.ext h1
    · exact absurd (hS _ _ _ (hf i') (he ▸ hf i)) (hl i' i i'.isLt i.isLt h1)
  have := Fintype.card_le_of_injective f hinj
  simpa using this

/-- Any two graphs with the right vertices and edges correspond. -/
theorem correspond_of_spec (hb : b.Sane) {m : Nat} {G : Graph n V L} {H : Graph m V L}
    (hG : VerticesOf b v₀ G) (gG : EdgesOf b v₀ G) (hH : VerticesOf b v₀ H) (gH : EdgesOf b v₀ H) :
    ∃ f, Correspond b G H f := by
  classical
  have tot : ∀ {n m : Nat} {G : Graph n V L} {H : Graph m V L} (hG : VerticesOf b v₀ G) (hH : VerticesOf b v₀ H) (t nd),
      G.at t = some nd → ∃ t' nd', H.at t' = some nd' ∧ b.vEq nd.vertex nd'.vertex = true := by
    intro n m G H hG hH t nd ht
    obtain ⟨inc, v, h1, h2⟩ := hG.sound t nd ht
    obtain ⟨t', nd', h3, h4⟩ := hH.complete _ _ h1
    exact ⟨t', nd', h3, hb.v.trans _ _ _ (hb.v.symm _ _ h2) h4⟩
  have ex : ∀ t : NodeId n, ∃ t' : NodeId m, ∀ nd, G.at t = some nd → ∃ nd', H.at t' = some nd' ∧ b.vEq nd.vertex nd'.vertex = true := by
    intro t
    cases ht : G.at t with
    | none => exact ⟨H.base, by simp⟩
    | some nd =>
      obtain ⟨t', nd', h1, h2⟩ := tot hG hH t nd ht
      exact ⟨t', fun nd₁ h => by cases h; exact ⟨nd', h1, h2⟩⟩
  choose f hf using ex
  -- edges of equal nodes match
  have fwd : ∀ {n m : Nat} {G : Graph n V L} {H : Graph m V L} (gG : EdgesOf b v₀ G) (gH : EdgesOf b v₀ H)
      {t nd t' nd'}, G.at t = some nd → H.at t' = some nd' → b.vEq nd.vertex nd'.vertex = true →
      ∀ l u, (l, some u) ∈ nd.edges → ∃ l' u' x x', (l', some u') ∈ nd'.edges ∧ b.eEq l l' = true ∧ G.at u = some x ∧
        H.at u' = some x' ∧ b.vEq x.vertex x'.vertex = true := by
    intro n m G H gG gH t nd t' nd' ht ht' he l u hu
    obtain ⟨u₁, x, v, l₁, w, h1, h2, h3, h4, h5, h6⟩ := gG.sound t nd l (some u) ht hu
    cases h1
    obtain ⟨l', u', x', h7, h8, h9, h10⟩ := gH.complete v l₁ w t' nd' h3 ht' (hb.v.trans _ _ _ h4 he)
    exact ⟨l', u', x, x', h7, hb.e.trans _ _ _ (hb.e.symm _ _ h5) h8, h2, h9, hb.v.trans _ _ _ (hb.v.symm _ _ h6) h10⟩
  have len : ∀ {n m : Nat} {G : Graph n V L} {H : Graph m V L} (hG : VerticesOf b v₀ G) (gG : EdgesOf b v₀ G) (gH : EdgesOf b v₀ H)
      {t nd t' nd'}, G.at t = some nd → H.at t' = some nd' → b.vEq nd.vertex nd'.vertex = true →
      nd.edges.length ≤ nd'.edges.length := by
    intro n m G H hG gG gH t nd t' nd' ht ht' he
    refine length_le_of_cover (R := fun x y => b.eEq x.1 y.1 = true ∧ x.2 = y.2)
      (S := fun x y => b.eEq x.1 y.1 = true ∧ ∃ u u' z z', x.2 = some u ∧ y.2 = some u' ∧ G.at u = some z ∧ H.at u' = some z' ∧
        b.vEq z.vertex z'.vertex = true) (gG.distinct t nd ht) ?_ ?_
    · rintro ⟨l, d⟩ hx
      obtain ⟨u, _, _, _, _, rfl, _⟩ := gG.sound t nd l d ht hx
      obtain ⟨l', u', x, x', h1, h2, h3, h4, h5⟩ := fwd gG gH ht ht' he l u hx
      exact ⟨_, h1, h2, u, u', x, x', rfl, rfl, h3, h4, h5⟩
    · rintro ⟨l, d⟩ ⟨l₁, d₁⟩ ⟨l₂, d₂⟩ ⟨h1, u, u', z, z', rfl, rfl, h2, h3, h4⟩ ⟨h5, u₁, u₁', z₁, z₁', rfl, h6, h7, h8, h9⟩
      cases h6
      rw [h3] at h8; cases h8
      refine ⟨hb.e.trans _ _ _ h1 (hb.e.symm _ _ h5), ?_⟩
      rw [hG.distinct u z u₁ z₁ h2 h7 (hb.v.trans _ _ _ h4 (hb.v.symm _ _ h9))]
  refine ⟨f, ?_, ?_, ?_, ?_⟩
  · obtain ⟨nd, h1, h2⟩ := hG.base
    obtain ⟨nd', h3, h4⟩ := hf _ nd h1
    obtain ⟨nd₁, h5, h6⟩ := hH.base
    exact hH.distinct _ nd' _ nd₁ h3 h5 (by rw [h6, ← h2]; exact hb.v.symm _ _ h4)
  · intro t nd ht
    obtain ⟨nd', h1, h2⟩ := hf t nd ht
    refine ⟨nd', h1, h2, Nat.le_antisymm (len hG gG gH ht h1 h2) (len hH gH gG h1 ht (hb.v.symm _ _ h2)), ?_, ?_⟩
    · intro l u hu
      obtain ⟨l', u', x, x', h3, h4, h5, h6, h7⟩ := fwd gG gH ht h1 h2 l u hu
      obtain ⟨x₁, h8, h9⟩ := hf u x h5
      have : f u = u' := hH.distinct _ _ _ _ h8 h6 (hb.v.trans _ _ _ (hb.v.symm _ _ h9) h7)
      rw [this]
      exact ⟨l', h3, h4⟩
    · intro l' u' hu
      obtain ⟨l, u, x', x, h3, h4, h5, h6, h7⟩ := fwd gH gG h1 ht (hb.v.symm _ _ h2) l' u' hu
      obtain ⟨x₁, h8, h9⟩ := hf u x h6
      exact ⟨l, u, h3, hH.distinct _ _ _ _ h8 h5 (hb.v.symm _ _ (hb.v.trans _ _ _ h7 h9)), hb.e.symm _ _ h4⟩
  · intro t nd t' nd' h1 h2 he
    obtain ⟨x, h3, h4⟩ := hf t nd h1
    obtain ⟨x', h5, h6⟩ := hf t' nd' h2
    rw [he, h5] at h3; cases h3
    exact hG.distinct _ _ _ _ h1 h2 (hb.v.trans _ _ _ h4 (hb.v.symm _ _ h6))
  · intro u nd' hu
    obtain ⟨t, nd, h1, h2⟩ := tot hH hG u nd' hu
    obtain ⟨x, h3, h4⟩ := hf t nd h1
    exact ⟨t, nd, h1, hH.distinct _ _ _ _ h3 hu (hb.v.symm _ _ (hb.v.trans _ _ _ h2 h4))⟩

/-- **C08.** Any two successful builds correspond, whatever the schedules, numbers of lanes, and table
implementations. -/
theorem C08_same_graph (hb : b.Sane) (hr : b.Respects) {m : Nat} {hm : 0 < m} (j : Bool) (k : Nat) {G : Graph n V L}
    {H : Graph m V L} (hG : Returns b hn v₀ (.ok G)) (hH : Returns { b with judy := j, vertexLimit := k } hm v₀ (.ok H)) :
    ∃ f, Correspond b G H f := by
  have hb' : Builder.Sane { b with judy := j, vertexLimit := k } := ⟨hb.v, hb.vh, hb.e, hb.eh⟩
  have hr' : Builder.Respects { b with judy := j, vertexLimit := k } := respects_congr hr
  have h1 := C06_vertices hb' hr' hH
  have h2 := C07_edges hb' hr' hH
  have e1 : ∀ inc v, Reaches { b with judy := j, vertexLimit := k } v₀ inc v ↔ Reaches b v₀ inc v := fun _ _ => reaches_congr
  refine correspond_of_spec hb (C06_vertices hb hr hG) (C07_edges hb hr hG) ?_ ?_
  · exact ⟨h1.base, fun t nd h => by simpa only [e1] using h1.sound t nd h, fun inc v h => h1.complete inc v ((e1 _ _).2 h), h1.distinct⟩
  · refine ⟨fun t nd l d h h' => ?_, fun v l w t nd h => h2.complete v l w t nd ?_, h2.distinct⟩
    · have := h2.sound t nd l d h h'
      simpa only [Wants, e1] using this
    · simpa only [Wants, e1] using h

/-- Non-vacuity: builds of `demoB` on 1 lane and on 5 lanes without Judy arrays. -/
example : ∃ (G : Graph 1 Nat Nat) (H : Graph 5 Nat Nat) (f : _), Correspond demoB G H f := by
  obtain ⟨G, hG⟩ := demoB_returns (n := 1) (by decide)
  have : ∃ H, Returns { demoB with judy := false, vertexLimit := 0 } (show 0 < 5 by decide) 0 (.ok H) := by
    have hb' : Builder.Sane { demoB with judy := false, vertexLimit := 0 } :=
      ⟨demoB_sane.v, demoB_sane.vh, demoB_sane.e, demoB_sane.eh⟩
    obtain ⟨g, h1, h2⟩ := (C56_finite_builds_terminate (v₀ := 0) (show 0 < 5 by decide) hb' (respects_congr demoB_respects)
      [(.whole, 0), (.whole, 1), (.whole, 2), (.whole, 3)] (fun inc v h => by
        obtain ⟨r, h1, h2⟩ := demoB_finite inc v (reaches_congr.1 h); exact ⟨r, h1, callEq_iff.1 h2⟩)).2
    obtain ⟨H, hH⟩ := C12_no_error_succeeds hb' h1 (fun _ _ => rfl) rfl h2
    exact ⟨H, g, h1, hH⟩
  obtain ⟨H, hH⟩ := this
  exact ⟨G, H, C08_same_graph demoB_sane demoB_respects false 0 hG hH⟩

/-! ### C09: callbacks -/

theorem countP_le_one {α : Type} {p : α → Bool} {l : List α} {R : α → α → Prop} (h : l.Pairwise fun x y => ¬ R x y)
    (hp : ∀ x y, p x = true → p y = true → R x y) : l.countP p ≤ 1 := by
  induction l with
  | nil => simp
  | cons a l ih =>
    rw [List.pairwise_cons] at h
    by_cases ha : p a = true
    · rw [List.countP_cons_of_pos ha]
      have : l.countP p = 0 := by
        rw [List.countP_eq_zero]
        intro y hy hpy
        exact h.1 y hy (hp a y ha hpy)
      omega
    · rw [List.countP_cons_of_neg ha]; exact ih h.2

/-- **C09.** At every moment of every execution, successful or not, the callback has been called at most once for any
vertex (for a subconnector: any vertex and kind of incident edge), counting equal ones as the same. -/
theorem C09_called_at_most_once (hb : b.Sane) {s : State n (Packet n V L) (Job n V L)}
    (h : Net.Reach (task b hn) (firstPacket b v₀) (start v₀) s) (inc : Incident L) (v : V) :
    timesCalled b s.g inc v ≤ 1 := by
  have hx := reach_bag hn h
  refine countP_le_one (allCalls_distinct hb (cinv_reach hb _ hx)) ?_
  intro x y h1 h2
  have eq := callEq_equality hb
  exact eq.trans _ _ _ (eq.symm (inc, v) x h1) h2

/-- **C09.** In a successful build the callback has been called exactly once for every reachable vertex (for a
subconnector: with each kind of incident edge by which it is reachable) and for nothing else. -/
theorem C09_called_exactly_once (hb : b.Sane) (hr : b.Respects) {g : Job n V L} (h : Ends b hn v₀ g) {G : Graph n V L}
    (hG : result b hn v₀ g = .ok G) :
    (∀ inc v, Reaches b v₀ inc v → timesCalled b g inc v = 1) ∧
    ∀ c ∈ allCalls g, ∃ inc v, Reaches b v₀ inc v ∧ b.incEq inc c.1 = true ∧ b.vEq v c.2 = true := by
  have hs := success_of hb h hG
  have hx := ends_breach h
  refine ⟨?_, ?_⟩
  · intro inc v hv
    have h1 : timesCalled b g inc v ≤ 1 := by
      obtain ⟨s, h1, _, rfl⟩ := h
      exact C09_called_at_most_once hb h1 inc v
    have h2 : 0 < timesCalled b g inc v := by
      unfold timesCalled
      rw [List.countP_pos_iff]
      obtain ⟨t, nd, h3, h4, h5⟩ := hs.settled hb hr hv
      rw [List.any_eq_true] at h5
      obtain ⟨inc', h6, h7⟩ := h5
      exact ⟨(inc', nd.vertex), mem_allCalls.2 ⟨t.1, (hs.calls t.1).made nd (List.mem_of_getElem? h3) inc' h6⟩, by simp [h7, h4]⟩
    omega
  · intro c hc
    obtain ⟨i, hi⟩ := mem_allCalls.1 hc
    exact (hs.calls i).sound hr c hi

/-- Non-vacuity: `demoB` on 4 lanes calls the connector once for the class of 2. -/
example : ∃ g : Job 4 Nat Nat, Ends demoB (by decide) 0 g ∧ timesCalled demoB g .whole 2 = 1 := by
  obtain ⟨g, h1, h2⟩ := demoB_ends (n := 4) (by decide)
  obtain ⟨G, hG⟩ := C12_no_error_succeeds demoB_sane h1 (fun _ _ => rfl) rfl h2
  exact ⟨g, h1, (C09_called_exactly_once demoB_sane demoB_respects h1 hG).1 _ _
    (.step (l := 0) (.step (l := 0) .base (w := 1) (by decide)) (by decide))⟩

/-! ### C10: ownership -/

theorem sum_flatMap {A B : Type} (f : Fin n → List A) (F : A → List B) :
    ((((List.finRange n).flatMap f).flatMap F : List B) : Multiset B) = ∑ i, (((f i).flatMap F : List B) : Multiset B) := by
  rw [← List.sum_ofFn, List.ofFn_eq_map]
  generalize List.finRange n = l
  induction l with
  | nil => simp
  | cons a l ih => simp [← Multiset.coe_add, ih]

theorem created_eq {g : Job n V L} {m} (h : OInv b v₀ g m) : created b v₀ g = g.vNew := by
  rw [h.vn, created, allCalls, sum_flatMap, ← Multiset.singleton_add]
  rfl

theorem createdLabels_eq {g : Job n V L} {m} (h : OInv b v₀ g m) : createdLabels b g = g.lNew := by
  rw [h.ln, createdLabels, allCalls, sum_flatMap]
  rfl

theorem graph_vertices (g : Job n V L) (B) : Graph.vertices
    { base := B, nodes := fun i => (g.nodes i).zipIdx.map (fun x => finishNode b g i x.2 x.1) } = keptV g := by
  unfold Graph.vertices keptV
  refine Finset.sum_congr rfl ?_
  intro i _
  rw [List.map_map]
  have : (GNode.vertex ∘ fun x : Node V L × Nat => finishNode b g i x.2 x.1) = Node.vertex ∘ Prod.fst := rfl
  rw [this, ← List.map_map, List.zipIdx_map_fst]

theorem graph_labels (hsub : b.sub = false) (g : Job n V L) (B) : Graph.labels
    { base := B, nodes := fun i => (g.nodes i).zipIdx.map (fun x => finishNode b g i x.2 x.1) } = keptL g := by
  unfold Graph.labels keptL
  refine Finset.sum_congr rfl ?_
  intro i _
  congr 1
  rw [List.flatMap_map]
  have e : ∀ x : Node V L × Nat, (finishNode b g i x.2 x.1).edges.map Prod.fst = x.1.edges.map Prod.fst := by
    intro x
    simp only [finishNode, hsub, Bool.false_eq_true, if_false, List.map_map]
    have : (Prod.fst ∘ fun e : (L × V) × Nat => (e.1.1, g.link (i, x.2, e.2))) = Prod.fst ∘ Prod.fst := rfl
    rw [this, ← List.map_map, List.zipIdx_map_fst]
  simp only [e]
  rw [← List.flatMap_map (f := Prod.fst) (g := fun nd : Node V L => nd.edges.map Prod.fst), List.zipIdx_map_fst]

/-- **C10.** Every vertex handed over is, by the end of a successful build, either destroyed or in the graph, and never
both or twice; after an unsuccessful one all of them are destroyed, once each. -/
theorem C10_vertices_accounted_for (hb : b.Sane) {g : Job n V L} (h : Ends b hn v₀ g) :
    (∀ G, result b hn v₀ g = .ok G → created b v₀ g = finalVFree b hn v₀ g + G.vertices) ∧
    (∀ e, result b hn v₀ g = .error e → created b v₀ g = finalVFree b hn v₀ g) := by
  have ho := oinv_reach hb _ (ends_breach h)
  have h1 := ho.v
  simp only [Multiset.map_zero, add_zero] at h1
  refine ⟨?_, ?_⟩
  · intro G hG
    obtain ⟨_, _, rfl⟩ := result_ok hG
    rw [created_eq ho, h1, finalVFree, hG, graph_vertices]
  · intro e he
    rw [created_eq ho, h1, finalVFree, he]

/-- **C10 (labels).** With a connector, the same holds for edge labels. -/
theorem C10_labels_accounted_for (hb : b.Sane) (hsub : b.sub = false) {g : Job n V L} (h : Ends b hn v₀ g) :
    (∀ G, result b hn v₀ g = .ok G → createdLabels b g = finalLFree b hn v₀ g + G.labels) ∧
    (∀ e, result b hn v₀ g = .error e → createdLabels b g = finalLFree b hn v₀ g) := by
  have ho := oinv_reach hb _ (ends_breach h)
  have h1 := ho.l
  refine ⟨?_, ?_⟩
  · intro G hG
    obtain ⟨_, _, rfl⟩ := result_ok hG
    rw [createdLabels_eq ho, h1, finalLFree, hG, graph_labels hsub]
  · intro e he
    rw [createdLabels_eq ho, h1, finalLFree, he]

/-- Non-vacuity: both outcomes occur. -/
example : (∃ (g : Job 2 Nat Nat) (G : _), Ends demoB (by decide) 0 g ∧ result demoB (by decide) 0 g = .ok G) := by
  obtain ⟨g, h1, h2⟩ := demoB_ends (n := 2) (by decide)
  obtain ⟨G, hG⟩ := C12_no_error_succeeds demoB_sane h1 (fun _ _ => rfl) rfl h2
  exact ⟨g, G, h1, hG⟩

/-! ### C11: the vertex limit -/

/-- **C11.** In a successful build with a limit, no worker has more than its share of the limit (but at least one)
and altogether there are no more vertices than the limit, or the number of workers if that is more. -/
theorem C11_limit_respected (hb : b.Sane) (hl : b.vertexLimit ≠ 0) {G : Graph n V L} (h : Returns b hn v₀ (.ok G)) :
    (∀ i, (G.nodes i).length ≤ max 1 (b.vertexLimit / n)) ∧ ∑ i, (G.nodes i).length ≤ max n b.vertexLimit := by
  obtain ⟨g, hg, hres⟩ := h
  have hs := success_of hb hg hres
  obtain ⟨_, _, rfl⟩ := result_ok hres
  have hlim := limit_eq n (limit_ne_zero n hl)
  have h1 : ∀ i, (g.nodes i).length ≤ max 1 (b.vertexLimit / n) := fun i => by
    rw [← hlim]; exact ((hs.calls i).count (limit_ne_zero n hl)).2
  refine ⟨fun i => by simpa using h1 i, ?_⟩
  simp only [List.length_map, List.length_zipIdx]
  calc ∑ i, (g.nodes i).length ≤ ∑ _i : Fin n, max 1 (b.vertexLimit / n) := Finset.sum_le_sum fun i _ => h1 i
    _ = n * max 1 (b.vertexLimit / n) := by simp
    _ ≤ max n b.vertexLimit := by
      have := Nat.mul_div_le b.vertexLimit n
      rcases Nat.le_total 1 (b.vertexLimit / n) with h | h
      · rw [Nat.max_eq_right h]; omega
      · rw [Nat.max_eq_left h]; omega

theorem overflow_atLeast (hb : b.Sane) (hr : b.Respects) {g : Job n V L} {m} (hx : BReach b hn v₀ (g, m)) {i : Fin n}
    (h : Overflow b hn v₀ g i) : AtLeast b (b.limit n + 1) fun v => lane hn (b.vHash v) = i ∧ ∃ inc, Reaches b v₀ inc v := by
  obtain ⟨h1, h2, p, h3, h4, h5⟩ := h
  have hi := binv_reach hb _ hx
  have rep : ∀ v, (∃ inc, RU b v₀ inc v) → ∃ w, b.vEq w v = true ∧ ∃ inc, Reaches b v₀ inc w := by
    rintro v ⟨inc, inc', v', a1, a2, a3⟩
    exact ⟨v', a3, inc', a1⟩
  have hnode : ∀ nd ∈ g.nodes i, ∃ inc, RU b v₀ inc nd.vertex := by
    intro nd hnd
    obtain ⟨inc, hi⟩ := List.exists_mem_of_ne_nil _ (seen_ne_nil hb _ hx i nd hnd)
    exact ⟨inc, sound_reach hb hr _ hx i nd hnd inc hi⟩
  classical
  let φ : V → V := fun v => if h : ∃ w, b.vEq w v = true ∧ ∃ inc, Reaches b v₀ inc w then h.choose else v
  have hφ : ∀ v, (∃ inc, RU b v₀ inc v) → b.vEq (φ v) v = true ∧ ∃ inc, Reaches b v₀ inc (φ v) := by
    intro v hv
    have := rep v hv
    simp only [φ, dif_pos this]
    exact this.choose_spec
  have hp : ∃ inc, RU b v₀ inc p.payload := ⟨_, h5 hr⟩
  refine ⟨φ p.payload :: (g.nodes i).map (fun nd => φ nd.vertex), by simp [h2], ?_, ?_⟩
  · rw [List.pairwise_cons]
    refine ⟨?_, ?_⟩
    · intro w hw
      rw [List.mem_map] at hw
      obtain ⟨nd, hnd, rfl⟩ := hw
      intro he
      refine h4 nd hnd ?_
      exact hb.v.trans _ _ _ (hb.v.symm _ _ (hφ _ hp).1) (hb.v.trans _ _ _ he (hφ _ (hnode nd hnd)).1)
    · rw [List.pairwise_map]
      refine (hi.dist i).imp_of_mem ?_
      intro x y hx hy hne he
      refine hne ?_
      exact hb.v.trans _ _ _ (hb.v.symm _ _ (hφ _ (hnode x hx)).1) (hb.v.trans _ _ _ he (hφ _ (hnode y hy)).1)
  · intro v hv
    rw [List.mem_cons, List.mem_map] at hv
    rcases hv with rfl | ⟨nd, hnd, rfl⟩
    · exact ⟨by rw [hb.vh _ _ (hφ _ hp).1]; exact h3, (hφ _ hp).2⟩
    · exact ⟨by rw [hb.vh _ _ (hφ _ (hnode nd hnd)).1]; exact hi.lanes i nd hnd, (hφ _ (hnode nd hnd)).2⟩

/-- **C11.** The overflow code is returned only if the callback returned it, or more different reachable vertices were
assigned to some worker by their hashes than its share of the limit. -/
theorem C11_overflow_only_if_exceeded (hb : b.Sane) (hr : b.Respects) {g : Job n V L} (h : Ends b hn v₀ g)
    (he : result b hn v₀ g = .error intOvf) (hc : ∀ inc v, (b.connect inc v).1 ≠ intOvf) :
    ∃ i : Fin n, AtLeast b (max 1 (b.vertexLimit / n) + 1) fun v => lane hn (b.vHash v) = i ∧ ∃ inc, Reaches b v₀ inc v := by
  have hx := ends_breach h
  unfold result at he
  split at he
  · rename_i hs
    obtain ⟨i, hi⟩ := status_some hs
    injection he with he
    rw [hi] at hs he
    rcases (cinv_reach hb _ hx i).cause hs with ⟨c, h1, h2⟩ | ⟨_, h2⟩
    · exact absurd (h2.trans he) (hc _ _)
    · refine ⟨i, ?_⟩
      have hlim := limit_eq n h2.1
      rw [← hlim]
      exact overflow_atLeast hb hr hx h2
  · split at he
    · injection he with he; exact absurd he (by decide)
    · cases he

/-- **C11 (one lane).** With one lane, a limit, and no callback errors or kill requests, the build fails with the overflow
code if more than the limit are reachable and succeeds otherwise. -/
theorem C11_exact_with_one_lane (hb : b.Sane) (hr : b.Respects) {g : Job 1 V L} {h1 : 0 < 1} (h : Ends b h1 v₀ g)
    (hl : b.vertexLimit ≠ 0) (hc : ∀ inc v, (b.connect inc v).1 = 0) (ha : g.asked = false) :
    (AtLeast b (b.vertexLimit + 1) (fun v => ∃ inc, Reaches b v₀ inc v) → result b h1 v₀ g = .error intOvf) ∧
    (¬ AtLeast b (b.vertexLimit + 1) (fun v => ∃ inc, Reaches b v₀ inc v) → ∃ G, result b h1 v₀ g = .ok G) := by
  refine ⟨?_, ?_⟩
  · rintro ⟨vs, h2, h3, h4⟩
    cases hres : result b h1 v₀ g with
    | ok G =>
      exfalso
      have hv := C06_vertices hb hr ⟨g, h, hres⟩
      have hle := (C11_limit_respected hb hl ⟨g, h, hres⟩).1 0
      have : vs.length ≤ (G.nodes 0).length := by
        refine length_le_of_cover (R := fun v w => b.vEq v w = true) (S := fun v nd => b.vEq v nd.vertex = true) h3 ?_ ?_
        · intro v hv'
          obtain ⟨inc, h5⟩ := h4 v hv'
          obtain ⟨⟨i, k⟩, nd, h6, h7⟩ := hv.complete inc v h5
          have : i = 0 := Subsingleton.elim _ _
          subst this
          exact ⟨nd, List.mem_of_getElem? h6, h7⟩
        · intro x y nd h5 h6
          exact hb.v.trans _ _ _ h5 (hb.v.symm _ _ h6)
      rw [Nat.div_one] at hle
      omega
    | error e =>
      obtain ⟨h5, ⟨c, _, h6⟩ | ⟨rfl, _⟩ | ⟨_, h6⟩⟩ := C12_error_has_a_cause hb h hres
      · exact absurd (h6 ▸ hc _ _) h5
      · rfl
      · rw [ha] at h6; cases h6
  · intro hno
    cases hres : result b h1 v₀ g with
    | ok G => exact ⟨G, rfl⟩
    | error e =>
      exfalso
      obtain ⟨h5, ⟨c, _, h6⟩ | ⟨rfl, _⟩ | ⟨_, h6⟩⟩ := C12_error_has_a_cause hb h hres
      · exact absurd (h6 ▸ hc _ _) h5
      · obtain ⟨i, vs, h6, h7, h8⟩ := C11_overflow_only_if_exceeded hb hr h hres (fun inc v => by rw [hc]; decide)
        refine hno ⟨vs, ?_, h7, fun v hv => (h8 v hv).2⟩
        rw [h6, Nat.div_one]; omega
      · rw [ha] at h6; cases h6

/-- Non-vacuity: the endless chain, limited to 5 vertices, overflows. -/
example : ∃ g : Job 1 Nat Nat, Ends chainB (by decide) 0 g ∧ result chainB (by decide) 0 g = .error intOvf := by
  obtain ⟨g, h1, h2⟩ := chainB_ends (n := 1) (by decide)
  refine ⟨g, h1, (C11_exact_with_one_lane chainB_sane chainB_respects h1 (by decide) (fun _ _ => rfl) h2).1 ?_⟩
  have r1 : Reaches chainB 0 .whole 1 := .step (l := 0) .base (by decide)
  have r2 : Reaches chainB 0 .whole 2 := .step (l := 0) r1 (by decide)
  have r3 : Reaches chainB 0 .whole 3 := .step (l := 0) r2 (by decide)
  have r4 : Reaches chainB 0 .whole 4 := .step (l := 0) r3 (by decide)
  have r5 : Reaches chainB 0 .whole 5 := .step (l := 0) r4 (by decide)
  refine ⟨[0, 1, 2, 3, 4, 5], rfl, by decide, ?_⟩
  simp only [List.mem_cons, List.not_mem_nil, or_false]
  rintro v (rfl | rfl | rfl | rfl | rfl | rfl)
  exacts [⟨_, .base⟩, ⟨_, r1⟩, ⟨_, r2⟩, ⟨_, r3⟩, ⟨_, r4⟩, ⟨_, r5⟩]

/-! ### C13: subconnectors -/

/-- **C13.** In a successful build with a subconnector: it was called exactly once for the initial vertex with the
initial flag, exactly once for each vertex and each distinct label among the edges of the graph leading to it, and
never otherwise. -/
theorem C13_subconnector_calls (hb : b.Sane) (hr : b.Respects) (hsub : b.sub = true) {g : Job n V L} (h : Ends b hn v₀ g)
    {G : Graph n V L} (hG : result b hn v₀ g = .ok G) :
    timesCalled b g .initial v₀ = 1 ∧
    (∀ t nd l t' nd', G.at t = some nd → (l, some t') ∈ nd.edges → G.at t' = some nd' →
      timesCalled b g (.via l) nd'.vertex = 1) ∧
    (∀ c ∈ allCalls g, (c.1 = .initial ∧ b.vEq v₀ c.2 = true) ∨
      ∃ l m t nd t' nd', c.1 = .via l ∧ G.at t = some nd ∧ (m, some t') ∈ nd.edges ∧ b.eEq m l = true ∧
        G.at t' = some nd' ∧ b.vEq nd'.vertex c.2 = true) := by
  have h1 := C09_called_exactly_once hb hr h hG
  have hv := C06_vertices hb hr ⟨g, h, hG⟩
  have he := C07_edges hb hr ⟨g, h, hG⟩
  have efirst : b.first = .initial := by simp [Builder.first, hsub]
  have ealong : ∀ l, b.along l = .via l := by simp [Builder.along, hsub]
  have eq := callEq_equality hb
  have congr : ∀ inc inc' v v', b.incEq inc inc' = true → b.vEq v v' = true → timesCalled b g inc v = timesCalled b g inc' v' := by
    intro inc inc' v v' a1 a2
    unfold timesCalled
    apply List.countP_congr
    intro c _
    exact ⟨fun h => eq.trans (inc', v') (inc, v) c (eq.symm _ _ (callEq_iff.2 ⟨a1, a2⟩)) h,
      fun h => eq.trans (inc, v) (inc', v') c (callEq_iff.2 ⟨a1, a2⟩) h⟩
  refine ⟨?_, ?_, ?_⟩
  · rw [← efirst]; exact h1.1 _ _ .base
  · intro t nd l t' nd' ht hl ht'
    obtain ⟨t₁, nd₁, v, l', w, a1, a2, ⟨inc, a3, a4⟩, _, a5, a6⟩ := he.sound t nd l _ ht hl
    cases a1
    rw [ht'] at a2; cases a2
    rw [← congr (.via l') (.via l) w nd'.vertex a5 a6, ← ealong]
    exact h1.1 _ _ (.step a3 a4)
  · intro c hc
    obtain ⟨inc, v, a1, a2, a3⟩ := h1.2 c hc
    cases a1 with
    | base =>
      left
      rw [efirst] at a2
      refine ⟨?_, a3⟩
      cases hc1 : c.1 <;> simp_all [Builder.incEq]
    | step b1 b2 =>
      rename_i inc₁ v₁ l₁
      right
      rw [ealong] at a2
      obtain ⟨t, nd, b3, b4⟩ := hv.complete _ _ b1
      obtain ⟨l', t', nd', b5, b6, b7, b8⟩ := he.complete v₁ l₁ v t nd ⟨inc₁, b1, b2⟩ b3 b4
      cases hc1 : c.1 with
      | whole => rw [hc1] at a2; simp [Builder.incEq] at a2
      | initial => rw [hc1] at a2; simp [Builder.incEq] at a2
      | via l =>
        rw [hc1] at a2
        exact ⟨l, l', t, nd, t', nd', rfl, b3, b5, hb.e.trans _ _ _ (hb.e.symm _ _ b6) a2, b7,
          hb.v.trans _ _ _ (hb.v.symm _ _ b8) a3⟩

/-- **C13.** In a successful build with a subconnector, the edges leaving a vertex are the union, without duplicates,
of those made by the calls for that vertex (C07 holds for subconnectors as it stands). -/
theorem C13_edges_are_the_union (hb : b.Sane) (hr : b.Respects) {g : Job n V L} (h : Ends b hn v₀ g)
    {G : Graph n V L} (hG : result b hn v₀ g = .ok G) {t : NodeId n} {nd : GNode n V L} (ht : G.at t = some nd) :
    (∀ l t', (l, some t') ∈ nd.edges → ∃ c ∈ allCalls g, b.vEq nd.vertex c.2 = true ∧
      ∃ x ∈ (b.connect c.1 c.2).2, b.eEq x.1 l = true ∧ ∃ nd', G.at t' = some nd' ∧ b.vEq x.2 nd'.vertex = true) ∧
    (∀ c ∈ allCalls g, b.vEq nd.vertex c.2 = true → ∀ x ∈ (b.connect c.1 c.2).2,
      ∃ l t' nd', (l, some t') ∈ nd.edges ∧ b.eEq x.1 l = true ∧ G.at t' = some nd' ∧ b.vEq x.2 nd'.vertex = true) ∧
    nd.edges.Pairwise fun x y => ¬ (b.eEq x.1 y.1 = true ∧ x.2 = y.2) := by
  have h1 := C09_called_exactly_once hb hr h hG
  have he := C07_edges hb hr ⟨g, h, hG⟩
  refine ⟨?_, ?_, he.distinct t nd ht⟩
  · intro l t' hl
    obtain ⟨t₁, nd', v, l', w, a1, a2, ⟨inc, a3, a4⟩, a5, a6, a7⟩ := he.sound t nd l _ ht hl
    cases a1
    have hpos : 0 < timesCalled b g inc v := by rw [h1.1 _ _ a3]; decide
    unfold timesCalled at hpos
    rw [List.countP_pos_iff] at hpos
    obtain ⟨c, hc, hc'⟩ := hpos
    simp only [Bool.and_eq_true] at hc'
    obtain ⟨x, b1, b2, b3⟩ := hr _ _ _ _ hc'.1 hc'.2 _ a4
    exact ⟨c, hc, hb.v.trans _ _ _ (hb.v.symm _ _ a5) hc'.2, x, b1, hb.e.trans _ _ _ (hb.e.symm _ _ b2) a6, nd', a2,
      hb.v.trans _ _ _ (hb.v.symm _ _ b3) a7⟩
  · intro c hc hcv x hx
    obtain ⟨inc, v, a1, a2, a3⟩ := h1.2 c hc
    obtain ⟨y, b1, b2, b3⟩ := hr _ _ _ _ ((incEq_equality hb).symm _ _ a2) (hb.v.symm _ _ a3) _ hx
    obtain ⟨l, t', nd', c1, c2, c3, c4⟩ := he.complete v y.1 y.2 t nd ⟨inc, a1, b1⟩ ht
      (hb.v.trans _ _ _ a3 (hb.v.symm _ _ hcv))
    exact ⟨l, t', nd', c1, hb.e.trans _ _ _ b2 c2, c3, hb.v.trans _ _ _ b3 c4⟩

/-- A subconnector on the integers modulo 3: reached by an edge labelled `l`, vertex `v` asks for an edge labelled
`l+1` (modulo 2) to `v+1`; the initial call asks for an edge labelled 0. -/
def subB : Builder Nat Nat where
  vEq v w := v % 3 == w % 3
  vHash v := v % 3
  eEq l m := l % 2 == m % 2
  eHash l := l % 2
  sub := true
  connect inc v := (0, match inc with
    | .via l => [(l + 1, v + 1)]
    | _ => [(0, v + 1)])

theorem subB_sane : subB.Sane := by
  refine ⟨⟨?_, ?_, ?_⟩, ?_, ⟨?_, ?_, ?_⟩, ?_⟩ <;> simp +contextual [subB, HashRespects]

theorem subB_respects : subB.Respects := by
  intro inc inc' v v' h1 h2 x hx
  simp only [subB, beq_iff_eq] at h2
  cases inc <;> cases inc' <;> simp [Builder.incEq, subB] at h1 hx ⊢ <;> subst hx <;>
    first
    | exact ⟨_, _, ⟨rfl, rfl⟩, by simp; omega, by simp; omega⟩
    | simp; omega

/-- Non-vacuity: `subB` ends on 2 lanes, successfully, and its subconnector is called once for vertex 2 reached by an
edge with an odd label. -/
example : ∃ (g : Job 2 Nat Nat) (G : _), Ends subB (by decide) 0 g ∧ result subB (by decide) 0 g = .ok G ∧
    timesCalled subB g (.via 1) 2 = 1 := by
  have hf : ∀ inc v, Reaches subB 0 inc v → ∃ r ∈ ([.initial, .via 0, .via 1] : List (Incident Nat)).product [0, 1, 2],
      subB.incEq inc r.1 = true ∧ subB.vEq v r.2 = true := by
    intro inc v h
    have hv : ∃ w ∈ [0, 1, 2], subB.vEq v w = true := ⟨v % 3, by simp; omega, by simp [subB]⟩
    obtain ⟨w, h1, h2⟩ := hv
    cases h with
    | base => exact ⟨(.initial, w), List.mem_product.2 ⟨by simp, h1⟩, rfl, h2⟩
    | step _ _ =>
      rename_i l _ _
      refine ⟨(.via (l % 2), w), List.mem_product.2 ⟨?_, h1⟩, ?_, h2⟩
      · have : l % 2 = 0 ∨ l % 2 = 1 := by omega
        rcases this with h | h <;> simp [h]
      · simp [subB, Builder.along, Builder.incEq]
  obtain ⟨g, h1, h2⟩ := (C56_finite_builds_terminate (n := 2) (by decide) subB_sane subB_respects _ hf).2
  obtain ⟨G, hG⟩ := C12_no_error_succeeds subB_sane h1 (fun _ _ => rfl) rfl h2
  refine ⟨g, G, h1, hG, (C09_called_exactly_once subB_sane subB_respects h1 hG).1 _ _ ?_⟩
  exact .step (l := 1) (.step (l := 0) .base (w := 1) (by decide)) (by decide)

end Cru.Build
