import Verif.Spec.Built
import Verif.Props.Count

/-! # C14, C60: built graphs are well formed, and counting them counts the reachable vertices -/

namespace Cru.Build

variable {n : Nat} {V L : Type} {b : Builder V L} {hn : 0 < n} {v₀ : V}

theorem mem_toGr_nodes {G : Graph n V L} {t : NodeId n} : t ∈ G.toGr.nodes ↔ ∃ nd, G.at t = some nd := by
  obtain ⟨i, k⟩ := t
  simp only [Graph.toGr, List.mem_flatMap, List.mem_finRange, true_and, List.mem_map, List.mem_range, Prod.mk.injEq,
    Graph.at]
  constructor
  · rintro ⟨_, _, h, rfl, rfl⟩
    exact ⟨_, List.getElem?_eq_getElem h⟩
  · rintro ⟨nd, h⟩
    exact ⟨i, k, (List.getElem?_eq_some_iff.1 h).1, rfl, rfl⟩

/-- **C60.** A graph returned by `cru_built` is well formed: the list of nodes has exactly the nodes that can be reached by
its edges from the base node, each once. -/
theorem C60_built_wf (hb : b.Sane) (hr : b.Respects) {G : Graph n V L} (h : Returns b hn v₀ (.ok G)) : G.toGr.WF := by
  have hv := C06_vertices hb hr h
  have he := C07_edges hb hr h
  have hout : ∀ {t nd l d}, G.at t = some nd → (l, some d) ∈ nd.edges → d ∈ G.toGr.next false t := by
    intro t nd l d ht hd
    simp only [Gr.next, Graph.toGr, ht]
    simp only [Option.map_some, Option.getD_some, Bool.false_eq_true, if_false, List.mem_map, List.mem_filterMap]
    exact ⟨(l, d), ⟨(l, some d), hd, rfl⟩, rfl⟩
  have hbase : G.toGr.base = G.base := rfl
  refine ⟨?_, fun t => ⟨fun ht => ?_, fun ht => ?_⟩⟩
  · unfold Graph.toGr
    rw [List.nodup_flatMap]
    refine ⟨fun i _ => List.Nodup.map (fun a b h => by simpa using h) List.nodup_range, ?_⟩
    refine List.Pairwise.imp ?_ (List.nodup_finRange n)
    rintro i j hij x hx hy
    simp only [List.mem_map] at hx hy
    obtain ⟨_, _, rfl⟩ := hx
    obtain ⟨_, _, h⟩ := hy
    exact hij (by simpa using (congrArg Prod.fst h).symm)
  · obtain ⟨nd, hnd⟩ := mem_toGr_nodes.1 ht
    obtain ⟨inc, v, hreach, hveq⟩ := hv.sound t nd hnd
    have key : ∀ inc v, Reaches b v₀ inc v → ∀ t nd, G.at t = some nd → b.vEq v nd.vertex = true →
        Cru.Reaches (G.toGr.next false) G.base t := by
      intro inc v hreach
      induction hreach with
      | base =>
        intro t nd ht hveq
        obtain ⟨nd0, h1, h2⟩ := hv.base
        rw [hv.distinct _ _ _ _ ht h1 (by rw [h2]; exact hb.v.symm _ _ hveq)]
      | step hprev hmem ih =>
        rename_i inc v l w
        intro t nd ht hveq
        obtain ⟨s, sd, h1, h2⟩ := hv.complete _ _ hprev
        obtain ⟨l', t', nd', h3, -, h5, h6⟩ := he.complete v l w s sd ⟨_, hprev, hmem⟩ h1 h2
        have e := hv.distinct _ _ _ _ ht h5 (hb.v.trans _ _ _ (hb.v.symm _ _ hveq) h6)
        subst e
        exact (ih s sd h1 h2).tail (hout h1 h3)
    exact key inc v hreach t nd hnd hveq
  · rw [mem_toGr_nodes]
    induction ht with
    | refl => obtain ⟨nd, h1, -⟩ := hv.base; exact ⟨nd, h1⟩
    | tail _ hm ih =>
      obtain ⟨nd, hnd⟩ := ih
      simp only [Gr.next, Graph.toGr, hnd] at hm
      simp only [Option.map_some, Option.getD_some, Bool.false_eq_true, if_false, List.mem_map, List.mem_filterMap] at hm
      obtain ⟨⟨l, d⟩, ⟨⟨l', d'⟩, h1, h2⟩, rfl⟩ := hm
      obtain ⟨t', nd', v, l'', w, h3, h4, -⟩ := he.sound _ _ _ _ hnd h1
      subst h3
      simp only [Option.map_some, Option.some.injEq, Prod.mk.injEq] at h2
      rw [← h2.2]
      exact ⟨nd', h4⟩

/-- **C14.** `cru_vertex_count` of a built graph is the number of different vertices reachable by the user's edges, on any
lanes for building and for counting. -/
theorem C14_built (hb : b.Sane) (hr : b.Respects) {G : Graph n V L} (h : Returns b hn v₀ (.ok G)) {W c lanes : Nat}
    {hash : NodeId n → Nat} {failed : Prop} (hW : Count.vertexCount G.toGr < W)
    (hc : Count.Returns W .vertices G.toGr hash lanes c failed) :
    AtLeast b c (fun v => ∃ inc, Reaches b v₀ inc v) ∧ ¬ AtLeast b (c + 1) (fun v => ∃ inc, Reaches b v₀ inc v) := by
  have hv := C06_vertices hb hr h
  have hw := C60_built_wf hb hr h
  obtain ⟨rfl, -⟩ := Count.C14_count (k := .vertices) hw hW hc
  simp only [Count.rightCount, Count.vertexCount]
  refine ⟨?_, ?_⟩
  · have hx : ∀ t, ∃ v, t ∈ G.toGr.nodes → ∃ nd, G.at t = some nd ∧ (∃ inc, Reaches b v₀ inc v) ∧ b.vEq v nd.vertex = true := by
      intro t
      by_cases ht : t ∈ G.toGr.nodes
      · obtain ⟨nd, h1⟩ := mem_toGr_nodes.1 ht
        obtain ⟨inc, v, h2, h3⟩ := hv.sound t nd h1
        exact ⟨v, fun _ => ⟨nd, h1, ⟨inc, h2⟩, h3⟩⟩
      · exact ⟨v₀, fun h => absurd h ht⟩
    choose f hf using hx
    refine ⟨G.toGr.nodes.map f, by simp, ?_, ?_⟩
    · rw [List.pairwise_map]
      refine List.Pairwise.imp_of_mem ?_ hw.nodup
      intro t u ht hu hne he
      obtain ⟨nd, h1, -, h2⟩ := hf t ht
      obtain ⟨nd', h3, -, h4⟩ := hf u hu
      exact hne (hv.distinct _ _ _ _ h1 h3 (hb.v.trans _ _ _ (hb.v.trans _ _ _ (hb.v.symm _ _ h2) he) h4))
    · intro v hv
      obtain ⟨t, ht, rfl⟩ := List.mem_map.1 hv
      exact (hf t ht).choose_spec.2.1
  · rintro ⟨vs, h1, h2, h3⟩
    have := length_le_of_cover (S := fun v t => ∃ nd, G.at t = some nd ∧ b.vEq v nd.vertex = true) (l' := G.toGr.nodes) h2
      (fun v hm => by
        obtain ⟨inc, hr'⟩ := h3 v hm
        obtain ⟨t, nd, h4, h5⟩ := hv.complete inc v hr'
        exact ⟨t, mem_toGr_nodes.2 ⟨nd, h4⟩, nd, h4, h5⟩)
      (by
        rintro v v' t ⟨nd, h4, h5⟩ ⟨nd', h6, h7⟩
        rw [h4] at h6
        cases h6
        exact hb.v.trans _ _ _ h5 (hb.v.symm _ _ h7))
    omega

/-- Non-vacuity: `demoB` built on three lanes and counted on two has the four vertices 0 to 3. -/
example : ∃ (G : Graph 3 Nat Nat) (W : Nat) (f : Prop), Returns demoB (by decide) 0 (.ok G) ∧
    Count.Returns W .vertices G.toGr (fun t => t.2) 2 (Count.vertexCount G.toGr) f ∧ G.toGr.WF := by
  obtain ⟨G, hG⟩ := demoB_returns (n := 3) (by decide)
  have hw := C60_built_wf demoB_sane demoB_respects hG
  obtain ⟨c, f, h⟩ := (Count.C14_returns (W := Count.vertexCount G.toGr + 1) (k := .vertices) (hash := fun t => t.2) hw
    (show 0 < 2 by decide)).2
  exact ⟨G, _, f, hG, (Count.C14_count (k := .vertices) hw (Nat.lt_succ_self _) h).1 ▸ h, hw⟩

end Cru.Build
