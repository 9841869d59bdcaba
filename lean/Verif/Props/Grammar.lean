import Verif.Props.Build
import Verif.Spec.Built
import Verif.Spec.Words

/-! # C170: the words of built graphs -/

namespace Cru.Build

variable {n : Nat} {V L : Type} {b : Builder V L} {v₀ : V} {hn : 0 < n} {G : Graph n V L}

/-- The edges that the callback makes, which leads to the vertices they end at and to what it's told about their labels. -/
def conns (b : Builder V L) (s : Incident L × V) : List (L × Incident L × V) := (b.connect s.1 s.2).2.map fun x => (x.1, b.along x.1, x.2)

private theorem mem_out {t t' : NodeId n} {l : L} : (l, t') ∈ G.toGr.out t ↔ ∃ nd, G.at t = some nd ∧ (l, some t') ∈ nd.edges := by
  unfold Graph.toGr
  dsimp only
  cases h : G.at t with
  | none => simp
  | some nd =>
    simp only [Option.map_some, Option.getD_some, List.mem_filterMap, Option.map_eq_some_iff, Option.some.injEq, exists_eq_left']
    constructor
    · rintro ⟨⟨l', d⟩, h1, t'', rfl, h2⟩
      injection h2 with h2 h3
      subst h2 h3
      exact h1
    · exact fun h1 => ⟨_, h1, t', rfl, rfl⟩

private theorem vertex_eq {t : NodeId n} {v : V} : G.toGr.vertex t = some v ↔ ∃ nd, G.at t = some nd ∧ nd.vertex = v := Option.map_eq_some_iff

/-- **C170.** A sequence of labels of edges that the connector or subconnector makes, starting from the given vertex and going on from each terminus, is a word of the
graph, up to equality of labels, and ends at an equal vertex. -/
theorem C170_complete (hb : b.Sane) (hr : b.Respects) (h : Returns b hn v₀ (.ok G)) {w : List L} {s : Incident L × V} (hs : Spells (conns b) (b.first, v₀) w s) :
    ∃ w' t v, Alike b.eEq w w' ∧ Cru.Ends G.toGr w' t ∧ G.toGr.vertex t = some v ∧ b.vEq s.2 v = true := by
  have hE := C07_edges hb hr h
  have key : ∀ {r s : Incident L × V} {w : List L}, Spells (conns b) r w s → Reaches b v₀ r.1 r.2 → ∀ {t nd}, G.at t = some nd → b.vEq r.2 nd.vertex = true →
      ∃ w' t' v, Alike b.eEq w w' ∧ Spells G.toGr.out t w' t' ∧ G.toGr.vertex t' = some v ∧ b.vEq s.2 v = true := fun hs => by
    induction hs with
    | nil => exact fun _ {t nd} ht hv => ⟨[], t, nd.vertex, .nil, .nil _, vertex_eq.2 ⟨nd, ht, rfl⟩, hv⟩
    | cons he _ ih =>
      intro hre t nd ht hv
      obtain ⟨⟨l, x⟩, h1, h2⟩ := List.mem_map.1 he
      injection h2 with h2 h3
      subst h2 h3
      obtain ⟨l', t', nd', h4, h5, h6, h7⟩ := hE.complete _ l x t nd ⟨_, hre, h1⟩ ht hv
      obtain ⟨w', t'', v, h8, h9, h10⟩ := ih (.step hre h1) h6 h7
      exact ⟨l' :: w', t'', v, .cons h5 h8, .cons (mem_out.2 ⟨nd, ht, h4⟩) h9, h10⟩
  obtain ⟨nd, h1, h2⟩ := (C06_vertices hb hr h).base
  exact key hs .base h1 (by rw [h2]; exact hb.v.refl _)

/-- **C170.** With a connector, the graph has no other words. -/
theorem C170_sound (hb : b.Sane) (hr : b.Respects) (hsub : b.sub = false) (h : Returns b hn v₀ (.ok G)) {w : List L} {t : NodeId n} (hs : Cru.Ends G.toGr w t) :
    ∃ w' s v, Alike b.eEq w w' ∧ Spells (conns b) (b.first, v₀) w' s ∧ G.toGr.vertex t = some v ∧ b.vEq s.2 v = true := by
  have hf : b.first = .whole := by unfold Builder.first; rw [hsub]; rfl
  have hal : ∀ l, b.along l = .whole := fun l => by unfold Builder.along; rw [hsub]; rfl
  have key : ∀ {t t' : NodeId n} {w : List L}, Spells G.toGr.out t w t' → ∀ {nd}, G.at t = some nd → ∀ {u}, b.vEq u nd.vertex = true →
      ∃ w' s v, Alike b.eEq w w' ∧ Spells (conns b) (.whole, u) w' s ∧ G.toGr.vertex t' = some v ∧ b.vEq s.2 v = true := fun hs => by
    induction hs with
    | nil => exact fun {nd} ht {u} hv => ⟨[], (.whole, u), nd.vertex, .nil, .nil _, vertex_eq.2 ⟨nd, ht, rfl⟩, hv⟩
    | cons he _ ih =>
      intro nd ht u hv
      obtain ⟨nd', h1, h2⟩ := mem_out.1 he
      rw [ht] at h1
      cases h1
      obtain ⟨x, t', nd', h3, h4, h5, h6⟩ := (C07_connector_edges hb hsub h ht).1 _ _ h2
      cases h4
      obtain ⟨⟨l', x'⟩, h7, h8, h9⟩ := hr .whole .whole _ u rfl (hb.v.symm _ _ hv) _ h3
      obtain ⟨w', s, v, h10, h11, h12⟩ := ih h5 (hb.v.trans _ _ _ (hb.v.symm _ _ h9) h6)
      refine ⟨l' :: w', s, v, .cons h8 h10, .cons (b := (.whole, x')) ?_ h11, h12⟩
      exact List.mem_map.2 ⟨(l', x'), h7, by rw [hal]⟩
  obtain ⟨nd, h1, h2⟩ := (C06_vertices hb hr h).base
  rw [hf]
  exact key hs h1 (by rw [h2]; exact hb.v.refl _)

/-- There's a path from one vertex to another, up to equality, by way of edges that the callback makes, no matter what it's been told about the label by which it got there. -/
inductive Tour (b : Builder V L) (v₀ : V) : V → List L → V → Prop
  | nil {u v : V} : b.vEq u v = true → Tour b v₀ u [] v
  | cons {u u' x v : V} {l : L} {w : List L} : b.vEq u u' = true → Wants b v₀ u' l x → Tour b v₀ x w v → Tour b v₀ u (l :: w) v

/-- **C170.** With a subconnector, the words of the graph are those obtained by following any of the edges made for a vertex, no matter which label it was called with. -/
theorem C170_subconnector (hb : b.Sane) (hr : b.Respects) (h : Returns b hn v₀ (.ok G)) :
    (∀ w t, Cru.Ends G.toGr w t → ∃ w' v, Alike b.eEq w w' ∧ Tour b v₀ v₀ w' v ∧ G.toGr.vertex t = some v) ∧
    ∀ w v, Tour b v₀ v₀ w v → ∃ w' t v', Alike b.eEq w w' ∧ Cru.Ends G.toGr w' t ∧ G.toGr.vertex t = some v' ∧ b.vEq v v' = true := by
  have hE := C07_edges hb hr h
  obtain ⟨nd, hn1, hn2⟩ := (C06_vertices hb hr h).base
  have h0 : b.vEq v₀ nd.vertex = true := by rw [hn2]; exact hb.v.refl _
  refine ⟨fun w t hs => ?_, fun w v hs => ?_⟩
  · have key : ∀ {t t' : NodeId n} {w : List L}, Spells G.toGr.out t w t' → ∀ {nd}, G.at t = some nd → ∀ {u}, b.vEq u nd.vertex = true →
        ∃ w' v, Alike b.eEq w w' ∧ Tour b v₀ u w' v ∧ G.toGr.vertex t' = some v := fun hs => by
      induction hs with
      | nil => exact fun {nd} ht {u} hv => ⟨[], nd.vertex, .nil, .nil hv, vertex_eq.2 ⟨nd, ht, rfl⟩⟩
      | cons he _ ih =>
        intro nd ht u hv
        obtain ⟨nd', h1, h2⟩ := mem_out.1 he
        rw [ht] at h1
        cases h1
        obtain ⟨t', nd', v, l', x, h3, h4, h5, h6, h7, h8⟩ := hE.sound _ _ _ _ ht h2
        cases h3
        obtain ⟨w', v', h9, h10, h11⟩ := ih h4 h8
        exact ⟨l' :: w', v', .cons (hb.e.symm _ _ h7) h9, .cons (hb.v.trans _ _ _ hv (hb.v.symm _ _ h6)) h5 h10, h11⟩
    exact key hs hn1 h0
  · have key : ∀ {u v : V} {w : List L}, Tour b v₀ u w v → ∀ {t nd}, G.at t = some nd → b.vEq u nd.vertex = true →
        ∃ w' t' v', Alike b.eEq w w' ∧ Spells G.toGr.out t w' t' ∧ G.toGr.vertex t' = some v' ∧ b.vEq v v' = true := fun hs => by
      induction hs with
      | nil h1 => exact fun {t nd} ht hv => ⟨[], t, nd.vertex, .nil, .nil _, vertex_eq.2 ⟨nd, ht, rfl⟩, hb.v.trans _ _ _ (hb.v.symm _ _ h1) hv⟩
      | cons h1 h2 _ ih =>
        intro t nd ht hv
        obtain ⟨l', t', nd', h3, h4, h5, h6⟩ := hE.complete _ _ _ t nd h2 ht (hb.v.trans _ _ _ (hb.v.symm _ _ h1) hv)
        obtain ⟨w', t'', v', h7, h8, h9⟩ := ih h5 h6
        exact ⟨l' :: w', t'', v', .cons h4 h7, .cons (mem_out.2 ⟨nd, ht, h3⟩) h8, h9⟩
    exact key hs hn1 h0

/-- Non-vacuity of C170. -/
example : ∃ G : Graph 3 Nat Nat, (∃ t v, Cru.Ends G.toGr [0, 1, 0] t ∧ G.toGr.vertex t = some v ∧ v % 4 = 3) ∧ ¬ ∃ t, Cru.Ends G.toGr [0, 2] t := by
  have hl : ∀ {w w' : List Nat}, Alike demoB.eEq w w' → w = w' := fun {w w'} h => by
    unfold Alike at h
    induction h with
    | nil => rfl
    | cons h _ ih => rw [ih]; congr 1; simpa [demoB] using h
  obtain ⟨G, hG⟩ := demoB_returns (n := 3) (by decide)
  refine ⟨G, ?_, ?_⟩
  · obtain ⟨w', t, v, h1, h2, h3, h4⟩ := C170_complete (w := [0, 1, 0]) (s := (.whole, 3)) demoB_sane demoB_respects hG
      (.cons (b := (.whole, 1)) (by decide) (.cons (b := (.whole, 2)) (by decide) (.cons (b := (.whole, 3)) (by decide) (.nil _))))
    rw [← hl h1] at h2
    refine ⟨t, v, h2, h3, ?_⟩
    have : 3 % 4 = v % 4 := by simpa only [demoB, beq_iff_eq] using h4
    omega
  · rintro ⟨t, h⟩
    obtain ⟨w', s, v, h1, h2, -⟩ := C170_sound demoB_sane demoB_respects rfl hG h
    rw [← hl h1] at h2
    cases h2 with
    | cons h4 h5 =>
      cases h5 with
      | cons h6 h7 => simp [conns, demoB] at h6

theorem subB_returns : ∃ G : Graph 2 Nat Nat, Returns subB (show 0 < 2 by decide) 0 (.ok G) := by
  have hf : ∀ inc v, Reaches subB 0 inc v → ∃ r ∈ ([.initial, .via 0, .via 1] : List (Incident Nat)).product [0, 1, 2],
      subB.incEq inc r.1 = true ∧ subB.vEq v r.2 = true := by
    intro inc v h
    have hv : ∃ w ∈ [0, 1, 2], subB.vEq v w = true := ⟨v % 3, by simp; omega, by simp [subB]⟩
    obtain ⟨w, h1, h2⟩ := hv
    cases h with
    | base => exact ⟨(.initial, w), List.mem_product.2 ⟨by simp, h1⟩, rfl, h2⟩
    | step _ _ =>
      rename_i l _ _
      refine ⟨(.via (l % 2), w), List.mem_product.2 ⟨?_, h1⟩, ?_, h2⟩
      · have : l % 2 = 0 ∨ l % 2 = 1 := by omega
        rcases this with h | h <;> simp [h]
      · simp [subB, Builder.along, Builder.incEq]
  obtain ⟨g, h1, h2⟩ := (C56_finite_builds_terminate (n := 2) (by decide) subB_sane subB_respects _ hf).2
  obtain ⟨G, hG⟩ := C12_no_error_succeeds subB_sane h1 (fun _ _ => rfl) rfl h2
  exact ⟨G, g, h1, hG⟩

/-- **C170.** With a subconnector, there can be words other than those obtained by telling it each time about the label of the edge followed. -/
theorem C170_more : ∃ (G : Graph 2 Nat Nat) (w : List Nat), Returns subB (show 0 < 2 by decide) 0 (.ok G) ∧ (∃ t, Cru.Ends G.toGr w t) ∧
    ¬ ∃ w' s, Alike subB.eEq w w' ∧ Spells (conns subB) (subB.first, 0) w' s := by
  obtain ⟨G, hG⟩ := subB_returns
  have h1 : Reaches subB 0 (.via 3) 4 :=
    .step (l := 3) (.step (l := 2) (.step (l := 1) (.step (l := 0) .base (w := 1) (by decide)) (w := 2) (by decide)) (w := 3) (by decide)) (by decide)
  obtain ⟨w, t, v, h2, h3, -⟩ := (C170_subconnector subB_sane subB_respects hG).2 [0, 4] 5
    (.cons (u' := 0) (x := 1) (by decide) ⟨_, .base, by decide⟩ (.cons (u' := 4) (x := 5) (by decide) ⟨_, h1, by decide⟩ (.nil (by decide))))
  refine ⟨G, w, hG, ⟨t, h3⟩, ?_⟩
  rintro ⟨w', s, h4, h5⟩
  cases h2 with
  | cons a1 h2 =>
    cases h2 with
    | cons a2 h2 =>
      cases h2
      cases h4 with
      | cons a3 h4 =>
        cases h4 with
        | cons a4 h4 =>
          cases h4
          cases h5 with
          | cons a5 h5 =>
            cases h5 with
            | cons a6 h5 =>
              simp [conns, subB, Builder.first] at a5
              obtain ⟨rfl, rfl⟩ := a5
              simp [conns, subB, Builder.along] at a6
              obtain ⟨rfl, -⟩ := a6
              simp [subB] at a2 a4
              omega

end Cru.Build
