import Verif.Props.Dedup
import Verif.Spec.Words

/-! # C169: the words of deduplicated graphs -/

namespace Cru.Dedup

open Net

variable {n : Nat} {N V L : Type} [DecidableEq N] [DecidableEq V] [DecidableEq L]
variable {o : Orders V L} {g R : Gr N V L} {addr : N → Nat} {hn : 0 < n}

private theorem node_closed (hw : g.WF) {a : N} (ha : a ∈ g.nodes) {e : L × N} (he : e ∈ g.out a) : e.2 ∈ g.nodes :=
  (hw.reach _).2 (((hw.reach _).1 ha).tail (List.mem_map.2 ⟨e, he, rfl⟩))

private theorem kept_closed (hF : Fuses o g R) {a : N} (ha : a ∈ R.nodes) {e : L × N} (he : e ∈ R.out a) : e.2 ∈ R.nodes :=
  (hF.reach.mem _).2 (((hF.reach.mem _).1 ha).tail (List.mem_map.2 ⟨e, he, rfl⟩))

/-- **C169.** A word of a graph, or an equal one, is also a word of the graph without duplicates, where it ends at an equal vertex, provided that the graph is regular (C30). -/
theorem C169_preserved (ho : o.Lawful) (ha : Function.Injective addr) (hw : g.WF) (hr : Regular o g) (h : Dedups o g addr hn 0 (.ok R)) {w : List L} {m : N}
    (hs : Cru.Ends g w m) : ∃ w' c, Alike o.leq w w' ∧ Cru.Ends R w' c ∧ o.Same (g.vertex m) (R.vertex c) := by
  have hF := C30_fused ho hw h
  have hC := (C30_complete_iff ho ha hw h).2 hr
  have key : ∀ a ∈ g.nodes, ∀ c ∈ R.nodes, o.Same (g.vertex a) (g.vertex c) → Spells g.out a w m →
      ∃ w' d, Alike o.leq w w' ∧ Spells R.out c w' d ∧ o.Same (g.vertex m) (g.vertex d) := by
    intro a ha c hc hac hs'
    clear hs
    induction hs' generalizing c with
    | nil => exact ⟨[], c, .nil, .nil _, hac⟩
    | cons he _ ih =>
      obtain ⟨e, h1, h2, h3⟩ := hC.edges _ ha _ he c hc hac
      obtain ⟨w', d, h4, h5, h6⟩ := ih (node_closed hw ha he) e.2 (kept_closed hF hc h1) h3
      exact ⟨e.1 :: w', d, .cons (ho.label.symm _ _ h2) h4, .cons h1 h5, h6⟩
  rw [hF.vertex]
  exact key g.base ((hw.reach _).2 .refl) R.base ((hF.reach.mem _).2 .refl) (by rw [hF.base]; exact ho.vertex.refl _) hs

/-- **C169.** If equal vertices have equally labelled edges to equal vertices, then no words are added, whether the graph is regular or not. -/
theorem C169_sound (ho : o.Lawful) (hw : g.WF) (hst : Stable g o.leq fun a b => o.Same (g.vertex a) (g.vertex b)) (h : Dedups o g addr hn 0 (.ok R)) {w : List L} {c : N}
    (hs : Cru.Ends R w c) : ∃ w' m, Alike o.leq w w' ∧ Cru.Ends g w' m ∧ o.Same (R.vertex c) (g.vertex m) := by
  have hF := C30_fused ho hw h
  have key : ∀ b ∈ R.nodes, ∀ a ∈ g.nodes, o.Same (g.vertex b) (g.vertex a) → Spells R.out b w c →
      ∃ w' m, Alike o.leq w w' ∧ Spells g.out a w' m ∧ o.Same (g.vertex c) (g.vertex m) := by
    intro b hb a ha hab hs'
    clear hs
    induction hs' generalizing a with
    | nil => exact ⟨[], a, .nil, .nil _, hab⟩
    | cons he _ ih =>
      obtain ⟨m, hm, h1, f, hf, h2, h3⟩ := hF.edge _ hb _ he
      obtain ⟨d, hd, h4, h5⟩ := hst m hm a ha (ho.vertex.trans _ _ _ h1 hab) f hf
      obtain ⟨w', t, h6, h7, h8⟩ := ih (kept_closed hF hb he) d.2 (node_closed hw ha hd) (ho.vertex.trans _ _ _ (ho.vertex.symm _ _ h3) h5)
      exact ⟨d.1 :: w', t, .cons (by rw [h2] at h4; exact h4) h6, .cons hd h7, h8⟩
  rw [hF.vertex]
  exact key R.base ((hF.reach.mem _).2 .refl) g.base ((hw.reach _).2 .refl) (by rw [hF.base]; exact ho.vertex.refl _) hs

/-- **C169.** So if both is the case, and labels are equal only if they're identical, then the two graphs have the same words, ending at equal vertices. -/
theorem C169_same (ho : o.Lawful) (ha : Function.Injective addr) (hw : g.WF) (hr : Regular o g) (hst : Stable g o.leq fun a b => o.Same (g.vertex a) (g.vertex b))
    (hl : ∀ a b, o.leq a b = true → a = b) (h : Dedups o g addr hn 0 (.ok R)) (w : List L) (v : V) :
    (∃ m, Cru.Ends g w m ∧ o.Same v (g.vertex m)) ↔ ∃ c, Cru.Ends R w c ∧ o.Same v (R.vertex c) := by
  have eq : ∀ {w w' : List L}, Alike o.leq w w' → w = w' := fun {w w'} h => by
    unfold Alike at h
    induction h with
    | nil => rfl
    | cons h _ ih => rw [hl _ _ h, ih]
  constructor
  · rintro ⟨m, h1, h2⟩
    obtain ⟨w', c, h3, h4, h5⟩ := C169_preserved ho ha hw hr h h1
    rw [← eq h3] at h4
    exact ⟨c, h4, ho.vertex.trans _ _ _ h2 h5⟩
  · rintro ⟨c, h1, h2⟩
    obtain ⟨w', m, h3, h4, h5⟩ := C169_sound ho hw hst h h1
    rw [← eq h3] at h4
    exact ⟨m, h4, ho.vertex.trans _ _ _ h2 h5⟩

/-- The base has edges to two equal vertices with different labels, and they both have the same edges. -/
def vee := net [(true, 1), (false, 2)] [(true, 3)]

theorem vee_wf : vee.WF := wf_range (k := 4) rfl rfl (by decide) (by decide) (by decide)

/-- Non-vacuity of C169: one of two vertices is removed, but the words leading to it aren't. -/
example (hn : 0 < n) : ∃ R, Dedups halves vee id hn 0 (.ok R) ∧ (∃ c, Cru.Ends R [false, true] c ∧ R.vertex c = 4) ∧ ¬ ∃ c, Cru.Ends R [false, false] c := by
  have hreg : Regular halves vee := ⟨by decide, by decide⟩
  have hst : Stable vee halves.leq fun a b => halves.Same (vee.vertex a) (vee.vertex b) := by unfold Stable; decide
  obtain ⟨r, hr⟩ := C30_exists (addr := id) halves_lawful vee_wf hn
  obtain ⟨R, rfl, hF, -⟩ := C30_correct halves_lawful Function.injective_id vee_wf hreg (fun _ _ _ _ => rfl) hr
  have h := C169_same halves_lawful Function.injective_id vee_wf hreg hst (fun a b h => by simpa [halves] using h) hr
  refine ⟨R, hr, ?_, ?_⟩
  · obtain ⟨c, h1, h2⟩ := (h [false, true] 4).1 ⟨3, .cons (b := 2) (by decide) (.cons (by decide) (.nil _)), by decide⟩
    have h3 : ∀ c, c ∈ R.nodes → halves.Same 4 (vee.vertex c) → vee.vertex c = 4 := fun c hc => by
      have h4 : ∀ c ∈ vee.nodes, halves.Same 4 (vee.vertex c) → vee.vertex c = 4 := by decide
      exact h4 c (hF.nodes c hc)
    refine ⟨c, h1, ?_⟩
    rw [hF.vertex] at h2 ⊢
    refine h3 c ((hF.reach.mem _).2 ?_) h2
    have : ∀ {a w b}, Spells R.out a w b → Reaches (R.next false) a b := fun hs => by
      induction hs with
      | nil => exact .refl
      | cons he _ ih => exact .head (List.mem_map.2 ⟨_, he, rfl⟩) ih
    exact this h1
  · rintro ⟨c, h1⟩
    obtain ⟨m, h2, -⟩ := (h [false, false] _).2 ⟨c, h1, halves_lawful.vertex.refl _⟩
    cases h2 with
    | cons h4 h5 =>
      cases h5 with
      | cons h6 h7 => simp [vee, net] at h4; subst h4; simp [vee, net] at h6

end Cru.Dedup
