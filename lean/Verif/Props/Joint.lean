import Verif.Props.Grammar
import Verif.Props.Built
import Verif.Props.Words

/-! # C171: the words of products of built graphs -/

namespace Cru.Build

open Cross

variable {n n' : Nat} {V V' L W : Type} [DecidableEq L] {b : Builder V L} {b' : Builder V' L} {v₀ : V} {v₀' : V'} {hn : 0 < n} {G : Graph n V L} {H : Graph n V' L}

/-- The word is made by the connector, starting from the vertex. -/
def Generates (b : Builder V L) (v₀ : V) (w : List L) : Prop := ∃ s, Spells (conns b) (b.first, v₀) w s

/-- **C171.** If only identical labels are equal, the words of a built graph are those that the connector makes. -/
theorem C171_built (hb : b.Sane) (hr : b.Respects) (hsub : b.sub = false) (hl : ∀ k l, b.eEq k l = true → k = l) (h : Returns b hn v₀ (.ok G)) (w : List L) :
    Accepts G.toGr w ↔ Generates b v₀ w := by
  have eq : ∀ {w w' : List L}, Alike b.eEq w w' → w = w' := fun {w w'} h => by
    unfold Alike at h
    induction h with
    | nil => rfl
    | cons h _ ih => rw [hl _ _ h, ih]
  constructor
  · rintro ⟨t, ht⟩
    obtain ⟨w', s, v, h1, h2, -⟩ := C170_sound hb hr hsub h ht
    rw [← eq h1] at h2
    exact ⟨s, h2⟩
  · rintro ⟨s, hs⟩
    obtain ⟨w', t, v, h1, h2, -⟩ := C170_complete hb hr h hs
    rw [← eq h1] at h2
    exact ⟨t, h2⟩

/-- **C171.** If two graphs are built by connectors and crossed with equality of labels as the predicate and the first label as the product, then the words of the result are
those that both connectors make. -/
theorem C171_intersection (hb : b.Sane) (hr : b.Respects) (hsub : b.sub = false) (hl : ∀ k l, b.eEq k l = true → k = l) (h : Returns b hn v₀ (.ok G))
    (hb' : b'.Sane) (hr' : b'.Respects) (hsub' : b'.sub = false) (hl' : ∀ k l, b'.eEq k l = true → k = l) (h' : Returns b' hn v₀' (.ok H))
    {x : Crosser (Option V) (Option V') L L W L} (hx : ∀ k l, x.bpred k l = decide (k = l)) (ho : ∀ k l, x.bop k l = k) {addr : NodeId n → Nat} {hn' : 0 < n'}
    {r : Gr (Spawn.Id n') (Option W) L} (hc : Crossed x addr hn' G.toGr H.toGr (.ok r)) (w : List L) :
    Accepts r w ↔ Generates b v₀ w ∧ Generates b' v₀' w := by
  rw [C159_intersection (C60_built_wf hb hr h) (C60_built_wf hb' hr' h') hx ho hc, C171_built hb hr hsub hl h, C171_built hb' hr' hsub' hl' h']

/-- Non-vacuity of C171: a graph crossed with itself. -/
example : ∃ (G : Graph 2 Nat Nat) (r : Gr (Spawn.Id 3) (Option (Option Nat × Option Nat)) Nat), Returns demoB (show 0 < 2 by decide) 0 (.ok G) ∧
    Crossed ⟨Prod.mk, fun k l => decide (k = l), fun k _ => k, 0⟩ (fun _ => 0) (show 0 < 3 by decide) G.toGr G.toGr (.ok r) ∧ Accepts r [0, 1, 1] ∧ ¬ Accepts r [0, 2] := by
  obtain ⟨G, hG⟩ := demoB_returns (n := 2) (by decide)
  have hw := C60_built_wf demoB_sane demoB_respects hG
  obtain ⟨r, hr⟩ := returns (⟨Prod.mk, fun k l => decide (k = l), fun k _ => k, 0⟩ : Crosser (Option Nat) (Option Nat) Nat Nat (Option Nat × Option Nat) Nat) rfl hw hw (fun _ => 0)
    (show 0 < 3 by decide)
  have hl : ∀ k l, demoB.eEq k l = true → k = l := fun k l h => by simpa [demoB] using h
  have h := C171_intersection demoB_sane demoB_respects rfl hl hG demoB_sane demoB_respects rfl hl hG (fun _ _ => rfl) (fun _ _ => rfl) hr
  have h1 : Generates demoB 0 [0, 1, 1] :=
    ⟨(.whole, 4), .cons (b := (.whole, 1)) (by decide) (.cons (b := (.whole, 2)) (by decide) (.cons (b := (.whole, 4)) (by decide) (.nil _)))⟩
  refine ⟨G, r, hG, hr, (h _).2 ⟨h1, h1⟩, fun h2 => ?_⟩
  obtain ⟨s, h3⟩ := ((h _).1 h2).1
  cases h3 with
  | cons h4 h5 =>
    cases h5 with
    | cons h6 h7 => simp [conns, demoB] at h6

end Cru.Build
