import Verif.Model.MergeBy
import Verif.Props.SetProps
import Verif.Props.Merge

/-! # C157: merging by properties of incoming edges -/

namespace Cru.Merge

open Net Duplex Partition

variable {n : Nat} {N V L X : Type} [DecidableEq N] [DecidableEq X] {g : Gr N V L} {c : Rule V L X}
  {P : V → List (L × V) → List (L × V) → Option X} {same : Option X → Option X → Bool} {o : EdgeOps N L} {vop : Option (List N → V)} {addr : N → Nat}

/-- The incoming edges aren't used. -/
theorem merges_inn {k : Classifier N X} {hn : 0 < n} {x : Trav.Job n N (Partition.Mem N X)} {R : Gr N V L} {left : N → List (L × N)}
    (inn : N → List (L × N)) (h : Merges { g with inn := left } k o vop addr hn x R) :
    Merges { g with inn := inn } k o vop addr hn x R := by
  obtain ⟨h1, y, h2, h3, h4, h5, h6, z, h7, h8, h9, h10, rfl⟩ := h
  exact ⟨h1, y, h2, h3, h4, h5, h6, z, h7, h8, h9, h10, rfl⟩

theorem halved_none (hw : g.WF) (h0 : (∀ m ∈ g.nodes, g.inn m = []) ∨ Exact g g.inn) {hn : 0 < n} {inn : N → List (L × N)}
    (h : if halfDuplex g then inn = g.inn else Launched (half g.out addr hn) g inn 0) : ∀ m ∈ g.nodes, inn m = [] := by
  split_ifs at h with hd
  · subst h
    rcases h0 with h0 | h0
    · exact h0
    · exact (C31_recognized hw).2 h0 hd
  · exact (C31_removed hw h).1

/-- **C157.** If `cru_merged` isn't killed and ends without an error, then vertices are merged if and only if their properties are equal, where incoming
edges are all those with the vertex as terminus, the result is the quotient of the given graph in the sense of C33, and it has no incoming edges. -/
theorem C157_quotient (hw : g.WF) (h0 : (∀ m ∈ g.nodes, g.inn m = []) ∨ Exact g g.inn) (hc : c.Sound P same) (hl : IsEquality o.eq)
    (hlh : HashRespects o.hash o.eq) (ha : Function.Injective addr) {hn : 0 < n} {R : Gr N V L} (h : MergedBy c o vop g addr hn R) :
    (∃ cls, IsQuotient g R (fun a b => same (value c P g a) (value c P g b) = true) o vop cls) ∧ ∀ m ∈ g.nodes, R.inn m = [] := by
  obtain ⟨inn₀, hh, inn, hp, x, hx, hd, hk, left, hr, R', hR, rfl⟩ := h
  have hn0 := halved_none hw h0 hh
  have hw0 := Partition.wf_inn hw inn₀
  obtain ⟨he, hi⟩ := prepared_either (g := { g with inn := inn₀ }) hw0 (.inl hn0) hp
  have hR' := merges_inn inn hR
  refine ⟨?_, fun m hm => ?_⟩
  · obtain ⟨cls, hq⟩ := C33_quotient (g := { g with inn := inn })
      (val := fun a => P (g.vertex a) (if c.incident then operands { g with inn := inn } (inn a) else []) (operands { g with inn := inn } (g.out a)))
      (Partition.wf_inn hw inn) (fun t m => hc.prop ..) hc.equal hc.equality hc.respects hl hlh ha ⟨hx, hd⟩ hk hR'
    have hval : ∀ a ∈ g.nodes, P (g.vertex a) (if c.incident then operands { g with inn := inn } (inn a) else [])
        (operands { g with inn := inn } (g.out a)) = value c P g a := by
      intro a ha
      unfold value
      cases hb : c.incident with
      | false => rfl
      | true => exact hc.order _ _ _ _ (((he hb) a ha).map _)
    refine ⟨cls, ⟨fun a ha => ?_, fun a ha b hb hab => ?_, hq.base, ⟨hq.wf.nodup, hq.wf.reach⟩, hq.nodes, hq.all, hq.content⟩⟩
    · obtain ⟨h1, h2⟩ := hq.member a ha
      refine ⟨h1, ?_⟩
      rw [← hval a ha, ← hval _ h1]; exact h2
    · refine hq.same a ha b hb ?_
      rw [← hval a ha, ← hval b hb] at hab; exact hab
  · exact razed_none (g := g) hw hi hr m hm

/-- **C157.** On graphs with all incoming edges or none, `cru_merged` can end without an error. -/
theorem C157_ends (hw : g.WF) (hc : c.Sound P same) (hl : IsEquality o.eq) (hlh : HashRespects o.hash o.eq) (ha : Function.Injective addr) (hn : 0 < n)
    (f : List N → V) : ∃ R, MergedBy c o (some f) g addr hn R := by
  obtain ⟨inn₀, hh⟩ : ∃ inn₀, if halfDuplex g = true then inn₀ = g.inn else Launched (half g.out addr hn) g inn₀ 0 := by
    by_cases hd : halfDuplex g = true
    · exact ⟨_, (if_pos hd).mpr rfl⟩
    · obtain ⟨inn', hi'⟩ := (C31_terminates hw addr hn).2.2
      exact ⟨_, (if_neg hd).mpr hi'⟩
  have hw0 := Partition.wf_inn hw inn₀
  obtain ⟨inn, hp⟩ : ∃ inn, Prepared c.incident addr hn ({ g with inn := inn₀ } : Gr N V L) inn 0 := by
    by_cases hb : (halfDuplex ({ g with inn := inn₀ } : Gr N V L) && c.incident) = true
    · obtain ⟨inn, hi⟩ := (C31_terminates hw0 addr hn).2.1
      exact ⟨inn, (if_pos hb).mpr hi⟩
    · exact ⟨_, (if_neg hb).mpr ⟨rfl, rfl⟩⟩
  have hw' := Partition.wf_inn hw inn
  obtain ⟨left, hr⟩ : ∃ left, Razed addr hn ({ g with inn := inn } : Gr N V L) left 0 := by
    unfold Razed
    by_cases hd : halfDuplex ({ g with inn := inn } : Gr N V L) = true
    · exact ⟨_, (if_pos hd).mpr ⟨rfl, rfl⟩⟩
    · obtain ⟨inn', hi'⟩ := (C31_terminates hw' addr hn).2.2
      exact ⟨_, (if_neg hd).mpr ⟨inn', hi', rfl⟩⟩
  obtain ⟨-, -, -, x, R, h1, h2, h3⟩ := C33_terminates (g := { g with inn := inn }) (c := c.on { g with inn := inn }) (addr := addr)
    (val := fun a => P (g.vertex a) (if c.incident then operands { g with inn := inn } (inn a) else []) (operands { g with inn := inn } (g.out a)))
    hw' (fun t m => hc.prop ..) hc.equal hc.equality hc.respects hl hlh ha hn f
  exact ⟨{ R with inn := left }, inn₀, hh, inn, hp, x, h1.1, h1.2, h2, left, hr, R, merges_inn (g := g) left h3, rfl⟩

/-- Edges without labels. -/
def plain : EdgeOps Nat Unit where
  hash _ := 0
  eq _ _ := true
  pruner := none
  red := none

/-- Non-vacuity: merging the vertices of a path of five vertices that have incoming edges leaves two vertices. -/
example : ∃ R, MergedBy entered plain (some List.sum) (path 5) id (show 0 < 3 by decide) R ∧ R.nodes.length = 2 := by
  have hw : (path 5).WF := path_wf (by decide)
  have hl : IsEquality plain.eq := ⟨fun _ => rfl, fun _ _ _ => rfl, fun _ _ _ _ _ => rfl⟩
  have hlh : HashRespects plain.hash plain.eq := fun _ _ _ => rfl
  obtain ⟨R, hR⟩ := C157_ends (addr := id) hw entered_sound hl hlh (fun _ _ h => h) (show 0 < 3 by decide) List.sum
  refine ⟨R, hR, ?_⟩
  obtain ⟨⟨cls, hq⟩, -⟩ := C157_quotient hw (.inl fun _ _ => rfl) entered_sound hl hlh (fun _ _ h => h) hR
  have hm : ∀ a, a ∈ (path 5).nodes ↔ a < 5 := fun a => by simp [path]
  have e : ∀ m, m + 1 < 5 → value entered (fun _ i _ => if i = [] then none else some ()) (path 5) (m + 1) = some () := fun m h => path_entered h
  have z : value entered (fun _ i _ => if i = [] then none else some ()) (path 5) 0 = none := by decide
  have hs : ∀ a, a + 1 < 5 → cls (a + 1) = cls 1 := fun a h => hq.same _ ((hm _).2 h) _ ((hm 1).2 (by decide)) (by
    rw [e a h, e 0 (by decide)]; rfl)
  have h1 : cls 0 = 0 := by
    obtain ⟨h2, h3⟩ := hq.member 0 ((hm 0).2 (by decide))
    rcases hc : cls 0 with _ | b
    · rfl
    · rw [hc] at h2 h3
      rw [z, e b ((hm _).1 h2)] at h3
      cases h3
  have h2 : cls 1 ≠ 0 := by
    obtain ⟨-, h3⟩ := hq.member 1 ((hm 1).2 (by decide))
    intro hc
    rw [hc, z, e 0 (by decide)] at h3
    cases h3
  have hperm : R.nodes.Perm [0, cls 1] := by
    refine (List.perm_ext_iff_of_nodup hq.wf.nodup (by simp [h2.symm])).2 fun m => ⟨fun hm' => ?_, fun hm' => ?_⟩
    · obtain ⟨h4, h5⟩ := hq.nodes m hm'
      rcases m with _ | b
      · simp
      · rw [← h5, hs b ((hm _).1 h4)]; simp
    · simp only [List.mem_cons, List.not_mem_nil, or_false] at hm'
      rcases hm' with rfl | rfl
      · have := hq.all rfl 0 ((hm 0).2 (by decide))
        rwa [h1] at this
      · exact hq.all rfl 1 ((hm 1).2 (by decide))
  simpa using hperm.length_eq

end Cru.Merge
