import Verif.Model.Spawn
import Verif.Spec.Graph

/-! # What a graph made from something else should be -/

namespace Cru

/-- The graph `h` has one node for each of the things listed by `keys`, whose vertex is the one given by `vertex`, and whose
outgoing edges are those given by `edges`, in any order, leading to the nodes of the things they name.  The base node is the one
for `base`. -/
def Depicts {K J W M : Type} (keys : List K) (base : K) (vertex : K → W) (edges : K → List (M × K)) (h : Gr J (Option W) M) : Prop :=
  ∃ φ : K → J, (∀ k ∈ keys, ∀ k' ∈ keys, φ k = φ k' → k = k') ∧ h.nodes.Perm (keys.map φ) ∧ h.base = φ base ∧
    ∀ k ∈ keys, h.vertex (φ k) = some (vertex k) ∧ (h.out (φ k)).Perm ((edges k).map fun e => (e.1, φ e.2)) ∧ h.inn (φ k) = []

/-- A graph that depicts everything reachable from something is well-formed. -/
theorem Depicts.wf {K J W M : Type} {keys : List K} {base : K} {vertex : K → W} {edges : K → List (M × K)} {h : Gr J (Option W) M}
    (hc : Covers (fun k => (edges k).map (·.2)) base keys) (hd : Depicts keys base vertex edges h) : h.WF := by
  obtain ⟨φ, hinj, hp, hb, hk⟩ := hd
  have hfwd : ∀ k, Reaches (fun k => (edges k).map (·.2)) base k → Reaches (h.next false) h.base (φ k) := by
    intro k hr
    induction hr with
    | refl => rw [hb]
    | tail hr hs ih =>
      refine ih.tail ?_
      obtain ⟨e, he, rfl⟩ := List.mem_map.1 hs
      have := (hk _ ((hc.mem _).2 hr)).2.1
      exact List.mem_map.2 ⟨(e.1, φ e.2), this.mem_iff.2 (List.mem_map.2 ⟨e, he, rfl⟩), rfl⟩
  have hbwd : ∀ a, Reaches (h.next false) h.base a → ∃ k ∈ keys, a = φ k := by
    intro a hr
    induction hr with
    | refl => exact ⟨base, (hc.mem _).2 .refl, hb⟩
    | tail _ hs ih =>
      obtain ⟨k, hkk, rfl⟩ := ih
      obtain ⟨e, he, rfl⟩ := List.mem_map.1 hs
      obtain ⟨e', he', rfl⟩ := List.mem_map.1 ((hk k hkk).2.1.mem_iff.1 he)
      exact ⟨e'.2, (hc.mem _).2 (((hc.mem k).1 hkk).tail (List.mem_map.2 ⟨e', he', rfl⟩)), rfl⟩
  refine ⟨?_, fun a => ?_⟩
  · rw [hp.nodup_iff]
    exact hc.nodup.map_on fun k h1 k' h2 => hinj k h1 k' h2
  · rw [hp.mem_iff, List.mem_map]
    constructor
    · rintro ⟨k, h1, rfl⟩; exact hfwd k ((hc.mem k).1 h1)
    · intro hr
      obtain ⟨k, h1, rfl⟩ := hbwd a hr
      exact ⟨k, h1, rfl⟩

end Cru
