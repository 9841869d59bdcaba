import Verif.Proofs.BuildCalls
import Mathlib.Tactic.Abel

set_option linter.unusedVariables false

namespace Cru.Build

open Cru.Net

variable {n : Nat} {V L : Type} {b : Builder V L} {hn : 0 < n} {v₀ : V}

theorem sum_update {A M : Type} [AddCommMonoid M] (F : A → M) (f : Fin n → A) (i : Fin n) (l : A) (a : M)
    (h : F l = F (f i) + a) : ∑ j, F (Function.update f i l j) = ∑ j, F (f j) + a := by
  rw [← Finset.add_sum_erase _ _ (Finset.mem_univ i), ← Finset.add_sum_erase _ (fun j => F (f j)) (Finset.mem_univ i)]
  rw [Function.update_self, h]
  have : ∑ x ∈ Finset.univ.erase i, F (Function.update f i l x) = ∑ x ∈ Finset.univ.erase i, F (f x) := by
    refine Finset.sum_congr rfl ?_
    intro x hx
    rw [Function.update_of_ne (Finset.ne_of_mem_erase hx)]
  rw [this]
  abel

theorem sum_update_same {A M : Type} [AddCommMonoid M] (F : A → M) (f : Fin n → A) (i : Fin n) (l : A)
    (h : F l = F (f i)) : ∑ j, F (Function.update f i l j) = ∑ j, F (f j) := by
  have := sum_update F f i l 0 (by rw [h, add_zero])
  rwa [add_zero] at this

/-- Vertices handed over by a list of callbacks. -/
def madeV (b : Builder V L) (calls : List (Incident L × V)) : List V :=
  calls.flatMap fun c => (b.connect c.1 c.2).2.map Prod.snd

def madeL (b : Builder V L) (calls : List (Incident L × V)) : List L :=
  calls.flatMap fun c => (b.connect c.1 c.2).2.map Prod.fst

def labelsOf (l : List (Node V L)) : Multiset L := ((l.flatMap (fun nd => nd.edges.map Prod.fst) : List L) : Multiset L)

structure OInv (b : Builder V L) (v₀ : V) (g : Job n V L) (m : Multiset (Packet n V L)) : Prop where
  v : g.vNew = g.vFree + keptV g + m.map Packet.payload
  l : g.lNew = g.lFree + keptL g
  vn : g.vNew = {v₀} + ∑ i, (madeV b (g.calls i) : Multiset V)
  ln : g.lNew = ∑ i, (madeL b (g.calls i) : Multiset L)

theorem map_set_vertex {l : List (Node V L)} {k : Nat} {nd nd' : Node V L} (hk : l[k]? = some nd) (h : nd'.vertex = nd.vertex) :
    (l.set k nd').map Node.vertex = l.map Node.vertex := by
  rw [List.map_set, h]
  apply List.ext_getElem?
  intro j
  by_cases hj : k = j
  · subst hj
    rw [List.getElem?_set_self]
    · simp [hk]
    · rw [List.length_map]; exact (List.getElem?_eq_some_iff.1 hk).1
  · rw [List.getElem?_set_ne hj]

theorem flatMap_set_labels (F : Node V L → List L) : ∀ {l : List (Node V L)} {k : Nat} {nd nd' : Node V L} {es : List L},
    l[k]? = some nd → F nd' = F nd ++ es →
    (((l.set k nd').flatMap F : List L) : Multiset L) = ((l.flatMap F : List L) : Multiset L) + (es : Multiset L) := by
  intro l
  induction l with
  | nil => intro k nd nd' es hk; simp at hk
  | cons x l ih =>
    intro k nd nd' es hk hF
    cases k with
    | zero =>
      simp only [List.getElem?_cons_zero, Option.some.injEq] at hk
      subst hk
      simp only [List.set_cons_zero, List.flatMap_cons, hF, ← Multiset.coe_add]
      abel
    | succ k =>
      simp only [List.getElem?_cons_succ] at hk
      simp only [List.set_cons_succ, List.flatMap_cons, ← Multiset.coe_add, ih hk hF]
      abel

theorem scatterOut_payload (i : Fin n) (k off : Nat) (es : List (L × V)) :
    (scatterOut b i k off es).map Packet.payload = es.map Prod.snd := by
  simp only [scatterOut, List.map_map]
  have : (Packet.payload ∘ fun e : (L × V) × Nat => (⟨e.1.2, b.along e.1.1, some (i, k, e.2)⟩ : Packet n V L)) =
      Prod.snd ∘ Prod.fst := rfl
  rw [this, ← List.map_map, List.zipIdx_map_fst]

theorem madeV_snoc (cs : List (Incident L × V)) (c : Incident L × V) :
    (madeV b (cs ++ [c]) : Multiset V) = (madeV b cs : Multiset V) + ((b.connect c.1 c.2).2.map Prod.snd : List V) := by
  simp [madeV, ← Multiset.coe_add]

theorem madeL_snoc (cs : List (Incident L × V)) (c : Incident L × V) :
    (madeL b (cs ++ [c]) : Multiset L) = (madeL b cs : Multiset L) + ((b.connect c.1 c.2).2.map Prod.fst : List L) := by
  simp [madeL, ← Multiset.coe_add]

theorem uniq_snd (hb : b.Sane) (es : List (L × V)) : ((es.map Prod.snd : List V) : Multiset V) =
    ((b.uniq es).map Prod.snd : List V) + ((b.dropped es).map Prod.snd : List V) := by
  rw [Multiset.coe_add, ← List.map_append, Multiset.coe_eq_coe]
  exact ((uniq_transversal hb es).perm.map _).symm

theorem uniq_fst (hb : b.Sane) (es : List (L × V)) : ((es.map Prod.fst : List L) : Multiset L) =
    ((b.uniq es).map Prod.fst : List L) + ((b.dropped es).map Prod.fst : List L) := by
  rw [Multiset.coe_add, ← List.map_append, Multiset.coe_eq_coe]
  exact ((uniq_transversal hb es).perm.map _).symm

theorem oinv_trans (hb : b.Sane) {g g' : Job n V L} {p : Packet n V L} {rest} {out} {i : Fin n}
    (ho : p.carrier = none → find b (g.nodes i) p.payload = none)
    (h : OInv b v₀ g (p ::ₘ rest)) (ht : Trans b i g p g' out) : OInv b v₀ g' ((out : Multiset (Packet n V L)) + rest) := by
  obtain ⟨h1, h2, h3, h4⟩ := h
  rw [Multiset.map_cons, ← Multiset.singleton_add] at h1
  have cv : ∀ c : Incident L × V, ∑ j, (madeV b (Function.update g.calls i (g.calls i ++ [c]) j) : Multiset V) =
      ∑ j, (madeV b (g.calls j) : Multiset V) + ((b.connect c.1 c.2).2.map Prod.snd : List V) := fun c =>
    sum_update (fun cs => (madeV b cs : Multiset V)) g.calls i _ _ (madeV_snoc _ _)
  have cl : ∀ c : Incident L × V, ∑ j, (madeL b (Function.update g.calls i (g.calls i ++ [c]) j) : Multiset L) =
      ∑ j, (madeL b (g.calls j) : Multiset L) + ((b.connect c.1 c.2).2.map Prod.fst : List L) := fun c =>
    sum_update (fun cs => (madeL b cs : Multiset L)) g.calls i _ _ (madeL_snoc _ _)
  cases ht with
  | drop =>
    refine ⟨?_, h2, h3, h4⟩
    simp only [keptV] at h1 ⊢
    rw [h1, ← Multiset.singleton_add]; simp only [Multiset.coe_nil, zero_add]; abel
  | orphan s k he hs hf hc => rw [ho hc] at hf; cases hf
  | link =>
    refine ⟨?_, h2, h3, h4⟩
    simp only [keptV] at h1 ⊢
    rw [h1, ← Multiset.singleton_add]; simp only [Multiset.coe_nil, zero_add]; abel
  | moreErr s k nd c he hs hf hk hc hseen hx =>
    refine ⟨?_, ?_, ?_, ?_⟩
    · have : keptV { g with nodes := Function.update g.nodes i ((g.nodes i).set k { nd with seen := nd.seen ++ [p.inc] }) } = keptV g :=
        sum_update_same (fun l : List (Node V L) => (l.map Node.vertex : Multiset V)) g.nodes i _
          (congrArg _ (map_set_vertex hk rfl))
      simp only [keptV] at h1 this ⊢
      rw [this, h1, ← Multiset.singleton_add]; simp only [Multiset.coe_nil, zero_add]; abel
    · have : keptL { g with nodes := Function.update g.nodes i ((g.nodes i).set k { nd with seen := nd.seen ++ [p.inc] }) } = keptL g :=
        sum_update_same labelsOf g.nodes i _
          (by have := flatMap_set_labels (fun nd : Node V L => nd.edges.map Prod.fst)
                (nd' := { nd with seen := nd.seen ++ [p.inc] }) (es := []) hk (by simp)
              simpa [labelsOf] using this)
      simp only [keptL] at h2 this ⊢
      rw [this, h2]; abel
    · simp only [cv]; rw [h3]; abel
    · simp only [cl]; rw [h4]
  | moreOk s k nd c he hs hf hk hc hseen hx =>
    have hv := uniq_snd hb (b.connect p.inc nd.vertex).2
    have hl := uniq_fst hb (b.connect p.inc nd.vertex).2
    refine ⟨?_, ?_, ?_, ?_⟩
    · have : keptV { g with nodes := Function.update g.nodes i ((g.nodes i).set k { nd with seen := nd.seen ++ [p.inc], edges := nd.edges ++ b.uniq (b.connect p.inc nd.vertex).2 }) } = keptV g :=
        sum_update_same (fun l : List (Node V L) => (l.map Node.vertex : Multiset V)) g.nodes i _
          (congrArg _ (map_set_vertex hk rfl))
      simp only [keptV] at h1 this ⊢
      rw [this, h1, ← Multiset.singleton_add, Multiset.map_add, Multiset.map_coe, scatterOut_payload, hv]
      abel
    · have : keptL { g with nodes := Function.update g.nodes i ((g.nodes i).set k { nd with seen := nd.seen ++ [p.inc], edges := nd.edges ++ b.uniq (b.connect p.inc nd.vertex).2 }) } =
          keptL g + ((b.uniq (b.connect p.inc nd.vertex).2).map Prod.fst : List L) :=
        sum_update labelsOf g.nodes i _ _
          (flatMap_set_labels (fun nd : Node V L => nd.edges.map Prod.fst) (nd := nd) hk (by simp))
      simp only [keptL] at h2 this ⊢
      rw [this, h2, hl]; abel
    · simp only [cv]; rw [h3]; abel
    · simp only [cl]; rw [h4]
  | newErr s c he hs hf hl' hx =>
    refine ⟨?_, ?_, ?_, ?_⟩
    · simp only [keptV] at h1 ⊢
      rw [h1, ← Multiset.singleton_add]; simp only [Multiset.coe_nil, zero_add]; abel
    · simp only [keptL] at h2 ⊢
      rw [h2]; abel
    · simp only [cv]; rw [h3]; abel
    · simp only [cl]; rw [h4]
  | newOk s c he hs hf hl' hx =>
    have hv := uniq_snd hb (b.connect p.inc p.payload).2
    have hl := uniq_fst hb (b.connect p.inc p.payload).2
    refine ⟨?_, ?_, ?_, ?_⟩
    · have : keptV { g with nodes := Function.update g.nodes i (g.nodes i ++ [{ vertex := p.payload, seen := [p.inc], edges := b.uniq (b.connect p.inc p.payload).2 }]) } = keptV g + {p.payload} :=
        sum_update (fun l : List (Node V L) => (l.map Node.vertex : Multiset V)) g.nodes i _ _
          (by simp [← Multiset.coe_add])
      simp only [keptV] at h1 this ⊢
      rw [this, h1, Multiset.map_add, Multiset.map_coe, scatterOut_payload, hv]
      abel
    · have : keptL { g with nodes := Function.update g.nodes i (g.nodes i ++ [{ vertex := p.payload, seen := [p.inc], edges := b.uniq (b.connect p.inc p.payload).2 }]) } =
          keptL g + ((b.uniq (b.connect p.inc p.payload).2).map Prod.fst : List L) :=
        sum_update labelsOf g.nodes i _ _
          (by simp [labelsOf, ← Multiset.coe_add])
      simp only [keptL] at h2 this ⊢
      rw [this, h2, hl]; abel
    · simp only [cv]; rw [h3]; abel
    · simp only [cl]; rw [h4]

theorem orphan_free {g : Job n V L} {m} (h : BInv b hn v₀ g m) {p : Packet n V L} (hp : p ∈ m) (hc : p.carrier = none) (i : Fin n) :
    find b (g.nodes i) p.payload = none := by
  rcases h.phase with ⟨_, h1⟩ | ⟨h1, _⟩
  · rw [h1]; rfl
  · exact absurd hc (h1 p hp)

theorem oinv_reach (hb : b.Sane) : ∀ x, BReach b hn v₀ x → OInv b v₀ x.1 x.2 := by
  refine breach_induct (motive := fun g m => OInv b v₀ g m) ?_ ?_ ?_
  · refine ⟨?_, ?_, ?_, ?_⟩ <;> simp [start, keptV, keptL, madeV, madeL, firstPacket]
  · intro g m _ h
    obtain ⟨h1, h2, h3, h4⟩ := h
    exact ⟨h1, h2, h3, h4⟩
  · intro g p rest g' out hx h ht
    exact oinv_trans hb (fun hc => orphan_free (binv_reach hb _ hx) (Multiset.mem_cons_self _ _) hc _) h ht

end Cru.Build
