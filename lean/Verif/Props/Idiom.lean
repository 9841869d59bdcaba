import Verif.Props.MutateFull
import Verif.Spec.Words

/-! # C167: the words of mutated graphs -/

namespace Cru.Mutate

variable {n : Nat} {N V L : Type} [DecidableEq N] [DecidableEq L] {g h : Gr N V L} {p : Plan} {k : Kernel V L} {hash : N → Nat} {hn : 0 < n} {k₃ : Nat}
  {s : Job n N V L}

/-- The cases in which all vertices are mutated: either the order doesn't matter (C84), or it does but there are no cycles (C20). -/
def Thorough (k : Kernel V L) (p : Plan) (g : Gr N V L) : Prop :=
  (p.unordered = true ∧ k.Unconstrained) ∨ k.Simultaneous ∨ (p.unordered = false ∧ k.Sequential p ∧ Induce.Acyclic (g.next false) g.base)

/-- Every label becomes what the function says. -/
def Renames (k : Kernel V L) (φ : L → L) : Prop :=
  match k.eop with
  | none => φ = id
  | some f => ∀ v l w l', f v l w = .ok l' → l' = φ l

private theorem relabelled {φ : L → L} (hf : Renames k φ) {v : V} {vertex : N → V} {es es' : List (L × N)} (h : Relabelled k v vertex es es') :
    es' = es.map fun e => (φ e.1, e.2) := by
  unfold Relabelled at h
  unfold Renames at hf
  cases hk : k.eop with
  | none =>
    rw [hk] at h hf
    dsimp only at h hf
    subst hf
    simp [h]
  | some f =>
    rw [hk] at h hf
    dsimp only at h hf
    induction h with
    | nil => rfl
    | cons h1 _ ih =>
      rw [List.map_cons, ← ih]
      congr 1
      exact Prod.ext (hf _ _ _ _ h1.1) h1.2

private theorem after_renamed {φ : L → L} (hg : Full g) (ht : Thorough k p g) (hf : Renames k φ)
    (hr : Mutates g p g.base k hash hn 0 0 k₃ s (.ok h)) {m : N} (hm : m ∈ g.nodes) : after p h m = (after p g m).map fun e => (φ e.1, e.2) := by
  rcases ht with ht | ht | ⟨h1, h2, h3⟩
  · exact relabelled hf ((C84_simultaneous hg (.inl ht) hr).1.mutated m hm trivial).2
  · exact relabelled hf ((C84_simultaneous hg (.inr ht) hr).1.mutated m hm trivial).2
  · cases (C20_order hg h3 h2 h1 hr).1.mutated m hm trivial with
    | intro _ _ _ _ _ h4 => exact relabelled hf h4

private theorem mem_out (hg : Full g) {a b : N} (ha : a ∈ g.nodes) (hb : b ∈ g.nodes) (l : L) : (l, b) ∈ g.out a ↔ (l, a) ∈ g.inn b := by
  have := hg.duplex a ha b hb l
  rw [← List.count_pos_iff, ← List.count_pos_iff, this]

private theorem closed (hg : g.WF) {a : N} (ha : a ∈ g.nodes) {e : L × N} (he : e ∈ g.out a) : e.2 ∈ g.nodes :=
  (hg.reach _).2 (((hg.reach _).1 ha).tail (List.mem_map.2 ⟨e, he, rfl⟩))

private theorem out_renamed {φ : L → L} (hg : Full g) (ht : Thorough k p g) (hf : Renames k φ)
    (hr : Mutates g p g.base k hash hn 0 0 k₃ s (.ok h)) {a : N} (ha : a ∈ g.nodes) (l : L) (b : N) : (l, b) ∈ h.out a ↔ ∃ l', l = φ l' ∧ (l', b) ∈ g.out a := by
  have hh := C85_full hg hr
  obtain ⟨hn', -, -⟩ := C85_shape hg hr
  by_cases c : p.backwards = p.remoteFirst
  · have := after_renamed hg ht hf hr ha
    unfold after at this
    rw [if_pos c, if_pos c] at this
    rw [this, List.mem_map]
    constructor
    · rintro ⟨e, he, h1⟩
      injection h1 with h1 h2
      subst h2
      exact ⟨e.1, h1.symm, he⟩
    · rintro ⟨l', rfl, h1⟩
      exact ⟨_, h1, rfl⟩
  · have key : ∀ b ∈ g.nodes, ((l, b) ∈ h.out a ↔ ∃ l', l = φ l' ∧ (l', b) ∈ g.out a) := fun b hb => by
      have := after_renamed hg ht hf hr hb
      unfold after at this
      rw [if_neg c, if_neg c] at this
      rw [mem_out hh (hn' ▸ ha) (hn' ▸ hb), this, List.mem_map]
      constructor
      · rintro ⟨e, he, h1⟩
        injection h1 with h1 h2
        subst h2
        exact ⟨e.1, h1.symm, (mem_out hg ha hb _).2 he⟩
      · rintro ⟨l', rfl, h1⟩
        exact ⟨_, (mem_out hg ha hb _).1 h1, rfl⟩
    constructor
    · intro h1
      exact (key b (hn' ▸ closed hh.wf (hn' ▸ ha) h1)).1 h1
    · rintro ⟨l', h1, h2⟩
      exact (key b (closed hg.wf ha h2)).2 ⟨l', h1, h2⟩

/-- **C167.** If a graph is mutated by an operator that makes each label something depending on that label alone, then the words of the new graph are obtained from
those of the original by doing so with each of their labels, and end at the same vertices. -/
theorem C167_words {φ : L → L} (hg : Full g) (ht : Thorough k p g) (hf : Renames k φ) (hr : Mutates g p g.base k hash hn 0 0 k₃ s (.ok h)) (w : List L) (m : N) :
    Ends h w m ↔ ∃ w', w = w'.map φ ∧ Ends g w' m := by
  obtain ⟨-, hb, -⟩ := C85_shape hg hr
  unfold Ends
  rw [hb]
  have hb : g.base ∈ g.nodes := (hg.wf.reach _).2 .refl
  generalize g.base = a at hb
  constructor
  · intro hs
    induction hs with
    | nil => exact ⟨[], rfl, .nil _⟩
    | cons he _ ih =>
      obtain ⟨l', rfl, h1⟩ := (out_renamed hg ht hf hr hb _ _).1 he
      obtain ⟨w', rfl, h2⟩ := ih (closed hg.wf hb h1)
      exact ⟨l' :: w', rfl, .cons h1 h2⟩
  · rintro ⟨w', rfl, hs⟩
    induction hs with
    | nil => exact .nil _
    | cons he _ ih => exact .cons ((out_renamed hg ht hf hr hb _ _).2 ⟨_, rfl, he⟩) (ih (closed hg.wf hb he))

/-- **C167.** In particular, words remain the same if there's no operator for labels. -/
theorem C167_same (hg : Full g) (ht : Thorough k p g) (he : k.eop = none) (hr : Mutates g p g.base k hash hn 0 0 k₃ s (.ok h)) (w : List L) (m : N) :
    Ends h w m ↔ Ends g w m := by
  have hf : Renames k id := by unfold Renames; rw [he]
  rw [C167_words hg ht hf hr]
  simp

/-- **C167.** If the operator for vertices depends only on the vertex, then that's what becomes of each vertex, and without one, vertices remain the same. -/
theorem C167_vertices {ψ : V → V} (hg : Full g) (ht : Thorough k p g)
    (hv : match k.vop with | none => ψ = id | some f => ∀ v ins outs v', f v ins outs = .ok v' → v' = ψ v)
    (hr : Mutates g p g.base k hash hn 0 0 k₃ s (.ok h)) {m : N} (hm : m ∈ g.nodes) : h.vertex m = ψ (g.vertex m) := by
  have key : ∀ {ins outs v'}, Revised k (g.vertex m) ins outs v' → v' = ψ (g.vertex m) := fun h => by
    unfold Revised at h
    cases hk : k.vop with
    | none => rw [hk] at h hv; dsimp only at h hv; subst hv; exact h
    | some f => rw [hk] at h hv; exact hv _ _ _ _ h
  rcases ht with ht | ht | ⟨h1, h2, h3⟩
  · exact key ((C84_simultaneous hg (.inl ht) hr).1.mutated m hm trivial).1
  · exact key ((C84_simultaneous hg (.inr ht) hr).1.mutated m hm trivial).1
  · cases (C20_order hg h3 h2 h1 hr).1.mutated m hm trivial with
    | intro _ _ _ _ h4 _ =>
      dsimp only at h4
      by_cases c : p.backwards = p.remoteFirst
      · rw [if_pos c] at h4; exact key h4
      · rw [if_neg c] at h4; exact key h4

/-- Add one to vertices and negate labels. -/
def flipper : Kernel Nat Bool := ⟨some fun v _ _ => .ok (v + 1), true, true, some fun _ l _ => .ok !l⟩

theorem flipper_ok (e : Int) : ¬ Raised flipper e := by
  rintro (⟨f, v, ins, outs, x, h1, h2, -⟩ | ⟨f, v, l, w, x, h1, h2, -⟩)
  · injection h1 with h1; subst h1; cases h2
  · injection h1 with h1; subst h1; cases h2

/-- Non-vacuity of C167, in any direction, with any number of lanes. -/
example (lf bw : Bool) (hn : 0 < n) : ∃ s h, Mutates kite ⟨bw, lf, !lf⟩ 0 flipper id hn 0 0 0 s (.ok h) ∧ Ends h [true, false] 3 ∧ ¬ Ends h [true, true] 3 ∧
    h.vertex 3 = 4 := by
  obtain ⟨s, h, hr⟩ := C20_exists (b := 0) kite_full (by decide) flipper_ok ⟨bw, lf, !lf⟩ id hn
  have ht : Thorough flipper ⟨bw, lf, !lf⟩ kite := .inr (.inr ⟨by cases lf <;> rfl, ⟨by simp [flipper], .inl (by simp [flipper])⟩, kite_acyclic _⟩)
  have hf : Renames flipper not := fun v l w l' h => by cases h; rfl
  refine ⟨s, h, hr, (C167_words (g := kite) kite_full ht hf hr _ _).2 ⟨[false, true], rfl, .cons (b := 1) (by decide) (.cons (by decide) (.nil _))⟩, fun h1 => ?_,
    C167_vertices (g := kite) (ψ := (· + 1)) kite_full ht (fun v _ _ v' h => by cases h; rfl) hr (by decide)⟩
  obtain ⟨w, h2, h3⟩ := (C167_words (g := kite) kite_full ht hf hr _ _).1 h1
  have hw : w = [false, false] := by
    have := congrArg (List.map not) h2
    simpa [List.map_map, Function.comp_def] using this.symm
  subst hw
  · cases h3 with
    | cons h4 h5 =>
      cases h5 with
      | cons h6 h7 => simp [kite] at h4; subst h4; simp [kite] at h6

end Cru.Mutate
