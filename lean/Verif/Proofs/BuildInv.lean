import Verif.Proofs.BuildTrans
import Verif.Proofs.Edges
import Verif.Spec.Build

namespace Cru.Build

open Cru.Net

variable {n : Nat} {V L : Type} {b : Builder V L} {hn : 0 < n} {v₀ : V}

abbrev BReach (b : Builder V L) (hn : 0 < n) (v₀ : V) (x : Job n V L × Multiset (Packet n V L)) : Prop :=
  Bag.Reach (task b hn) (firstPacket b v₀) (start v₀) x

theorem breach_induct {motive : Job n V L → Multiset (Packet n V L) → Prop}
    (init : motive (start v₀) {firstPacket b v₀})
    (env : ∀ g m, BReach b hn v₀ (g, m) → motive g m → motive { g with killed := 1, asked := true } m)
    (step : ∀ g p rest g' out, BReach b hn v₀ (g, p ::ₘ rest) → motive g (p ::ₘ rest) →
      Trans b (lane hn (b.vHash p.payload)) g p g' out → motive g' ((out : Multiset (Packet n V L)) + rest)) :
    ∀ x, BReach b hn v₀ x → motive x.1 x.2 := by
  intro x hx
  induction hx with
  | init => exact init
  | step h hst ih =>
    cases hst with
    | env e g m => exact env g m h ih
    | handle g p rest =>
      have ht := handle_trans b (lane hn (b.vHash p.payload)) g p
      have := step g p rest _ _ h ih ht
      have e1 : Bag.produced (task b hn) g p = ((handle b (lane hn (b.vHash p.payload)) g p).2.1 : Multiset _) := by
        simp [Bag.produced, task, handle_noDefer]
      simp only [e1]
      exact this

theorem incEq_equality (hb : b.Sane) : IsEquality b.incEq := by
  refine ⟨?_, ?_, ?_⟩
  · intro a; cases a <;> simp [Builder.incEq, hb.e.refl]
  · intro a c; cases a <;> cases c <;> simp only [Builder.incEq, imp_self]
    exact hb.e.symm _ _
  · intro a c d
    cases a <;> cases c <;> cases d <;> simp [Builder.incEq]
    exact hb.e.trans _ _ _

theorem along_eq {l m : L} (h : b.eEq l m = true) : b.incEq (b.along l) (b.along m) = true := by
  unfold Builder.along
  cases b.sub <;> simp [Builder.incEq, h]

/-- The job can no longer succeed. -/
def halted (g : Job n V L) : Prop := ∃ i, g.err i ≠ 0 ∨ g.stop i = true

theorem find_some {nodes : List (Node V L)} {v : V} {k : Nat} {nd : Node V L} (h : find b nodes v = some k)
    (hk : nodes[k]? = some nd) : b.vEq v nd.vertex = true := by
  unfold find at h
  have h1 := List.findIdx?_eq_some_iff_getElem.1 h
  obtain ⟨hlt, h2, _⟩ := h1
  rw [List.getElem?_eq_getElem hlt] at hk
  cases hk
  simp only [Bool.and_eq_true] at h2
  exact h2.2

theorem find_none (hb : b.Sane) {nodes : List (Node V L)} {v : V} (h : find b nodes v = none) :
    ∀ nd ∈ nodes, ¬ b.vEq v nd.vertex = true := by
  intro nd hnd he
  unfold find at h
  rw [List.findIdx?_eq_none_iff] at h
  have := h nd hnd
  simp [he, hb.vh _ _ he] at this

/-- Node lists only grow: nodes keep their place and vertex, and gain callbacks and edges. -/
def Grows (g g' : Job n V L) : Prop :=
  ∀ (i : Fin n) (k : Nat) (nd : Node V L), (g.nodes i)[k]? = some nd → ∃ nd' : Node V L, (g'.nodes i)[k]? = some nd' ∧ nd'.vertex = nd.vertex ∧
    nd.seen <+: nd'.seen ∧ nd.edges <+: nd'.edges

theorem Grows.of_nodes_eq {g g' : Job n V L} (h : g'.nodes = g.nodes) : Grows g g' := by
  intro i k nd hk
  exact ⟨nd, by rw [h, hk], rfl, List.prefix_refl _, List.prefix_refl _⟩

theorem grows_set {g g' : Job n V L} {i : Fin n} {k : Nat} {nd nd' : Node V L} (hk : (g.nodes i)[k]? = some nd)
    (hv : nd'.vertex = nd.vertex) (hs : nd.seen <+: nd'.seen) (he : nd.edges <+: nd'.edges)
    (h : g'.nodes = Function.update g.nodes i ((g.nodes i).set k nd')) : Grows g g' := by
  intro j k' x hx
  by_cases hj : j = i
  · subst hj
    have hklt : k < (g.nodes j).length := by
      rw [List.getElem?_eq_some_iff] at hk; exact hk.1
    by_cases hkk : k' = k
    · subst hkk
      rw [hk] at hx; cases hx
      exact ⟨nd', by simp [h, hklt], hv, hs, he⟩
    · refine ⟨x, ?_, rfl, List.prefix_refl _, List.prefix_refl _⟩
      rw [h, Function.update_self, List.getElem?_set_ne (Ne.symm hkk), hx]
  · exact ⟨x, by rw [h, Function.update_of_ne hj, hx], rfl, List.prefix_refl _, List.prefix_refl _⟩

theorem grows_snoc {g g' : Job n V L} {i : Fin n} {nd' : Node V L}
    (h : g'.nodes = Function.update g.nodes i (g.nodes i ++ [nd'])) : Grows g g' := by
  intro j k x hx
  refine ⟨x, ?_, rfl, List.prefix_refl _, List.prefix_refl _⟩
  by_cases hj : j = i
  · subst hj
    have : k < (g.nodes j).length := by rw [List.getElem?_eq_some_iff] at hx; exact hx.1
    rw [h, Function.update_self, List.getElem?_append_left this, hx]
  · rw [h, Function.update_of_ne hj, hx]

theorem trans_grows {i : Fin n} {g g' : Job n V L} {p : Packet n V L} {out} (h : Trans b i g p g' out) :
    Grows g g' := by
  cases h with
  | drop => exact Grows.of_nodes_eq rfl
  | orphan => exact Grows.of_nodes_eq rfl
  | link => exact Grows.of_nodes_eq rfl
  | moreErr s k nd c he hs hf hk => 
    exact grows_set (nd' := { nd with seen := nd.seen ++ [p.inc] }) hk rfl (List.prefix_append _ _)
      (List.prefix_refl _) rfl
  | moreOk s k nd c he hs hf hk => 
    exact grows_set (nd' := { nd with seen := nd.seen ++ [p.inc], edges := nd.edges ++ b.uniq (b.connect p.inc nd.vertex).2 })
      hk rfl (List.prefix_append _ _) (List.prefix_append _ _) rfl
  | newErr => exact Grows.of_nodes_eq rfl
  | newOk => exact grows_snoc rfl

theorem trans_halted {i : Fin n} {g g' : Job n V L} {p : Packet n V L} {out} (h : Trans b i g p g' out)
    (hh : halted g) : halted g' := by
  obtain ⟨j, hj⟩ := hh
  have keep : ∀ (e : Int), g.err i = 0 → (g.err j ≠ 0 ∨ g.stop j = true) → g.stop i = false →
      ((Function.update g.err i e) j ≠ 0 ∨ g.stop j = true) := by
    intro e h1 h2 h3
    by_cases hji : j = i
    · subst hji; simp [h1, h3] at h2
    · rw [Function.update_of_ne hji]; exact h2
  cases h with
  | drop s c e k he hc hcm hk => exact ⟨i, .inr (by simp)⟩
  | orphan s k he hs hf hc => exact ⟨j, keep _ he hj hs⟩
  | link => exact ⟨j, hj⟩
  | moreErr s k nd c he hs => exact ⟨j, keep _ he hj hs⟩
  | moreOk => exact ⟨j, hj⟩
  | newErr s c he hs => exact ⟨j, keep _ he hj hs⟩
  | newOk => exact ⟨j, hj⟩

/-- The edge at position `e` is `x`. -/
def EdgeAt (g : Job n V L) (e : EdgeId n) (x : L × V) : Prop :=
  ∃ nd, (g.nodes e.1)[e.2.1]? = some nd ∧ nd.edges[e.2.2]? = some x

theorem EdgeAt.grows {g g' : Job n V L} (h : Grows g g') {e : EdgeId n} {x : L × V} (hx : EdgeAt g e x) :
    EdgeAt g' e x := by
  obtain ⟨nd, h1, h2⟩ := hx
  obtain ⟨nd', h3, _, _, h4⟩ := h _ _ _ h1
  obtain ⟨t, ht⟩ := h4
  refine ⟨nd', h3, ?_⟩
  rw [← ht]
  have : e.2.2 < nd.edges.length := by rw [List.getElem?_eq_some_iff] at h2; exact h2.1
  rw [List.getElem?_append_left this, h2]

theorem edgeAt_unique {g : Job n V L} {e : EdgeId n} {x y : L × V} (hx : EdgeAt g e x) (hy : EdgeAt g e y) : x = y := by
  obtain ⟨nd, h1, h2⟩ := hx
  obtain ⟨nd', h3, h4⟩ := hy
  rw [h1] at h3; cases h3
  rw [h2] at h4; cases h4; rfl

/-- Node `t` has a vertex equal to `v` and has been expanded for `inc`. -/
def Settled (b : Builder V L) (g : Job n V L) (t : NodeId n) (inc : Incident L) (v : V) : Prop :=
  ∃ nd, (g.nodes t.1)[t.2]? = some nd ∧ b.vEq v nd.vertex = true ∧ nd.seen.any (b.incEq inc) = true

theorem Settled.grows {g g' : Job n V L} (h : Grows g g') {t : NodeId n} {inc : Incident L} {v : V}
    (hx : Settled b g t inc v) : Settled b g' t inc v := by
  obtain ⟨nd, h1, h2, h3⟩ := hx
  obtain ⟨nd', h4, h5, h6, _⟩ := h _ _ _ h1
  refine ⟨nd', h4, by rw [h5]; exact h2, ?_⟩
  rw [List.any_eq_true] at h3 ⊢
  obtain ⟨x, hx, hx'⟩ := h3
  exact ⟨x, h6.subset hx, hx'⟩

theorem mem_scatterOut {i : Fin n} {k off : Nat} {es : List (L × V)} {p : Packet n V L} :
    p ∈ scatterOut b i k off es ↔ ∃ j x, es[j]? = some x ∧ p = ⟨x.2, b.along x.1, some (i, k, off + j)⟩ := by
  simp only [scatterOut, List.mem_map]
  constructor
  · rintro ⟨⟨x, m⟩, hx, rfl⟩
    rw [List.mem_zipIdx_iff_le_and_getElem?_sub] at hx
    exact ⟨m - off, x, hx.2, by simp; omega⟩
  · rintro ⟨j, x, hx, rfl⟩
    exact ⟨(x, off + j), by rw [List.mem_zipIdx_iff_le_and_getElem?_sub]; simp [hx], rfl⟩

structure BInv (b : Builder V L) (hn : 0 < n) (v₀ : V) (g : Job n V L) (pend : Multiset (Packet n V L)) : Prop where
  lanes : ∀ i, ∀ nd ∈ g.nodes i, lane hn (b.vHash nd.vertex) = i
  dist : ∀ i, (g.nodes i).Pairwise fun x y => ¬ b.vEq x.vertex y.vertex = true
  seen : ∀ i, ∀ nd ∈ g.nodes i, nd.seen.Pairwise fun x y => ¬ b.incEq x y = true
  edges : ∀ i, ∀ nd ∈ g.nodes i, nd.edges =
    (nd.seen.filter fun inc => (b.connect inc nd.vertex).1 = 0).flatMap fun inc => b.uniq (b.connect inc nd.vertex).2
  carry : ∀ p ∈ pend, ∀ e, p.carrier = some e → ∃ l, EdgeAt g e (l, p.payload) ∧ p.inc = b.along l
  phase : (pend = {firstPacket b v₀} ∧ ∀ i, g.nodes i = []) ∨
    ((∀ p ∈ pend, p.carrier ≠ none) ∧
      (halted g ∨ ∃ nd, (g.nodes (lane hn (b.vHash v₀)))[0]? = some nd ∧ nd.vertex = v₀ ∧ nd.seen[0]? = some b.first))
  link : ∀ e t, g.link e = some t → ∃ x, EdgeAt g e x ∧ Settled b g t (b.along x.1) x.2
  cover : ∀ e x, EdgeAt g e x → (g.link e).isSome ∨ (⟨x.2, b.along x.1, some e⟩ : Packet n V L) ∈ pend ∨ halted g

theorem mem_set_cases {l : List (Node V L)} {k : Nat} {nd' x : Node V L} (h : x ∈ l.set k nd') : x ∈ l ∨ x = nd' :=
  List.mem_or_eq_of_mem_set h

theorem pairwise_set {R : Node V L → Node V L → Prop} {l : List (Node V L)} {k : Nat} {nd nd' : Node V L}
    (h : l.Pairwise R) (hk : l[k]? = some nd) (h1 : ∀ x, R nd x → R nd' x) (h2 : ∀ x, R x nd → R x nd') :
    (l.set k nd').Pairwise R := by
  rw [List.getElem?_eq_some_iff] at hk
  obtain ⟨hlt, hk⟩ := hk
  rw [List.pairwise_iff_getElem] at h ⊢
  intro a c ha hc hac
  simp only [List.length_set] at ha hc
  have := h a c ha hc hac
  rw [List.getElem_set, List.getElem_set]
  split
  · rename_i e; subst e
    split
    · omega
    · exact h1 _ (hk ▸ this)
  · split
    · rename_i e; subst e; exact h2 _ (hk ▸ this)
    · exact this

/-- The parts of the invariant that concern one lane's nodes. -/
theorem binv_nodes_set {g : Job n V L} {pend} (h : BInv b hn v₀ g pend) {i : Fin n} {k : Nat} {nd nd' : Node V L}
    (hk : (g.nodes i)[k]? = some nd) (hv : nd'.vertex = nd.vertex)
    (hsn : nd'.seen.Pairwise fun x y => ¬ b.incEq x y = true)
    (hed : nd'.edges = (nd'.seen.filter fun inc => (b.connect inc nd'.vertex).1 = 0).flatMap
      fun inc => b.uniq (b.connect inc nd'.vertex).2) :
    let nodes := Function.update g.nodes i ((g.nodes i).set k nd')
    (∀ i, ∀ nd ∈ nodes i, lane hn (b.vHash nd.vertex) = i) ∧
    (∀ i, (nodes i).Pairwise fun x y => ¬ b.vEq x.vertex y.vertex = true) ∧
    (∀ i, ∀ nd ∈ nodes i, nd.seen.Pairwise fun x y => ¬ b.incEq x y = true) ∧
    (∀ i, ∀ nd ∈ nodes i, nd.edges =
      (nd.seen.filter fun inc => (b.connect inc nd.vertex).1 = 0).flatMap fun inc => b.uniq (b.connect inc nd.vertex).2) := by
  intro nodes
  have hmem : nd ∈ g.nodes i := List.mem_of_getElem? hk
  have cases_ : ∀ j, ∀ x ∈ nodes j, x ∈ g.nodes j ∨ (j = i ∧ x = nd') := by
    intro j x hx
    by_cases hj : j = i
    · subst hj
      simp only [nodes, Function.update_self] at hx
      rcases mem_set_cases hx with h | h
      · exact .inl h
      · exact .inr ⟨rfl, h⟩
    · simp only [nodes, Function.update_of_ne hj] at hx
      exact .inl hx
  refine ⟨?_, ?_, ?_, ?_⟩
  · intro j x hx
    rcases cases_ j x hx with hx | ⟨rfl, rfl⟩
    · exact h.lanes j x hx
    · rw [hv]; exact h.lanes _ nd hmem
  · intro j
    by_cases hj : j = i
    · subst hj
      simp only [nodes, Function.update_self]
      refine pairwise_set (h.dist j) hk ?_ ?_
      · intro x; rw [hv]; exact id
      · intro x; rw [hv]; exact id
    · simp only [nodes, Function.update_of_ne hj]; exact h.dist j
  · intro j x hx
    rcases cases_ j x hx with hx | ⟨rfl, rfl⟩
    · exact h.seen j x hx
    · exact hsn
  · intro j x hx
    rcases cases_ j x hx with hx | ⟨rfl, rfl⟩
    · exact h.edges j x hx
    · exact hed

theorem edgeAt_set {g g' : Job n V L} {i : Fin n} {k : Nat} {nd nd' : Node V L} {new : List (L × V)}
    (hk : (g.nodes i)[k]? = some nd) (hed : nd'.edges = nd.edges ++ new)
    (h : g'.nodes = Function.update g.nodes i ((g.nodes i).set k nd')) {e : EdgeId n} {x : L × V} (hx : EdgeAt g' e x) :
    EdgeAt g e x ∨ ∃ j, new[j]? = some x ∧ e = (i, k, nd.edges.length + j) := by
  obtain ⟨y, h1, h2⟩ := hx
  obtain ⟨i', k', j⟩ := e
  simp only at h1 h2
  have hklt : k < (g.nodes i).length := by rw [List.getElem?_eq_some_iff] at hk; exact hk.1
  by_cases hi : i' = i
  · subst hi
    by_cases hkk : k' = k
    · subst hkk
      rw [h, Function.update_self, List.getElem?_set_self hklt] at h1
      cases h1
      rw [hed] at h2
      by_cases hj : j < nd.edges.length
      · rw [List.getElem?_append_left hj] at h2
        exact .inl ⟨nd, hk, h2⟩
      · rw [List.getElem?_append_right (by omega)] at h2
        exact .inr ⟨j - nd.edges.length, h2, by simp; omega⟩
    · rw [h, Function.update_self, List.getElem?_set_ne (Ne.symm hkk)] at h1
      exact .inl ⟨y, h1, h2⟩
  · rw [h, Function.update_of_ne hi] at h1
    exact .inl ⟨y, h1, h2⟩

theorem edgeAt_snoc {g g' : Job n V L} {i : Fin n} {nd' : Node V L}
    (h : g'.nodes = Function.update g.nodes i (g.nodes i ++ [nd'])) {e : EdgeId n} {x : L × V} (hx : EdgeAt g' e x) :
    EdgeAt g e x ∨ ∃ j, nd'.edges[j]? = some x ∧ e = (i, (g.nodes i).length, 0 + j) := by
  obtain ⟨y, h1, h2⟩ := hx
  obtain ⟨i', k', j⟩ := e
  simp only at h1 h2
  by_cases hi : i' = i
  · subst hi
    rw [h, Function.update_self] at h1
    by_cases hkk : k' < (g.nodes i').length
    · rw [List.getElem?_append_left hkk] at h1
      exact .inl ⟨y, h1, h2⟩
    · rw [List.getElem?_append_right (by omega)] at h1
      rw [List.getElem?_singleton] at h1
      split at h1
      · cases h1
        exact .inr ⟨j, h2, by simp; omega⟩
      · cases h1
  · rw [h, Function.update_of_ne hi] at h1
    exact .inl ⟨y, h1, h2⟩

theorem edgeAt_congr {g g' : Job n V L} (h : g'.nodes = g.nodes) {e : EdgeId n} {x : L × V} :
    EdgeAt g' e x ↔ EdgeAt g e x := by
  simp [EdgeAt, h]

/-- Assembling the invariant after a step from what is specific to each branch. -/
theorem binv_assemble {g g' : Job n V L} {p : Packet n V L} {rest : Multiset (Packet n V L)}
    {out : List (Packet n V L)} {new : EdgeId n → L × V → Prop}
    (h : BInv b hn v₀ g (p ::ₘ rest)) (hg : Grows g g') (hh : halted g → halted g')
    (h1 : ∀ i, ∀ nd ∈ g'.nodes i, lane hn (b.vHash nd.vertex) = i)
    (h2 : ∀ i, (g'.nodes i).Pairwise fun x y => ¬ b.vEq x.vertex y.vertex = true)
    (h3 : ∀ i, ∀ nd ∈ g'.nodes i, nd.seen.Pairwise fun x y => ¬ b.incEq x y = true)
    (h4 : ∀ i, ∀ nd ∈ g'.nodes i, nd.edges =
      (nd.seen.filter fun inc => (b.connect inc nd.vertex).1 = 0).flatMap fun inc => b.uniq (b.connect inc nd.vertex).2)
    (hnew : ∀ e x, EdgeAt g' e x → EdgeAt g e x ∨ new e x)
    (hnew' : ∀ e x, new e x → EdgeAt g' e x)
    (hout : ∀ q, q ∈ out ↔ ∃ e x, new e x ∧ q = ⟨x.2, b.along x.1, some e⟩)
    (hfirst : p = firstPacket b v₀ → (∀ i, g.nodes i = []) → halted g' ∨
      ∃ nd, (g'.nodes (lane hn (b.vHash v₀)))[0]? = some nd ∧ nd.vertex = v₀ ∧ nd.seen[0]? = some b.first)
    (hlink : ∀ e t, g'.link e = some t → g.link e = some t ∨ (p.carrier = some e ∧ Settled b g' t p.inc p.payload))
    (hlink' : ∀ e, (g.link e).isSome → (g'.link e).isSome)
    (hp : ∀ e, p.carrier = some e → (g'.link e).isSome ∨ halted g') :
    BInv b hn v₀ g' ((out : Multiset (Packet n V L)) + rest) where
  lanes := h1
  dist := h2
  seen := h3
  edges := h4
  carry := by
    intro q hq e he
    rcases Multiset.mem_add.1 hq with hq | hq
    · obtain ⟨e', x, hx, rfl⟩ := (hout q).1 hq
      cases he
      exact ⟨x.1, hnew' _ _ hx, rfl⟩
    · obtain ⟨l, h5, h6⟩ := h.carry q (Multiset.mem_cons_of_mem hq) e he
      exact ⟨l, h5.grows hg, h6⟩
  phase := by
    right
    have hc : ∀ q ∈ out, q.carrier ≠ none := by
      intro q hq
      obtain ⟨e', x, hx, rfl⟩ := (hout q).1 hq
      simp
    rcases h.phase with ⟨ha, hb'⟩ | ⟨ha, hb'⟩
    · have : p = firstPacket b v₀ ∧ rest = 0 := by
        have hp : p ∈ ({firstPacket b v₀} : Multiset (Packet n V L)) := by rw [← ha]; simp
        have hp := Multiset.mem_singleton.1 hp
        subst hp
        refine ⟨rfl, ?_⟩
        have := congrArg Multiset.card ha
        simp only [Multiset.card_cons, Multiset.card_singleton] at this
        exact Multiset.card_eq_zero.1 (by omega)
      refine ⟨?_, hfirst this.1 hb'⟩
      intro q hq
      rw [this.2, add_zero] at hq
      exact hc q hq
    · refine ⟨?_, ?_⟩
      · intro q hq
        rcases Multiset.mem_add.1 hq with hq | hq
        · exact hc q hq
        · exact ha q (Multiset.mem_cons_of_mem hq)
      · rcases hb' with hb' | ⟨nd, h5, h6, h7⟩
        · exact .inl (hh hb')
        · obtain ⟨nd', h8, h9, ⟨t, ht⟩, _⟩ := hg _ _ _ h5
          refine .inr ⟨nd', h8, by rw [h9, h6], ?_⟩
          rw [← ht]
          have : 0 < nd.seen.length := by rw [List.getElem?_eq_some_iff] at h7; exact h7.1
          rw [List.getElem?_append_left this, h7]
  link := by
    intro e t het
    rcases hlink e t het with h5 | ⟨h5, h6⟩
    · obtain ⟨x, h7, h8⟩ := h.link e t h5
      exact ⟨x, h7.grows hg, h8.grows hg⟩
    · obtain ⟨l, h7, h8⟩ := h.carry p (Multiset.mem_cons_self _ _) e h5
      exact ⟨(l, p.payload), h7.grows hg, by rw [← h8]; exact h6⟩
  cover := by
    intro e x hx
    rcases hnew e x hx with hx | hx
    · rcases h.cover e x hx with h5 | h5 | h5
      · exact .inl (hlink' e h5)
      · rcases Multiset.mem_cons.1 h5 with h5 | h5
        · rcases hp e (by rw [← h5]) with h6 | h6
          · exact .inl h6
          · exact .inr (.inr h6)
        · exact .inr (.inl (Multiset.mem_add.2 (.inr h5)))
      · exact .inr (.inr (hh h5))
    · exact .inr (.inl (Multiset.mem_add.2 (.inl ((hout _).2 ⟨e, x, hx, rfl⟩))))

theorem update_link_some {g : Job n V L} {c e : EdgeId n} {t t' : NodeId n}
    (h : Function.update g.link c (some t) e = some t') : g.link e = some t' ∨ (c = e ∧ t' = t) := by
  by_cases hc : e = c
  · subst hc; simp at h; exact .inr ⟨rfl, h.symm⟩
  · rw [Function.update_of_ne hc] at h; exact .inl h

theorem update_link_isSome {g : Job n V L} {c e : EdgeId n} {t : NodeId n}
    (h : (g.link e).isSome) : (Function.update g.link c (some t) e).isSome := by
  by_cases hc : e = c
  · subst hc; simp
  · rw [Function.update_of_ne hc]; exact h

theorem binv_trans (hb : b.Sane) {g g' : Job n V L} {p : Packet n V L} {rest : Multiset (Packet n V L)}
    {out : List (Packet n V L)} (h : BInv b hn v₀ g (p ::ₘ rest))
    (ht : Trans b (lane hn (b.vHash p.payload)) g p g' out) :
    BInv b hn v₀ g' ((out : Multiset (Packet n V L)) + rest) := by
  have hg := trans_grows ht
  have hh := trans_halted ht
  have ie := incEq_equality hb
  have nofirst : ∀ c, p.carrier = some c → p ≠ firstPacket b v₀ := by
    intro c hc he; rw [he] at hc; cases hc
  cases ht with
  | drop s c e k he hc hcm hk =>
    have hst : halted { g with
        sample := s, count := c, err := e, killed := k,
        stop := Function.update g.stop (lane hn (b.vHash p.payload)) true, vFree := p.payload ::ₘ g.vFree } :=
      ⟨lane hn (b.vHash p.payload), .inr (by simp)⟩
    exact binv_assemble (new := fun _ _ => False) h hg hh h.lanes h.dist h.seen h.edges
      (fun e x hx => .inl hx) (by simp) (by simp) (fun _ _ => .inl hst) (fun e t he => .inl he) (fun e he => he)
      (fun e he => .inr hst)
  | orphan s k he hs hf hc =>
    exfalso
    rcases h.phase with ⟨_, h5⟩ | ⟨h5, _⟩
    · rw [h5] at hf; simp [find] at hf
    · exact h5 p (Multiset.mem_cons_self _ _) hc
  | link s k nd c he hs hf hk hc hseen =>
    refine binv_assemble (new := fun _ _ => False) h hg hh h.lanes h.dist h.seen h.edges
      (fun e x hx => .inl hx) (by simp) (by simp) (fun h5 => absurd h5 (nofirst c hc)) ?_
      (fun e he => update_link_isSome he) ?_
    · intro e t het
      rcases update_link_some het with h5 | ⟨rfl, rfl⟩
      · exact .inl h5
      · exact .inr ⟨hc, nd, hk, find_some hf hk, hseen⟩
    · intro e he; rw [hc] at he; cases he; simp
  | moreErr s k nd c he hs hf hk hc hseen hx =>
    have hmem : nd ∈ g.nodes _ := List.mem_of_getElem? hk
    have hsn : (nd.seen ++ [p.inc]).Pairwise fun x y => ¬ b.incEq x y = true := by
      rw [List.pairwise_append]
      refine ⟨h.seen _ nd hmem, by simp, ?_⟩
      intro x hx' y hy hxy
      simp only [List.mem_singleton] at hy
      subst hy
      have := List.any_eq_true.2 ⟨x, hx', ie.symm _ _ hxy⟩
      rw [hseen] at this; cases this
    obtain ⟨n1, n2, n3, n4⟩ := binv_nodes_set (nd' := { nd with seen := nd.seen ++ [p.inc] }) h hk rfl hsn (by
      simp only [List.filter_append, List.flatMap_append]
      rw [h.edges _ nd hmem]
      simp [hx])
    refine binv_assemble (new := fun _ _ => False) h hg hh n1 n2 n3 n4 ?_ (by simp) (by simp)
      (fun h5 => absurd h5 (nofirst c hc)) ?_ (fun e he => update_link_isSome he) ?_
    · intro e x hx'
      rcases edgeAt_set (nd' := { nd with seen := nd.seen ++ [p.inc] }) (new := []) hk (by simp) rfl hx' with h5 | ⟨j, h5, _⟩
      · exact .inl h5
      · simp at h5
    · intro e t het
      rcases update_link_some het with h5 | ⟨rfl, rfl⟩
      · exact .inl h5
      · refine .inr ⟨hc, { nd with seen := nd.seen ++ [p.inc] }, ?_, (find_some hf hk : b.vEq p.payload nd.vertex = true), ?_⟩
        · have hklt := (List.getElem?_eq_some_iff.1 hk).1
          simp [hklt]
        · simp [ie.refl]
    · intro e he; rw [hc] at he; cases he; simp
  | moreOk s k nd c he hs hf hk hc hseen hx =>
    have hmem : nd ∈ g.nodes _ := List.mem_of_getElem? hk
    have hsn : (nd.seen ++ [p.inc]).Pairwise fun x y => ¬ b.incEq x y = true := by
      rw [List.pairwise_append]
      refine ⟨h.seen _ nd hmem, by simp, ?_⟩
      intro x hx' y hy hxy
      simp only [List.mem_singleton] at hy
      subst hy
      have := List.any_eq_true.2 ⟨x, hx', ie.symm _ _ hxy⟩
      rw [hseen] at this; cases this
    have hklt := (List.getElem?_eq_some_iff.1 hk).1
    obtain ⟨n1, n2, n3, n4⟩ := binv_nodes_set
      (nd' := { nd with seen := nd.seen ++ [p.inc], edges := nd.edges ++ b.uniq (b.connect p.inc nd.vertex).2 }) h hk rfl hsn (by
      simp only [List.filter_append, List.flatMap_append]
      rw [h.edges _ nd hmem]
      simp [hx])
    refine binv_assemble (new := fun e x => ∃ j, (b.uniq (b.connect p.inc nd.vertex).2)[j]? = some x ∧
        e = (lane hn (b.vHash p.payload), k, nd.edges.length + j)) h hg hh n1 n2 n3 n4 ?_ ?_ ?_
      (fun h5 => absurd h5 (nofirst c hc)) ?_ (fun e he => update_link_isSome he) ?_
    · intro e x hx'
      exact edgeAt_set
        (nd' := { nd with seen := nd.seen ++ [p.inc], edges := nd.edges ++ b.uniq (b.connect p.inc nd.vertex).2 })
        hk rfl rfl hx'
    · rintro e x ⟨j, hj, rfl⟩
      refine ⟨{ nd with seen := nd.seen ++ [p.inc], edges := nd.edges ++ b.uniq (b.connect p.inc nd.vertex).2 }, ?_, ?_⟩
      · simp [hklt]
      · simp only []
        rw [List.getElem?_append_right (by omega)]
        rw [← hj]; congr 1; omega
    · intro q
      rw [mem_scatterOut]
      constructor
      · rintro ⟨j, x, hj, rfl⟩; exact ⟨_, x, ⟨j, hj, rfl⟩, rfl⟩
      · rintro ⟨_, x, ⟨j, hj, rfl⟩, rfl⟩; exact ⟨j, x, hj, rfl⟩
    · intro e t het
      rcases update_link_some het with h5 | ⟨rfl, rfl⟩
      · exact .inl h5
      · refine .inr ⟨hc, { nd with seen := nd.seen ++ [p.inc], edges := nd.edges ++ b.uniq (b.connect p.inc nd.vertex).2 }, ?_,
          (find_some hf hk : b.vEq p.payload nd.vertex = true), ?_⟩
        · simp [hklt]
        · simp [ie.refl]
    · intro e he; rw [hc] at he; cases he; simp
  | newErr s c he hs hf hl hx =>
    have hst : halted { g with
        sample := s, count := c,
        calls := Function.update g.calls (lane hn (b.vHash p.payload)) (g.calls (lane hn (b.vHash p.payload)) ++ [(p.inc, p.payload)]),
        err := Function.update g.err (lane hn (b.vHash p.payload)) (b.connect p.inc p.payload).1,
        vNew := g.vNew + ((b.connect p.inc p.payload).2.map Prod.snd : List V),
        lNew := g.lNew + ((b.connect p.inc p.payload).2.map Prod.fst : List L),
        vFree := p.payload ::ₘ g.vFree + ((b.connect p.inc p.payload).2.map Prod.snd : List V),
        lFree := g.lFree + ((b.connect p.inc p.payload).2.map Prod.fst : List L) } :=
      ⟨lane hn (b.vHash p.payload), .inl (by simp only [Function.update_self]; exact hx)⟩
    exact binv_assemble (new := fun _ _ => False) h hg hh h.lanes h.dist h.seen h.edges
      (fun e x hx => .inl hx) (by simp) (by simp) (fun _ _ => .inl hst) (fun e t he => .inl he) (fun e he => he)
      (fun e he => .inr hst)
  | newOk s c he hs hf hl hx =>
    have cases_ : ∀ j, ∀ x ∈ Function.update g.nodes (lane hn (b.vHash p.payload)) (g.nodes (lane hn (b.vHash p.payload)) ++
          [{ vertex := p.payload, seen := [p.inc], edges := b.uniq (b.connect p.inc p.payload).2 }]) j,
        x ∈ g.nodes j ∨ (j = lane hn (b.vHash p.payload) ∧
          x = { vertex := p.payload, seen := [p.inc], edges := b.uniq (b.connect p.inc p.payload).2 }) := by
      intro j x hx
      by_cases hj : j = lane hn (b.vHash p.payload)
      · subst hj
        simp only [Function.update_self, List.mem_append, List.mem_singleton] at hx
        rcases hx with h | h
        · exact .inl h
        · exact .inr ⟨rfl, h⟩
      · rw [Function.update_of_ne hj] at hx
        exact .inl hx
    refine binv_assemble (new := fun e x => ∃ j, (b.uniq (b.connect p.inc p.payload).2)[j]? = some x ∧
        e = (lane hn (b.vHash p.payload), (g.nodes (lane hn (b.vHash p.payload))).length, 0 + j)) h hg hh
        ?_ ?_ ?_ ?_ ?_ ?_ ?_ ?_ ?_ ?_ ?_
    · intro j x hx
      rcases cases_ j x hx with hx | ⟨rfl, rfl⟩
      · exact h.lanes j x hx
      · rfl
    · intro j
      by_cases hj : j = lane hn (b.vHash p.payload)
      · subst hj
        simp only [Function.update_self]
        rw [List.pairwise_append]
        refine ⟨h.dist _, by simp, ?_⟩
        intro x hx y hy hxy
        simp only [List.mem_singleton] at hy
        subst hy
        exact find_none hb hf x hx (hb.v.symm _ _ hxy)
      · simp only [Function.update_of_ne hj]; exact h.dist j
    · intro j x hx
      rcases cases_ j x hx with hx | ⟨rfl, rfl⟩
      · exact h.seen j x hx
      · simp
    · intro j x hx'
      rcases cases_ j x hx' with hx' | ⟨rfl, rfl⟩
      · exact h.edges j x hx'
      · simp [hx]
    · intro e x hx'
      exact edgeAt_snoc (nd' := { vertex := p.payload, seen := [p.inc], edges := b.uniq (b.connect p.inc p.payload).2 })
        rfl hx'
    · rintro e x ⟨j, hj, rfl⟩
      refine ⟨{ vertex := p.payload, seen := [p.inc], edges := b.uniq (b.connect p.inc p.payload).2 }, ?_, ?_⟩
      · simp
      · simp [hj]
    · intro q
      rw [mem_scatterOut]
      constructor
      · rintro ⟨j, x, hj, rfl⟩; exact ⟨_, x, ⟨j, hj, rfl⟩, rfl⟩
      · rintro ⟨_, x, ⟨j, hj, rfl⟩, rfl⟩; exact ⟨j, x, hj, rfl⟩
    · rintro rfl hem
      right
      refine ⟨{ vertex := v₀, seen := [b.first], edges := b.uniq (b.connect b.first v₀).2 }, ?_, rfl, rfl⟩
      simp [firstPacket, hem]
    · intro e t het
      cases hc : p.carrier with
      | none => simp only [hc] at het; exact .inl het
      | some c =>
        simp only [hc] at het
        rcases update_link_some het with h5 | ⟨rfl, rfl⟩
        · exact .inl h5
        · refine .inr ⟨rfl, { vertex := p.payload, seen := [p.inc], edges := b.uniq (b.connect p.inc p.payload).2 }, ?_, hb.v.refl _, ?_⟩
          · simp
          · simp [ie.refl]
    · intro e he
      simp only
      cases hc : p.carrier with
      | none => exact he
      | some c => exact update_link_isSome he
    · intro e he
      simp only [he]
      simp

theorem binv_reach (hb : b.Sane) : ∀ x, BReach b hn v₀ x → BInv b hn v₀ x.1 x.2 := by
  refine breach_induct (motive := fun g m => BInv b hn v₀ g m) ?_ ?_ ?_
  · refine ⟨by simp [start], by simp [start], by simp [start], by simp [start], ?_, ?_, ?_, ?_⟩
    · intro p hp e he
      simp only [Multiset.mem_singleton] at hp
      subst hp; cases he
    · exact .inl ⟨rfl, fun _ => rfl⟩
    · intro e t h; cases h
    · rintro e x ⟨nd, h1, _⟩; simp [start] at h1
  · intro g m _ h
    exact ⟨h.lanes, h.dist, h.seen, h.edges, h.carry, h.phase, h.link, h.cover⟩
  · intro g p rest g' out _ h ht
    exact binv_trans hb h ht

end Cru.Build
