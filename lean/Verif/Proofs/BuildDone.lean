import Verif.Proofs.BuildOwn
import Verif.Proofs.NetMain

set_option linter.unusedVariables false

namespace Cru.Build

open Cru.Net

variable {n : Nat} {V L : Type} {b : Builder V L} {hn : 0 < n} {v₀ : V}

theorem ends_breach {g : Job n V L} (h : Ends b hn v₀ g) : BReach b hn v₀ (g, 0) := by
  obtain ⟨s, h1, h2, rfl⟩ := h
  have h3 := reach_bag hn h1
  rw [(inv_finished (i₀ := firstPacket b v₀) (reach_inv hn h1) (by rw [h2]; trivial)).1] at h3
  exact h3

theorem status_fold (l : List Int) (s : Int) :
    (l.foldl (fun s e => if s = 0 then e else s) s = 0 ↔ s = 0 ∧ ∀ e ∈ l, e = 0) ∧
    (l.foldl (fun s e => if s = 0 then e else s) s = s ∨ l.foldl (fun s e => if s = 0 then e else s) s ∈ l) := by
  induction l generalizing s with
  | nil => simp
  | cons a l ih =>
    simp only [List.foldl_cons]
    obtain ⟨h1, h2⟩ := ih (if s = 0 then a else s)
    refine ⟨?_, ?_⟩
    · rw [h1]
      by_cases hs : s = 0 <;> simp [hs]
    · by_cases hs : s = 0
      · simp only [hs, if_true] at h2 ⊢
        right
        rcases h2 with h2 | h2
        · rw [h2]; exact List.mem_cons_self
        · exact List.mem_cons_of_mem _ h2
      · simp only [hs, if_false] at h2 ⊢
        rcases h2 with h2 | h2
        · exact .inl h2
        · exact .inr (List.mem_cons_of_mem _ h2)

theorem status_zero {g : Job n V L} : status g = 0 ↔ ∀ i, g.err i = 0 := by
  unfold status
  rw [(status_fold _ _).1]
  simp

theorem status_some {g : Job n V L} (h : status g ≠ 0) : ∃ i, status g = g.err i := by
  unfold status at h ⊢
  rcases (status_fold ((List.finRange n).map g.err) 0).2 with h1 | h1
  · exact absurd h1 h
  · rw [List.mem_map] at h1
    obtain ⟨i, _, hi⟩ := h1
    exact ⟨i, hi.symm⟩

theorem result_ok {g : Job n V L} {G} (h : result b hn v₀ g = .ok G) :
    (∀ i, g.err i = 0) ∧ g.killed = 0 ∧
    G = { base := (lane hn (b.vHash v₀), 0), nodes := fun i => (g.nodes i).zipIdx.map (fun x => finishNode b g i x.2 x.1) } := by
  unfold result at h
  split at h
  · cases h
  · rename_i h1
    split at h
    · cases h
    · rename_i h2
      refine ⟨status_zero.1 (by simpa using h1), by simpa using h2, ?_⟩
      cases h; rfl

theorem not_halted {g : Job n V L} {m} (hr : BReach b hn v₀ (g, m)) (he : ∀ i, g.err i = 0) (hk : g.killed = 0) :
    ¬ halted g := by
  rintro ⟨i, h | h⟩
  · exact h (he i)
  · exact (kinv_reach _ hr).1 i h hk

/-- The facts about a completed, successful job. -/
structure Success (b : Builder V L) (hn : 0 < n) (v₀ : V) (g : Job n V L) : Prop where
  inv : BInv b hn v₀ g 0
  calls : ∀ i, CInv b hn v₀ g i
  err : ∀ i, g.err i = 0
  quiet : ¬ halted g

theorem success_of {g : Job n V L} {G} (hb : b.Sane) (h : Ends b hn v₀ g) (hr : result b hn v₀ g = .ok G) :
    Success b hn v₀ g := by
  have h1 := ends_breach h
  obtain ⟨h2, h3, _⟩ := result_ok hr
  exact ⟨binv_reach hb _ h1, cinv_reach hb _ h1, h2, not_halted h1 h2 h3⟩

theorem Success.code (h : Success b hn v₀ g) {i : Fin n} {nd : Node V L} (hnd : nd ∈ g.nodes i) {inc} (hi : inc ∈ nd.seen) :
    (b.connect inc nd.vertex).1 = 0 :=
  ((h.calls i).fine (h.err i) _ ((h.calls i).made nd hnd inc hi)).1

theorem Success.edges (h : Success b hn v₀ g) {i : Fin n} {nd : Node V L} (hnd : nd ∈ g.nodes i) :
    nd.edges = nd.seen.flatMap fun inc => b.uniq (b.connect inc nd.vertex).2 := by
  have := h.inv.edges i nd hnd
  rwa [List.filter_eq_self.2] at this
  intro inc hinc
  simpa using h.code hnd hinc

theorem Success.linked (h : Success b hn v₀ g) {e : EdgeId n} {x : L × V} (hx : EdgeAt g e x) :
    ∃ t, g.link e = some t ∧ Settled b g t (b.along x.1) x.2 := by
  rcases h.inv.cover e x hx with h1 | h1 | h1
  · obtain ⟨t, ht⟩ := Option.isSome_iff_exists.1 h1
    obtain ⟨y, h2, h3⟩ := h.inv.link e t ht
    rw [edgeAt_unique hx h2]
    exact ⟨t, ht, h3⟩
  · simp at h1
  · exact absurd h1 h.quiet

theorem Settled.congr (hb : b.Sane) {g : Job n V L} {t : NodeId n} {inc inc' : Incident L} {v v' : V} (h : Settled b g t inc v)
    (h1 : b.incEq inc' inc = true) (h2 : b.vEq v' v = true) : Settled b g t inc' v' := by
  obtain ⟨nd, h3, h4, h5⟩ := h
  refine ⟨nd, h3, hb.v.trans _ _ _ h2 h4, ?_⟩
  rw [List.any_eq_true] at h5 ⊢
  obtain ⟨x, hx, hx'⟩ := h5
  exact ⟨x, hx, (incEq_equality hb).trans _ _ _ h1 hx'⟩

/-- An edge the callback asked for at a settled vertex is there. -/
theorem Success.edge (hb : b.Sane) (hr : b.Respects) (h : Success b hn v₀ g) {t : NodeId n} {inc v l w}
    (hs : Settled b g t inc v) (hw : (l, w) ∈ (b.connect inc v).2) :
    ∃ (nd : Node V L) (j : Nat) (x : L × V), (g.nodes t.1)[t.2]? = some nd ∧ b.vEq v nd.vertex = true ∧ nd.edges[j]? = some x ∧
      b.eEq l x.1 = true ∧ b.vEq w x.2 = true := by
  obtain ⟨nd, h1, h2, h3⟩ := hs
  rw [List.any_eq_true] at h3
  obtain ⟨inc', h4, h5⟩ := h3
  obtain ⟨x', h6, h7, h8⟩ := hr inc inc' v nd.vertex h5 h2 _ hw
  obtain ⟨o, h9, h10, h11⟩ := (uniq_transversal hb (b.connect inc' nd.vertex).2).covers x' h6
  have hmem := List.mem_of_getElem? h1
  have : o ∈ nd.edges := by
    rw [h.edges hmem, List.mem_flatMap]
    exact ⟨inc', h4, h9⟩
  obtain ⟨j, hj⟩ := List.mem_iff_getElem?.1 this
  exact ⟨nd, j, o, h1, h2, hj, hb.e.trans _ _ _ h7 (hb.e.symm _ _ h10), hb.v.trans _ _ _ h8 (hb.v.symm _ _ h11)⟩

theorem Success.first (hb : b.Sane) (h : Success b hn v₀ g) :
    ∃ nd, (g.nodes (lane hn (b.vHash v₀)))[0]? = some nd ∧ nd.vertex = v₀ ∧ b.first ∈ nd.seen := by
  rcases h.inv.phase with ⟨h1, _⟩ | ⟨_, h1 | ⟨nd, h1, h2, h3⟩⟩
  · exact absurd h1.symm (Multiset.singleton_ne_zero _)
  · exact absurd h1 h.quiet
  · exact ⟨nd, h1, h2, List.mem_of_getElem? h3⟩

theorem Success.settled (hb : b.Sane) (hr : b.Respects) (h : Success b hn v₀ g) {inc v} (hx : Reaches b v₀ inc v) :
    ∃ t, Settled b g t inc v := by
  induction hx with
  | base =>
    obtain ⟨nd, h1, h2, h3⟩ := h.first hb
    exact ⟨(lane hn (b.vHash v₀), 0), nd, h1, by rw [h2]; exact hb.v.refl _,
      List.any_eq_true.2 ⟨_, h3, (incEq_equality hb).refl _⟩⟩
  | step h1 h2 ih =>
    obtain ⟨t, ht⟩ := ih
    obtain ⟨nd, j, x, h3, _, h4, h5, h6⟩ := h.edge hb hr ht h2
    obtain ⟨t', _, h7⟩ := h.linked (e := (t.1, t.2, j)) (x := x) ⟨nd, h3, h4⟩
    exact ⟨t', h7.congr hb (along_eq h5) h6⟩

/-- Nodes with equal vertices are the same node. -/
theorem BInv.same (hb : b.Sane) {m} (h : BInv b hn v₀ g m) {t t' : NodeId n} {nd nd' : Node V L}
    (h1 : (g.nodes t.1)[t.2]? = some nd) (h2 : (g.nodes t'.1)[t'.2]? = some nd') (h3 : b.vEq nd.vertex nd'.vertex = true) :
    t = t' := by
  obtain ⟨i, k⟩ := t
  obtain ⟨i', k'⟩ := t'
  simp only at h1 h2
  have e1 : i = i' := by
    rw [← h.lanes i nd (List.mem_of_getElem? h1), ← h.lanes i' nd' (List.mem_of_getElem? h2), hb.vh _ _ h3]
  subst e1
  have hd := h.dist i
  rw [List.pairwise_iff_getElem] at hd
  obtain ⟨l1, e1⟩ := List.getElem?_eq_some_iff.1 h1
  obtain ⟨l2, e2⟩ := List.getElem?_eq_some_iff.1 h2
  rcases Nat.lt_trichotomy k k' with hk | hk | hk
  · have := hd k k' l1 l2 hk
    rw [e1, e2] at this; exact absurd h3 this
  · rw [hk]
  · have := hd k' k l2 l1 hk
    rw [e1, e2] at this; exact absurd (hb.v.symm _ _ h3) this

theorem graph_at {g : Job n V L} {B} {t : NodeId n} {x : GNode n V L} :
    Graph.at { base := B, nodes := fun i => (g.nodes i).zipIdx.map (fun x => finishNode b g i x.2 x.1) } t = some x ↔
      ∃ nd, (g.nodes t.1)[t.2]? = some nd ∧ finishNode b g t.1 t.2 nd = x := by
  simp only [Graph.at, List.getElem?_map, Option.map_eq_some_iff]
  constructor
  · rintro ⟨⟨a, k⟩, h1, h2⟩
    rw [List.getElem?_zipIdx, Option.map_eq_some_iff] at h1
    obtain ⟨nd, h3, h4⟩ := h1
    simp only [Prod.mk.injEq, zero_add] at h4
    obtain ⟨rfl, rfl⟩ := h4
    exact ⟨nd, h3, h2⟩
  · rintro ⟨nd, h1, h2⟩
    exact ⟨(nd, t.2), by rw [List.getElem?_zipIdx, h1]; simp, h2⟩

theorem addr_inj {x y : Option (NodeId n)} (h : addr x = addr y) : x = y := by
  rcases x with _ | ⟨i, k⟩ <;> rcases y with _ | ⟨i', k'⟩ <;> simp only [addr] at h
  · rfl
  · omega
  · omega
  · have h1 : k * n + i.val = k' * n + i'.val := by omega
    have e1 : k = k' := by
      have a1 : (k * n + i.val) / n = k := by
        rw [Nat.mul_comm, Nat.mul_add_div i.pos, Nat.div_eq_of_lt i.isLt, Nat.add_zero]
      have a2 : (k' * n + i'.val) / n = k' := by
        rw [Nat.mul_comm, Nat.mul_add_div i.pos, Nat.div_eq_of_lt i'.isLt, Nat.add_zero]
      rw [← a1, ← a2, h1]
    subst e1
    have : i = i' := by ext; omega
    rw [this]

theorem dedup_transversal (hb : b.Sane) (es : List (L × Option (NodeId n))) : ∃ dropped,
    IsTransversal (fun x y => b.eEq x.1 y.1 = true ∧ x.2 = y.2) es
      (deduplicatedEdges (fun e => addr e.2) (fun e f => b.eEq e.1 f.1) es).1 dropped := by
  obtain ⟨h1, h2, h3⟩ := deduplicatedBrigade_transversal (leq := fun e f : L × Option (NodeId n) => b.eEq e.1 f.1)
    ⟨fun a => hb.e.refl _, fun a c => hb.e.symm _ _, fun a c d => hb.e.trans _ _ _⟩
    (marshalled_grouping (fun e : L × Option (NodeId n) => addr e.2) es)
  refine ⟨_, h1, ?_, ?_⟩
  · exact h2.imp (fun hxy h => hxy ⟨by rw [h.2], h.1⟩)
  · intro e he
    obtain ⟨o, h4, h5, h6⟩ := h3 e he
    exact ⟨o, h4, h6, addr_inj h5⟩

theorem finish_sound (hb : b.Sane) {g : Job n V L} {i : Fin n} {k : Nat} {nd : Node V L} {l : L} {d : Option (NodeId n)}
    (h : (l, d) ∈ (finishNode b g i k nd).edges) : ∃ j w, nd.edges[j]? = some (l, w) ∧ g.link (i, k, j) = d := by
  have key : (l, d) ∈ nd.edges.zipIdx.map (fun e => (e.1.1, g.link (i, k, e.2))) →
      ∃ j w, nd.edges[j]? = some (l, w) ∧ g.link (i, k, j) = d := by
    intro h
    rw [List.mem_map] at h
    obtain ⟨⟨⟨l', w⟩, j⟩, h1, h2⟩ := h
    rw [List.mem_zipIdx_iff_getElem?] at h1
    simp only [Prod.mk.injEq] at h2
    exact ⟨j, w, by rw [← h2.1]; exact h1, h2.2⟩
  unfold finishNode at h
  simp only at h
  split at h
  · obtain ⟨dr, ht⟩ := dedup_transversal hb (nd.edges.zipIdx.map (fun e => (e.1.1, g.link (i, k, e.2))))
    exact key (ht.perm.mem_iff.1 (List.mem_append_left _ h))
  · exact key h

theorem finish_complete (hb : b.Sane) {g : Job n V L} {i : Fin n} {k : Nat} {nd : Node V L} {j : Nat} {x : L × V}
    (h : nd.edges[j]? = some x) : ∃ l, (l, g.link (i, k, j)) ∈ (finishNode b g i k nd).edges ∧ b.eEq x.1 l = true := by
  have key : (x.1, g.link (i, k, j)) ∈ nd.edges.zipIdx.map (fun e => (e.1.1, g.link (i, k, e.2))) := by
    rw [List.mem_map]
    exact ⟨(x, j), by rw [List.mem_zipIdx_iff_getElem?]; exact h, rfl⟩
  unfold finishNode
  simp only
  split
  · obtain ⟨dr, ht⟩ := dedup_transversal hb (nd.edges.zipIdx.map (fun e => (e.1.1, g.link (i, k, e.2))))
    obtain ⟨⟨l, d⟩, h1, h2, h3⟩ := ht.covers _ key
    simp only at h2 h3
    subst h3
    exact ⟨l, h1, hb.e.symm _ _ h2⟩
  · exact ⟨x.1, key, hb.e.refl _⟩

theorem BInv.single (hsub : b.sub = false) {i : Fin n} {nd : Node V L} {m} (h : BInv b hn v₀ g m) (hnd : nd ∈ g.nodes i)
    (hall : ∀ inc ∈ nd.seen, inc = .whole) : nd.seen = [] ∨ nd.seen = [.whole] := by
  have h1 := h.seen i nd hnd
  match hs : nd.seen with
  | [] => exact .inl rfl
  | [a] =>
    right
    rw [hs] at hall
    rw [hall a (by simp)]
  | a :: c :: r =>
    rw [hs] at hall h1
    rw [hall a (by simp), hall c (by simp)] at h1
    simp [Builder.incEq] at h1

theorem finish_distinct (hb : b.Sane) (h : Success b hn v₀ g) {i : Fin n} {k : Nat} {nd : Node V L} (hk : (g.nodes i)[k]? = some nd)
    (hw : b.sub = false → ∀ inc ∈ nd.seen, inc = .whole) :
    (finishNode b g i k nd).edges.Pairwise fun x y => ¬ (b.eEq x.1 y.1 = true ∧ x.2 = y.2) := by
  unfold finishNode
  simp only
  split
  · obtain ⟨dr, ht⟩ := dedup_transversal hb (nd.edges.zipIdx.map (fun e => (e.1.1, g.link (i, k, e.2))))
    exact ht.distinct
  · rename_i hsub
    have hsub : b.sub = false := by simpa using hsub
    have hnd := List.mem_of_getElem? hk
    have hd : nd.edges.Pairwise fun x y => ¬ (b.eEq x.1 y.1 = true ∧ b.vEq x.2 y.2 = true) := by
      rw [h.edges hnd]
      rcases h.inv.single hsub hnd (hw hsub) with h1 | h1 <;> rw [h1]
      · simp
      · simpa using (uniq_transversal hb _).distinct
    rw [List.pairwise_map, List.pairwise_iff_getElem]
    intro p q hp hq hpq
    rw [List.length_zipIdx] at hp hq
    simp only [List.getElem_zipIdx, zero_add]
    rintro ⟨h1, h2⟩
    rw [List.pairwise_iff_getElem] at hd
    refine hd p q hp hq hpq ⟨h1, ?_⟩
    obtain ⟨t, h3, nd1, h4, h5, _⟩ := h.linked (e := (i, k, p)) (x := nd.edges[p]) ⟨nd, hk, List.getElem?_eq_getElem hp⟩
    obtain ⟨t', h6, nd2, h7, h8, _⟩ := h.linked (e := (i, k, q)) (x := nd.edges[q]) ⟨nd, hk, List.getElem?_eq_getElem hq⟩
    rw [h2, h6] at h3
    cases h3
    rw [h4] at h7
    cases h7
    exact hb.v.trans _ _ _ h5 (hb.v.symm _ _ h8)

end Cru.Build
