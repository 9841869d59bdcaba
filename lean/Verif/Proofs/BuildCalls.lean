import Verif.Proofs.BuildInv

set_option linter.unusedVariables false

namespace Cru.Build

open Cru.Net

variable {n : Nat} {V L : Type} {b : Builder V L} {hn : 0 < n} {v₀ : V}

/-- Reachable up to equality. -/
def RU (b : Builder V L) (v₀ : V) (inc : Incident L) (v : V) : Prop :=
  ∃ inc' v', Reaches b v₀ inc' v' ∧ b.incEq inc' inc = true ∧ b.vEq v' v = true

def Sound (b : Builder V L) (v₀ : V) (g : Job n V L) : Prop :=
  ∀ i, ∀ nd ∈ g.nodes i, ∀ inc ∈ nd.seen, RU b v₀ inc nd.vertex

theorem mem_uniq (hb : b.Sane) {es : List (L × V)} {x : L × V} (h : x ∈ b.uniq es) : x ∈ es := by
  have := unique_transversal (h := fun e : L × V => b.eHash e.1) (leq := fun e f => b.eEq e.1 f.1)
    (veq := fun e f => b.vEq e.2 f.2) ⟨fun a => hb.e.refl _, fun a c => hb.e.symm _ _, fun a c d => hb.e.trans _ _ _⟩
    (fun a c => hb.eh _ _) ⟨fun a => hb.v.refl _, fun a c => hb.v.symm _ _, fun a c d => hb.v.trans _ _ _⟩ es
  exact this.perm.mem_iff.1 (List.mem_append.2 (.inl h))

theorem uniq_transversal (hb : b.Sane) (es : List (L × V)) :
    IsTransversal (fun x y => b.eEq x.1 y.1 = true ∧ b.vEq x.2 y.2 = true) es (b.uniq es) (b.dropped es) :=
  unique_transversal (h := fun e : L × V => b.eHash e.1) (leq := fun e f => b.eEq e.1 f.1)
    (veq := fun e f => b.vEq e.2 f.2) ⟨fun a => hb.e.refl _, fun a c => hb.e.symm _ _, fun a c d => hb.e.trans _ _ _⟩
    (fun a c => hb.eh _ _) ⟨fun a => hb.v.refl _, fun a c => hb.v.symm _ _, fun a c d => hb.v.trans _ _ _⟩ es

theorem edgeAt_origin (hb : b.Sane) {g : Job n V L} {m} (h : BInv b hn v₀ g m) {e : EdgeId n} {x : L × V} (hx : EdgeAt g e x) :
    ∃ nd ∈ g.nodes e.1, ∃ inc ∈ nd.seen, x ∈ (b.connect inc nd.vertex).2 := by
  obtain ⟨nd, h1, h2⟩ := hx
  have hmem := List.mem_of_getElem? h1
  have h3 := List.mem_of_getElem? h2
  rw [h.edges _ nd hmem, List.mem_flatMap] at h3
  obtain ⟨inc, h4, h5⟩ := h3
  exact ⟨nd, hmem, inc, (List.mem_filter.1 h4).1, mem_uniq hb h5⟩

theorem packet_RU (hb : b.Sane) (hr : b.Respects) {g : Job n V L} {m} (h : BInv b hn v₀ g m) (hs : Sound b v₀ g)
    {p : Packet n V L} (hp : p ∈ m) : RU b v₀ p.inc p.payload := by
  have ie := incEq_equality hb
  cases hc : p.carrier with
  | none =>
    rcases h.phase with ⟨h1, _⟩ | ⟨h1, _⟩
    · rw [h1, Multiset.mem_singleton] at hp
      subst hp
      exact ⟨b.first, v₀, .base, ie.refl _, hb.v.refl _⟩
    · exact absurd hc (h1 p hp)
  | some e =>
    obtain ⟨l, h1, h2⟩ := h.carry p hp e hc
    obtain ⟨nd, h3, inc, h4, h5⟩ := edgeAt_origin hb h h1
    obtain ⟨inc', v', h6, h7, h8⟩ := hs _ nd h3 inc h4
    obtain ⟨x', h9, h10, h11⟩ := hr inc inc' nd.vertex v' (ie.symm _ _ h7) (hb.v.symm _ _ h8) _ h5
    refine ⟨b.along x'.1, x'.2, .step h6 h9, ?_, hb.v.symm _ _ h11⟩
    rw [h2]
    exact along_eq (hb.e.symm _ _ h10)

theorem RU_congr (hb : b.Sane) {inc : Incident L} {v w : V} (h : RU b v₀ inc v) (hv : b.vEq v w = true) : RU b v₀ inc w := by
  obtain ⟨inc', v', h1, h2, h3⟩ := h
  exact ⟨inc', v', h1, h2, hb.v.trans _ _ _ h3 hv⟩

theorem sound_trans (hb : b.Sane) (hr : b.Respects) {g g' : Job n V L} {p : Packet n V L} {rest} {out} {i : Fin n}
    (hi : BInv b hn v₀ g (p ::ₘ rest)) (h : Sound b v₀ g) (ht : Trans b i g p g' out) : Sound b v₀ g' := by
  have hp := packet_RU hb hr hi h (Multiset.mem_cons_self p rest)
  have set_ : ∀ k nd nd', (g.nodes i)[k]? = some nd → nd'.vertex = nd.vertex → nd'.seen = nd.seen ++ [p.inc] →
      find b (g.nodes i) p.payload = some k →
      ∀ j, ∀ x ∈ Function.update g.nodes i ((g.nodes i).set k nd') j, ∀ inc ∈ x.seen, RU b v₀ inc x.vertex := by
    intro k nd nd' hk hv hsn hf j x hx inc hinc
    by_cases hj : j = i
    · subst hj
      rw [Function.update_self] at hx
      rcases mem_set_cases hx with hx | rfl
      · exact h j x hx inc hinc
      · rw [hsn, List.mem_append, List.mem_singleton] at hinc
        rw [hv]
        rcases hinc with hinc | rfl
        · exact h j nd (List.mem_of_getElem? hk) inc hinc
        · exact RU_congr hb hp (find_some hf hk)
    · rw [Function.update_of_ne hj] at hx
      exact h j x hx inc hinc
  cases ht with
  | drop => exact h
  | orphan => exact h
  | link => exact h
  | moreErr s k nd c he hs hf hk hc hseen hx =>
    exact set_ k nd { nd with seen := nd.seen ++ [p.inc] } hk rfl rfl hf
  | moreOk s k nd c he hs hf hk hc hseen hx =>
    exact set_ k nd { nd with seen := nd.seen ++ [p.inc], edges := nd.edges ++ b.uniq (b.connect p.inc nd.vertex).2 }
      hk rfl rfl hf
  | newErr => exact h
  | newOk s c he hs hf hl hx =>
    intro j x hx inc hinc
    by_cases hj : j = i
    · subst hj
      simp only [Function.update_self, List.mem_append, List.mem_singleton] at hx
      rcases hx with hx | rfl
      · exact h j x hx inc hinc
      · simp only [List.mem_singleton] at hinc
        subst hinc; exact hp
    · simp only [Function.update_of_ne hj] at hx
      exact h j x hx inc hinc

theorem sound_reach (hb : b.Sane) (hr : b.Respects) : ∀ x, BReach b hn v₀ x → Sound b v₀ x.1 := by
  refine breach_induct (motive := fun g m => Sound b v₀ g) ?_ ?_ ?_
  · simp [Sound, start]
  · intro g m _ h; exact h
  · intro g p rest g' out hx h ht
    exact sound_trans hb hr (binv_reach hb _ hx) h ht

/-- For connectors, vertices are reachable on the nose. -/
theorem sound_connector (hb : b.Sane) (hsub : b.sub = false) : ∀ x, BReach b hn v₀ x →
    ∀ i, ∀ nd ∈ x.1.nodes i, Reaches b v₀ .whole nd.vertex ∧ ∀ inc ∈ nd.seen, inc = .whole := by
  refine breach_induct (motive := fun g m => ∀ i, ∀ nd ∈ g.nodes i,
    Reaches b v₀ .whole nd.vertex ∧ ∀ inc ∈ nd.seen, inc = .whole) ?_ ?_ ?_
  · simp [start]
  · intro g m _ h; exact h
  · intro g p rest g' out hx h ht
    have hi := binv_reach hb _ hx
    have hp : p.inc = .whole ∧ Reaches b v₀ .whole p.payload := by
      cases hc : p.carrier with
      | none =>
        rcases hi.phase with ⟨h1, _⟩ | ⟨h1, _⟩
        · have : p ∈ ({firstPacket b v₀} : Multiset _) := by rw [← h1]; simp
          rw [Multiset.mem_singleton] at this
          subst this
          have e1 : b.first = .whole := by simp [Builder.first, hsub]
          exact ⟨e1, e1 ▸ .base⟩
        · exact absurd hc (h1 p (Multiset.mem_cons_self _ _))
      | some e =>
        obtain ⟨l, h1, h2⟩ := hi.carry p (Multiset.mem_cons_self _ _) e hc
        obtain ⟨nd, h3, inc, h4, h5⟩ := edgeAt_origin hb hi h1
        have e1 : b.along l = .whole := by simp [Builder.along, hsub]
        refine ⟨by rw [h2, e1], ?_⟩
        have h6 := h _ nd h3
        rw [h6.2 inc h4] at h5
        exact e1 ▸ .step h6.1 h5
    have set_ : ∀ k nd nd', (g.nodes (lane hn (b.vHash p.payload)))[k]? = some nd → nd'.vertex = nd.vertex →
        nd'.seen = nd.seen ++ [p.inc] →
        ∀ j, ∀ x ∈ Function.update g.nodes (lane hn (b.vHash p.payload)) ((g.nodes (lane hn (b.vHash p.payload))).set k nd') j,
          Reaches b v₀ .whole x.vertex ∧ ∀ inc ∈ x.seen, inc = .whole := by
      intro k nd nd' hk hv hsn j x hx
      by_cases hj : j = lane hn (b.vHash p.payload)
      · subst hj
        rw [Function.update_self] at hx
        rcases mem_set_cases hx with hx | rfl
        · exact h _ x hx
        · have := h _ nd (List.mem_of_getElem? hk)
          rw [hv, hsn]
          refine ⟨this.1, ?_⟩
          intro inc hinc
          rw [List.mem_append, List.mem_singleton] at hinc
          rcases hinc with hinc | rfl
          · exact this.2 inc hinc
          · exact hp.1
      · rw [Function.update_of_ne hj] at hx
        exact h j x hx
    cases ht with
    | drop => exact h
    | orphan => exact h
    | link => exact h
    | moreErr s k nd c he hs hf hk hc hseen hx =>
      exact set_ k nd { nd with seen := nd.seen ++ [p.inc] } hk rfl rfl
    | moreOk s k nd c he hs hf hk hc hseen hx =>
      exact set_ k nd { nd with seen := nd.seen ++ [p.inc], edges := nd.edges ++ b.uniq (b.connect p.inc nd.vertex).2 }
        hk rfl rfl
    | newErr => exact h
    | newOk s c he hs hf hl hx =>
      intro j x hx
      by_cases hj : j = lane hn (b.vHash p.payload)
      · subst hj
        simp only [Function.update_self, List.mem_append, List.mem_singleton] at hx
        rcases hx with hx | rfl
        · exact h _ x hx
        · exact ⟨hp.2, by simp [hp.1]⟩
      · simp only [Function.update_of_ne hj] at hx
        exact h j x hx

/-- Lane `i` has used up its share and met one more vertex. -/
def Overflow (b : Builder V L) (hn : 0 < n) (v₀ : V) (g : Job n V L) (i : Fin n) : Prop :=
  b.limit n ≠ 0 ∧ (g.nodes i).length = b.limit n ∧
  ∃ p : Packet n V L, lane hn (b.vHash p.payload) = i ∧ (∀ nd ∈ g.nodes i, ¬ b.vEq p.payload nd.vertex = true) ∧
    (b.Respects → RU b v₀ p.inc p.payload)

/-- What is known about one lane. -/
structure CInv (b : Builder V L) (hn : 0 < n) (v₀ : V) (g : Job n V L) (i : Fin n) : Prop where
  once : (g.calls i).Pairwise fun c d => ¬ (b.incEq c.1 d.1 = true ∧ b.vEq c.2 d.2 = true)
  fine : g.err i = 0 → ∀ c ∈ g.calls i, (b.connect c.1 c.2).1 = 0 ∧ ∃ nd ∈ g.nodes i, nd.vertex = c.2 ∧ c.1 ∈ nd.seen
  made : ∀ nd ∈ g.nodes i, ∀ inc ∈ nd.seen, (inc, nd.vertex) ∈ g.calls i
  home : ∀ c ∈ g.calls i, lane hn (b.vHash c.2) = i
  sound : b.Respects → ∀ c ∈ g.calls i, RU b v₀ c.1 c.2
  failed : ∀ c ∈ g.calls i, (b.connect c.1 c.2).1 ≠ 0 → g.err i = (b.connect c.1 c.2).1
  cause : g.err i ≠ 0 → (∃ c ∈ g.calls i, (b.connect c.1 c.2).1 = g.err i) ∨ (g.err i = intOvf ∧ Overflow b hn v₀ g i)
  count : b.limit n ≠ 0 → (g.err i = 0 → g.count i = (g.nodes i).length) ∧ (g.nodes i).length ≤ b.limit n

theorem dist_eq (hb : b.Sane) {g : Job n V L} {m} (h : BInv b hn v₀ g m) {i : Fin n} {x y : Node V L}
    (hx : x ∈ g.nodes i) (hy : y ∈ g.nodes i) (hxy : b.vEq x.vertex y.vertex = true) : x = y := by
  by_contra hne
  have : Std.Symm fun x y : Node V L => ¬ b.vEq x.vertex y.vertex = true := ⟨fun x y h1 h2 => h1 (hb.v.symm _ _ h2)⟩
  exact (h.dist i).forall hx hy hne hxy

theorem pairwise_snoc {α : Type} {R : α → α → Prop} {l : List α} {a : α} (h : l.Pairwise R) (ha : ∀ x ∈ l, R x a) :
    (l ++ [a]).Pairwise R := by
  rw [List.pairwise_append]
  refine ⟨h, by simp, ?_⟩
  intro x hx y hy
  simp only [List.mem_singleton] at hy
  subst hy; exact ha x hx

theorem cinv_trans (hb : b.Sane) {g g' : Job n V L} {p : Packet n V L} {rest} {out}
    (hx : BReach b hn v₀ (g, p ::ₘ rest)) (h : ∀ i, CInv b hn v₀ g i)
    (ht : Trans b (lane hn (b.vHash p.payload)) g p g' out) : ∀ i, CInv b hn v₀ g' i := by
  have hi := binv_reach hb _ hx
  have ie := incEq_equality hb
  have hp : b.Respects → RU b v₀ p.inc p.payload := fun hr =>
    packet_RU hb hr hi (sound_reach hb hr _ hx) (Multiset.mem_cons_self p rest)
  have other : ∀ j, j ≠ lane hn (b.vHash p.payload) → g'.nodes j = g.nodes j → g'.calls j = g.calls j →
      g'.err j = g.err j → g'.count j = g.count j → CInv b hn v₀ g' j := by
    intro j _ h1 h2 h3 h4
    obtain ⟨c1, c2, c3, c4, c5, c6, c7, c8⟩ := h j
    refine ⟨?_, ?_, ?_, ?_, ?_, ?_, ?_, ?_⟩ <;> (try unfold Overflow) <;> rw [] <;>
      simp only [h1, h2, h3, h4] <;> assumption
  intro j
  by_cases hj : j = lane hn (b.vHash p.payload)
  · have hcj := h j
    cases ht with
    | drop s c e k he hc hcm hk =>
      rw [← hj] at he hc
      rcases he with ⟨rfl, he⟩ | ⟨rfl, he, hst, hf, hl, hle⟩
      · rcases hc with rfl | hc
        · exact ⟨hcj.once, hcj.fine, hcj.made, hcj.home, hcj.sound, hcj.failed, hcj.cause, hcj.count⟩
        · exact ⟨hcj.once, hcj.fine, hcj.made, hcj.home, hcj.sound, hcj.failed, hcj.cause,
            fun h5 => ⟨fun h6 => absurd h6 hc, (hcj.count h5).2⟩⟩
      · refine ⟨hcj.once, ?_, hcj.made, hcj.home, hcj.sound, ?_, ?_, ?_⟩
        · intro h5; simp [intOvf] at h5
        · intro d hd h5; exact absurd (hcj.fine he d hd).1 h5
        · intro _
          right
          refine ⟨by simp, hl, ?_, p, hj.symm, find_none hb hf, hp⟩
          have := hcj.count hl
          have := this.1 he
          simp only
          omega
        · intro h5
          exact ⟨fun h6 => by simp [intOvf] at h6, (hcj.count h5).2⟩
    | orphan s k he hs hf hc =>
      exfalso
      rcases hi.phase with ⟨_, h5⟩ | ⟨h5, _⟩
      · rw [h5] at hf; simp [find] at hf
      · exact h5 p (Multiset.mem_cons_self _ _) hc
    | link s k nd c he hs hf hk hc hseen =>
      exact ⟨hcj.once, hcj.fine, hcj.made, hcj.home, hcj.sound, hcj.failed, hcj.cause, hcj.count⟩
    | moreErr s k nd c he hs hf hk hc hseen hx =>
      rw [← hj] at he hs hf hk
      rw [← hj]
      have hmem : nd ∈ g.nodes j := List.mem_of_getElem? hk
      have hnew : ∀ d ∈ g.calls j, ¬ (b.incEq d.1 p.inc = true ∧ b.vEq d.2 nd.vertex = true) := by
        intro d hd ⟨h5, h6⟩
        obtain ⟨_, nd2, h7, h8, h9⟩ := hcj.fine he d hd
        have : nd2 = nd := dist_eq hb hi h7 hmem (by rw [h8]; exact h6)
        subst this
        have := List.any_eq_true.2 ⟨d.1, h9, ie.symm _ _ h5⟩
        rw [hseen] at this; cases this
      refine ⟨?_, ?_, ?_, ?_, ?_, ?_, ?_, ?_⟩
      · simp only [Function.update_self]
        exact pairwise_snoc hcj.once hnew
      · simp only [Function.update_self]; intro h5; exact absurd h5 hx
      · simp only [Function.update_self]
        intro x hx' inc hinc
        rcases mem_set_cases hx' with hx' | rfl
        · exact List.mem_append_left _ (hcj.made x hx' inc hinc)
        · simp only [List.mem_append, List.mem_singleton] at hinc ⊢
          rcases hinc with hinc | rfl
          · exact .inl (hcj.made nd hmem inc hinc)
          · exact .inr rfl
      · simp only [Function.update_self, List.mem_append, List.mem_singleton]
        rintro d (hd | rfl)
        · exact hcj.home d hd
        · exact hi.lanes j nd hmem
      · simp only [Function.update_self, List.mem_append, List.mem_singleton]
        rintro hr d (hd | rfl)
        · exact hcj.sound hr d hd
        · exact RU_congr hb (hp hr) (find_some hf hk)
      · simp only [Function.update_self, List.mem_append, List.mem_singleton]
        rintro d (hd | rfl) h5
        · exact absurd (hcj.fine he d hd).1 h5
        · rfl
      · simp only [Function.update_self, List.mem_append, List.mem_singleton]
        intro _
        exact .inl ⟨_, .inr rfl, rfl⟩
      · simp only [Function.update_self, List.length_set]
        intro h5
        exact ⟨fun h6 => absurd h6 hx, (hcj.count h5).2⟩
    | moreOk s k nd c he hs hf hk hc hseen hx =>
      rw [← hj] at he hs hf hk
      rw [← hj]
      have hmem : nd ∈ g.nodes j := List.mem_of_getElem? hk
      have hnew : ∀ d ∈ g.calls j, ¬ (b.incEq d.1 p.inc = true ∧ b.vEq d.2 nd.vertex = true) := by
        intro d hd ⟨h5, h6⟩
        obtain ⟨_, nd2, h7, h8, h9⟩ := hcj.fine he d hd
        have : nd2 = nd := dist_eq hb hi h7 hmem (by rw [h8]; exact h6)
        subst this
        have := List.any_eq_true.2 ⟨d.1, h9, ie.symm _ _ h5⟩
        rw [hseen] at this; cases this
      have hklt := (List.getElem?_eq_some_iff.1 hk).1
      refine ⟨?_, ?_, ?_, ?_, ?_, ?_, ?_, ?_⟩
      · simp only [Function.update_self]
        exact pairwise_snoc hcj.once hnew
      · simp only [Function.update_self, List.mem_append, List.mem_singleton]
        rintro h5 d (hd | rfl)
        · obtain ⟨h6, nd2, h7, h8, h9⟩ := hcj.fine h5 d hd
          refine ⟨h6, ?_⟩
          by_cases h10 : nd2 = nd
          · subst h10
            exact ⟨_, List.mem_set hklt _, h8, by simp [h9]⟩
          · obtain ⟨k', h11⟩ := List.mem_iff_getElem?.1 h7
            have hne : k ≠ k' := by
              rintro rfl; rw [hk] at h11; cases h11; exact h10 rfl
            exact ⟨nd2, List.mem_of_getElem? (by rw [List.getElem?_set_ne hne]; exact h11), h8, h9⟩
        · exact ⟨hx, _, List.mem_set hklt _, rfl, by simp⟩
      · simp only [Function.update_self]
        intro x hx' inc hinc
        rcases mem_set_cases hx' with hx' | rfl
        · exact List.mem_append_left _ (hcj.made x hx' inc hinc)
        · simp only [List.mem_append, List.mem_singleton] at hinc ⊢
          rcases hinc with hinc | rfl
          · exact .inl (hcj.made nd hmem inc hinc)
          · exact .inr rfl
      · simp only [Function.update_self, List.mem_append, List.mem_singleton]
        rintro d (hd | rfl)
        · exact hcj.home d hd
        · exact hi.lanes j nd hmem
      · simp only [Function.update_self, List.mem_append, List.mem_singleton]
        rintro hr d (hd | rfl)
        · exact hcj.sound hr d hd
        · exact RU_congr hb (hp hr) (find_some hf hk)
      · simp only [Function.update_self, List.mem_append, List.mem_singleton]
        rintro d (hd | rfl) h5
        · exact hcj.failed d hd h5
        · exact absurd hx h5
      · intro h5; exact absurd he h5
      · simp only [Function.update_self, List.length_set]
        exact hcj.count
    | newErr s c he hs hf hl hx =>
      rw [← hj] at he hs hf hl
      rw [← hj]
      have hnew : ∀ d ∈ g.calls j, ¬ (b.incEq d.1 p.inc = true ∧ b.vEq d.2 p.payload = true) := by
        intro d hd ⟨h5, h6⟩
        obtain ⟨_, nd2, h7, h8, h9⟩ := hcj.fine he d hd
        exact find_none hb hf nd2 h7 (hb.v.symm _ _ (by rw [h8]; exact h6))
      refine ⟨?_, ?_, ?_, ?_, ?_, ?_, ?_, ?_⟩
      · simp only [Function.update_self]
        exact pairwise_snoc hcj.once hnew
      · simp only [Function.update_self]; intro h5; exact absurd h5 hx
      · simp only [Function.update_self]
        intro x hx' inc hinc
        exact List.mem_append_left _ (hcj.made x hx' inc hinc)
      · simp only [Function.update_self, List.mem_append, List.mem_singleton]
        rintro d (hd | rfl)
        · exact hcj.home d hd
        · exact hj.symm
      · simp only [Function.update_self, List.mem_append, List.mem_singleton]
        rintro hr d (hd | rfl)
        · exact hcj.sound hr d hd
        · exact hp hr
      · simp only [Function.update_self, List.mem_append, List.mem_singleton]
        rintro d (hd | rfl) h5
        · exact absurd (hcj.fine he d hd).1 h5
        · rfl
      · simp only [Function.update_self, List.mem_append, List.mem_singleton]
        intro _
        exact .inl ⟨_, .inr rfl, rfl⟩
      · simp only [Function.update_self]
        intro h5
        exact ⟨fun h6 => absurd h6 hx, (hcj.count h5).2⟩
    | newOk s c he hs hf hl hx =>
      rw [← hj] at he hs hf hl
      rw [← hj]
      have hnew : ∀ d ∈ g.calls j, ¬ (b.incEq d.1 p.inc = true ∧ b.vEq d.2 p.payload = true) := by
        intro d hd ⟨h5, h6⟩
        obtain ⟨_, nd2, h7, h8, h9⟩ := hcj.fine he d hd
        exact find_none hb hf nd2 h7 (hb.v.symm _ _ (by rw [h8]; exact h6))
      refine ⟨?_, ?_, ?_, ?_, ?_, ?_, ?_, ?_⟩
      · simp only [Function.update_self]
        exact pairwise_snoc hcj.once hnew
      · simp only [Function.update_self, List.mem_append, List.mem_singleton]
        rintro h5 d (hd | rfl)
        · obtain ⟨h6, nd2, h7, h8, h9⟩ := hcj.fine h5 d hd
          exact ⟨h6, nd2, .inl h7, h8, h9⟩
        · exact ⟨hx, _, .inr rfl, rfl, by simp⟩
      · simp only [Function.update_self, List.mem_append, List.mem_singleton]
        rintro x (hx' | rfl) inc hinc
        · exact .inl (hcj.made x hx' inc hinc)
        · simp only [List.mem_singleton] at hinc
          subst hinc; exact .inr rfl
      · simp only [Function.update_self, List.mem_append, List.mem_singleton]
        rintro d (hd | rfl)
        · exact hcj.home d hd
        · exact hj.symm
      · simp only [Function.update_self, List.mem_append, List.mem_singleton]
        rintro hr d (hd | rfl)
        · exact hcj.sound hr d hd
        · exact hp hr
      · simp only [Function.update_self, List.mem_append, List.mem_singleton]
        rintro d (hd | rfl) h5
        · exact hcj.failed d hd h5
        · exact absurd hx h5
      · intro h5; exact absurd he h5
      · simp only [Function.update_self, List.length_append, List.length_singleton]
        intro h5
        have h6 := hcj.count h5
        rcases hl with ⟨hl, _⟩ | ⟨hl, rfl⟩
        · exact absurd hl h5
        · simp only [Function.update_self]
          have := h6.1 he
          exact ⟨fun _ => by omega, by omega⟩
  · refine other j hj ?_ ?_ ?_ ?_
    · cases ht <;> first | rfl | simp [Function.update_of_ne hj]
    · cases ht <;> first | rfl | simp [Function.update_of_ne hj]
    · cases ht with
      | drop s c e k he => rcases he with ⟨rfl, _⟩ | ⟨rfl, _⟩ <;> simp [Function.update_of_ne hj]
      | _ => first | rfl | simp [Function.update_of_ne hj]
    · cases ht with
      | drop s c e k he hc hcm => exact hcm j hj
      | newErr s c he hs hf hl => rcases hl with ⟨_, rfl⟩ | ⟨_, rfl⟩ <;> simp [Function.update_of_ne hj]
      | newOk s c he hs hf hl => rcases hl with ⟨_, rfl⟩ | ⟨_, rfl⟩ <;> simp [Function.update_of_ne hj]
      | _ => rfl

theorem cinv_reach (hb : b.Sane) : ∀ x, BReach b hn v₀ x → ∀ i, CInv b hn v₀ x.1 i := by
  refine breach_induct (motive := fun g m => ∀ i, CInv b hn v₀ g i) ?_ ?_ ?_
  · intro i
    exact ⟨by simp [start], by simp [start], by simp [start], by simp [start], by simp [start], by simp [start],
      by simp [start], by simp [start]⟩
  · intro g m _ h i
    obtain ⟨c1, c2, c3, c4, c5, c6, c7, c8⟩ := h i
    exact ⟨c1, c2, c3, c4, c5, c6, c7, c8⟩
  · intro g p rest g' out hx h ht
    exact cinv_trans hb hx h ht

/-- The kill flag. -/
theorem kinv_reach : ∀ x, BReach b hn v₀ x →
    (∀ i, x.1.stop i = true → x.1.killed ≠ 0) ∧ (x.1.killed ≠ 0 → x.1.asked = true ∨ ∃ i, x.1.err i ≠ 0) ∧
    (x.1.asked = true → x.1.killed ≠ 0) := by
  refine breach_induct (motive := fun g m => (∀ i, g.stop i = true → g.killed ≠ 0) ∧
    (g.killed ≠ 0 → g.asked = true ∨ ∃ i, g.err i ≠ 0) ∧ (g.asked = true → g.killed ≠ 0)) ?_ ?_ ?_
  · simp [start]
  · intro g m _ h; simp
  · intro g p rest g' out hx ⟨h1, h2, h3⟩ ht
    have upd : ∀ (i : Fin n) (e : Int), e ≠ 0 → ∃ j, Function.update g.err i e j ≠ 0 := fun i e he => ⟨i, by simpa using he⟩
    cases ht with
    | drop s c e k he hc hcm hk =>
      have hk0 : k ≠ 0 := by
        rcases hk with ⟨rfl, h | h⟩ | ⟨rfl, h⟩
        · exact h1 _ h
        · exact h
        · decide
      refine ⟨fun _ _ => hk0, ?_, fun _ => hk0⟩
      intro _
      rcases hk with ⟨rfl, _⟩ | ⟨rfl, h⟩
      · rcases h2 hk0 with h | ⟨j, hj⟩
        · exact .inl h
        · right
          rcases he with ⟨rfl, _⟩ | ⟨rfl, _⟩
          · exact ⟨j, hj⟩
          · exact upd _ _ (by decide)
      · exact .inr ⟨_, h⟩
    | orphan => exact ⟨h1, fun _ => .inr (upd _ _ (by simp [ier])), h3⟩
    | link => exact ⟨h1, h2, h3⟩
    | moreErr s k nd c he hs hf hk hc hseen hx => exact ⟨h1, fun _ => .inr (upd _ _ hx), h3⟩
    | moreOk => exact ⟨h1, h2, h3⟩
    | newErr s c he hs hf hl hx => exact ⟨h1, fun _ => .inr (upd _ _ hx), h3⟩
    | newOk => exact ⟨h1, h2, h3⟩

end Cru.Build
