import Verif.Proofs.BuildDone
import Verif.Proofs.NetExec

set_option linter.unusedVariables false

namespace Cru.Build

open Cru.Net

variable {n : Nat} {V L : Type} {b : Builder V L} {hn : 0 < n} {v₀ : V}

/-- Two calls are the same as far as the tables can tell. -/
def callEq (b : Builder V L) (c d : Incident L × V) : Bool := b.incEq c.1 d.1 && b.vEq c.2 d.2

theorem callEq_iff {c d : Incident L × V} : callEq b c d = true ↔ b.incEq c.1 d.1 = true ∧ b.vEq c.2 d.2 = true := by
  simp [callEq]

theorem callEq_equality (hb : b.Sane) : IsEquality (callEq b) := by
  have ie := incEq_equality hb
  refine ⟨?_, ?_, ?_⟩
  · intro a; simp [callEq, ie.refl, hb.v.refl]
  · intro a c h
    rw [callEq_iff] at h ⊢
    exact ⟨ie.symm _ _ h.1, hb.v.symm _ _ h.2⟩
  · intro a c d h1 h2
    rw [callEq_iff] at h1 h2 ⊢
    exact ⟨ie.trans _ _ _ h1.1 h2.1, hb.v.trans _ _ _ h1.2 h2.2⟩

theorem mem_allCalls {g : Job n V L} {c} : c ∈ allCalls g ↔ ∃ i, c ∈ g.calls i := by
  simp [allCalls]

theorem allCalls_distinct (hb : b.Sane) {g : Job n V L} (h : ∀ i, CInv b hn v₀ g i) :
    (allCalls g).Pairwise fun c d => ¬ callEq b c d = true := by
  unfold allCalls
  rw [List.pairwise_flatMap]
  refine ⟨?_, ?_⟩
  · intro i _
    exact (h i).once.imp (fun hc he => hc (callEq_iff.1 he))
  · refine List.Pairwise.imp ?_ (List.nodup_finRange n)
    intro i j hij c hc d hd he
    apply hij
    rw [← (h i).home c hc, ← (h j).home d hd, hb.vh _ _ (callEq_iff.1 he).2]

theorem trans_calls {g g' : Job n V L} {p : Packet n V L} {out} {i : Fin n} (ht : Trans b i g p g' out) :
    (g'.calls = g.calls ∧ out = []) ∨ ∃ c, g'.calls = Function.update g.calls i (g.calls i ++ [c]) := by
  cases ht with
  | drop => exact .inl ⟨rfl, rfl⟩
  | orphan => exact .inl ⟨rfl, rfl⟩
  | link => exact .inl ⟨rfl, rfl⟩
  | moreErr => exact .inr ⟨_, rfl⟩
  | moreOk => exact .inr ⟨_, rfl⟩
  | newErr => exact .inr ⟨_, rfl⟩
  | newOk => exact .inr ⟨_, rfl⟩

/-- A job terminates if making a call decreases some number. -/
theorem acc_of_measure (hb : b.Sane) (μ : Job n V L → Nat)
    (hμ : ∀ g p rest g' (out : List (Packet n V L)), BReach b hn v₀ (g, p ::ₘ rest) → BReach b hn v₀ (g', (out : Multiset _) + rest) →
      Trans b (lane hn (b.vHash p.payload)) g p g' out → (g'.calls = g.calls → μ g' ≤ μ g) ∧
      ∀ c, g'.calls = Function.update g.calls (lane hn (b.vHash p.payload)) (g.calls (lane hn (b.vHash p.payload)) ++ [c]) →
        μ g' < μ g) :
    ∀ x, BReach b hn v₀ x → Acc (fun y x => Bag.Handles (task b hn) x y) x := by
  have : ∀ N M, ∀ x, BReach b hn v₀ x → μ x.1 ≤ N → Multiset.card x.2 ≤ M →
      Acc (fun y x => Bag.Handles (task b hn) x y) x := by
    intro N
    induction N using Nat.strong_induction_on with
    | _ N ihN =>
      intro M
      induction M with
      | zero =>
        rintro ⟨g, m⟩ hx _ hm
        refine Acc.intro _ ?_
        rintro y ⟨p, rest, h1, _⟩
        simp only at h1 hm
        rw [h1] at hm; simp at hm
      | succ M ihM =>
        rintro ⟨g, m⟩ hx hN hm
        refine Acc.intro _ ?_
        rintro y ⟨p, rest, h1, h2⟩
        simp only at h1 h2 hN hm
        subst h1
        have ht := handle_trans b (lane hn (b.vHash p.payload)) g p
        have e1 : Bag.produced (task b hn) g p = ((handle b (lane hn (b.vHash p.payload)) g p).2.1 : Multiset _) := by
          simp [Bag.produced, task, handle_noDefer]
        have hy : BReach b hn v₀ y := by
          rw [h2]; exact Bag.Reach.step hx (Bag.Step.handle g p rest)
        have hy' := hy
        rw [h2, e1] at hy'
        obtain ⟨a1, a2⟩ := hμ g p rest _ _ hx hy' ht
        rcases trans_calls ht with ⟨h3, h4⟩ | ⟨c, h3⟩
        · refine ihM y hy ?_ ?_
          · rw [h2]; exact le_trans (a1 h3) hN
          · rw [h2]
            simp only [e1, h4]
            simp at hm ⊢
            exact hm
        · refine ihN (μ y.1) ?_ _ y hy le_rfl le_rfl
          rw [h2]
          exact lt_of_lt_of_le (a2 c h3) hN
  intro x hx
  exact this _ _ x hx le_rfl le_rfl

theorem countP_lt {α : Type} (p q : α → Bool) (l : List α) (hle : ∀ a ∈ l, p a = true → q a = true) (a : α) (ha : a ∈ l)
    (hq : q a = true) (hp : p a = false) : l.countP p < l.countP q := by
  induction l with
  | nil => simp at ha
  | cons x l ih =>
    have hle' := List.countP_mono_left (p := p) (q := q) (l := l) (fun a ha => hle a (List.mem_cons_of_mem _ ha))
    rcases List.mem_cons.1 ha with rfl | ha
    · rw [List.countP_cons_of_neg (by simp [hp]), List.countP_cons_of_pos hq]
      omega
    · have := ih (fun a ha => hle a (List.mem_cons_of_mem _ ha)) ha
      by_cases hx : p x = true
      · rw [List.countP_cons_of_pos hx, List.countP_cons_of_pos (hle x (by simp) hx)]
        omega
      · rw [List.countP_cons_of_neg hx]
        by_cases hx' : q x = true
        · rw [List.countP_cons_of_pos hx']; omega
        · rw [List.countP_cons_of_neg hx']; omega

/-- Building terminates if finitely many vertices are reachable, up to equality. -/
theorem acc_of_finite (hb : b.Sane) (hr : b.Respects) (reps : List (Incident L × V))
    (hf : ∀ inc v, Reaches b v₀ inc v → ∃ r ∈ reps, callEq b (inc, v) r = true) :
    ∀ x, BReach b hn v₀ x → Acc (fun y x => Bag.Handles (task b hn) x y) x := by
  refine acc_of_measure hb (fun g => reps.countP fun r => !(allCalls g).any (callEq b r)) ?_
  intro g p rest g' out hx hy ht
  refine ⟨fun h => by unfold allCalls; rw [h], ?_⟩
  intro c hc
  have hsub : ∀ d, d ∈ allCalls g → d ∈ allCalls g' := by
    intro d hd
    rw [mem_allCalls] at hd ⊢
    obtain ⟨j, hj⟩ := hd
    refine ⟨j, ?_⟩
    rw [hc]
    by_cases h : j = lane hn (b.vHash p.payload)
    · subst h; simp [hj]
    · rw [Function.update_of_ne h]; exact hj
  have hcm : c ∈ g'.calls (lane hn (b.vHash p.payload)) := by rw [hc]; simp
  have hnew : ∀ d ∈ allCalls g, ¬ callEq b d c = true := by
    intro d hd he
    rw [mem_allCalls] at hd
    obtain ⟨j, hj⟩ := hd
    have hjl : j = lane hn (b.vHash p.payload) := by
      rw [← (cinv_reach hb _ hx j).home d hj, hb.vh _ _ (callEq_iff.1 he).2]
      exact (cinv_reach hb _ hy _).home c hcm
    subst hjl
    have h1 := (cinv_reach hb _ hy (lane hn (b.vHash p.payload))).once
    simp only at h1
    rw [hc, Function.update_self, List.pairwise_append] at h1
    exact h1.2.2 d hj c (by simp) (callEq_iff.1 he)
  obtain ⟨inc', v', h1, h2, h3⟩ := (cinv_reach hb _ hy _).sound hr c hcm
  obtain ⟨r, h4, h5⟩ := hf _ _ h1
  have eq := callEq_equality hb
  have hrc : callEq b r c = true :=
    eq.trans _ _ _ (eq.symm _ _ h5) (callEq_iff.2 ⟨h2, h3⟩)
  refine countP_lt _ _ reps ?_ r h4 ?_ ?_
  · intro a _ ha
    simp only [Bool.not_eq_true', List.any_eq_false] at ha ⊢
    exact fun d hd => ha d (hsub d hd)
  · simp only [Bool.not_eq_true', List.any_eq_false]
    intro d hd he
    exact hnew d hd (eq.trans _ _ _ (eq.symm _ _ he) hrc)
  · have : (allCalls g').any (callEq b r) = true :=
      List.any_eq_true.2 ⟨c, mem_allCalls.2 ⟨_, hcm⟩, hrc⟩
    simp [this]

/-- Connectors: one call per node, and at most one more that failed. -/
theorem connector_calls (hb : b.Sane) (hsub : b.sub = false) : ∀ x, BReach b hn v₀ x →
    (∀ i, ∀ nd ∈ x.1.nodes i, nd.seen ≠ []) ∧
    ∀ i, (x.1.calls i).length ≤ (x.1.nodes i).length + (if x.1.err i = 0 then 0 else 1) := by
  refine breach_induct (motive := fun g m => (∀ i, ∀ nd ∈ g.nodes i, nd.seen ≠ []) ∧
    ∀ i, (g.calls i).length ≤ (g.nodes i).length + (if g.err i = 0 then 0 else 1)) ?_ ?_ ?_
  · simp [start]
  · intro g m _ h; exact h
  · intro g p rest g' out hx ⟨h1, h2⟩ ht
    have hi := binv_reach hb _ hx
    have hw := sound_connector hb hsub _ hx
    have pw : p.inc = .whole := by
      cases hc : p.carrier with
      | none =>
        rcases hi.phase with ⟨h3, _⟩ | ⟨h3, _⟩
        · have : p ∈ ({firstPacket b v₀} : Multiset _) := by rw [← h3]; simp
          rw [Multiset.mem_singleton] at this
          subst this
          simp [firstPacket, Builder.first, hsub]
        · exact absurd hc (h3 p (Multiset.mem_cons_self _ _))
      | some e =>
        obtain ⟨l, _, h3⟩ := hi.carry p (Multiset.mem_cons_self _ _) e hc
        rw [h3]; simp [Builder.along, hsub]
    have noMore : ∀ (k : Nat) (nd : Node V L), (g.nodes (lane hn (b.vHash p.payload)))[k]? = some nd → nd.seen.any (b.incEq p.inc) = false → False := by
      intro k nd hk hs
      have hnd := List.mem_of_getElem? hk
      obtain ⟨a, ha⟩ := List.exists_mem_of_ne_nil _ (h1 _ nd hnd)
      have := (hw _ nd hnd).2 a ha
      subst this
      rw [List.any_eq_false] at hs
      exact hs _ ha (by rw [pw]; rfl)
    have up : ∀ e : Int, g.err (lane hn (b.vHash p.payload)) = 0 → ∀ i,
        (g.calls i).length ≤ (g.nodes i).length + (if (Function.update g.err (lane hn (b.vHash p.payload)) e) i = 0 then 0 else 1) := by
      intro e he i
      have := h2 i
      by_cases hi : i = lane hn (b.vHash p.payload)
      · subst hi; rw [he] at this; simp at this ⊢; omega
      · rw [Function.update_of_ne hi]; exact this
    cases ht with
    | drop s c e k he =>
      refine ⟨h1, ?_⟩
      rcases he with ⟨rfl, _⟩ | ⟨rfl, he, _⟩
      · exact h2
      · exact up _ he
    | orphan s k he => exact ⟨h1, up _ he⟩
    | link => exact ⟨h1, h2⟩
    | moreErr s k nd c he hs hf hk hc hseen hx => exact (noMore k nd hk hseen).elim
    | moreOk s k nd c he hs hf hk hc hseen hx => exact (noMore k nd hk hseen).elim
    | newErr s c he hs hf hl hx =>
      refine ⟨h1, ?_⟩
      intro i
      have := h2 i
      by_cases hi : i = lane hn (b.vHash p.payload)
      · subst hi; rw [he] at this; simp [hx] at this ⊢; omega
      · simp only [Function.update_of_ne hi]; exact this
    | newOk s c he hs hf hl hx =>
      refine ⟨?_, ?_⟩
      · intro i nd hnd
        by_cases hi : i = lane hn (b.vHash p.payload)
        · subst hi
          simp only [Function.update_self, List.mem_append, List.mem_singleton] at hnd
          rcases hnd with hnd | rfl
          · exact h1 _ nd hnd
          · simp
        · simp only [Function.update_of_ne hi] at hnd; exact h1 _ nd hnd
      · intro i
        have := h2 i
        by_cases hi : i = lane hn (b.vHash p.payload)
        · subst hi; rw [he] at this; simp [he] at this ⊢; omega
        · simp only [Function.update_of_ne hi]; exact this

/-- Building with a connector and a vertex limit terminates, however many vertices are reachable. -/
theorem acc_of_limit (hb : b.Sane) (hsub : b.sub = false) (hl : b.limit n ≠ 0) :
    ∀ x, BReach b hn v₀ x → Acc (fun y x => Bag.Handles (task b hn) x y) x := by
  refine acc_of_measure hb (fun g => ∑ i, (b.limit n + 1 - (g.calls i).length)) ?_
  intro g p rest g' out hx hy ht
  refine ⟨fun h => by simp only [h]; exact le_rfl, ?_⟩
  intro c hc
  refine Finset.sum_lt_sum ?_ ⟨lane hn (b.vHash p.payload), Finset.mem_univ _, ?_⟩
  · intro i _
    rw [hc]
    by_cases hi : i = lane hn (b.vHash p.payload)
    · subst hi; simp; omega
    · rw [Function.update_of_ne hi]
  · have h1 := (connector_calls hb hsub _ hy).2 (lane hn (b.vHash p.payload))
    have h2 := ((cinv_reach hb _ hy (lane hn (b.vHash p.payload))).count hl).2
    simp only at h1 h2
    have h3 : (g'.calls (lane hn (b.vHash p.payload))).length = (g.calls (lane hn (b.vHash p.payload))).length + 1 := by
      rw [hc]; simp
    split at h1 <;> omega

theorem seen_ne_nil (hb : b.Sane) : ∀ x, BReach b hn v₀ x → ∀ i, ∀ nd ∈ x.1.nodes i, nd.seen ≠ [] := by
  refine breach_induct (motive := fun g m => ∀ i, ∀ nd ∈ g.nodes i, nd.seen ≠ []) ?_ ?_ ?_
  · simp [start]
  · intro g m _ h; exact h
  · intro g p rest g' out hx h ht
    generalize lane hn (b.vHash p.payload) = a at ht
    have set_ : ∀ k (nd' : Node V L), nd'.seen ≠ [] → ∀ i, ∀ x ∈ Function.update g.nodes a ((g.nodes a).set k nd') i, x.seen ≠ [] := by
      intro k nd' hne i x hx
      by_cases hi : i = a
      · subst hi
        rw [Function.update_self] at hx
        rcases mem_set_cases hx with hx | rfl
        · exact h _ x hx
        · exact hne
      · rw [Function.update_of_ne hi] at hx; exact h _ x hx
    cases ht with
    | drop => exact h
    | orphan => exact h
    | link => exact h
    | moreErr s k nd c => exact set_ k { nd with seen := nd.seen ++ [p.inc] } (by simp)
    | moreOk s k nd c =>
      exact set_ k { nd with seen := nd.seen ++ [p.inc], edges := nd.edges ++ b.uniq (b.connect p.inc nd.vertex).2 } (by simp)
    | newErr => exact h
    | newOk =>
      intro i x hx
      by_cases hi : i = a
      · subst hi
        simp only [Function.update_self, List.mem_append, List.mem_singleton] at hx
        rcases hx with hx | rfl
        · exact h _ x hx
        · simp
      · simp only [Function.update_of_ne hi] at hx; exact h _ x hx

theorem handle_asked (b : Builder V L) (i : Fin n) (g : Job n V L) (p : Packet n V L) (h : g.asked = false) :
    (handle b i g p).1.asked = false := by
  have ht := handle_trans b i g p
  generalize (handle b i g p).1 = g' at ht ⊢
  generalize (handle b i g p).2.1 = o at ht
  cases ht <;> exact h

theorem reaches_congr {j : Bool} {k : Nat} {inc : Incident L} {v : V} :
    Reaches { b with judy := j, vertexLimit := k } v₀ inc v ↔ Reaches b v₀ inc v := by
  constructor
  · intro h
    induction h with
    | base => exact Reaches.base
    | step _ h2 ih => exact Reaches.step ih h2
  · intro h
    induction h with
    | base => exact Reaches.base (b := { b with judy := j, vertexLimit := k })
    | step _ h2 ih => exact Reaches.step (b := { b with judy := j, vertexLimit := k }) ih h2

theorem respects_congr {j : Bool} {k : Nat} (h : b.Respects) : Builder.Respects { b with judy := j, vertexLimit := k } := by
  intro inc inc' v v' h1 h2
  have h1' : b.incEq inc inc' = true := by
    cases inc <;> cases inc' <;> simpa [Builder.incEq] using h1
  exact h inc inc' v v' h1' h2

end Cru.Build
