import Verif.Props.Spread
import Verif.Spec.Trail

/-! # C172: the words of spread graphs -/

namespace Cru.Spread

open Net Build

variable {n : Nat} {N V L : Type} {b : Builder V L} {g : Gr N V L} {hn : 0 < n} {a : Addr N V} {late : Bool} {r : Gr (Nd N V) V L}
variable [DecidableEq N] [DecidableEq V]

private theorem spreads (hb : b.Sane) (hsub : b.sub = false) (hw : g.WF) (hd : Distinct b g) (h : Spread b g a hn false late (.ok r)) : Spreads b g .old r := by
  rcases C39_spread hb hsub hw hd h with ⟨r', h1, h2, -⟩ | ⟨e, h1, -⟩
  · cases h1; exact h2
  · cases h1

omit [DecidableEq N] [DecidableEq V] in
private theorem trail_congr (hb : b.Sane) {u u' v : V} {w : List L} (hu : b.vEq u u' = true) (h : Trail b g u' w v) : Trail b g u w v := by
  cases h with
  | nil h => exact .nil (hb.v.trans _ _ _ hu h)
  | kept h1 h2 h3 h4 => exact .kept h1 (hb.v.trans _ _ _ hu h2) h3 h4
  | made h1 h2 h3 h4 => exact .made h1 (hb.v.trans _ _ _ hu h2) h3 h4

omit [DecidableEq N] [DecidableEq V] in
private theorem drawn_mem {es : List (L × V)} {fs : List (L × Nd N V)} (h : Drawn b r es fs) {f : L × Nd N V} (hf : f ∈ fs) :
    ∃ v, (f.1, v) ∈ es ∧ b.vEq v (r.vertex f.2) = true := by
  induction h with
  | nil => cases hf
  | @cons e f' es fs h1 _ ih =>
    rcases List.mem_cons.1 hf with rfl | hf
    · exact ⟨e.2, by rw [h1.1]; exact List.mem_cons_self, h1.2⟩
    · obtain ⟨v, h2, h3⟩ := ih hf
      exact ⟨v, List.mem_cons_of_mem _ h2, h3⟩

omit [DecidableEq N] [DecidableEq V] in
private theorem out_mem (h : r.WF) {t : Nd N V} (ht : t ∈ r.nodes) {l : L} {x : Nd N V} (hx : (l, x) ∈ r.out t) : x ∈ r.nodes :=
  (h.reach _).2 (((h.reach _).1 ht).tail (List.mem_map.2 ⟨_, hx, rfl⟩))

/-- **C172.** The words of the given graph remain, and end at the same vertices. -/
theorem C172_kept (hb : b.Sane) (hsub : b.sub = false) (hw : g.WF) (hd : Distinct b g) (h : Spread b g a hn false late (.ok r)) {w : List L} {m : N}
    (hm : Cru.Ends g w m) : Cru.Ends r w (.old m) := by
  have hs := spreads hb hsub hw hd h
  have key : ∀ {k m : N} {w : List L}, Spells g.out k w m → k ∈ g.nodes → Spells r.out (.old k) w (.old m) := fun h => by
    induction h with
    | nil => exact fun _ => .nil _
    | @cons k x _ l w he _ ih =>
      intro hk
      refine .cons (b := .old x) ?_ (ih ((hw.reach _).2 (((hw.reach _).1 hk).tail (List.mem_map.2 ⟨_, he, rfl⟩))))
      rw [hs.same k hk (fun h0 => by rw [h0] at he; cases he)]
      exact List.mem_map.2 ⟨_, he, rfl⟩
  unfold Cru.Ends
  rw [hs.base]
  exact key hm ((hw.reach _).2 .refl)

/-- **C172.** Each word that isn't one of the given graph starts with one that ends at a vertex without outgoing edges. -/
theorem C172_extended (hb : b.Sane) (hsub : b.sub = false) (hw : g.WF) (hd : Distinct b g) (h : Spread b g a hn false late (.ok r)) {w : List L} {t : Nd N V}
    (ht : Cru.Ends r w t) : (∃ m, t = .old m ∧ Cru.Ends g w m) ∨
      ∃ m w₁ w₂, w = w₁ ++ w₂ ∧ w₂ ≠ [] ∧ Cru.Ends g w₁ m ∧ g.out m = [] ∧ Spells r.out (.old m) w₂ t := by
  have hs := spreads hb hsub hw hd h
  have key : ∀ (w : List L) (k : N), k ∈ g.nodes → Spells r.out (.old k) w t → (∃ m, t = .old m ∧ Spells g.out k w m) ∨
      ∃ m w₁ w₂, w = w₁ ++ w₂ ∧ w₂ ≠ [] ∧ Spells g.out k w₁ m ∧ g.out m = [] ∧ Spells r.out (.old m) w₂ t := by
    intro w
    induction w with
    | nil =>
      intro k _ h
      cases h
      exact .inl ⟨k, rfl, .nil _⟩
    | cons l w ih =>
      intro k hk h
      by_cases h0 : g.out k = []
      · exact .inr ⟨k, [], l :: w, rfl, by simp, .nil _, h0, h⟩
      · cases h with
        | @cons _ x _ _ _ h1 h2 =>
          rw [hs.same k hk h0] at h1
          obtain ⟨⟨l', y⟩, h3, h4⟩ := List.mem_map.1 h1
          cases h4
          have hy : y ∈ g.nodes := (hw.reach _).2 (((hw.reach _).1 hk).tail (List.mem_map.2 ⟨_, h3, rfl⟩))
          rcases ih y hy h2 with ⟨m, rfl, h5⟩ | ⟨m, w₁, w₂, rfl, h5, h6, h7⟩
          · exact .inl ⟨m, rfl, .cons h3 h5⟩
          · exact .inr ⟨m, _ :: w₁, w₂, rfl, h5, .cons h3 h6, h7⟩
  unfold Cru.Ends at ht
  rw [hs.base] at ht
  exact key w g.base ((hw.reach _).2 .refl) ht

/-- **C172.** Each word of the result is spelled by edges of the given graph and those the connector makes. -/
theorem C172_sound (hb : b.Sane) (hsub : b.sub = false) (hw : g.WF) (hd : Distinct b g) (h : Spread b g a hn false late (.ok r)) {w : List L} {t : Nd N V}
    (ht : Cru.Ends r w t) : Trail b g (g.vertex g.base) w (r.vertex t) := by
  have hs := spreads hb hsub hw hd h
  have key : ∀ {x t : Nd N V} {w : List L}, Spells r.out x w t → x ∈ r.nodes → Trail b g (r.vertex x) w (r.vertex t) := fun h => by
    induction h with
    | nil => exact fun _ => .nil (hb.v.refl _)
    | @cons x y _ l w he _ ih =>
      intro hx
      have hy := ih (out_mem hs.wf hx he)
      by_cases ho : ∃ m ∈ g.nodes, x = .old m
      · obtain ⟨m, hm, rfl⟩ := ho
        rw [hs.vertex]
        by_cases h0 : g.out m = []
        · obtain ⟨v, h1, h2⟩ := drawn_mem (hs.leaf m hm h0).2 he
          exact .made (.leaf hm h0) (hb.v.refl _) h1 (trail_congr hb h2 hy)
        · rw [hs.same m hm h0] at he
          obtain ⟨⟨l', k⟩, h3, h4⟩ := List.mem_map.1 he
          cases h4
          rw [hs.vertex] at hy
          exact .kept hm (hb.v.refl _) h3 hy
      · push Not at ho
        obtain ⟨-, h1, -, h2⟩ := hs.novel x hx ho
        obtain ⟨v, h3, h4⟩ := drawn_mem h2 he
        exact .made h1 (hb.v.refl _) (mem_uniq hb h3) (trail_congr hb h4 hy)
  have := key ht ((hs.wf.reach _).2 .refl)
  rwa [hs.base, hs.vertex] at this

/-- **C172.** With a connector that makes equal edges for equal vertices, all of these are words of the result, up to equality of labels. -/
theorem C172_complete (hb : b.Sane) (hres : b.Respects) (hsub : b.sub = false) (hw : g.WF) (hd : Distinct b g) (h : Spread b g a hn false late (.ok r))
    {w : List L} {v : V} (hv : Trail b g (g.vertex g.base) w v) :
    ∃ w' t, Cru.Alike b.eEq w w' ∧ Cru.Ends r w' t ∧ t ∈ r.nodes ∧ b.vEq v (r.vertex t) = true := by
  have hs := spreads hb hsub hw hd h
  have key : ∀ {u v : V} {w : List L}, Trail b g u w v → ∀ {x : Nd N V}, x ∈ r.nodes → b.vEq u (r.vertex x) = true →
      ∃ w' t, Cru.Alike b.eEq w w' ∧ Spells r.out x w' t ∧ t ∈ r.nodes ∧ b.vEq v (r.vertex t) = true := fun h => by
    induction h with
    | nil h => exact fun {x} hx hu => ⟨[], x, .nil, .nil _, hx, hb.v.trans _ _ _ (hb.v.symm _ _ h) hu⟩
    | @kept u v m k l w hm hum he _ ih =>
      intro x hx hu
      have : Nd.old m = x := hs.distinct _ (hs.kept m hm) _ hx (by rw [hs.vertex]; exact hb.v.trans _ _ _ (hb.v.symm _ _ hum) hu)
      subst this
      have hk : k ∈ g.nodes := (hw.reach _).2 (((hw.reach _).1 hm).tail (List.mem_map.2 ⟨_, he, rfl⟩))
      obtain ⟨w', t, h1, h2, h3⟩ := ih (hs.kept k hk) (by rw [hs.vertex]; exact hb.v.refl _)
      refine ⟨l :: w', t, .cons (hb.e.refl _) h1, .cons (b := .old k) ?_ h2, h3⟩
      rw [hs.same m hm (fun h0 => by rw [h0] at he; cases he)]
      exact List.mem_map.2 ⟨_, he, rfl⟩
    | @made u u' y v l w hdue huu he _ ih =>
      intro x hx hu
      obtain ⟨x', h1, h2, h3⟩ := C39_complete hb hres hs hdue
      have : x' = x := hs.distinct _ h1 _ hx (hb.v.trans _ _ _ (hb.v.symm _ _ h2) (hb.v.trans _ _ _ (hb.v.symm _ _ huu) hu))
      subst this
      obtain ⟨⟨l', z⟩, h4, h5, h6⟩ := h3 _ he
      obtain ⟨w', t, h7, h8, h9⟩ := ih (out_mem hs.wf hx h4) h6
      exact ⟨l' :: w', t, .cons h5 h7, .cons h4 h8, h9⟩
  unfold Cru.Ends
  rw [hs.base]
  exact key hv (hs.kept _ ((hw.reach _).2 .refl)) (by rw [hs.vertex]; exact hb.v.refl _)

/-- Non-vacuity of C172: a path through the triangle goes on to the new vertices 3 and 4, and another one back to the base. -/
example (hn : 0 < n) : ∃ r, Spread (plain false hook) tri addr hn false false (.ok r) ∧ Cru.Ends r [true, true] (.old 2) ∧
    (∃ t, Cru.Ends r [true, true, true, true] t ∧ r.vertex t = 4) ∧ ∃ t, Cru.Ends r [false, false, true] t ∧ r.vertex t = 1 := by
  have hs := plain_sane false hook 0
  obtain ⟨x, y, z, h1, h2, h3, h4, h5, h6⟩ := C39_exists hs rfl tri_wf (tri_distinct hook 0) (.inr ⟨[2, 3, 4], fun v hv => ⟨v, by
    rcases hook_due 0 hv with rfl | rfl | rfl <;> decide, by simp [plain]⟩⟩) addr hn false
  obtain ⟨r, rfl⟩ := C39_succeeds hs rfl tri_wf (tri_distinct hook 0) (fun v hv => by rcases hook_due 0 hv with rfl | rfl | rfl <;> rfl) rfl h6
  have hres : (plain false hook).Respects := by
    intro inc inc' v v' _ h x hx
    have : v = v' := by simpa [plain] using h
    subst this
    have : (plain false hook).connect inc' v = (plain false hook).connect inc v := by
      simp only [plain]
      unfold hook
      split <;> rfl
    exact ⟨x, this ▸ hx, by simp [plain], by simp [plain]⟩
  have hd2 : Due (plain false hook) tri 2 := .leaf (m := 2) (by decide) rfl
  have hd3 : Due (plain false hook) tri 3 := .novel (l := true) hd2 rfl (by decide) (by unfold Novel; decide)
  have alike : ∀ {w w' : List Bool}, Cru.Alike (plain false hook).eEq w w' → w = w' := fun h => by
    induction h with
    | nil => rfl
    | cons h _ ih => rw [ih]; congr 1; simpa [plain] using h
  have go : ∀ {w : List Bool} {v : Nat}, Trail (plain false hook) tri 0 w v → ∃ t, Cru.Ends r w t ∧ r.vertex t = v := fun h => by
    obtain ⟨w', t, h7, h8, -, h9⟩ := C172_complete hs hres rfl tri_wf (tri_distinct hook 0) h6 h
    exact ⟨t, alike h7 ▸ h8, (by simpa [plain] using h9 : _ = r.vertex t).symm⟩
  refine ⟨r, h6, C172_kept hs rfl tri_wf (tri_distinct hook 0) h6 (.cons (b := 1) (by decide) (.cons (b := 2) (by decide) (.nil _))), go ?_, go ?_⟩
  · exact .kept (m := 0) (k := 1) (by decide) rfl (by decide) (.kept (m := 1) (k := 2) (by decide) rfl (by decide)
      (.made (t := 3) hd2 rfl (by decide) (.made (t := 4) hd3 rfl (by decide) (.nil rfl))))
  · exact .kept (m := 0) (k := 2) (by decide) rfl (by decide) (.made (t := 0) hd2 rfl (by decide)
      (.kept (m := 0) (k := 1) (by decide) rfl (by decide) (.nil rfl)))

end Cru.Spread
