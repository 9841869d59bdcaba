import Verif.Proofs.Stretch

/-! # Storing nodes keeps the invariants of stretching -/

namespace Cru.Stretch

open Net Dedup

variable {n : Nat} {N V L : Type} [DecidableEq N] [DecidableEq V] [DecidableEq L]
variable {o : Orders V L} {ask : N → L × N → Answer V L} {g : Gr N V L} {addr : Nd N V L → Nat} {hn : 0 < n} {M : Mem n N V L}

/-- The memory when a node is stored. -/
def push (o : Orders V L) (g : Gr N V L) (hn : 0 < n) (M : Mem n N V L) (c : Nd N V L) (x : Option (Edge N V L)) : Mem n N V L :=
  { M with tab := Function.update M.tab (ln o g hn c) (M.tab (ln o g hn c) ++ [⟨c, [x]⟩]) }

omit [DecidableEq N] [DecidableEq V] [DecidableEq L] in
theorem ent_push {c d : Nd N V L} {x : Option (Edge N V L)} {a : Entry N V L} :
    Ent o g hn (push o g hn M c x) d a ↔ Ent o g hn M d a ∨ (d = c ∧ a = ⟨c, [x]⟩) := by
  unfold Ent push
  dsimp only
  by_cases h : ln o g hn d = ln o g hn c
  · rw [h, Function.update_self, List.mem_append, List.mem_singleton]
    constructor
    · rintro ⟨h1 | rfl, rfl⟩
      · exact .inl ⟨h1, rfl⟩
      · exact .inr ⟨rfl, rfl⟩
    · rintro (⟨h1, h2⟩ | ⟨rfl, rfl⟩)
      · exact ⟨.inl h1, h2⟩
      · exact ⟨.inr rfl, rfl⟩
  · rw [Function.update_of_ne h]
    refine ⟨.inl, fun h' => h'.resolve_right ?_⟩
    rintro ⟨rfl, -⟩
    exact h rfl

omit [DecidableEq N] [DecidableEq V] [DecidableEq L] in
theorem st_push {c d : Nd N V L} {x : Option (Edge N V L)} : St o g hn (push o g hn M c x) d ↔ St o g hn M d ∨ d = c := by
  unfold St
  constructor
  · rintro ⟨a, h⟩
    rcases ent_push.1 h with h | ⟨rfl, -⟩
    · exact .inl ⟨a, h⟩
    · exact .inr rfl
  · rintro (⟨a, h⟩ | rfl)
    · exact ⟨a, ent_push.2 (.inl h)⟩
    · exact ⟨_, ent_push.2 (.inr ⟨rfl, rfl⟩)⟩

omit [DecidableEq N] [DecidableEq V] [DecidableEq L] in
theorem reps_push (hr : ∀ i, (M.tab i).Pairwise fun a b => ¬ Eqv o g a.node b.node) (ho : o.Lawful) (hl : ∀ i, ∀ a ∈ M.tab i, ln o g hn a.node = i)
    {c : Nd N V L} {x : Option (Edge N V L)} (hc : ∀ d, St o g hn M d → ¬ Eqv o g c d) (i : Fin n) :
    ((push o g hn M c x).tab i).Pairwise fun a b => ¬ Eqv o g a.node b.node := by
  unfold push
  dsimp only
  by_cases h : i = ln o g hn c
  · subst h
    rw [Function.update_self, List.pairwise_append]
    refine ⟨hr _, List.pairwise_singleton _ _, fun a ha b hb => ?_⟩
    rw [List.mem_singleton.1 hb]
    intro h
    exact hc a.node ⟨a, by rw [hl _ a ha]; exact ha, rfl⟩ (Eqv.symm ho h)
  · rw [Function.update_of_ne h]
    exact hr _

omit [DecidableEq N] [DecidableEq V] [DecidableEq L] in
theorem lane_push (hl : ∀ i, ∀ a ∈ M.tab i, ln o g hn a.node = i) {c : Nd N V L} {x : Option (Edge N V L)} (i : Fin n) :
    ∀ a ∈ (push o g hn M c x).tab i, ln o g hn a.node = i := by
  unfold push
  dsimp only
  by_cases h : i = ln o g hn c
  · subst h
    rw [Function.update_self]
    intro a ha
    rcases List.mem_append.1 ha with ha | ha
    · exact hl _ a ha
    · rw [List.mem_singleton.1 ha]
  · rw [Function.update_of_ne h]
    exact hl i

omit [DecidableEq N] [DecidableEq V] [DecidableEq L] in
theorem inv_storeNew (ho : o.Lawful) (hi : Inv o ask g hn M) {c : Nd N V L} {e : Edge N V L} (he : IsAnte e) (het : e.tgt = c) (hre : Real ask g c)
    (hmk : M.mark c.root = true) (hnd : ¬ Done o g hn M c) (hc : ∀ d, St o g hn M d → ¬ Eqv o g c d) :
    Inv o ask g hn (push o g hn M c (some e)) := by
  have hcn : c.isNew = true := het ▸ he.isNew
  have hD : ∀ {d}, Done o g hn (push o g hn M c (some e)) d ↔ Done o g hn M d ∨ d = c := by
    intro d
    unfold Done
    rw [st_push]
    show (St o g hn M d ∨ d = c) ∨ d ∈ M.dead ↔ _
    tauto
  have hDc : ∀ d, Done o g hn M d → ¬ Eqv o g c d := by
    intro d hd h
    obtain ⟨d', h1, h2⟩ := hi.rep ho hd
    exact hc d' h1 (Eqv.trans ho h h2)
  have hne : ∀ d, St o g hn M d → d ≠ c := by rintro d h rfl; exact hc d h (Eqv.refl ho _)
  constructor
  · exact lane_push hi.lane
  · exact reps_push hi.reps ho hi.lane hc
  · intro d h
    rcases hD.1 h with h | rfl
    · exact hi.real d h
    · exact ⟨hre, hmk⟩
  · intro m
    rw [st_push]
    refine (hi.mark m).trans ⟨.inl, fun h => h.resolve_right ?_⟩
    rintro rfl
    simp [Nd.isNew] at hcn
  · exact hi.reach
  · intro d hd
    obtain ⟨h1, h2, d', h3, h4⟩ := hi.dead d hd
    refine ⟨h1, fun h => ?_, d', st_push.2 (.inl h3), h4⟩
    rcases st_push.1 h with h | rfl
    · exact h2 h
    · exact hnd (.inr hd)
  · intro d h1 h2
    exact hi.fresh d h1 fun h => h2 (hD.2 (.inl h))
  · intro f h1 h2
    exact hi.wait f h1 fun h => h2 (hD.2 (.inl h))
  · exact hi.still
  · intro f hf hd
    show St o g hn (push o g hn M c (some e)) (M.far f) ∧ Eqv o g f.tgt (M.far f) ∧ _
    rcases hD.1 hd with hd | hd
    · obtain ⟨h1, h2, h3⟩ := hi.far f hf hd
      refine ⟨st_push.2 (.inl h1), h2, fun h a ha => ?_⟩
      rcases ent_push.1 ha with ha | ⟨ha, -⟩
      · exact h3 h a ha
      · exact absurd ha (hne _ h1)
    · obtain rfl := he.eq hf (het.trans hd.symm)
      have : M.far e = c := by rw [hi.wait e he (by rw [het]; exact hnd), het]
      rw [this]
      refine ⟨st_push.2 (.inr rfl), by rw [het]; exact Eqv.refl ho _, fun _ a ha => ?_⟩
      rw [show (push o g hn M c (some e)).far e = c from this] at ha
      rcases ent_push.1 ha with ha | ⟨-, rfl⟩
      · exact absurd (.inl ⟨a, ha⟩) hnd
      · simp
  · intro d a hdn ha x hx
    rcases ent_push.1 ha with ha | ⟨rfl, rfl⟩
    · obtain ⟨f, h1, h2, h3, h4⟩ := hi.carr d a hdn ha x hx
      exact ⟨f, h1, h2, hD.2 (.inl h3), h4⟩
    · refine ⟨e, by simpa using hx, he, hD.2 (.inr het), ?_⟩
      show M.far e = d
      rw [hi.wait e he (by rw [het]; exact hnd), het]
  · intro d hd f hf
    rcases st_push.1 hd with hd | rfl
    · obtain ⟨h1, h2, h3⟩ := hi.own d hd f hf
      exact ⟨h1, hD.2 (.inl h2), h3⟩
    · replace hf : f ∈ M.out d := hf
      rw [hi.fresh d hcn hnd] at hf
      have := gens_src hf
      rw [this]
      exact ⟨hf, hD.2 (.inr rfl), Eqv.refl ho _⟩
  · intro d hd
    show (M.out d).Nodup
    rcases st_push.1 hd with hd | rfl
    · exact hi.nodup d hd
    · rw [hi.fresh d hcn hnd]; exact gens_nodup _
  · intro d s hd hs heq f hf
    show ∃ f' ∈ M.out d, _
    rcases st_push.1 hd with hd' | rfl
    · rcases hD.1 hs with hs | rfl
      · exact hi.cover d s hd' hs heq f hf
      · exact absurd heq (hc d hd')
    · rcases hD.1 hs with hs | rfl
      · exact absurd (Eqv.symm ho heq) (hDc s hs)
      · rw [hi.fresh _ hcn hnd]
        exact ⟨f, hf, (lq_eq ho).refl _, Eqv.refl ho _⟩
  · intro m hm hal
    exact hi.alone m hm fun d h1 h2 => hal d h1 (hD.2 (.inl h2))
  · intro d hdn hd
    show (M.out d).Pairwise fun x y => ¬ (lq o x y = true ∧ M.far x = M.far y)
    rcases st_push.1 hd with hd | rfl
    · exact hi.multi d hdn hd
    · rw [hi.fresh d hcn hnd]
      cases d with
      | old m => cases hcn
      | new m pos k r t => exact List.pairwise_singleton _ _
  · exact hi.safe
  · exact hi.bad

theorem inv_storeOld (ho : o.Lawful) (hi : Inv o ask g hn M) {m : N} (hm : M.mark m = false) (hr : Reaches (g.next false) g.base m)
    (hc : ∀ d, St o g hn M d → ¬ Eqv o g (.old m) d) (x : Option (Edge N V L)) :
    Inv o ask g hn (push o g hn (scatter ask g M m) (.old m) x) := by
  generalize hM' : push o g hn (scatter ask g M m) (.old m) x = M'
  have hE : ∀ {d a}, Ent o g hn M' d a ↔ Ent o g hn M d a ∨ (d = .old m ∧ a = ⟨.old m, [x]⟩) := by
    intro d a; rw [← hM', ent_push]; rfl
  have hS : ∀ {d}, St o g hn M' d ↔ St o g hn M d ∨ d = .old m := by intro d; rw [← hM', st_push]; rfl
  have hdead : M'.dead = M.dead := by rw [← hM']; rfl
  have hD : ∀ {d}, Done o g hn M' d ↔ Done o g hn M d ∨ d = .old m := by
    intro d; unfold Done; rw [hS, hdead]; tauto
  have hfar : M'.far = M.far := by rw [← hM']; rfl
  have hmk : M'.mark = Function.update M.mark m true := by rw [← hM']; rfl
  have hout : ∀ d, d ≠ .old m → M'.out d = M.out d := by
    intro d h; rw [← hM']; exact Function.update_of_ne h _ _
  have houtm : M'.out (.old m) = gens ask g (.old m) := by rw [← hM']; exact Function.update_self _ _ _
  have hfreed : M'.freed = deleted ask g m ++ M.freed := by rw [← hM']; rfl
  have hbad : M'.bad = M.bad := by rw [← hM']; rfl
  have hlane := lane_push (M := scatter ask g M m) (o := o) (g := g) (hn := hn) (c := .old m) (x := x) hi.lane
  have hreps := reps_push (M := scatter ask g M m) (o := o) (g := g) (hn := hn) (c := .old m) (x := x) hi.reps ho hi.lane hc
  rw [hM'] at hlane hreps
  clear hM'
  have hnst : ¬ St o g hn M (.old m) := fun h => hc _ h (Eqv.refl ho _)
  have hnd : ¬ Done o g hn M (.old m) := by
    rintro (h | h)
    · exact hnst h
    · have := (hi.dead _ h).1; simp [Nd.isNew] at this
  have hDc : ∀ d, Done o g hn M d → ¬ Eqv o g (.old m) d := by
    intro d hd h
    obtain ⟨d', h1, h2⟩ := hi.rep ho hd
    exact hc d' h1 (Eqv.trans ho h h2)
  have hne : ∀ d, St o g hn M d → d ≠ .old m := by rintro d h rfl; exact hnst h
  have hmono : ∀ a, M.mark a = true → M'.mark a = true := by
    intro a ha
    rw [hmk]
    by_cases h : a = m
    · subst h; exact Function.update_self _ _ _
    · rw [Function.update_of_ne h]; exact ha
  have hnew : ∀ d : Nd N V L, d.isNew = true → d ≠ .old m := by rintro d h rfl; cases h
  constructor
  · exact hlane
  · exact hreps
  · intro d h
    rcases hD.1 h with h | rfl
    · exact ⟨(hi.real d h).1, hmono _ (hi.real d h).2⟩
    · exact ⟨trivial, by rw [hmk]; exact Function.update_self _ _ _⟩
  · intro a
    rw [hS, hmk]
    by_cases h : a = m
    · subst h; simp
    · rw [Function.update_of_ne h]
      refine (hi.mark a).trans ⟨.inl, fun h' => h'.resolve_right ?_⟩
      intro h'
      cases h'
      exact h rfl
  · intro a h
    rw [hmk] at h
    by_cases h' : a = m
    · subst h'; exact hr
    · rw [Function.update_of_ne h'] at h; exact hi.reach a h
  · intro d hd
    rw [hdead] at hd
    obtain ⟨h1, h2, d', h3, h4⟩ := hi.dead d hd
    refine ⟨h1, fun h => ?_, d', hS.2 (.inl h3), h4⟩
    rcases hS.1 h with h | rfl
    · exact h2 h
    · exact hnd (.inr hd)
  · intro d h1 h2
    rw [hout d (hnew d h1)]
    exact hi.fresh d h1 fun h => h2 (hD.2 (.inl h))
  · intro f h1 h2
    rw [hfar]
    exact hi.wait f h1 fun h => h2 (hD.2 (.inl h))
  · rw [hfar]; exact hi.still
  · intro f hf hd
    rw [hfar]
    have hd := (hD.1 hd).resolve_right (hnew _ hf.isNew)
    obtain ⟨h1, h2, h3⟩ := hi.far f hf hd
    refine ⟨hS.2 (.inl h1), h2, fun h a ha => ?_⟩
    exact h3 h a ((hE.1 ha).resolve_right fun h => hne _ h1 h.1)
  · intro d a hdn ha y hy
    obtain ⟨f, h1, h2, h3, h4⟩ := hi.carr d a hdn ((hE.1 ha).resolve_right fun h => hnew _ hdn h.1) y hy
    exact ⟨f, h1, h2, hD.2 (.inl h3), by rw [hfar]; exact h4⟩
  · intro d hd f hf
    rcases hS.1 hd with hd | rfl
    · rw [hout d (hne d hd)] at hf
      obtain ⟨h1, h2, h3⟩ := hi.own d hd f hf
      exact ⟨h1, hD.2 (.inl h2), h3⟩
    · rw [houtm] at hf
      have := gens_src hf
      rw [this]
      exact ⟨hf, hD.2 (.inr rfl), Eqv.refl ho _⟩
  · intro d hd
    rcases hS.1 hd with hd | rfl
    · rw [hout d (hne d hd)]; exact hi.nodup d hd
    · rw [houtm]; exact gens_nodup _
  · intro d s hd hs heq f hf
    rcases hS.1 hd with hd | rfl
    · rw [hout d (hne d hd)]
      rcases hD.1 hs with hs | rfl
      · exact hi.cover d s hd hs heq f hf
      · exact absurd heq (hc d hd)
    · rcases hD.1 hs with hs | rfl
      · exact absurd (Eqv.symm ho heq) (hDc s hs)
      · rw [houtm]
        exact ⟨f, hf, (lq_eq ho).refl _, Eqv.refl ho _⟩
  · intro a ha hal
    by_cases h : a = m
    · subst h; exact houtm
    · rw [hmk, Function.update_of_ne h] at ha
      rw [hout _ (by simpa using h)]
      exact hi.alone a ha fun d h1 h2 => hal d h1 (hD.2 (.inl h2))
  · intro d hdn hd
    have h := (hS.1 hd).resolve_right (hnew d hdn)
    rw [hout d (hne d h), hfar]
    exact hi.multi d hdn h
  · intro e he h1 h2
    rw [hfreed] at he
    rw [hfar] at h2
    rcases List.mem_append.1 he with he | he
    · obtain ⟨y, -, rfl⟩ := List.mem_map.1 he
      obtain ⟨_, _, _, _, _, h⟩ := h1
      simp [oldEdge] at h
    · exact hi.safe e he h1 h2
  · rw [hbad]; exact hi.bad

end Cru.Stretch
